import Verif.Core.Enum

/-!
# Calls made between two `next` of an open iterator
-/

set_option autoImplicit false
set_option linter.unusedSectionVars false
set_option linter.unusedVariables false

namespace DD
namespace Enum

variable {W C S O : Type}

/-- What a client does while an iterator is open: take the next result, or call something else. -/
inductive Act (C : Type) where
  | next
  | call (c : C)

/-- The other calls, in order. -/
def calls : List (Act C) → List C
  | [] => []
  | .next :: as => calls as
  | .call c :: as => c :: calls as

/-- How often `next` is called. -/
def nexts : List (Act C) → Nat
  | [] => 0
  | .next :: as => nexts as + 1
  | .call _ :: as => nexts as

/-- The whole history: what the calls of `next` return, and the final states; `none` = some call panics. -/
def weave (call : W → C → Option W) (next : W → S → Option (Option O × S)) :
    W → S → List (Act C) → Option (List (Option O) × W × S)
  | w, s, [] => some ([], w, s)
  | w, s, .next :: as =>
    match next w s with
    | none => none
    | some (o, s') => (weave call next w s' as).map fun p => (o :: p.1, p.2)
  | w, s, .call c :: as =>
    match call w c with
    | none => none
    | some w' => weave call next w' s as

/-- The calls `cs` in order lead from `w` to `w'`, each is allowed (`ok`) where it is made and returns. -/
inductive Goes (call : W → C → Option W) (ok : W → C → Prop) : W → List C → W → Prop
  | nil (w : W) : Goes call ok w [] w
  | cons {w w1 w2 : W} {c : C} {cs : List C} : ok w c → call w c = some w1 → Goes call ok w1 cs w2 →
      Goes call ok w (c :: cs) w2

/-- The first `n` answers of an iterator with the results `os`. -/
def answers (os : List O) (n : Nat) : List (Option O) := (List.range n).map fun k => os[k]?

theorem answers_cons (o : O) (os : List O) (n : Nat) : answers (o :: os) (n + 1) = some o :: answers os n := by
  unfold answers
  rw [List.range_succ_eq_map, List.map_cons, List.map_map]
  rfl

theorem answers_nil (n : Nat) : answers ([] : List O) (n + 1) = none :: answers [] n := by
  unfold answers
  rw [List.range_succ_eq_map, List.map_cons, List.map_map]
  rfl

/-- If the allowed calls do not change what `next` does on the states of this iterator, the results are those of
the uninterrupted iterator. -/
theorem weave_ok {call : W → C → Option W} {next : W → S → Option (Option O × S)} {ok : W → C → Prop} {w0 : W}
    {J : W → Prop} {K : S → Prop}
    (hJ : ∀ w c w1, J w → ok w c → call w c = some w1 → J w1)
    (hnext : ∀ w s, J w → K s → next w s = next w0 s)
    (hK : ∀ s o s', K s → next w0 s = some (o, s') → K s')
    (hidle : ∀ s s', next w0 s = some (none, s') → next w0 s' = some (none, s')) :
    ∀ (as : List (Act C)) (w : W) (s : S) (os : List O) (w' : W), J w → K s → Yields (next w0) s os →
      Goes call ok w (calls as) w' → ∃ s', weave call next w s as = some (answers os (nexts as), w', s') := by
  intro as
  induction as with
  | nil =>
    intro w s os w' _ _ _ hg
    cases hg
    exact ⟨s, rfl⟩
  | cons a as ih =>
    intro w s os w' hw hs hy hg
    cases a with
    | call c =>
      cases hg with
      | cons h1 h2 h3 =>
        obtain ⟨s', e⟩ := ih _ s os w' (hJ _ _ _ hw h1 h2) hs hy h3
        exact ⟨s', by simp only [weave, h2]; exact e⟩
    | next =>
      have hn := hnext w s hw hs
      cases hy with
      | @done _ s1 h1 =>
        obtain ⟨s', e⟩ := ih w s1 [] w' hw (hK _ _ _ hs h1) (.done (hidle _ _ h1)) hg
        refine ⟨s', ?_⟩
        simp only [weave, hn, h1, e, nexts, answers_nil, Option.map_some]
      | @more _ s1 o os h1 h2 =>
        obtain ⟨s', e⟩ := ih w s1 os w' hw (hK _ _ _ hs h1) h2 hg
        refine ⟨s', ?_⟩
        simp only [weave, hn, h1, e, nexts, answers_cons, Option.map_some]

/-- Two loops agree if their turns do. -/
theorem nextF_congr {turn turn' : S → Option (Option (Option O × S))} {K : S → Prop}
    (h : ∀ s, K s → turn' s = turn s) (hk : ∀ s o s', K s → turn s = some (some (o, s')) → K s') :
    ∀ (n : Nat) (s : S), K s → nextF turn' n s = nextF turn n s := by
  intro n
  induction n with
  | zero => intro s hs; simp only [nextF, h s hs]
  | succ n ih =>
    intro s hs
    simp only [nextF, h s hs]
    cases ht : turn s with
    | none => rfl
    | some r =>
      cases r with
      | none => rfl
      | some p =>
        obtain ⟨o, s'⟩ := p
        cases o with
        | some o => rfl
        | none => exact ih s' (hk _ _ _ hs ht)

/-- A property of the state kept by each turn is kept by the loop. -/
theorem nextF_keep {turn : S → Option (Option (Option O × S))} {K : S → Prop}
    (hk : ∀ s o s', K s → turn s = some (some (o, s')) → K s') :
    ∀ (n : Nat) (s : S) (o : Option O) (s' : S), K s → nextF turn n s = some (o, s') → K s' := by
  intro n
  induction n with
  | zero =>
    intro s o s' hs h
    simp only [nextF] at h
    split at h
    · cases h; exact hs
    · cases h
  | succ n ih =>
    intro s o s' hs h
    simp only [nextF] at h
    split at h
    · cases h
    · cases h; exact hs
    · rename_i o1 s1 ht
      cases h
      exact hk _ _ _ hs ht
    · rename_i s1 ht
      exact ih _ _ _ (hk _ _ _ hs ht) h

/-- After `None` the loop has nothing left to do. -/
theorem nextF_idle {turn : S → Option (Option (Option O × S))} :
    ∀ (n : Nat) (s s' : S), nextF turn n s = some (none, s') → turn s' = some none := by
  intro n
  induction n with
  | zero =>
    intro s s' h
    simp only [nextF] at h
    split at h
    · rename_i ht; cases h; exact ht
    · cases h
  | succ n ih =>
    intro s s' h
    simp only [nextF] at h
    split at h
    · cases h
    · rename_i ht; cases h; exact ht
    · cases h
    · exact ih _ _ h

theorem nextF_done {turn : S → Option (Option (Option O × S))} {s : S} (h : turn s = some none) (n : Nat) :
    nextF turn n s = some (none, s) := by
  cases n <;> simp only [nextF, h]

/-- With enough fuel, more changes nothing. -/
theorem nextF_enough {turn : S → Option (Option (Option O × S))} {μ : S → Nat} {J : S → Prop}
    (hμ : ∀ s o s', J s → turn s = some (some (o, s')) → J s' ∧ μ s' < μ s) :
    ∀ (n n' : Nat) (s : S), J s → μ s ≤ n → μ s ≤ n' → nextF turn n s = nextF turn n' s := by
  have key : ∀ (n n' : Nat) (s : S), J s → μ s ≤ n → n ≤ n' → nextF turn n s = nextF turn n' s := by
    intro n
    induction n with
    | zero =>
      intro n' s hJ hn _
      cases n' with
      | zero => rfl
      | succ n' =>
        simp only [nextF]
        cases ht : turn s with
        | none => rfl
        | some r =>
          cases r with
          | none => rfl
          | some p => have := (hμ _ _ _ hJ ht).2; omega
    | succ n ih =>
      intro n' s hJ hn hle
      obtain ⟨n', rfl⟩ : ∃ k, n' = k + 1 := ⟨n' - 1, by omega⟩
      simp only [nextF]
      cases ht : turn s with
      | none => rfl
      | some r =>
        cases r with
        | none => rfl
        | some p =>
          obtain ⟨o, s'⟩ := p
          have := hμ _ _ _ hJ ht
          cases o with
          | some o => rfl
          | none => exact ih n' s' this.1 (by omega) (by omega)
  intro n n' s hJ h h'
  rcases Nat.le_total n n' with hle | hle
  · exact key n n' s hJ h hle
  · exact (key n' n s hJ h' hle).symm

/-- Two loops with enough fuel each agree if their turns do. -/
theorem nextF_congr_enough {turn turn' : S → Option (Option (Option O × S))} {K : S → Prop} {μ μ' : S → Nat}
    {J J' : S → Prop} (hμ : ∀ s o s', J s → turn s = some (some (o, s')) → J s' ∧ μ s' < μ s)
    (hμ' : ∀ s o s', J' s → turn' s = some (some (o, s')) → J' s' ∧ μ' s' < μ' s)
    (h : ∀ s, K s → turn' s = turn s) (hk : ∀ s o s', K s → turn s = some (some (o, s')) → K s') {s : S}
    (hs : K s) (hJ : J s) (hJ' : J' s) : nextF turn' (μ' s) s = nextF turn (μ s) s := by
  rw [nextF_enough hμ' (μ' s) (max (μ' s) (μ s)) s hJ' (Nat.le_refl _) (by omega),
    nextF_enough hμ (μ s) (max (μ' s) (μ s)) s hJ (Nat.le_refl _) (by omega)]
  exact nextF_congr h hk _ s hs

end Enum
end DD
