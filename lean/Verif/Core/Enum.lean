/-!
# Iterators run by an explicit stack

The iterators of the code (`BddPath`, `ZddPath`, `MddPath`, `ZmddPath`) are loops that pop a value from
a stack, change the state and possibly return a result.  `turn s` is one turn of the loop:
`none` = panic, `some none` = the stack is empty, `some (some (o, s'))` = new state `s'` and result `o`
(if any).
-/

set_option autoImplicit false

namespace DD
namespace Enum

variable {S O : Type}

/-- `while let Some(v) = stack.pop() { … }; None`; `none` = panic or out of fuel. -/
def nextF (turn : S → Option (Option (Option O × S))) : Nat → S → Option (Option O × S)
  | 0, s =>
    match turn s with
    | some none => some (none, s)
    | _ => none
  | n + 1, s =>
    match turn s with
    | none => none
    | some none => some (none, s)
    | some (some (some o, s')) => some (some o, s')
    | some (some (none, s')) => nextF turn n s'

/-- The iterator yields exactly the results `os`, in this order, and then `None`, without panic. -/
inductive Yields (next : S → Option (Option O × S)) : S → List O → Prop
  | done {s s' : S} : next s = some (none, s') → Yields next s []
  | more {s s' : S} {o : O} {os : List O} : next s = some (some o, s') → Yields next s' os →
      Yields next s (o :: os)

theorem Yields.det {next : S → Option (Option O × S)} {s : S} {os os' : List O} (h : Yields next s os)
    (h' : Yields next s os') : os = os' := by
  induction h generalizing os' with
  | done h1 =>
    cases h' with
    | done => rfl
    | more h2 => rw [h1] at h2; cases h2
  | more h1 _ ih =>
    cases h' with
    | done h2 => rw [h1] at h2; cases h2
    | more h2 h3 => rw [h1] at h2; cases h2; rw [ih h3]

/-- Several turns, with the results returned on the way. -/
inductive Steps (turn : S → Option (Option (Option O × S))) : S → List O → S → Prop
  | refl (s : S) : Steps turn s [] s
  | emit {s s1 s2 : S} {o : O} {os : List O} : turn s = some (some (some o, s1)) →
      Steps turn s1 os s2 → Steps turn s (o :: os) s2
  | quiet {s s1 s2 : S} {os : List O} : turn s = some (some (none, s1)) →
      Steps turn s1 os s2 → Steps turn s os s2

variable {turn : S → Option (Option (Option O × S))}

theorem Steps.trans {s1 s2 s3 : S} {os os' : List O} (h : Steps turn s1 os s2)
    (h' : Steps turn s2 os' s3) : Steps turn s1 (os ++ os') s3 := by
  induction h with
  | refl => exact h'
  | emit e _ ih => exact .emit e (ih h')
  | quiet e _ ih => exact .quiet e (ih h')

/-- If each turn from a state with `J` keeps `J` and decreases `μ`, the iterator run with fuel `μ` never
stops early. -/
theorem Steps.yieldsJ {μ : S → Nat} {J : S → Prop}
    (hμ : ∀ s o s', J s → turn s = some (some (o, s')) → J s' ∧ μ s' < μ s) {s s' : S} {os : List O}
    (hJ : J s) (h : Steps turn s os s') (he : turn s' = some none) :
    Yields (fun s => nextF turn (μ s) s) s os := by
  have key : ∀ n, ∀ s, J s → μ s ≤ n → ∀ os, Steps turn s os s' →
      (∃ s'', nextF turn n s = some (none, s'') ∧ os = []) ∨
      ∃ o os' s'', nextF turn n s = some (some o, s'') ∧ os = o :: os' ∧ Steps turn s'' os' s' ∧
        J s'' ∧ μ s'' < μ s := by
    intro n
    induction n with
    | zero =>
      intro s hJ hn os h
      cases h with
      | refl => exact .inl ⟨s', by simp [nextF, he], rfl⟩
      | emit e _ => have := (hμ _ _ _ hJ e).2; omega
      | quiet e _ => have := (hμ _ _ _ hJ e).2; omega
    | succ n ih =>
      intro s hJ hn os h
      cases h with
      | refl => exact .inl ⟨s', by simp [nextF, he], rfl⟩
      | emit e h => exact .inr ⟨_, _, _, by simp [nextF, e], rfl, h, hμ _ _ _ hJ e⟩
      | quiet e h =>
        obtain ⟨hJ', hlt⟩ := hμ _ _ _ hJ e
        rcases ih _ hJ' (by omega) _ h with ⟨s'', h1, h2⟩ | ⟨o, os', s'', h1, h2, h3, h4, h5⟩
        · exact .inl ⟨s'', by simp [nextF, e, h1], h2⟩
        · exact .inr ⟨o, os', s'', by simp [nextF, e, h1], h2, h3, h4, by omega⟩
  have main : ∀ n, ∀ s, J s → μ s = n → ∀ os, Steps turn s os s' →
      Yields (fun s => nextF turn (μ s) s) s os := by
    intro n
    induction n using Nat.strongRecOn with
    | _ n ih =>
      intro s hJ hs os h
      rcases key (μ s) s hJ (Nat.le_refl _) os h with ⟨s'', h1, rfl⟩ | ⟨o, os', s'', h1, rfl, h3, hJ', h4⟩
      · exact .done h1
      · exact .more h1 (ih _ (hs ▸ h4) _ hJ' rfl _ h3)
  exact main _ s hJ rfl os h

/-- If each turn decreases `μ`, the iterator run with fuel `μ` never stops early. -/
theorem Steps.yields {μ : S → Nat}
    (hμ : ∀ s o s', turn s = some (some (o, s')) → μ s' < μ s) {s s' : S} {os : List O}
    (h : Steps turn s os s') (he : turn s' = some none) :
    Yields (fun s => nextF turn (μ s) s) s os :=
  Steps.yieldsJ (J := fun _ => True) (fun s o s' _ h => ⟨trivial, hμ s o s' h⟩) trivial h he

/-- With the same steps, a larger fuel changes nothing, and two runs agree. -/
theorem nextF_mono (turn : S → Option (Option (Option O × S))) {n n' : Nat} (hn : n ≤ n') {s : S}
    {r : Option O × S} (h : nextF turn n s = some r) : nextF turn n' s = some r := by
  induction n generalizing n' s with
  | zero =>
    unfold nextF at h
    cases n' with
    | zero => unfold nextF; exact h
    | succ n' =>
      unfold nextF
      cases e : turn s with
      | none => rw [e] at h; cases h
      | some x =>
        cases x with
        | none => rw [e] at h; exact h
        | some y => rw [e] at h; cases h
  | succ n ih =>
    obtain ⟨n', rfl⟩ : ∃ k, n' = k + 1 := ⟨n' - 1, by omega⟩
    unfold nextF at h ⊢
    cases e : turn s with
    | none => rw [e] at h; cases h
    | some x =>
      cases x with
      | none => rw [e] at h; exact h
      | some y =>
        obtain ⟨o, s'⟩ := y
        rw [e] at h
        cases o with
        | some o => exact h
        | none => exact ih (by omega) h

end Enum
end DD
