import Verif.Core.Fold

/-!
# The work done by memoised passes

Counted versions of the memoised recursions.  A tally lists the nodes that were computed (looked up without
success, then stored), the last one first, and the number of calls.  Without the tally the counted version is
the model of the code (`memoFoldW_erase`).
-/

set_option autoImplicit false
set_option linter.unusedSectionVars false
set_option linter.unusedVariables false

namespace DD

/-- The nodes computed, the last one first, and the number of calls. -/
structure Tally where
  nodes : List Nat
  calls : Nat
deriving DecidableEq, Repr

namespace Tally

/-- Nothing done yet. -/
def zero : Tally := ⟨[], 0⟩

/-- A call is made. -/
def enter (t : Tally) : Tally := { t with calls := t.calls + 1 }

/-- The result of node `i` is computed. -/
def done (t : Tally) (i : Nat) : Tally := { t with nodes := i :: t.nodes }

end Tally

namespace Arena
variable {T : Type} [DecidableEq T] [Fixed T] {m : Arena T} {R' : List Nat → Prop}

/-- What a call at each node of `cs` adds to the tally: the nodes reachable from `cs` that were not there, each
once; one call for each element of `cs` and for each edge out of a new node. -/
structure Walk (m : Arena T) (cs : List Nat) (t t' : Tally) : Prop where
  ok : Seen m t'.nodes
  mem : ∀ j, j ∈ t'.nodes ↔ j ∈ t.nodes ∨ ∃ c ∈ cs, Reach m c j
  calls : t'.calls + (t.nodes.map m.outDeg).sum = t.calls + cs.length + (t'.nodes.map m.outDeg).sum

theorem Walk.nil {t : Tally} (h : Seen m t.nodes) : Walk m [] t t := ⟨h, by simp, rfl⟩

theorem Walk.cons {c : Nat} {cs : List Nat} {t t1 t2 : Tally} (h1 : Walk m [c] t t1) (h2 : Walk m cs t1 t2) :
    Walk m (c :: cs) t t2 := by
  refine ⟨h2.ok, fun j => ?_, ?_⟩
  · rw [h2.mem, h1.mem]; simp [or_assoc]
  · have := h1.calls
    have := h2.calls
    simp only [List.length_cons, List.length_nil] at *
    omega

/-- The node was computed before. -/
theorem Walk.hit {i : Nat} {t : Tally} (h : Seen m t.nodes) (hi : i ∈ t.nodes) : Walk m [i] t t.enter :=
  ⟨h, fun j => by
    show j ∈ t.nodes ↔ _
    simp only [List.mem_singleton, exists_eq_left]
    exact ⟨.inl, fun e => e.elim id fun e => h.closed i hi j e⟩, by simp [Tally.enter]⟩

/-- A terminal. -/
theorem Walk.leaf {i : Nat} {t : Tally} {u : T} (h : Seen m t.nodes) (hi : i ∉ t.nodes)
    (hn : m.nodes[i]? = some (.term u)) : Walk m [i] t (t.enter.done i) := by
  have hr : ∀ j, Reach m i j ↔ j = i := by
    intro j
    constructor
    · intro hj
      rcases hj.cases_head with e | ⟨_, _, _, e, _⟩
      · exact e.symm
      · rw [hn] at e; cases e
    · rintro rfl; exact .refl _
  refine ⟨⟨List.nodup_cons.2 ⟨hi, h.nodup⟩, ?_⟩, fun j => ?_, ?_⟩
  · intro j hj k hk
    rcases List.mem_cons.1 hj with rfl | hj
    · rw [(hr k).1 hk]; exact List.mem_cons_self
    · exact List.mem_cons_of_mem _ (h.closed j hj k hk)
  · simp only [List.mem_singleton, exists_eq_left, hr]
    show j ∈ i :: t.nodes ↔ _
    rw [List.mem_cons]
    exact Or.comm
  · simp [Tally.done, Tally.enter, outDeg, hn]

/-- A non-terminal, after its children in any order. -/
theorem Walk.node (wf : WF R' m) {i h : Nat} {ch cs : List Nat} {t t' : Tally} (li : m.Live i) (hi : i ∉ t.nodes)
    (hn : m.nodes[i]? = some (.nt h ch)) (hp : cs.Perm ch) (hw : Walk m cs t.enter t') : Walk m [i] t (t'.done i) := by
  obtain ⟨hd, _, _, hrk, _, _, hk⟩ := wf.nt li hn
  have hr : ∀ j, Reach m i j ↔ j = i ∨ ∃ c ∈ cs, Reach m c j := by
    intro j
    constructor
    · intro hj
      rcases hj.cases_head with e | ⟨h', ch', c, e1, e2, e3⟩
      · exact .inl e.symm
      · rw [hn] at e1; cases e1; exact .inr ⟨c, hp.mem_iff.2 e2, e3⟩
    · rintro (rfl | ⟨c, hc, hj⟩)
      · exact .refl _
      · exact ((Reach.refl i).step hn (hp.mem_iff.1 hc)).trans hj
  have hni : i ∉ t'.nodes := by
    intro hm
    rcases (hw.mem i).1 hm with e | ⟨c, hc, e⟩
    · exact hi e
    · have hc := hp.mem_iff.1 hc
      have := wf.reach_rank_le (hk c hc).1 e
      have := (hk c hc).2
      omega
  refine ⟨⟨List.nodup_cons.2 ⟨hni, hw.ok.nodup⟩, ?_⟩, fun j => ?_, ?_⟩
  · intro j hj k hk
    rcases List.mem_cons.1 hj with rfl | hj
    · rcases (hr k).1 hk with rfl | e
      · exact List.mem_cons_self
      · exact List.mem_cons_of_mem _ ((hw.mem k).2 (.inr e))
    · exact List.mem_cons_of_mem _ (hw.ok.closed j hj k hk)
  · simp only [List.mem_singleton, exists_eq_left, hr]
    show j ∈ i :: t'.nodes ↔ _
    rw [List.mem_cons, hw.mem]
    show _ ∨ j ∈ t.nodes ∨ _ ↔ _
    constructor
    · rintro (e | e | e)
      · exact .inr (.inl e)
      · exact .inl e
      · exact .inr (.inr e)
    · rintro (e | e | e)
      · exact .inr (.inl e)
      · exact .inl e
      · exact .inr (.inr e)
  · have := hw.calls
    have hl := hp.length_eq
    have ho : m.outDeg i = ch.length := by simp [outDeg, hn]
    simp only [Tally.done, Tally.enter, List.length_cons, List.length_nil, List.map_cons, List.sum_cons, ho] at *
    omega

variable {R : Type}

/-- `memoFold` with a tally. -/
def memoFoldW (m : Arena T) (leaf : T → Option R) (comb : Nat → Nat → List (Nat × R) → Option R) :
    Nat → Nat → AMap Nat R × Tally → Option (R × AMap Nat R × Tally)
  | 0, _, _ => none
  | fuel + 1, i, (c, t) =>
    match c.get i with
    | some r => some (r, c, t.enter)
    | none =>
      match m.nodes[i]? with
      | none => none
      | some (.term u) =>
        match leaf u with
        | none => none
        | some r => some (r, c.insert i r, t.enter.done i)
      | some (.nt h ch) =>
        match foldKids (memoFoldW m leaf comb fuel) ch (c, t.enter) with
        | none => none
        | some (rs, c', t') =>
          match comb i h (ch.zip rs) with
          | none => none
          | some r => some (r, c'.insert i r, t'.done i)

/-- Forget the tally. -/
def untally {A : Type} (o : Option (A × AMap Nat R × Tally)) : Option (A × AMap Nat R) := o.map fun p => (p.1, p.2.1)

theorem foldKids_erase {f : Nat → AMap Nat R × Tally → Option (R × AMap Nat R × Tally)}
    {g : Nat → AMap Nat R → Option (R × AMap Nat R)} (h : ∀ i c t, untally (f i (c, t)) = g i c) (as : List Nat) :
    ∀ c t, untally (foldKids f as (c, t)) = foldKids g as c := by
  induction as with
  | nil => intro c t; rfl
  | cons a as ih =>
    intro c t
    simp only [foldKids]
    rw [← h a c t]
    cases f a (c, t) with
    | none => rfl
    | some p =>
      obtain ⟨r, c1, t1⟩ := p
      simp only [untally, Option.map_some]
      rw [← ih c1 t1]
      cases foldKids f as (c1, t1) <;> simp [untally]

/-- Counting does not change the result. -/
theorem memoFoldW_erase (m : Arena T) (leaf : T → Option R) (comb : Nat → Nat → List (Nat × R) → Option R) :
    ∀ (fuel i : Nat) (c : AMap Nat R) (t : Tally),
      untally (m.memoFoldW leaf comb fuel i (c, t)) = m.memoFold leaf comb fuel i c := by
  intro fuel
  induction fuel with
  | zero => intro i c t; rfl
  | succ n ih =>
    intro i c t
    simp only [memoFoldW, memoFold]
    cases c.get i with
    | some r => rfl
    | none =>
      simp only
      cases m.nodes[i]? with
      | none => rfl
      | some nd =>
        cases nd with
        | term u =>
          simp only
          cases leaf u <;> rfl
        | nt h ch =>
          simp only
          rw [← foldKids_erase ih ch c t.enter]
          cases foldKids (m.memoFoldW leaf comb n) ch (c, t.enter) with
          | none => rfl
          | some p =>
            obtain ⟨rs, c1, t1⟩ := p
            simp only [untally, Option.map_some]
            cases comb i h (ch.zip rs) <;> rfl

/-- The memo holds exactly the computed nodes. -/
def KeysAre (c : AMap Nat R) (t : Tally) : Prop := ∀ i, (c.get i).isSome ↔ i ∈ t.nodes

theorem KeysAre.done {c : AMap Nat R} {t : Tally} (h : KeysAre c t) (i : Nat) (r : R) :
    KeysAre (c.insert i r) (t.done i) := by
  intro j
  rw [AMap.get_insert]
  show _ ↔ j ∈ i :: t.nodes
  rw [List.mem_cons]
  split
  · rename_i e; subst e; simp
  · rename_i e
    rw [h j]
    exact ⟨.inr, fun k => k.elim (fun k => absurd k.symm e) id⟩

theorem memoFoldW_walk (wf : WF R' m) {leaf : T → Option R} {comb : Nat → Nat → List (Nat × R) → Option R} :
    ∀ (fuel i : Nat) (c : AMap Nat R) (t : Tally), m.Live i → Seen m t.nodes → KeysAre c t →
      ∀ r c' t', m.memoFoldW leaf comb fuel i (c, t) = some (r, c', t') → Walk m [i] t t' ∧ KeysAre c' t' := by
  intro fuel
  induction fuel with
  | zero => intro i c t _ _ _ r c' t' h; cases h
  | succ n ih =>
    intro i c t li hs hk r c' t' h
    simp only [memoFoldW] at h
    have hki := hk i
    revert h
    cases hg : c.get i with
    | some v =>
      intro h
      rw [hg] at hki
      cases h
      exact ⟨.hit hs (hki.1 rfl), hk⟩
    | none =>
      rw [hg] at hki
      have hni : i ∉ t.nodes := fun e => by simpa using hki.2 e
      simp only
      cases hn : m.nodes[i]? with
      | none => intro h; cases h
      | some nd =>
        cases nd with
        | term u =>
          simp only
          cases leaf u with
          | none => intro h; cases h
          | some v =>
            intro h
            cases h
            exact ⟨.leaf hs hni hn, KeysAre.done (t := t.enter) hk i _⟩
        | nt h0 ch =>
          simp only
          have loop : ∀ (cs : List Nat), (∀ x ∈ cs, x ∈ ch) → ∀ (c : AMap Nat R) (t : Tally), Seen m t.nodes →
              KeysAre c t → ∀ rs c' t', foldKids (m.memoFoldW leaf comb n) cs (c, t) = some (rs, c', t') →
              Walk m cs t t' ∧ KeysAre c' t' := by
            intro cs
            induction cs with
            | nil => intro _ c t hs hk rs c' t' h; cases h; exact ⟨.nil hs, hk⟩
            | cons x xs ihx =>
              intro hsub c t hs hk rs c' t' h
              simp only [foldKids] at h
              revert h
              cases h1 : m.memoFoldW leaf comb n x (c, t) with
              | none => intro h; cases h
              | some p =>
                obtain ⟨r1, c1, t1⟩ := p
                obtain ⟨w1, k1⟩ := ih x c t (wf.kid _ _ _ li hn _ (hsub x List.mem_cons_self)).1 hs hk _ _ _ h1
                simp only
                cases h2 : foldKids (m.memoFoldW leaf comb n) xs (c1, t1) with
                | none => intro h; cases h
                | some p =>
                  obtain ⟨rs2, c2, t2⟩ := p
                  intro h
                  cases h
                  obtain ⟨w2, k2⟩ := ihx (fun y hy => hsub y (List.mem_cons_of_mem _ hy)) c1 t1 w1.ok k1 _ _ _ h2
                  exact ⟨w1.cons w2, k2⟩
          cases h1 : foldKids (m.memoFoldW leaf comb n) ch (c, t.enter) with
          | none => intro h; cases h
          | some p =>
            obtain ⟨rs, c1, t1⟩ := p
            obtain ⟨w1, k1⟩ := loop ch (fun _ e => e) c t.enter hs hk _ _ _ h1
            simp only
            cases comb i h0 (ch.zip rs) with
            | none => intro h; cases h
            | some v =>
              intro h
              cases h
              exact ⟨.node wf li hni hn (List.Perm.refl _) w1, k1.done i _⟩

/-- From an empty memo, each reachable node is computed exactly once. -/
theorem memoFoldW_fresh (wf : WF R' m) {leaf : T → Option R} {comb : Nat → Nat → List (Nat × R) → Option R}
    {fuel i : Nat} (li : m.Live i) {r : R} {c : AMap Nat R} (h : m.memoFold leaf comb fuel i AMap.empty = some (r, c)) :
    ∃ t, m.memoFoldW leaf comb fuel i (AMap.empty, Tally.zero) = some (r, c, t) ∧ t.nodes.Nodup ∧
      (∀ j, j ∈ t.nodes ↔ Reach m i j) ∧ t.calls = 1 + (t.nodes.map m.outDeg).sum := by
  have he := memoFoldW_erase m leaf comb fuel i AMap.empty Tally.zero
  rw [h] at he
  revert he
  cases h1 : m.memoFoldW leaf comb fuel i (AMap.empty, Tally.zero) with
  | none => intro he; cases he
  | some p =>
    obtain ⟨r1, c1, t1⟩ := p
    intro he
    cases he
    obtain ⟨w, -⟩ := memoFoldW_walk wf fuel i AMap.empty Tally.zero li ⟨List.nodup_nil, by simp [Tally.zero]⟩
      (by intro j; simp [Tally.zero]) _ _ _ h1
    refine ⟨t1, rfl, w.ok.nodup, fun j => ?_, ?_⟩
    · rw [w.mem]; simp [Tally.zero]
    · have := w.calls
      simp only [Tally.zero, List.map_nil, List.sum_nil, List.length_cons, List.length_nil] at this
      omega

end Arena
end DD
