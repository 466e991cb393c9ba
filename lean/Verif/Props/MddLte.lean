import Verif.Props.MddCore
import Verif.Props.MssSession

/-!
# C31 and C32 on handles

`MddNode::le` and `undet_boolean` as the client of an `MddMgr` sees them.
-/

set_option autoImplicit false
set_option linter.unusedSectionVars false
set_option linter.unusedVariables false

namespace DD.Props
open Arena Mtmdd2

variable {w : MWorld} {vs : List (String × Nat)}

/-- The handle reads as the integer-valued `P`. -/
def Numeric (w : MWorld) (f : Nat) (P : (Nat → Nat) → Option Int) : Prop := w.Has f (fun a => .v (P a))

/-- Determined and equal at every assignment. -/
def EqualEverywhere (vs : List (String × Nat)) (P Q : (Nat → Nat) → Option Int) : Prop :=
  ∀ a, ValidV vs a → ∃ x, P a = some x ∧ Q a = some x

/-- What `le` answers at one assignment. -/
def strictly (x y : Option Int) : Bool :=
  match x, y with
  | some x, some y => decide (x < y)
  | _, _ => false

theorem numeric_node {f : Nat} {P : (Nat → Nat) → Option Int} (h : Numeric w f P) (R : MRel w vs) :
    ∃ i, w.hs.held.get f = some (.value i) ∧ MDen w.mgr.w.eng (.value i) (fun a => .v (P a)) := by
  obtain ⟨x, h1, h2⟩ := h
  cases x with
  | value i => exact ⟨i, h1, h2⟩
  | bool i =>
    obtain ⟨a, ha⟩ : ∃ a, w.mgr.w.eng.ValidA a := ⟨_, R.mok.inv.b.wf.valid_zero⟩
    cases h2.val a ha

/-- **C31 on handles, exactly.** `f.le(g)` for two integer-valued handles: the constant true if the
operands are determined and equal at *every* assignment, otherwise at each assignment whether `f` is
strictly less than `g` (false where an operand is undetermined). -/
theorem C31_handles_exact (hw : w.Reachable) (hv : MVars w vs) {f g : Nat} {P Q : (Nat → Nat) → Option Int}
    (hf : Numeric w f P) (hg : Numeric w g Q) :
    MGives w vs (.bin .lte f g) (fun a z =>
      (EqualEverywhere vs P Q → z = .b .one) ∧
      (¬ EqualEverywhere vs P Q → z = .b (T3.ofBool (strictly (P a) (Q a))))) := by
  have R := mrel hw hv
  obtain ⟨i, i1, i2⟩ := numeric_node hf R
  obtain ⟨j, j1, j2⟩ := numeric_node hg R
  have hiff : (∀ a, w.mgr.w.eng.ValidA a → ∃ x, w.mgr.w.eng.MEval a (.value i) (.v (some x)) ∧
      w.mgr.w.eng.MEval a (.value j) (.v (some x))) ↔ EqualEverywhere vs P Q := by
    constructor
    · intro h a ha
      obtain ⟨x, h1, h2⟩ := h a (R.mok.valid.2 ha)
      have e1 := i2.read (R.mok.valid.2 ha) h1
      have e2 := j2.read (R.mok.valid.2 ha) h2
      exact ⟨x, (MVal.v.inj e1).symm, (MVal.v.inj e2).symm⟩
    · intro h a ha
      obtain ⟨x, h1, h2⟩ := h a (R.mok.valid.1 ha)
      have e1 := i2.val a ha
      have e2 := j2.val a ha
      simp only [h1, h2] at e1 e2
      exact ⟨x, e1, e2⟩
  have hr : MOk w.mgr.w.eng (fun a z => (EqualEverywhere vs P Q → z = .b .one) ∧
      (¬ EqualEverywhere vs P Q → z = .b (T3.ofBool (strictly (P a) (Q a)))))
      (M2Bin.run .lte w.mgr.w.eng (.value i) (.value j)) := by
    obtain ⟨r, e', h1, h2, h3, h4, h5, h6⟩ := lte_exact R.mok.inv R.mok.inj i2.live j2.live
    refine ⟨r, e', h1, h2, h3, h4, fun a ha z hz => ⟨fun hE => ?_, fun hE => ?_⟩⟩
    · rw [h5 (hiff.2 hE)] at hz
      exact (meval_constB h2 .one).1 hz
    · have := h6 (fun h => hE (hiff.1 h)) a (h3.valid.1 ha) _ _ (i2.val a (h3.valid.1 ha))
        (j2.val a (h3.valid.1 ha))
      rw [hz.det this]
      cases P a <;> cases Q a <;> rfl
  obtain ⟨o, w', k1, k2, k3, k4⟩ := R.op hr
  obtain ⟨rfl, V, k5, k6⟩ := k2
  have hs : w.step (.bin .lte f g) = some (.handle w.hs.next, w') := by
    simp only [MWorld.step, MWorld.on1, i1, j1]
    exact k1
  exact ⟨w', V, hs, .step (.bin .lte f g) hw trivial hs, k3.mok.hdrs, k5, k6, k4⟩

/-- **C31 on handles, the part that holds:** the answer is the pointwise `≤` iff the operands are equal
at every assignment or at none. -/
theorem C31_handles_partial (hw : w.Reachable) (hv : MVars w vs) {f g : Nat} {p q : (Nat → Nat) → Int}
    (hf : Numeric w f (fun a => some (p a))) (hg : Numeric w g (fun a => some (q a))) :
    ∃ w' V, w.step (.bin .lte f g) = some (.handle w.hs.next, w') ∧ w'.Has w.hs.next V ∧
      ((∀ a, ValidV vs a → V a = .b (T3.ofBool (decide (p a ≤ q a)))) ↔
        (∀ a, ValidV vs a → p a = q a) ∨ ∀ a, ValidV vs a → p a ≠ q a) := by
  obtain ⟨w', V, h1, _, _, h4, h5, _⟩ := C31_handles_exact hw hv hf hg
  refine ⟨w', V, h1, h4, ?_⟩
  have hE : EqualEverywhere vs (fun a => some (p a)) (fun a => some (q a)) ↔ ∀ a, ValidV vs a → p a = q a := by
    constructor
    · intro h a ha
      obtain ⟨x, e1, e2⟩ := h a ha
      rw [Option.some.inj e1, Option.some.inj e2]
    · intro h a ha
      exact ⟨p a, rfl, by rw [h a ha]⟩
  rw [← hE]
  by_cases hc : EqualEverywhere vs (fun a => some (p a)) (fun a => some (q a))
  · refine ⟨fun _ => .inl hc, fun _ a ha => ?_⟩
    rw [(h5 a ha).1 hc, show decide (p a ≤ q a) = true by rw [decide_eq_true_iff, (hE.1 hc) a ha]; exact Int.le_refl _]
    rfl
  · constructor
    · intro h
      refine .inr fun a ha e => ?_
      have e1 := h a ha
      rw [(h5 a ha).2 hc] at e1
      have := T3.ofBool_inj (MVal.b.inj e1)
      simp only [strictly, e] at this
      simp at this
    · rintro (h | h) a ha
      · exact (hc h).elim
      · rw [(h5 a ha).2 hc]
        have := h a ha
        simp only [strictly]
        congr 2
        rw [decide_eq_decide]
        omega

/-- **C32 on handles.** In every session `undet_boolean()` returns a handle that reads false
everywhere, the same node as `boolean(false)`. -/
theorem C32_handles_false (hw : w.Reachable) (hv : MVars w vs) :
    MGives w vs .undetBoolean (fun _ z => z = .b .zero) :=
  mgives (c := .undetBoolean) hw hv trivial trivial (by simp [MWorld.operands]) (fun h => by simp) (fun o w' vs' h => h)

/-! ## A session

`x` has two states.  `x <= 1` is false where `x = 1`; `x <= x` and `x <= 2` are right. -/

example : (mrun MWorld.new [.defvar "x" 2, .value 1, .bin .lte 0 1, .children 2, .isTerm .one 3, .isTerm .zero 4,
    .bin .lte 0 0, .isTerm .one 5, .value 2, .bin .lte 0 6, .isTerm .one 7,
    .undetBoolean, .isTerm .zero 8, .isTerm .undet 8]).map (·.1) = some
    [.handle 0, .handle 1, .handle 2, .handles (some [3, 4]), .bool true, .bool true, .handle 5, .bool true,
     .handle 6, .handle 7, .bool true, .handle 8, .bool true, .bool false] := by
  decide +kernel

end DD.Props
