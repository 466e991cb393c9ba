import Verif.Mss.Machine
import Verif.Props.MssSession

/-!
# C72: values are machine integers

`n` is the width of the value type (32 for `i32`, 64 for `i64`); `Build.dev` has overflow checks, `Build.release` has
not.
-/

set_option autoImplicit false
set_option linter.unusedSectionVars false
set_option linter.unusedVariables false

namespace DD.Props
open Arena Mtmdd2

variable {n : Nat} {b : Build} {w : MWorld} {vs : List (String × Nat)}

/-! ## The MDD manager -/

/-- **C72** (sessions with overflow checks): a call that returns gives the same output and the same state as over the
mathematical integers, and as without overflow checks. -/
theorem C72_dev_exact {c : MCmd} {o : MOut} {w' : MWorld} (h : w.stepIn .dev n c = some (o, w')) :
    w.step c = some (o, w') ∧ w.stepIn .release n c = some (o, w') := MWorld.stepIn_dev h

/-- **C72**: hence everything proved about sessions over the mathematical integers holds with overflow checks. -/
theorem C72_dev_reachable (h : MWorld.ReachableIn .dev n w) : w.Reachable ∧ MWorld.ReachableIn .release n w :=
  ⟨h.exact, h.release⟩

/-- **C72**: calls other than the arithmetic and `rpn` do not depend on the value type. -/
theorem C72_other_calls {c : MCmd} (h1 : ∀ o f g, c = .bin o f g → o ≠ .add ∧ o ≠ .sub ∧ o ≠ .mul ∧ o ≠ .div)
    (h2 : ∀ ts vars, c ≠ .rpn ts vars) : w.stepIn b n c = w.step c := by
  cases c with
  | bin o f g =>
    obtain ⟨a1, a2, a3, a4⟩ := h1 o f g rfl
    cases o <;> first | rfl | contradiction
  | rpn ts vars => exact absurd rfl (h2 ts vars)
  | _ => rfl

/-- **C72** (operations with overflow checks): a two-operand operation panics exactly when the exact result does not
fit at some assignment; otherwise it returns the exact result. -/
theorem C72_bin (hn : 32 ≤ n) (hw : MWorld.ReachableIn .dev n w) (hv : MVars w vs) (o : M2Bin) {f g : Nat} {F G : MFun}
    (hf : w.Has f F) (hg : w.Has g G) :
    (w.stepIn .dev n (.bin o f g) = none ∧ ∃ a, ValidV vs a ∧ o.Overflows n (F a) (G a)) ∨
    ∃ w' V, w.stepIn .dev n (.bin o f g) = some (.handle w.hs.next, w') ∧ MWorld.ReachableIn .dev n w' ∧
      w'.Has w.hs.next V ∧ ∀ a, ValidV vs a → o.Rel (F a) (G a) (V a) ∧ ¬ o.Overflows n (F a) (G a) := by
  have R := mrel hw.exact hv
  obtain ⟨x, hx, hF⟩ := hf
  obtain ⟨y, hy, hG⟩ := hg
  have key := M2Bin.runIn_dev_none (n := n) (by omega) R.mok.inv (hw.fit hn) o hF.live hG.live
  have conv : (∃ a u v, w.mgr.w.eng.ValidA a ∧ w.mgr.w.eng.MEval a x u ∧ w.mgr.w.eng.MEval a y v ∧ o.Overflows n u v) ↔
      ∃ a, ValidV vs a ∧ o.Overflows n (F a) (G a) := by
    constructor
    · rintro ⟨a, u, v, ha, hu, hv', ho⟩
      have e1 : u = F a := hF.read ha hu
      have e2 : v = G a := hG.read ha hv'
      exact ⟨a, R.mok.valid.1 ha, e1 ▸ e2 ▸ ho⟩
    · rintro ⟨a, ha, ho⟩
      exact ⟨a, F a, G a, R.mok.valid.2 ha, hF.val a (R.mok.valid.2 ha), hG.val a (R.mok.valid.2 ha), ho⟩
  rw [conv] at key
  cases hr : o.runIn .dev n w.mgr.w.eng x y with
  | none =>
    refine .inl ⟨?_, key.1 hr⟩
    simp only [MWorld.stepIn, MWorld.on1, hx, hy, hr]
    rfl
  | some q =>
    right
    obtain ⟨o', w', vs', h1, ⟨rfl, h2⟩, _⟩ := R.step (c := .bin o f g) trivial (by
      intro k hk
      simp only [MWorld.operands, List.mem_cons, List.not_mem_nil, or_false] at hk
      rcases hk with rfl | rfl
      · exact ⟨x, hx⟩
      · exact ⟨y, hy⟩)
    obtain ⟨rfl, V, h3, h4⟩ := h2 F G ⟨x, hx, hF⟩ ⟨y, hy, hG⟩
    have hst : w.stepIn .dev n (.bin o f g) = some (.handle w.hs.next, w') := by
      rw [← h1]
      simp only [MWorld.stepIn, MWorld.step, MWorld.on1, hx, hy, hr, (M2Bin.runIn_dev hr).1]
    refine ⟨w', V, hst, .step (.bin o f g) hw trivial trivial hst, h3, fun a ha => ⟨h4 a ha, fun ho => ?_⟩⟩
    rw [key.2 ⟨a, ha, ho⟩] at hr
    cases hr

/-- **C72** (expressions with overflow checks): `rpn` panics exactly when it panics over the mathematical integers or
some operation of the expression overflows at some assignment. -/
theorem C72_rpn_panics (hn : 32 ≤ n) (hw : MWorld.ReachableIn .dev n w) {ts : List MTok} {vars : String → Option Nat}
    (hr : MWorld.InRange n (.rpn ts vars)) :
    w.stepIn .dev n (.rpn ts vars) = none ↔ w.step (.rpn ts vars) = none ∨
      MddMgr.RpnOverflows n vars { mgr := w.mgr, stack := [], cache := AMap.empty } ts := by
  obtain ⟨vs, R⟩ := hw.exact.rel
  have key := MddMgr.rpnLoopIn_dev_none (n := n) hn hr.2 ts hr.1 (rpnOk_start R.mok) (hw.fit hn)
  constructor
  · intro h
    cases hl : MddMgr.rpnLoopIn .dev n vars { mgr := w.mgr, stack := [], cache := AMap.empty } ts with
    | none =>
      rcases key.1 hl with h' | h'
      · left
        simp only [MWorld.step, MddMgr.rpn, h']
      · exact .inr h'
    | some q =>
      left
      have h1 := (MddMgr.rpnLoopIn_dev ts hl).1
      have : w.mgr.rpn vars ts = w.mgr.rpnIn .dev n vars ts := by
        simp only [MddMgr.rpn, MddMgr.rpnIn, h1, hl]
        rfl
      simp only [MWorld.step, this]
      exact h
  · rintro (h | h)
    · cases hs : w.stepIn .dev n (.rpn ts vars) with
      | none => rfl
      | some q => rw [(MWorld.stepIn_dev hs).1] at h; cases h
    · simp only [MWorld.stepIn, MddMgr.rpnIn, key.2 (.inr h)]

/-- **C72** (both builds): every integer read back is one of the type. -/
theorem C72_in_range (hn : 32 ≤ n) (hw : MWorld.ReachableIn b n w) {f : Nat} {v : Int} {w' : MWorld}
    (h : w.stepIn b n (.valueOf f) = some (.int (some v), w')) : Fits n v := by
  simp only [MWorld.stepIn, MWorld.step, MWorld.on1] at h
  split at h
  · cases h
  · rename_i x hx
    cases x with
    | bool i => cases h
    | value i =>
      simp only [Mtmdd2.valueOf] at h
      rcases hnode : w.mgr.w.eng.mtmdd.arena.node? i with _ | (t | ⟨hd, ch⟩) <;> rw [hnode] at h <;> cases h
      exact hw.fit hn v (List.mem_of_getElem? hnode)

/-! ## The value engine -/

variable {s : Mtmdd}

/-- **C72** (engine, both builds): an operation panics exactly when the machine operation panics at some assignment. -/
theorem C72_engine_panics (hn : 0 < n) (hs : Mtmdd.ReachableIn b n s) (o : MtOp) (hl : ∀ i ∈ o.args, s.arena.Live i) :
    o.runIn b n s = none ↔ s.arena.Hits (o.OverIn b n) o.fst o.snd := by
  constructor
  · intro h
    rcases Mtmdd.runIn_ok (hs.inv hn).1 o hl with h' | ⟨r, s', h', _⟩
    · exact h'.2
    · rw [h] at h'; cases h'
  · rintro ⟨a, x, y, ha, hx, hy, ho⟩
    rcases Mtmdd.runIn_ok (hs.inv hn).1 o hl with h' | ⟨r, s', h', hi, hst, hr, hsd⟩
    · exact h'.1
    · exfalso
      have ha' : s'.arena.ValidA a := by
        unfold Arena.ValidA; rw [show s'.arena.headers = _ from hst.heq]; exact ha
      obtain ⟨z, hz⟩ := hi.wf.eval_total ha' hr
      have hp := hsd a ha' z hz x y hx hy
      unfold MtOp.PtIn at hp
      unfold MtOp.OverIn at ho
      split at ho
      · rename_i tt htt
        rw [htt] at hp
        cases x <;> cases y <;> first | exact ho | skip
        simp only [Mtmdd.ptM, Mtmdd.Over] at hp ho
        rw [ho] at hp
        cases hp
      · exact ho

/-- **C72** (engine, both builds): an operation that returns computes the machine operation at every assignment, and
keeps the meaning of every node. -/
theorem C72_engine_value (hn : 0 < n) (hs : Mtmdd.ReachableIn b n s) (o : MtOp) (hl : ∀ i ∈ o.args, s.arena.Live i)
    {r : Nat} {s' : Mtmdd} (h : o.runIn b n s = some (r, s')) :
    Mtmdd.ReachableIn b n s' ∧ s'.arena.Live r ∧
    (∀ a, s.arena.ValidA a → ∀ x y, Eval s.arena a o.fst x → Eval s.arena a o.snd y →
      ∃ z, Eval s'.arena a r z ∧ o.PtIn b n x y z) ∧
    ∀ i, s.arena.Live i → ∀ a z, Eval s.arena a i z → Eval s'.arena a i z := by
  rcases Mtmdd.runIn_ok (hs.inv hn).1 o hl with h' | ⟨r', s1, h', hi, hst, hr, hsd⟩
  · rw [h] at h'; cases h'.1
  · rw [h] at h'
    cases h'
    refine ⟨.op o hs hl h, hr, fun a ha x y hx hy => ?_, fun i li a z hz => ?_⟩
    · have ha' : s'.arena.ValidA a := by
        unfold Arena.ValidA; rw [show s'.arena.headers = _ from hst.heq]; exact ha
      obtain ⟨z, hz⟩ := hi.wf.eval_total ha' hr
      exact ⟨z, hz, hsd a ha' z hz x y hx hy⟩
    · exact ((hs.inv hn).1.wf.eval_ext hst.toExt li).2 hz

/-- **C72** (engine, without overflow checks): sums, differences and products never panic. -/
theorem C72_engine_release (hn : 0 < n) (hs : Mtmdd.ReachableIn .release n s) {o : MtOp}
    (ho : ∀ f g, o ≠ .div f g ∧ o ≠ .rem f g) (hl : ∀ i ∈ o.args, s.arena.Live i) : o.runIn .release n s ≠ none := by
  rw [Ne, C72_engine_panics hn hs o hl]
  rintro ⟨a, x, y, _, _, _, h⟩
  have nz : ∀ v : Int, (ovf .release n v).map some ≠ none := by
    intro v; unfold ovf; split <;> simp
  cases o with
  | div f g => exact (ho f g).1 rfl
  | rem f g => exact (ho f g).2 rfl
  | replace f g => exact h
  | add f g | sub f g | mul f g | min f g | max f g =>
    cases x <;> cases y <;> first | exact h | exact nz _ h | cases h

/-! ## Examples -/

/-- What the two arms are, for the reader. -/
example (x y z : Int) (f g : Nat) :
    (MtOp.add f g).PtIn .release n (some x) (some y) (some z) ↔
      z = if Fits n (x + y) then x + y else wrapInt n (x + y) := by
  simp only [MtOp.PtIn, MtOp.arm, Mtmdd.ptM, Mtmdd.machAdd, ovf]
  split <;> simp [eq_comm]

example : wrapInt 32 (2 ^ 31) = -2 ^ 31 := by decide +kernel

/-- Run of machine-integer calls. -/
def mrunIn (b : Build) (n : Nat) (w : MWorld) : List MCmd → Option (List MOut × MWorld)
  | [] => some ([], w)
  | c :: cs =>
    match w.stepIn b n c with
    | none => none
    | some (o, w') =>
      match mrunIn b n w' cs with
      | none => none
      | some (os, w'') => some (o :: os, w'')

/-- `i32::MAX + x` for a variable `x`: fits at `x = 0`, not at `x = 1`. -/
example : let cs : List MCmd := [.defvar "x" 2, .value 2147483647, .bin .add 0 1]
    mrunIn .dev 32 MWorld.new cs = none ∧ (mrunIn .dev 64 MWorld.new cs).isSome ∧
    (mrunIn .release 32 MWorld.new (cs ++ [.children 2, .valueOf 4])).map (·.1) =
      some [.handle 0, .handle 1, .handle 2, .handles (some [3, 4]), .int (some (-2147483648))] ∧
    (mrunIn .dev 32 MWorld.new [.value (-2147483648), .value (-1), .bin .div 0 1]) = none ∧
    (mrunIn .release 32 MWorld.new [.value (-2147483648), .value (-1), .bin .div 0 1]) = none := by
  decide +kernel

end DD.Props
