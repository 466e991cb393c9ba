import Verif.Bss.Halt
import Verif.Mss.Halt
import Verif.Props.BddRpn
import Verif.Props.MssSession

/-!
# Panics that the client catches: C80

`w.caught c` is the state that a client who catches the panic of call `c` finds (`Bss/Halt.lean`, `Mss/Halt.lean`);
`Survives` is reachability by calls some of which panic and are caught.
-/

set_option autoImplicit false
set_option linter.unusedSectionVars false
set_option linter.unusedVariables false

namespace DD.Props
open Arena Mtmdd2

/-! ## `BddMgr` -/

section bdd
variable {w : World}

/-- **C80.** A call of `BddMgr` or `BddNode` on held handles that panics, and is caught, leaves a state that calls
without any panic can reach, in which every handle means what it meant. -/
theorem C80_bdd (hw : w.Reachable) {c : Cmd} (ho : w.Ordered c)
    (hh : ∀ f ∈ World.operands c, ∃ i, w.held.get f = some i) (hp : w.step c = none) :
    ∃ w', w.caught c = some w' ∧ w'.Reachable ∧ w'.held = w.held ∧ ∀ h F, w'.Denotes h F ↔ w.Denotes h F := by
  have : ∃ ts, c = .rpn ts := by
    refine Classical.byContradiction fun hn => ?_
    obtain ⟨o, w', h1, _⟩ := C03_no_panic hw ho hh (fun ts e => hn ⟨ts, e⟩)
    rw [hp] at h1; cases h1
  obtain ⟨ts, rfl⟩ := this
  obtain ⟨A, R⟩ := hw.rel
  have hn : w.mgr.rpn ts = none := by
    have := R.mok.rpn ts
    rw [(R.rpn_none ts).1 hp] at this
    exact this
  obtain ⟨⟨u, t⟩, hu⟩ := Option.isSome_iff_exists.1 ((BddMgr.rpnHalt_iff ts _).2 (BddMgr.rpn_none_loop R.mok hn))
  obtain ⟨pre, rest, _, h2, _⟩ := BddMgr.rpnHalt_spec hu
  have hs : w.step (.rpn (pre ++ [.const false, .const false])) = some (.err .invalid, { w with mgr := u.mgr }) := by
    simp only [World.step, BddMgr.rpn_stop h2]
  have hk := C10_rpn_keeps hw _ hs
  refine ⟨{ w with mgr := u.mgr }, by simp only [World.caught, hu, Option.map_some], .step (.rpn _) hw trivial hs, rfl, ?_⟩
  exact fun h F => ⟨hk.2 ⟨_, rfl⟩ h F, hk.1 h F⟩

/-- The caught panic of any call is a state that calls without any panic reach. -/
theorem caught_reachable (hw : w.Reachable) {c : Cmd} (hp : w.step c = none) {w' : World} (hc : w.caught c = some w') :
    w'.Reachable := by
  cases c
  case rpn ts =>
    obtain ⟨w'', h1, h2, _⟩ := C80_bdd hw (c := .rpn ts) trivial (by intro f hf; cases hf) hp
    rw [hc] at h1; cases h1
    exact h2
  all_goals cases hc

/-- **C80.** Every state that a client reaches who catches panics is one that a client without panics reaches, so every
theorem about reachable worlds holds after caught panics. -/
theorem C80_bdd_session (hs : w.Survives) : w.Reachable := by
  induction hs with
  | new => exact .new
  | step c _ ho h ih => exact .step c ih ho h
  | caught c _ hp h ih => exact caught_reachable ih hp h

/-- **C80.** Conversely, catching the panic is always possible: a session never ends in a state without successor. -/
theorem C80_bdd_goes_on (hs : w.Survives) {c : Cmd} (ho : w.Ordered c)
    (hh : ∀ f ∈ World.operands c, ∃ i, w.held.get f = some i) :
    ∃ w' : World, w'.Survives ∧ ∀ h F, w.Denotes h F → c ≠ .drop h → w'.Denotes h F := by
  have hw := C80_bdd_session hs
  cases hp : w.step c with
  | none =>
    obtain ⟨w', h1, _, _, h4⟩ := C80_bdd hw ho hh hp
    exact ⟨w', .caught c hs hp h1, fun h F hF _ => (h4 h F).2 hF⟩
  | some p => exact ⟨p.2, .step c hs ho hp, fun h F hF hd => C03_step hw ho hp hd hF⟩

end bdd

/-! ## `MddMgr` -/

section mdd
variable {w : MWorld}

/-- The token at which `rpn` panics is not a variable without states. -/
def StatesGiven : MCmd → Prop
  | .defvar _ r => r ≠ 0
  | .rpn _ vars => ∀ x, vars x ≠ some 0
  | _ => True

theorem mcaught_rpn (hw : w.Reachable) {ts : List MTok} {vars : String → Option Nat} {u : MddMgr.RpnSt} {t : MTok}
    (hu : MddMgr.rpnHalt vars { mgr := w.mgr, stack := [], cache := AMap.empty } ts = some (u, t)) :
    MWorld.Reachable { w with mgr := u.mgr } ∧ ∀ h F, w.Has h F → MWorld.Has { w with mgr := u.mgr } h F := by
  obtain ⟨pre, rest, _, h2, _⟩ := MddMgr.rpnHalt_spec hu
  have hs : w.step (.rpn (pre ++ [.const false, .const false]) vars) = some (.err .invalid, { w with mgr := u.mgr }) := by
    simp only [MWorld.step, MddMgr.rpn_stop h2]
  exact ⟨.step (.rpn _ vars) hw trivial hs, fun h F hF => C34_step hw (c := .rpn _ vars) trivial hs (by intro e; cases e) hF⟩

/-- **C80.** A call of `MddMgr` or `MddNode` on held handles that panics, and is caught, leaves a state that calls without
any panic can reach, in which every handle means what it meant.  Variables have at least one state. -/
theorem C80_mdd_partial (hw : w.Reachable) {c : MCmd} (hc : w.Checked c) (hz : StatesGiven c)
    (hh : ∀ f ∈ MWorld.operands c, ∃ x, w.hs.held.get f = some x) (hp : w.step c = none) :
    ∃ w', w.caught c = some w' ∧ w'.Reachable ∧ w'.hs = w.hs ∧ ∀ h F, w.Has h F → w'.Has h F := by
  obtain ⟨vs, hv, _⟩ := mvars_exists hw
  have hl : ¬ w.Legal c := by
    intro hl
    obtain ⟨o, w', vs', h1, _⟩ := C34_effect hw hv hl hh
    rw [hp] at h1; cases h1
  cases c <;> first | exact absurd trivial hl | exact ⟨w, rfl, hw, rfl, fun _ _ h => h⟩ | skip
  · exact absurd hc hl
  · exact absurd (.inr (Nat.pos_of_ne_zero hz)) hl
  · rename_i ts vars
    have hn : w.mgr.rpn vars ts = none := by
      cases h : w.mgr.rpn vars ts with
      | none => rfl
      | some p => exact absurd (show (w.mgr.rpn vars ts).isSome by rw [h]; rfl) hl
    have R := mrel hw hv
    obtain ⟨⟨u, t⟩, hu⟩ := Option.isSome_iff_exists.1
      ((MddMgr.rpnHalt_iff ts _).2 (MddMgr.rpn_none_loop R.mok hn))
    obtain ⟨h1, h2⟩ := mcaught_rpn hw hu
    refine ⟨_, ?_, h1, rfl, h2⟩
    have : t.noStates vars = false := by
      cases t <;> first | rfl | skip
      rename_i x
      simpa [MTok.noStates] using hz x
    simp [MWorld.caught, hu, this]

/-- **C80.** Every state that a client reaches who catches panics is one that a client without panics reaches. -/
theorem C80_mdd_session (hs : w.Survives) : w.Reachable := by
  induction hs with
  | new => exact .new
  | sol top f _ h ih => exact .sol top f ih h
  | step c _ hc h ih => exact .step c ih hc h
  | @caught w w' c _ hp h ih =>
    cases c <;> first | (cases h; done) | (cases h; exact ih) | skip
    rename_i ts vars
    simp only [MWorld.caught] at h
    cases hu : MddMgr.rpnHalt vars { mgr := w.mgr, stack := [], cache := AMap.empty } ts with
    | none => rw [hu] at h; cases h
    | some p =>
      rw [hu] at h
      simp only at h
      split at h
      · cases h
      · cases h
        exact (mcaught_rpn ih hu).1

/-- **C80.** Catching the panic is always possible. -/
theorem C80_mdd_goes_on_partial (hs : w.Survives) {c : MCmd} (hc : w.Checked c) (hz : StatesGiven c)
    (hh : ∀ f ∈ MWorld.operands c, ∃ x, w.hs.held.get f = some x) :
    ∃ w' : MWorld, w'.Survives ∧ ∀ h F, w.Has h F → c ≠ .drop h → w'.Has h F := by
  have hw := C80_mdd_session hs
  cases hp : w.step c with
  | none =>
    obtain ⟨w', h1, _, _, h4⟩ := C80_mdd_partial hw hc hz hh hp
    exact ⟨w', .caught c hs hp h1, fun h F hF _ => h4 h F hF⟩
  | some p => exact ⟨p.2, .step c hs hc hp, fun h F hF hd => C34_step hw hc hp hd hF⟩

end mdd

/-! ## Examples -/

/-- `x y & &`: the second `&` finds one operand. -/
def badBdd : Cmd := .rpn [.var "x", .var "y", .and, .and]

/-- The session `defvar("y"); rpn("x y & &")` with the panic caught, then `rpn("x y |")`. -/
def caughtBdd : Option (Out × World) :=
  ((World.new.step (.defvar "y")).bind fun p => p.2.caught badBdd).bind fun w => w.step (.rpn [.var "x", .var "y", .or])

example : ((World.new.step (.defvar "y")).bind fun p => p.2.step badBdd).isNone := by decide +kernel

example : (caughtBdd.bind fun p => (p.2.step .varorder).map Prod.fst) = some (.strs ["y", "x"]) := by
  decide +kernel

example : ∃ o w, caughtBdd = some (o, w) ∧ w.Survives ∧ w.Reachable ∧ ∃ F, w.Denotes 1 F := by
  have h : caughtBdd.isSome ∧ ((World.new.step (.defvar "y")).bind fun p => p.2.step badBdd).isNone ∧
      (caughtBdd.bind fun p => p.2.held.get 1).isSome := by
    decide +kernel
  obtain ⟨⟨o, w⟩, e⟩ := Option.isSome_iff_exists.1 h.1
  have e' := e
  unfold caughtBdd at e'
  obtain ⟨w1, e4, e3⟩ := Option.bind_eq_some_iff.1 e'
  obtain ⟨⟨o0, w0⟩, e6, e7⟩ := Option.bind_eq_some_iff.1 e4
  have h0 : w0.step badBdd = none := by
    have := h.2.1
    rw [e6] at this
    simpa using this
  have hs : w.Survives := .step (.rpn [.var "x", .var "y", .or])
    (.caught badBdd (.step (.defvar "y") .new trivial e6) h0 e7) trivial e3
  have hw := C80_bdd_session hs
  obtain ⟨A, R⟩ := hw.rel
  have h1 := h.2.2
  rw [e] at h1
  obtain ⟨i, hi⟩ := Option.isSome_iff_exists.1 h1
  obtain ⟨F, h2, _⟩ := R.heldS 1 i hi
  exact ⟨o, w, e, hs, hw, F, R.denotes_iff.2 h2⟩

/-- `x y + True ?`: a condition that is a value, and branches of different kinds. -/
def badMdd : MCmd := .rpn [.var "x", .var "x", .var "y", .bin .add, .const true, .ite] (fun _ => some 3)

example : ((MWorld.new.step (.defvar "y" 2)).bind fun p => p.2.step badMdd).isNone := by decide +kernel

/-- `defvar("y", 2)`, the failing `rpn` caught, `min(&[])` caught, then `rpn("x y +")`. -/
def caughtMdd : Option (MOut × MWorld) :=
  (((MWorld.new.step (.defvar "y" 2)).bind fun p => p.2.caught badMdd).bind fun w => w.caught (.minL [])).bind
    fun w => w.step (.rpn [.var "x", .var "y", .bin .add] (fun _ => some 3))

example : (caughtMdd.bind fun p => (p.2.step .varorder).map Prod.fst) matches some (.order [("y", 2), ("x", 3)]) := by
  decide +kernel

example : ∃ o w, caughtMdd = some (o, w) ∧ w.Survives ∧ w.Reachable := by
  have h : caughtMdd.isSome ∧ ((MWorld.new.step (.defvar "y" 2)).bind fun p => p.2.step badMdd).isNone := by
    decide +kernel
  obtain ⟨⟨o, w⟩, e⟩ := Option.isSome_iff_exists.1 h.1
  have e' := e
  unfold caughtMdd at e'
  obtain ⟨w2, e2, e3⟩ := Option.bind_eq_some_iff.1 e'
  obtain ⟨w1, e4, e5⟩ := Option.bind_eq_some_iff.1 e2
  obtain ⟨⟨o0, w0⟩, e6, e7⟩ := Option.bind_eq_some_iff.1 e4
  have h0 : w0.step badMdd = none := by
    have := h.2
    rw [e6] at this
    simpa using this
  have h1 : w1.step (.minL []) = none := rfl
  have hs : w.Survives := .step (.rpn [.var "x", .var "y", .bin .add] (fun _ => some 3))
    (.caught (.minL []) (.caught badMdd (.step (.defvar "y" 2) .new trivial e6) h0 e7) h1 e5) trivial e3
  exact ⟨o, w, e, hs, C80_mdd_session hs⟩

example : StatesGiven badMdd := by intro x; simp

end DD.Props
