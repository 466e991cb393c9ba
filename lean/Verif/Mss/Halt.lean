import Verif.Mss.Step

/-!
# The state a caught panic of `MddMgr` leaves

As in `Bss/Halt.lean`.  The calls that panic on held handles and on checked arguments are those that are not
`MWorld.Legal`; each is considered here except the definition of a variable without states.

* `get_varorder` (/repo/mss/src/mdd.rs:229-240) only reads.
* `min` and `max` of an empty slice panic at `nodes[0]` (mdd.rs:499, 511), before the forest is called.
* `ite` with branches of different kinds panics in the match on the kinds
  (/repo/mddcore/src/mtmdd2_ops.rs:293-312), before the forest is changed.
* `rpn` (mdd.rs:297-470) panics at some token; an operator pops its operands before it calls the forest, and an unknown
  variable panics at the lookup of its range.
* Defining a new variable with `range = 0` panics *after* `create_header` (mdd.rs:218-223), in `create_node`: the
  forest keeps a header that belongs to no variable.  That state is not modelled.
-/

set_option autoImplicit false
set_option linter.unusedSectionVars false
set_option linter.unusedVariables false

namespace DD
open Arena Mtmdd2

namespace MddMgr

/-- The state in which the loop of `rpn` panics, and the token at which it does.  /repo/mss/src/mdd.rs:300-460 -/
def rpnHalt (vars : String → Option Nat) (s : RpnSt) : List MTok → Option (RpnSt × MTok)
  | [] => none
  | t :: ts =>
    match rpnTok vars s t with
    | none => some (s, t)
    | some (.error _) => none
    | some (.ok s') => rpnHalt vars s' ts

variable {vars : String → Option Nat}

theorem rpnHalt_spec : ∀ {ts : List MTok} {s u : RpnSt} {t : MTok}, rpnHalt vars s ts = some (u, t) →
    ∃ pre rest, ts = pre ++ t :: rest ∧ rpnLoop vars s pre = some (.ok u) ∧ rpnTok vars u t = none := by
  intro ts
  induction ts with
  | nil => intro s u t h; cases h
  | cons k ts ih =>
    intro s u t h
    unfold rpnHalt at h
    split at h
    · rename_i hk
      simp only [Option.some.injEq, Prod.mk.injEq] at h
      obtain ⟨rfl, rfl⟩ := h
      exact ⟨[], ts, rfl, rfl, hk⟩
    · cases h
    · rename_i s' hk
      obtain ⟨pre, rest, rfl, h2, h3⟩ := ih h
      refine ⟨k :: pre, rest, rfl, ?_, h3⟩
      simp only [rpnLoop, hk]
      exact h2

theorem rpnHalt_iff : ∀ (ts : List MTok) (s : RpnSt), (rpnHalt vars s ts).isSome ↔ rpnLoop vars s ts = none := by
  intro ts
  induction ts with
  | nil => intro s; simp [rpnHalt, rpnLoop]
  | cons k ts ih =>
    intro s
    unfold rpnHalt rpnLoop
    cases hk : rpnTok vars s k with
    | none => simp
    | some r =>
      cases r with
      | error e => simp
      | ok s' => exact ih s'

theorem rpnLoop_append : ∀ {pre : List MTok} {s u : RpnSt} (ts : List MTok), rpnLoop vars s pre = some (.ok u) →
    rpnLoop vars s (pre ++ ts) = rpnLoop vars u ts := by
  intro pre
  induction pre with
  | nil => intro s u ts h; simp only [rpnLoop, Option.some.injEq, Except.ok.injEq] at h; subst h; rfl
  | cons k pre ih =>
    intro s u ts h
    simp only [rpnLoop, List.cons_append] at h ⊢
    split at h
    · cases h
    · cases h
    · rename_i s' hk
      exact ih ts h

theorem rpn_stop {m : MddMgr} {pre : List MTok} {u : RpnSt}
    (h : rpnLoop vars { mgr := m, stack := [], cache := AMap.empty } pre = some (.ok u)) :
    m.rpn vars (pre ++ [.const false, .const false]) = some (.error .invalid, u.mgr) := by
  unfold rpn
  rw [rpnLoop_append _ h]
  rfl

theorem rpn_none_loop {m : MddMgr} {vs : List (String × Nat)} {L : List MNode} (h : MMOK m vs L) {ts : List MTok}
    (hn : m.rpn vars ts = none) : rpnLoop vars { mgr := m, stack := [], cache := AMap.empty } ts = none := by
  cases hl : rpnLoop vars { mgr := m, stack := [], cache := AMap.empty } ts with
  | none => rfl
  | some lo =>
    have hk := RpnOk.loop ts (rpnOk_start h) hl
    unfold rpn at hn
    rw [hl] at hn
    cases lo with
    | error p => cases hn
    | ok s =>
      obtain ⟨vs', a1, a2, a3⟩ := hk
      simp only at hn
      split at hn
      · rename_i x hx
        obtain ⟨r, m1, V, b1, _⟩ := a2.mok.wrap (MOk.ret a2.mok.inv (a2.stack x (by rw [hx]; simp)))
        rw [b1] at hn; cases hn
      · cases hn

end MddMgr

/-- The token is a variable with no states. -/
def MTok.noStates (vars : String → Option Nat) : MTok → Bool
  | .var x => vars x == some 0
  | _ => false

namespace MWorld

/-- The state that a client who catches the panic of a call finds; `none` for the calls that do not panic on held
handles, for unchecked calls of `create_node`, and for a variable without states. -/
def caught (w : MWorld) : MCmd → Option MWorld
  | .rpn ts vars =>
    match MddMgr.rpnHalt vars { mgr := w.mgr, stack := [], cache := AMap.empty } ts with
    | none => none
    | some (s, t) => if t.noStates vars then none else some { w with mgr := s.mgr }
  | .varorder | .minL _ | .maxL _ | .ite _ _ _ => some w
  | _ => none

/-- Worlds reachable from a new manager by public calls, some of which may panic and be caught. -/
inductive Survives : MWorld → Prop
  | new : Survives MWorld.new
  | sol {w w' : MWorld} {o : Option MNode} (top : Bool) (f : Nat) : Survives w → w.sol top f = some (o, w') →
      Survives w'
  | step {w w' : MWorld} {o : MOut} (c : MCmd) : Survives w → w.Checked c → w.step c = some (o, w') → Survives w'
  | caught {w w' : MWorld} (c : MCmd) : Survives w → w.step c = none → w.caught c = some w' → Survives w'

end MWorld
end DD
