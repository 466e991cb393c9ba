import Verif.Mss.MddMgr
import Verif.Mss.ZmddMgr

/-!
# Model of `mss::MssMgr`

/repo/mss/src/mss.rs.  An MDD world and a ZMDD world side by side.  Simplification: `minpath` and `mincut` are only
applied to MDD handles of the same `MssMgr`.
-/

set_option autoImplicit false
set_option linter.unusedSectionVars false

namespace DD
open Arena

/-- /repo/mss/src/mss.rs:57-60, with the handles of both managers. -/
structure MssW where
  mdd : MWorld
  z : ZMWorld

/-- Public calls: any call on the MDD manager or its handles (/repo/mss/src/mss.rs:74-76, 85-147), any call on the
ZMDD handles (79-81), and the calls of `MssMgr` itself. -/
inductive MssCmd where
  | mdd (c : MCmd)
  | zmdd (c : ZMCmd)
  | minpath (f : Nat)
  | mincut (f : Nat)
  | clearCache

/-- What a call returns; `fam` is the `Option<ZmddNode>` of `minpath` and `mincut`. -/
inductive MssOut where
  | unit
  | mdd (o : MOut)
  | zmdd (o : ZMOut)
  | fam (h : Option Nat)

namespace MssW

/-- `minpath` (`top = false`) /repo/mss/src/mss.rs:170-180 and `mincut` /repo/mss/src/mss.rs:200-210. -/
def sol (w : MssW) (top : Bool) (f : Nat) : Option (MssOut × MssW) :=
  match w.mdd.hs.held.get f, w.mdd.sol top f with
  | some x, some (fake, m) =>
    match m.mgr.getVarorder, evalExtreme m.mgr.w.eng x top with
    | some vars, some baseline =>
      match fake with
      | none => some (.fam none, { w with mdd := m })
      | some r =>
        match w.z.convert m.mgr.w.eng r top vars baseline with
        | none => none
        | some (h, z) => some (.fam (some h), { mdd := m, z := z })
    | _, _ => none
  | _, _ => none

/-- One public call; `none` = panic or a handle that is not held. -/
def step (w : MssW) : MssCmd → Option (MssOut × MssW)
  | .mdd c => (w.mdd.step c).map (fun p => (.mdd p.1, { w with mdd := p.2 }))
  | .zmdd c => (w.z.step c).map (fun p => (.zmdd p.1, { w with z := p.2 }))
  | .minpath f => w.sol false f
  | .mincut f => w.sol true f
  -- mss.rs:149-152
  | .clearCache => (w.mdd.step .clearCache).map (fun p => (.unit, { mdd := p.2, z := w.z.clearCache }))

/-- /repo/mss/src/mss.rs:66-71 -/
def new : MssW := { mdd := MWorld.new, z := ZMWorld.new }

/-- Calls the code does not check. -/
def Checked (w : MssW) : MssCmd → Prop
  | .mdd c => w.mdd.Checked c
  | _ => True

/-- Worlds reachable from a new manager by public calls. -/
inductive Reachable : MssW → Prop
  | new : Reachable MssW.new
  | step {w w' : MssW} {o : MssOut} (c : MssCmd) : Reachable w → w.Checked c → w.step c = some (o, w') →
      Reachable w'

/-- A whole session: outputs in order. -/
def run (w : MssW) : List MssCmd → Option (List MssOut × MssW)
  | [] => some ([], w)
  | c :: cs =>
    match w.step c with
    | none => none
    | some (o, w') =>
      match run w' cs with
      | none => none
      | some (os, w'') => some (o :: os, w'')

end MssW
end DD
