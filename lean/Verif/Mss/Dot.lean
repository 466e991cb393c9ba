import Verif.Core.Dot
import Verif.Mss.MddMgr
import Verif.Mss.ZmddMgr

/-!
# `MddNode::dot`, `ZmddNode::dot`
-/

set_option autoImplicit false
set_option linter.unusedSectionVars false
set_option linter.unusedVariables false

namespace DD

/-- Terminal labels /repo/mddcore/src/mdd_dot.rs:16-27; children drawn :36-38. -/
def mddDot : DotStyle T3 where
  label
    | .zero => "F"
    | .one => "T"
    | .undet => "?"
  drawn
    | .zero => true
    | .one => true
    | .undet => false

/-- Terminal labels /repo/mddcore/src/mtmdd_dot.rs:20-31, /repo/mddcore/src/zmdd_dot.rs:33-44; children drawn
mtmdd_dot.rs:40, zmdd_dot.rs:54. -/
def valDot : DotStyle (Option Int) where
  label
    | none => "Undet"
    | some v => toString v
  drawn
    | none => false
    | some _ => true

/-- /repo/mddcore/src/mtmdd2_dot.rs:11-19 -/
def Mtmdd2.dotLines (s : Mtmdd2) : MNode → Option (List DotLine)
  | .value i => s.mtmdd.arena.dotLines valDot i
  | .bool i => s.mdd.arena.dotLines mddDot i

/-- `MddNode::dot`, /repo/mss/src/mdd.rs:742-746. -/
def MWorld.dot (w : MWorld) (h : Nat) : Option String :=
  match w.hs.held.get h with
  | none => none
  | some x => (w.mgr.w.eng.dotLines x).map dotText

/-- `ZmddNode::dot`, /repo/mss/src/zmdd.rs:283-287. -/
def ZMWorld.dot (w : ZMWorld) (h : Nat) : Option String :=
  match w.hs.held.get h with
  | none => none
  | some z => (w.mgr.eng.arena.dotLines valDot z.node).map dotText

end DD
