import Verif.Core.Dot
import Verif.Bss.BddMgr
import Verif.Bss.ZddMgr

/-!
# `BddNode::dot`, `ZddNode::dot`
-/

set_option autoImplicit false
set_option linter.unusedSectionVars false
set_option linter.unusedVariables false

namespace DD

/-- Terminal labels /repo/bddcore/src/bdd_dot.rs:17-28; children drawn :37-39. -/
def bddDot : DotStyle T3 where
  label
    | .undet => "?"
    | .zero => "0"
    | .one => "1"
  drawn
    | .undet => false
    | .zero => true
    | .one => true

/-- Terminal labels /repo/bddcore/src/zdd_dot.rs:24-35; children drawn :46. -/
def zddDot : DotStyle T3 where
  label
    | .undet => "*"
    | .zero => "0"
    | .one => "1"
  drawn
    | .undet => false
    | .zero => false
    | .one => true

/-- `BddNode::dot`, /repo/bss/src/bdd.rs:438-442. -/
def World.dot (w : World) (h : Nat) : Option String :=
  match w.held.get h with
  | none => none
  | some i => (w.mgr.bdd.arena.dotLines bddDot i).map dotText

/-- `ZddNode::dot`, /repo/bss/src/zdd.rs:245-249. -/
def ZWorld.dot (w : ZWorld) (h : Nat) : Option String :=
  match w.hs.held.get h with
  | none => none
  | some i => (w.mgr.w.eng.arena.dotLines zddDot i).map dotText

end DD
