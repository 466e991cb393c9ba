import Verif.Bss.Analysis
import Verif.Bss.ReachW

/-!
# Read-only calls on BDD handles
-/

set_option autoImplicit false
set_option linter.unusedSectionVars false

namespace DD
namespace World
open Bdd

/-- `BddNode::get_id`, /repo/bss/src/bdd.rs:364-366. -/
def bddId (w : World) (f : Nat) : Option Nat := w.held.get f

/-- `BddNode::get_header`, /repo/bss/src/bdd.rs:368-373 (`headerid` of a terminal is `None`). -/
def bddHeader (w : World) (f : Nat) : Option (Option Nat) :=
  match w.held.get f with
  | none => none
  | some i =>
    match w.mgr.bdd.arena.node? i with
    | some (.nt h _) => some (some h)
    | _ => some none

/-- `BddNode::get_label`, /repo/bss/src/bdd.rs:384-391. -/
def bddLabel (w : World) (f : Nat) : Option (Option String) :=
  match w.held.get f with
  | none => none
  | some i => some (w.mgr.bdd.arena.label? i)

/-- `BddNode::bdd_count`, /repo/bss/src/bdd.rs:518-522. -/
def bddCount (w : World) (ss : List Bool) (f : Nat) : Option Nat :=
  match w.held.get f with
  | none => none
  | some i => count w.mgr.bdd.arena ss i

/-- `BddNode::bdd_extract`, /repo/bss/src/bdd.rs:524-526: the iterator's first state.  The clone of the
handle that the iterator keeps is not counted here (it only pins a node that is pinned already). -/
def bddExtract (w : World) (ss : List Bool) (f : Nat) : Option PathSt :=
  match w.held.get f with
  | none => none
  | some i => pathNew w.mgr.bdd.arena i ss

/-- `BddPath::next`, /repo/bss/src/bdd_path.rs:51-124. -/
def bddNext (w : World) (st : PathSt) : Option (Option (List String) × PathSt) :=
  pathNext w.mgr.bdd.arena st

/-- `BddPath::len`, /repo/bss/src/bdd_path.rs:43-45. -/
def bddPathLen (w : World) (f : Nat) (st : PathSt) : Option Nat := w.bddCount st.ss f

/-- `BddNode::prob`, /repo/bss/src/bdd.rs:478-491. -/
def bddProb {R : Type} [Zero R] [One R] [Add R] [Sub R] [Mul R] (w : World) (pv : String → Option R) (ss : List Bool) (f : Nat) : Option R :=
  match w.held.get f with
  | none => none
  | some i => prob w.mgr.bdd.arena pv ss i

/-- `BddNode::bmeas`, /repo/bss/src/bdd.rs:493-499. -/
def bddBmeas {R : Type} [Zero R] [One R] [Add R] [Sub R] [Mul R] (w : World) (pv : String → Option R) (ss : List Bool) (f : Nat) :
    Option (AMap String R) :=
  match w.held.get f with
  | none => none
  | some i => bmeas w.mgr.bdd.arena ss i pv

/-- `BddNode::size`, /repo/bss/src/bdd.rs:528-534. -/
def bddSize (w : World) (f : Nat) : Option (Nat × Nat × Nat) :=
  match w.held.get f with
  | none => none
  | some i => nodeSize w.mgr.bdd.arena i

end World
end DD
