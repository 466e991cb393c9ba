import Verif.Core.Enum
import Verif.Core.Fold
import Verif.Zdd.Model

/-!
# Read-only analyses of ZDDs

/repo/bss/src/zdd_count.rs and /repo/bss/src/zdd_path.rs.  Counts are taken in ℕ (for `u64`
see `Verif/Bss/Width.lean`).  `none` = panic.
-/

set_option autoImplicit false
set_option linter.unusedSectionVars false

namespace DD
open Arena
namespace Zdd

/-- Does `ss` select the terminal?  /repo/bss/src/zdd_count.rs:23-36, 42 and
/repo/bss/src/zdd_path.rs:49-62, 71. -/
def acc (ss : List Bool) : T3 → Bool
  | .one => ss.contains true
  | .zero => ss.contains false
  | .undet => false

/-- Non-terminals, /repo/bss/src/zdd_count.rs:37-41. -/
def zcountComb (_i _h : Nat) : List (Nat × Nat) → Option Nat
  | [(_, e0), (_, e1)] => some (e0 + e1)
  | _ => none

/-- `zdd_count` with an empty cache, /repo/bss/src/zdd_count.rs:10-46 and zdd.rs:287-292. -/
def zcount (m : Arena T3) (ss : List Bool) (i : Nat) : Option Nat :=
  (m.memoFold (fun t => some (if acc ss t then 1 else 0)) zcountComb (m.rank i + 1) i AMap.empty).map (·.1)

/-- `ZddNode::size`, /repo/bss/src/zdd.rs:299-305 with `node_count`, /repo/bss/src/zdd_count.rs:49-67. -/
def zsize (m : Arena T3) (i : Nat) : Option (Nat × Nat × Nat) :=
  match m.nodeCount (m.rank i + 1) i [] with
  | none => none
  | some ((nn, nv, ne), _) => if ne = 0 then none else some (nn, nv, ne - 1)

/-- /repo/bss/src/zdd_path.rs:4-8 -/
inductive ZStack where
  | node (i : Nat)
  | push (x : String)
  | pop
deriving Repr, DecidableEq

/-- `ZddPath`, /repo/bss/src/zdd_path.rs:16-21, without the handle that keeps the root alive.  `stack` has the top first; `path` has the
last pushed label first, so it is the reversed `Vec` that `next` returns. -/
structure ZPath where
  stack : List ZStack
  path : List String
  ss : List Bool
deriving Repr, DecidableEq

/-- /repo/bss/src/zdd_path.rs:24-34 -/
def zpathNew (i : Nat) (ss : List Bool) : ZPath := ⟨[.node i], [], ss⟩

/-- One turn of the loop, /repo/bss/src/zdd_path.rs:47-76: `some none` = the stack is empty. -/
def zpathStep (m : Arena T3) (st : ZPath) : Option (Option (Option (List String) × ZPath)) :=
  match st.stack with
  | [] => some none
  | .push x :: rest => some (some (none, ⟨rest, x :: st.path, st.ss⟩))
  | .pop :: rest => some (some (none, ⟨rest, st.path.tail, st.ss⟩))
  | .node i :: rest =>
    match m.nodes[i]? with
    | none => none
    | some (.term t) => some (some (if acc st.ss t then some st.path else none, ⟨rest, st.path, st.ss⟩))
    | some (.nt _ [lo, hi]) =>
      match m.label? i with
      | none => none
      | some x => some (some (none, ⟨.node lo :: .push x :: .node hi :: .pop :: rest, st.path, st.ss⟩))
    | some (.nt _ _) => none

/-- Turns needed for a node of rank `n`. -/
def zturnsN : Nat → Nat
  | 0 => 1
  | n + 1 => 2 * zturnsN n + 3

/-- Turns needed for a stack. -/
def zturns (m : Arena T3) : List ZStack → Nat
  | [] => 0
  | .node i :: rest => zturnsN (m.rank i) + zturns m rest
  | _ :: rest => 1 + zturns m rest

/-- `ZddPath::next`, /repo/bss/src/zdd_path.rs:44-79. -/
def zpathNext (m : Arena T3) (st : ZPath) : Option (Option (List String) × ZPath) :=
  Enum.nextF (zpathStep m) (zturns m st.stack) st

end Zdd
end DD
