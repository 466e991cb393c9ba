import Verif.Core.Enum
import Verif.Core.Fold
import Verif.Bdd.Model
import Mathlib.Algebra.Ring.Defs

/-!
# Read-only analyses of BDDs

/repo/bss/src/bdd_count.rs, /repo/bss/src/bdd_prob.rs, /repo/bss/src/bdd_path.rs.  Numbers are taken in ℕ
(for `u64` see `Width.lean`) or, as in the code, in any type with 0, 1, +, −, × (the theorems on
values take a commutative ring: floating-point rounding is not modelled).  `none` = panic.
-/

set_option autoImplicit false
set_option linter.unusedSectionVars false

namespace DD
open Arena

namespace Bdd

/-! ## Counting -/

/-- /repo/bss/src/bdd_count.rs:4-13 -/
def power (x : Nat) : Nat → Nat
  | 0 => 1
  | n + 1 => power x n * x

/-- Terminals, /repo/bss/src/bdd_count.rs:55-68, 90. -/
def countLeaf (ss : List Bool) : T3 → Option Nat
  | .one => some (if ss.contains true then 1 else 0)
  | .zero => some (if ss.contains false then 1 else 0)
  | .undet => some 0

/-- One child's contribution, /repo/bss/src/bdd_count.rs:72-79 and 80-87.
`none` = underflow of `current_level - next_level - 1`. -/
def countKid (m : Arena T3) (cur : Nat) (c r : Nat) : Option Nat :=
  match m.level? c with
  | some next => if next < cur then some (power 2 (cur - next - 1) * r) else none
  | none => some (power 2 cur * r)

/-- Non-terminals, /repo/bss/src/bdd_count.rs:69-89. -/
def countComb (m : Arena T3) (i _h : Nat) : List (Nat × Nat) → Option Nat
  | [(c0, r0), (c1, r1)] =>
    match m.level? i with
    | none => none
    | some cur =>
      match countKid m cur c0 r0, countKid m cur c1 r1 with
      | some x, some y => some (0 + x + y)
      | _, _ => none
  | _ => none

/-- `bdd_count` with an empty cache, /repo/bss/src/bdd_count.rs:41-94 and bdd.rs:518-522. -/
def count (m : Arena T3) (ss : List Bool) (i : Nat) : Option Nat :=
  (m.memoFold (countLeaf ss) (countComb m) (m.rank i + 1) i AMap.empty).map (·.1)

/-- `BddNode::size`, /repo/bss/src/bdd.rs:528-534. -/
def nodeSize (m : Arena T3) (i : Nat) : Option (Nat × Nat × Nat) :=
  match m.nodeCount (m.rank i + 1) i [] with
  | none => none
  | some ((nn, nv, ne), _) => if ne = 0 then none else some (nn, nv, ne - 1)

/-! ## Probability -/

section
variable {R : Type} [Zero R] [One R] [Add R] [Sub R] [Mul R]

/-- Terminals, /repo/bss/src/bdd_prob.rs:20-33, 41. -/
def probLeaf (ss : List Bool) : T3 → Option R
  | .zero => some (if ss.contains false then 1 else 0)
  | .one => some (if ss.contains true then 1 else 0)
  | .undet => none

/-- Non-terminals, /repo/bss/src/bdd_prob.rs:34-40. -/
def probComb (m : Arena T3) (pv : String → Option R) (i _h : Nat) : List (Nat × R) → Option R
  | [(_, low), (_, high)] =>
    match m.label? i with
    | none => none
    | some x =>
      let fp := (pv x).getD 0
      some ((1 - fp) * low + fp * high)
  | _ => none

/-- `prob` with a given cache, /repo/bss/src/bdd_prob.rs:5-45. -/
def probC (m : Arena T3) (pv : String → Option R) (ss : List Bool) (i : Nat) (c : AMap Nat R) :
    Option (R × AMap Nat R) :=
  m.memoFold (probLeaf ss) (probComb m pv) (m.rank i + 1) i c

/-- `BddNode::prob`, /repo/bss/src/bdd.rs:478-491. -/
def prob (m : Arena T3) (pv : String → Option R) (ss : List Bool) (i : Nat) : Option R :=
  (probC m pv ss i AMap.empty).map (·.1)

end

/-! ## Birnbaum measure -/

/-- State of the depth-first search of /repo/bss/src/bdd_prob.rs:101-144: `check` (`true` = Persistent,
`false` = Temporary), `result` with the last pushed node first, `queue`. -/
structure Dfs where
  check : AMap Nat Bool
  result : List Nat
  queue : List Nat

/-- `for m in fnode.iter() { queue.push_back(m); visit(m) }`, /repo/bss/src/bdd_prob.rs:134-137. -/
def visitKids (visit : Nat → Dfs → Option Dfs) : List Nat → Dfs → Option Dfs
  | [], d => some d
  | c :: cs, d =>
    match visit c { d with queue := d.queue ++ [c] } with
    | none => none
    | some d => visitKids visit cs d

/-- /repo/bss/src/bdd_prob.rs:119-144 -/
def visit (m : Arena T3) : Nat → Nat → Dfs → Option Dfs
  | 0, _, _ => none
  | fuel + 1, x, d =>
    match d.check.get x with
    | some false => none
    | some true => some d
    | none =>
      let d := { d with check := d.check.insert x false }
      match m.nodes[x]? with
      | none => none
      | some n =>
        match visitKids (visit m fuel) n.kids d with
        | none => none
        | some d => some { d with check := d.check.insert x true, result := x :: d.result }

/-- The `while let Some(node) = queue.pop_front()` loop, /repo/bss/src/bdd_prob.rs:106-114. -/
def topoLoop (m : Arena T3) : Nat → Dfs → Option Dfs
  | fuel, d =>
    match d.queue with
    | [] => some d
    | x :: q =>
      match fuel with
      | 0 => none
      | fuel + 1 =>
        match d.check.get x with
        | some false => none
        | some true => topoLoop m fuel { d with queue := q }
        | none =>
          match visit m (m.rank x + 1) x { d with queue := q } with
          | none => none
          | some d => topoLoop m fuel d

/-- Number of edges in the arena: bounds the queue. -/
def edgeCount (m : Arena T3) : Nat := (m.nodes.map (fun n => n.kids.length)).sum

/-- /repo/bss/src/bdd_prob.rs:101-117 (`result` is already last-pushed-first, i.e. reversed). -/
def topologicalSort (m : Arena T3) (f : Nat) : Option (List Nat) :=
  (topoLoop m (1 + edgeCount m) ⟨AMap.empty, [], [f]⟩).map (·.result)

section
variable {R : Type} [Zero R] [One R] [Add R] [Sub R] [Mul R]

/-- `if let Some(&val) = map.get(k) { val + x } else { x }` followed by `insert`. -/
def accum {K : Type} [DecidableEq K] (c : AMap K R) (k : K) (x : R) : AMap K R :=
  c.insert k (match c.get k with
    | some val => val + x
    | none => x)

/-- The loop of /repo/bss/src/bdd_prob.rs:61-91 over the sorted nodes. -/
def bmeasLoop (m : Arena T3) (ss : List Bool) (env : String → Option R) :
    List Nat → AMap Nat R → AMap Nat R → AMap String R → Option (AMap String R)
  | [], _, _, ev => some ev
  | f :: fs, grad, cache, ev =>
    match m.nodes[f]? with
    | none => none
    | some (.term _) => bmeasLoop m ss env fs grad cache ev
    | some (.nt _ [c0, c1]) =>
      match m.label? f with
      | none => none
      | some x =>
        let w := (grad.get f).getD 0
        let p := (env x).getD 0
        let barp := 1 - p
        let grad := accum grad c0 (w * barp)
        let grad := accum grad c1 (w * p)
        match probC m env ss c0 cache with
        | none => none
        | some (p0, cache) =>
          match probC m env ss c1 cache with
          | none => none
          | some (p1, cache) =>
            bmeasLoop m ss env fs grad cache (accum ev x (w * (p1 - p0)))
    | some (.nt _ _) => none

/-- /repo/bss/src/bdd_prob.rs:47-93 -/
def bmeas (m : Arena T3) (ss : List Bool) (i : Nat) (env : String → Option R) :
    Option (AMap String R) :=
  match topologicalSort m i with
  | none => none
  | some sorted => bmeasLoop m ss env sorted ((AMap.empty).insert i 1) AMap.empty AMap.empty

end

/-! ## Enumeration of assignments -/

/-- /repo/bss/src/bdd_path.rs:4-8 -/
inductive StackValue where
  | node (l : Option Nat) (i : Nat)
  | push (x : String)
  | pop
deriving DecidableEq, Repr

/-- /repo/bss/src/bdd_path.rs:10-16; the head of `stack` is the top, the head of `path` is the last
pushed label.  The handle is kept by the caller. -/
structure PathSt where
  stack : List StackValue
  path : List String
  labels : List String
  ss : List Bool
deriving DecidableEq, Repr

/-- `for hid in 0..nheaders { labels[i] = value }`, /repo/bss/src/bdd_path.rs:26-32. -/
def fillLabels : List Header → List String → Option (List String)
  | [], ls => some ls
  | h :: hs, ls => if h.level < ls.length then fillLabels hs (ls.set h.level h.label) else none

/-- /repo/bss/src/bdd_path.rs:19-41 -/
def pathNew (m : Arena T3) (i : Nat) (ss : List Bool) : Option PathSt :=
  match fillLabels m.headers (List.replicate m.headers.length "") with
  | none => none
  | some labels => some { stack := [.node (m.level? i) i], path := [], labels := labels, ss := ss }

/-- `level.and_then(|x| x.checked_sub(1))` -/
def pred? : Option Nat → Option Nat
  | some (l + 1) => some l
  | _ => none

/-- The six pushes of /repo/bss/src/bdd_path.rs:59-66 (and 82-90, 92-100, 102-110):
`none` = `level.unwrap()` or index panic. -/
def expand (st : PathSt) (l : Option Nat) (lo hi : Nat) (rest : List StackValue) : Option PathSt :=
  match l with
  | none => none
  | some k =>
    match st.labels[k]? with
    | none => none
    | some x =>
      let stack := StackValue.push ("~" ++ x) :: .node (pred? l) lo :: .pop ::
        .push x :: .node (pred? l) hi :: .pop :: rest
      some { st with stack := stack }

/-- One turn of the loop of `next`, /repo/bss/src/bdd_path.rs:53-121: the new state and possibly a result. -/
def pathTurn (m : Arena T3) (st : PathSt) : StackValue → List StackValue → Option (Option (List String) × PathSt)
  | .push x, rest => some (none, { st with stack := rest, path := x :: st.path })
  | .pop, rest => some (none, { st with stack := rest, path := st.path.tail })
  | .node l i, rest =>
    match m.nodes[i]? with
    | none => none
    | some (.nt _ ch) =>
      if l = m.level? i then
        match ch with
        | [lo, hi] => (expand st l lo hi rest).map (fun s => (none, s))
        | _ => none
      else (expand st l i i rest).map (fun s => (none, s))
    | some (.term .undet) => some (none, { st with stack := rest })
    | some (.term t) =>
      if l = none then
        if st.ss.contains (t = .one) then some (some st.path, { st with stack := rest })
        else some (none, { st with stack := rest })
      else (expand st l i i rest).map (fun s => (none, s))

/-- One turn of the loop, with the test for the empty stack. -/
def pathStep (m : Arena T3) (st : PathSt) : Option (Option (Option (List String) × PathSt)) :=
  match st.stack with
  | [] => some none
  | v :: rest => (pathTurn m st v rest).map some

/-- Bound on the loop turns that a stack can cause. -/
def turnsNode : Nat → Nat
  | 0 => 1
  | n + 1 => 5 + 2 * turnsNode n

/-- Levels still to be decided. -/
def depth : Option Nat → Nat
  | none => 0
  | some l => l + 1

/-- Bound on the loop turns. -/
def turns : List StackValue → Nat
  | [] => 0
  | .node l _ :: st => turnsNode (depth l) + turns st
  | _ :: st => 1 + turns st

/-- `Iterator::next`, /repo/bss/src/bdd_path.rs:51-124. -/
def pathNext (m : Arena T3) (st : PathSt) : Option (Option (List String) × PathSt) :=
  Enum.nextF (pathStep m) (turns st.stack) st

end Bdd
end DD
