import Verif.Bss.Analysis
import Verif.Mss.MddMgr

/-!
# Read-only analyses of MDDs and MTMDDs

/repo/mss/src/mdd_prob.rs, mdd_count.rs, mdd_path.rs.  Each analysis exists twice in the code, once per
forest (`vprob`/`bprob`, …) with the same text except for the terminals; here it is written once over
`Arena T`, with the terminals' treatment given by `Sel T`.  Where the two versions differ (the memo key
of the counts) the difference is a parameter.

Numbers are taken in ℕ (for `u64` see `Width.lean`) or, as in the code, in any type with 0, 1, +, −, ×
(the theorems on values take a commutative ring: floating-point rounding is not modelled).  `none` = panic.
-/

set_option autoImplicit false
set_option linter.unusedSectionVars false

namespace DD
open Arena

/-- Treatment of terminals: `und t`: it is `Undet`; `sel t`: its value is in `ss`. -/
structure Sel (T : Type) where
  und : T → Bool
  sel : T → Bool

/-- Value forest: `Terminal(v)` with `ss.contains(v)`, e.g. /repo/mss/src/mdd_prob.rs:44-51, 63. -/
def selV (ss : List Int) : Sel (Option Int) where
  und t := t.isNone
  sel t := match t with
    | some v => ss.contains v
    | none => false

/-- Boolean forest: `Zero` with `ss.contains(0)`, `One` with `ss.contains(1)`, e.g.
/repo/mss/src/mdd_prob.rs:85-98, 110. -/
def selB (ss : List Int) : Sel T3 where
  und t := decide (t = .undet)
  sel t := match t with
    | .zero => ss.contains 0
    | .one => ss.contains 1
    | .undet => false

namespace Mda
variable {T : Type} [DecidableEq T] [Fixed T]

/-! ## Probability -/

section
variable {R : Type} [Zero R] [One R] [Add R] [Sub R] [Mul R]

/-- `for (i, x) in fnodeid { result = result + fp[i] * tmp }`, /repo/mss/src/mdd_prob.rs:57-60, 104-107;
`none` = index panic. -/
def dotKids (fp : List R) : Nat → List (Nat × R) → R → Option R
  | _, [], acc => some acc
  | i, (_, r) :: rs, acc =>
    match fp[i]? with
    | none => none
    | some p => dotKids fp (i + 1) rs (acc + p * r)

/-- Terminals, /repo/mss/src/mdd_prob.rs:44-51, 63 and 85-98, 110. -/
def probLeaf (s : Sel T) (t : T) : Option R :=
  if s.und t then some 0 else if s.sel t then some 1 else some 0

/-- Non-terminals, /repo/mss/src/mdd_prob.rs:52-62, 99-109. -/
def probComb (m : Arena T) (pv : String → Option (List R)) (i _h : Nat) (crs : List (Nat × R)) : Option R :=
  match m.label? i with
  | none => none
  | some x =>
    match pv x with
    | none => none
    | some fp => dotKids fp 0 crs 0

/-- `vprob`/`bprob` with a given cache, /repo/mss/src/mdd_prob.rs:28-67, 69-114. -/
def probC (m : Arena T) (pv : String → Option (List R)) (s : Sel T) (i : Nat) (c : AMap Nat R) :
    Option (R × AMap Nat R) :=
  m.memoFold (probLeaf s) (probComb m pv) (m.rank i + 1) i c

/-- /repo/mss/src/mdd_prob.rs:6-26 -/
def prob (m : Arena T) (pv : String → Option (List R)) (s : Sel T) (i : Nat) : Option R :=
  (probC m pv s i AMap.empty).map (·.1)

end

/-! ## Birnbaum measure -/

/-- `for c in children(f) { topo_postorder(c, …) }`, /repo/mss/src/mdd_prob.rs:172-174.  The state is the
visited set and the order with the last pushed node first. -/
def topoKids (go : Nat → List Nat × List Nat → Option (List Nat × List Nat)) :
    List Nat → List Nat × List Nat → Option (List Nat × List Nat)
  | [], s => some s
  | c :: cs, s =>
    match go c s with
    | none => none
    | some s => topoKids go cs s

/-- /repo/mss/src/mdd_prob.rs:165-176 -/
def topoF (m : Arena T) : Nat → Nat → List Nat × List Nat → Option (List Nat × List Nat)
  | 0, _, _ => none
  | fuel + 1, f, (visited, order) =>
    if f ∈ visited then some (visited, order)
    else
      match m.nodes[f]? with
      | none => none
      | some n =>
        match topoKids (topoF m fuel) n.kids (f :: visited, order) with
        | none => none
        | some (visited, order) => some (visited, f :: order)

/-- The order after `order.reverse()`, root first: /repo/mss/src/mdd_prob.rs:188-195, 238-245. -/
def topo (m : Arena T) (f : Nat) : Option (List Nat) := (topoF m (m.rank f + 1) f ([], [])).map (·.2)

section
variable {R : Type} [Zero R] [One R] [Add R] [Sub R] [Mul R]

/-- The loop over the edges of one node, /repo/mss/src/mdd_prob.rs:212-216, 262-266: weights, prob memo
and the children's probabilities. -/
def edgeLoop (m : Arena T) (pv : String → Option (List R)) (s : Sel T) (w : R) (pj : List R) :
    Nat → List Nat → AMap Nat R → AMap Nat R → Option (AMap Nat R × AMap Nat R × List R)
  | _, [], grad, cache => some (grad, cache, [])
  | j, e :: es, grad, cache =>
    match pj[j]? with
    | none => none
    | some p =>
      let grad := grad.insert e ((grad.get e).getD 0 + w * p)
      match probC m pv s e cache with
      | none => none
      | some (r, cache) =>
        match edgeLoop m pv s w pj (j + 1) es grad cache with
        | none => none
        | some (grad, cache, rs) => some (grad, cache, r :: rs)

/-- `for d in 0..m-1 { slot[d] = slot[d] + w * (probs[d+1] - probs[d]) }`,
/repo/mss/src/mdd_prob.rs:221-223, 271-273, for the given list of `d`; `none` = index panic. -/
def addDiffs (w : R) (probs : List R) : List Nat → List R → Option (List R)
  | [], slot => some slot
  | d :: ds, slot =>
    match slot[d]?, probs[d + 1]?, probs[d]? with
    | some x, some p1, some p0 => addDiffs w probs ds (slot.set d (x + w * (p1 - p0)))
    | _, _, _ => none

/-- The loop over the sorted nodes, /repo/mss/src/mdd_prob.rs:201-225, 251-275. -/
def bmeasLoop (m : Arena T) (pv : String → Option (List R)) (s : Sel T) :
    List Nat → AMap Nat R → AMap Nat R → AMap String (List R) → Option (AMap String (List R))
  | [], _, _, ev => some ev
  | f :: fs, grad, cache, ev =>
    match m.nodes[f]? with
    | none => none
    | some (.term _) => bmeasLoop m pv s fs grad cache ev
    | some (.nt _ edges) =>
      match m.label? f with
      | none => none
      | some x =>
        let w := (grad.get f).getD 0
        match pv x with
        | none => none
        | some pj =>
          match edgeLoop m pv s w pj 0 edges grad cache with
          | none => none
          | some (grad, cache, probs) =>
            if edges.length = 0 then none
            else
              let slot := (ev.get x).getD (List.replicate (edges.length - 1) 0)
              match addDiffs w probs (List.range (edges.length - 1)) slot with
              | none => none
              | some slot => bmeasLoop m pv s fs grad cache (ev.insert x slot)

/-- /repo/mss/src/mdd_prob.rs:178-226, 228-276 -/
def bmeas (m : Arena T) (pv : String → Option (List R)) (s : Sel T) (i : Nat) : Option (AMap String (List R)) :=
  match topo m i with
  | none => none
  | some order => bmeasLoop m pv s order ((AMap.empty).insert i 1) AMap.empty AMap.empty

end

/-! ## Counting -/

/-- `for hid in 0..nheaders { level2headers[h.level()] = hid }`, /repo/mss/src/mdd_count.rs:109-114,
124-129; `none` = index panic. -/
def fillL2H : List Header → Nat → List Nat → Option (List Nat)
  | [], _, l => some l
  | h :: hs, k, l => if h.level < l.length then fillL2H hs (k + 1) (l.set h.level k) else none

/-- `level > mdd.level(&node)`, in the order of `Option` (`None` first). -/
def above (m : Arena T) (lv : Option Nat) (i : Nat) : Bool := decide (Bdd.depth (m.level? i) < Bdd.depth lv)

/-- `vmdd_count` (`key i lv = (i, lv)`) and `bmdd_count` (`key i lv = i`),
/repo/mss/src/mdd_count.rs:138-180, 182-230. -/
def countF {K : Type} [DecidableEq K] (key : Nat → Option Nat → K) (m : Arena T) (s : Sel T) (l2h : List Nat) :
    Nat → Option Nat → Nat → AMap K Nat → Option (Nat × AMap K Nat)
  | 0, _, _, _ => none
  | fuel + 1, lv, i, c =>
    match c.get (key i lv) with
    | some r => some (r, c)
    | none =>
      match m.nodes[i]? with
      | none => none
      | some n =>
        let skip : Option (Nat × AMap K Nat) :=
          match lv with
          | none => none
          | some l =>
            match l2h[l]? with
            | none => none
            | some h =>
              match m.headers[h]? with
              | none => none
              | some hd =>
                match countF key m s l2h fuel (Bdd.pred? lv) i c with
                | none => none
                | some (r, c) => some (hd.edgeNum * r, c)
        let res : Option (Nat × AMap K Nat) :=
          match n with
          | .nt _ ch =>
            if above m lv i then skip
            else
              match foldKids (countF key m s l2h fuel (Bdd.pred? lv)) ch c with
              | none => none
              | some (rs, c) => some (rs.sum, c)
          | .term t =>
            if s.und t then some (0, c)
            else if above m lv i then skip
            else some (if s.sel t then 1 else 0, c)
        match res with
        | none => none
        | some (r, c) => some (r, c.insert (key i lv) r)

/-- One arm of `mdd_count`, /repo/mss/src/mdd_count.rs:105-119, 120-134. -/
def count {K : Type} [DecidableEq K] (key : Nat → Option Nat → K) (m : Arena T) (s : Sel T) (i : Nat) : Option Nat :=
  match m.level? i with
  | none => some 1
  | some l =>
    match fillL2H m.headers 0 (List.replicate m.headers.length 0) with
    | none => none
    | some l2h => (countF key m s l2h (m.rank i + 1) (some l) i AMap.empty).map (·.1)

/-- `mddnode_count`, /repo/mss/src/mdd_count.rs:6-25, over 27-59, 61-93. -/
def nodeSize (m : Arena T) (i : Nat) : Option (Nat × Nat × Nat) :=
  match m.nodeCount (m.rank i + 1) i [] with
  | none => none
  | some ((nn, nv, ne), _) => if ne = 0 then none else some (nn, nv, ne - 1)

/-! ## Enumeration of assignments -/

/-- /repo/mss/src/mdd_path.rs:5-9 -/
inductive StackValue where
  | node (l : Option Nat) (i : Nat)
  | push (x : String) (i : Nat)
  | pop (x : String)
deriving DecidableEq, Repr

/-- /repo/mss/src/mdd_path.rs:11-18; the head of `stack` is the top.  The handle and `ss` are kept by the
caller. -/
structure PathSt where
  stack : List StackValue
  path : AMap String Nat
  labels : List String
  edges : List Nat
deriving DecidableEq

/-- The loops of /repo/mss/src/mdd_path.rs:34-40, 43-49; `none` = index panic. -/
def fillPath : List Header → List String → List Nat → Option (List String × List Nat)
  | [], ls, es => some (ls, es)
  | h :: hs, ls, es =>
    if h.level < ls.length ∧ h.level < es.length then
      fillPath hs (ls.set h.level h.label) (es.set h.level h.edgeNum)
    else none

/-- /repo/mss/src/mdd_path.rs:24-60.  `nh` is the number of headers of the value forest; the headers of
the node's own forest are read (`get_header(&hid).unwrap()`). -/
def pathNew (m : Arena T) (nh : Nat) (i : Nat) : Option PathSt :=
  if nh ≤ m.headers.length then
    match fillPath (m.headers.take nh) (List.replicate nh "") (List.replicate nh 0) with
    | none => none
    | some (labels, edges) =>
      some { stack := [.node (m.level? i) i], path := AMap.empty, labels := labels, edges := edges }
  else none

/-- The pushes of /repo/mss/src/mdd_path.rs:100-104, 110-114 (and 148-152, 158-162): branch `j` to
`cs[j]`, the first one on top. -/
def branches (x : String) (lv : Option Nat) : Nat → List Nat → List StackValue
  | _, [] => []
  | j, c :: cs => .push x j :: .node lv c :: .pop x :: branches x lv (j + 1) cs

/-- One turn of the loop of `vnext`/`bnext`, /repo/mss/src/mdd_path.rs:91-133, 139-186. -/
def pathTurn (m : Arena T) (s : Sel T) (st : PathSt) :
    StackValue → List StackValue → Option (Option (AMap String Nat) × PathSt)
  | .push x j, rest => some (none, { st with stack := rest, path := st.path.insert x j })
  | .pop x, rest => some (none, { st with stack := rest, path := st.path.remove x })
  | .node lv i, rest =>
    let skip : Option (Option (AMap String Nat) × PathSt) :=
      match lv with
      | none => none
      | some l =>
        match st.labels[l]?, st.edges[l]? with
        | some x, some e =>
          some (none, { st with stack := branches x (Bdd.pred? lv) 0 (List.replicate e i) ++ rest })
        | _, _ => none
    match m.nodes[i]? with
    | none => none
    | some (.nt _ ch) =>
      if above m lv i then skip
      else
        match lv with
        | none => none
        | some l =>
          match st.labels[l]? with
          | none => none
          | some x => some (none, { st with stack := branches x (Bdd.pred? lv) 0 ch ++ rest })
    | some (.term t) =>
      if s.und t then some (none, { st with stack := rest })
      else if above m lv i then skip
      else if s.sel t then some (some st.path, { st with stack := rest })
      else some (none, { st with stack := rest })

/-- One turn, with the test for the empty stack. -/
def pathStep (m : Arena T) (s : Sel T) (st : PathSt) : Option (Option (Option (AMap String Nat) × PathSt)) :=
  match st.stack with
  | [] => some none
  | v :: rest => (pathTurn m s st v rest).map some

/-- Bound on the number of branches of any node. -/
def maxDeg (m : Arena T) (st : PathSt) : Nat := st.edges.sum + (m.nodes.map (fun n => n.kids.length)).sum

/-- Bound on the loop turns that a node at depth `n` can cause, with at most `b` branches each. -/
def turnsNode (b : Nat) : Nat → Nat
  | 0 => 1
  | n + 1 => 1 + b * (2 + turnsNode b n)

/-- Bound on the loop turns. -/
def turns (b : Nat) : List StackValue → Nat
  | [] => 0
  | .node l _ :: st => turnsNode b (Bdd.depth l) + turns b st
  | _ :: st => 1 + turns b st

/-- `Iterator::next`, /repo/mss/src/mdd_path.rs:73-82, 89-135, 137-188. -/
def pathNext (m : Arena T) (s : Sel T) (st : PathSt) : Option (Option (AMap String Nat) × PathSt) :=
  Enum.nextF (pathStep m s) (turns (maxDeg m st) st.stack) st

end Mda

/-! ## Calls on handles -/

namespace MWorld

/-- Run an analysis on the node of a handle, in the node's forest. -/
def query {A : Type} (w : MWorld) (f : Nat) (v : Arena (Option Int) → Nat → Option A) (b : Arena T3 → Nat → Option A) :
    Option A :=
  match w.hs.held.get f with
  | none => none
  | some (.value i) => v w.mgr.w.eng.mtmdd.arena i
  | some (.bool i) => b w.mgr.w.eng.mdd.arena i

/-- `MddNode::prob`, /repo/mss/src/mdd.rs:884-898. -/
def prob {R : Type} [Zero R] [One R] [Add R] [Sub R] [Mul R] (w : MWorld) (pv : String → Option (List R)) (ss : List Int) (f : Nat) : Option R :=
  w.query f (fun m i => Mda.prob m pv (selV ss) i) (fun m i => Mda.prob m pv (selB ss) i)

/-- `MddNode::bmeas`, /repo/mss/src/mdd.rs:911-925. -/
def bmeas {R : Type} [Zero R] [One R] [Add R] [Sub R] [Mul R] (w : MWorld) (pv : String → Option (List R)) (ss : List Int) (f : Nat) :
    Option (AMap String (List R)) :=
  w.query f (fun m i => Mda.bmeas m pv (selV ss) i) (fun m i => Mda.bmeas m pv (selB ss) i)

/-- `MddNode::mdd_count`, /repo/mss/src/mdd.rs:930-934: the memo is keyed by node and level for values, by
node for Booleans. -/
def count (w : MWorld) (ss : List Int) (f : Nat) : Option Nat :=
  w.query f (fun m i => Mda.count (fun i lv => (i, lv)) m (selV ss) i) (fun m i => Mda.count (fun i _ => i) m (selB ss) i)

/-- `MddNode::mdd_extract`, /repo/mss/src/mdd.rs:936-938: the iterator's first state.  The clone of the
handle that the iterator keeps is not counted here (it only pins a node that is pinned already). -/
def extract (w : MWorld) (f : Nat) : Option Mda.PathSt :=
  w.query f (fun m i => Mda.pathNew m w.mgr.w.eng.mtmdd.arena.headers.length i)
    (fun m i => Mda.pathNew m w.mgr.w.eng.mtmdd.arena.headers.length i)

/-- `MddPath::next` for the iterator over handle `f`, /repo/mss/src/mdd_path.rs:73-82. -/
def next (w : MWorld) (ss : List Int) (f : Nat) (st : Mda.PathSt) : Option (Option (AMap String Nat) × Mda.PathSt) :=
  w.query f (fun m _ => Mda.pathNext m (selV ss) st) (fun m _ => Mda.pathNext m (selB ss) st)

/-- `MddPath::len`, /repo/mss/src/mdd_path.rs:62-64. -/
def pathLen (w : MWorld) (ss : List Int) (f : Nat) : Option Nat := w.count ss f

/-- `MddNode::size`, /repo/mss/src/mdd.rs:940-944. -/
def nodeSize (w : MWorld) (f : Nat) : Option (Nat × Nat × Nat) :=
  w.query f (fun m i => Mda.nodeSize m i) (fun m i => Mda.nodeSize m i)

end MWorld
end DD
