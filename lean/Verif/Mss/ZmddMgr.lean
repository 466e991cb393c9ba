import Verif.Core.Enum
import Verif.Core.Fold
import Verif.Wrap.Core
import Verif.Mss.Convert

/-!
# Model of `mss::ZmddMgr` and `ZmddNode`

/repo/mss/src/zmdd.rs.  `get_mgr` (raw engine access) and `dot` are outside the model.  Counts are taken in ℕ
(for `u64` see `Width.lean`).  `none` = panic.
-/

set_option autoImplicit false
set_option linter.unusedSectionVars false

namespace DD
open Arena

/-- `ZmddNode`, /repo/mss/src/zmdd.rs:128-136, without the two weak pointers to the manager. -/
structure ZNd where
  node : Nat
  reverse : Bool
  vars : List (String × Nat)
deriving DecidableEq, Repr

/-- The wrapper's view of the engine, /repo/mss/src/zmdd.rs:24-39. -/
def zmOps : EngOps Zmdd Nat where
  live := Zmdd.liveNodeCount
  gc := Zmdd.gc

/-! ## Reading a family -/

namespace Zma

/-- The loop of `labels`, /repo/mss/src/zmdd.rs:204-220; the head of `stack` is the top. -/
def labelsF (m : Arena (Option Int)) : Nat → List Nat → List Nat → List Int → Option (List Int)
  | _, [], _, out => some out
  | 0, _ :: _, _, _ => none
  | n + 1, i :: stack, seen, out =>
    if i ∈ seen then labelsF m n stack seen out
    else
      match m.node? i with
      | none => none
      | some (.term none) => labelsF m n stack (i :: seen) out
      | some (.term (some v)) => labelsF m n stack (i :: seen) (out ++ [v])
      | some (.nt _ ch) => labelsF m n (ch.reverse ++ stack) (i :: seen) out

/-- `Vec::dedup`: of equal neighbours the first is kept. -/
def dedup : List Int → List Int
  | [] => []
  | v :: vs =>
    match dedup vs with
    | [] => [v]
    | w :: ws => if v = w then w :: ws else v :: w :: ws

/-- Insertion into a sorted list. -/
def insSort (v : Int) : List Int → List Int
  | [] => [v]
  | w :: ws => if v ≤ w then v :: w :: ws else w :: insSort v ws

/-- `Vec::sort` (any sorting algorithm gives this list). -/
def sort : List Int → List Int
  | [] => []
  | v :: vs => insSort v (sort vs)

/-- Loop turns that `labels` can need. -/
def labelsFuel (m : Arena (Option Int)) : Nat :=
  ((List.range m.nodes.length).map m.outDeg).sum + 1

/-- `labels`, /repo/mss/src/zmdd.rs:204-223. -/
def labels (m : Arena (Option Int)) (i : Nat) : Option (List Int) :=
  match labelsF m (labelsFuel m) [i] [] [] with
  | none => none
  | some out => some (dedup (sort out))

/-- The two terminal arms of `zmdd_count`, /repo/mss/src/zmdd.rs:347-354. -/
def countLeaf (ss : List Int) : Option Int → Option Nat
  | none => some 0
  | some v => some (if ss.contains v then 1 else 0)

/-- `zmdd_count` with an empty cache, /repo/mss/src/zmdd.rs:273-278, 334-362. -/
def count (m : Arena (Option Int)) (ss : List Int) (i : Nat) : Option Nat :=
  (m.memoFold (countLeaf ss) (fun _ _ rs => some (rs.map (·.2)).sum) (m.rank i + 1) i AMap.empty).map (·.1)

/-- /repo/mss/src/zmdd.rs:364-368 -/
inductive SV where
  | node (i : Nat)
  | push (x : String) (k : Nat)
  | pop (x : String)
deriving DecidableEq, Repr

/-- `ZmddPath`, /repo/mss/src/zmdd.rs:374-383, without the handle that keeps the root alive; the head of `stack`
is the top. -/
structure PathSt where
  stack : List SV
  path : AMap String Nat
  baseline : AMap String Nat
  ss : List Int
  reverse : Bool
deriving DecidableEq

/-- The baseline map of /repo/mss/src/zmdd.rs:393-397; `none` = subtraction overflow. -/
def baselineF (reverse : Bool) : List (String × Nat) → AMap String Nat → Option (AMap String Nat)
  | [], b => some b
  | (x, s) :: vs, b =>
    if reverse then (if s = 0 then none else baselineF reverse vs (b.insert x (s - 1)))
    else baselineF reverse vs (b.insert x 0)

/-- /repo/mss/src/zmdd.rs:389-407 -/
def pathNew (z : ZNd) (ss : List Int) : Option PathSt :=
  match baselineF z.reverse z.vars AMap.empty with
  | none => none
  | some b => some { stack := [.node z.node], path := b, baseline := b, ss := ss, reverse := z.reverse }

/-- The pushes of /repo/mss/src/zmdd.rs:430-440 for the edges from number `j` on, the first one on top. -/
def branches (x : String) (reverse : Bool) (last : Nat) : Nat → List Nat → List SV
  | _, [] => []
  | j, c :: cs =>
    (if j = 0 then [.node c] else [.push x (if reverse then last - j else j), .node c, .pop x]) ++
      branches x reverse last (j + 1) cs

/-- One turn of the loop, /repo/mss/src/zmdd.rs:418-455: `some none` = the stack is empty. -/
def pathStep (m : Arena (Option Int)) (st : PathSt) : Option (Option (Option (AMap String Nat) × PathSt)) :=
  match st.stack with
  | [] => some none
  | .push x k :: rest => some (some (none, { st with stack := rest, path := st.path.insert x k }))
  | .pop x :: rest =>
    match st.baseline.get x with
    | some b => some (some (none, { st with stack := rest, path := st.path.insert x b }))
    | none => some (some (none, { st with stack := rest, path := st.path.remove x }))
  | .node i :: rest =>
    match m.node? i with
    | none => none
    | some (.term none) => some (some (none, { st with stack := rest }))
    | some (.term (some v)) =>
      if st.ss.contains v then some (some (some st.path, { st with stack := rest }))
      else some (some (none, { st with stack := rest }))
    | some (.nt _ ch) =>
      match m.label? i with
      | none => none
      | some x =>
        if ch = [] then none
        else some (some (none, { st with stack := branches x st.reverse (ch.length - 1) 0 ch ++ rest }))

/-- Bound on the loop turns that a node of rank `n` can cause, with at most `b` branches each. -/
def turnsNode (b : Nat) : Nat → Nat
  | 0 => 1
  | n + 1 => 1 + b * (2 + turnsNode b n)

/-- Bound on the loop turns. -/
def turns (m : Arena (Option Int)) (b : Nat) : List SV → Nat
  | [] => 0
  | .node i :: st => turnsNode b (m.rank i) + turns m b st
  | _ :: st => 1 + turns m b st

/-- Bound on the number of branches of any node. -/
def maxDeg (m : Arena (Option Int)) : Nat := (m.nodes.map (fun n => n.kids.length)).sum

/-- `ZmddPath::next`, /repo/mss/src/zmdd.rs:416-457. -/
def pathNext (m : Arena (Option Int)) (st : PathSt) : Option (Option (AMap String Nat) × PathSt) :=
  Enum.nextF (pathStep m) (turns m (maxDeg m) st.stack) st

/-- `Iterator::collect`; `none` = panic or out of fuel. -/
def collectF {S O : Type} (next : S → Option (Option O × S)) : Nat → S → Option (List O)
  | 0, _ => none
  | n + 1, s =>
    match next s with
    | none => none
    | some (none, _) => some []
    | some (some o, s') =>
      match collectF next n s' with
      | none => none
      | some os => some (o :: os)

/-- `HashMap` equality. -/
def mapEq (x y : AMap String Nat) : Bool := x.len == y.len && x.kvs.all (fun p => y.get p.1 == some p.2)

/-- `self.vars.iter().all(…)`, /repo/mss/src/zmdd.rs:246-249; `none` = index panic. -/
def domAll (reverse : Bool) (y x : AMap String Nat) : List (String × Nat) → Option Bool
  | [] => some true
  | (n, _) :: vs =>
    match y.get n, x.get n with
    | some a, some b => if (if reverse then a ≥ b else a ≤ b) then domAll reverse y x vs else some false
    | _, _ => none

/-- `vectors.iter().any(…)`, /repo/mss/src/zmdd.rs:244-250. -/
def domAny (reverse : Bool) (vars : List (String × Nat)) (x : AMap String Nat) : List (AMap String Nat) → Option Bool
  | [] => some false
  | y :: ys =>
    if mapEq y x then domAny reverse vars x ys
    else
      match domAll reverse y x vars with
      | none => none
      | some true => some true
      | some false => domAny reverse vars x ys

/-- The filter of /repo/mss/src/zmdd.rs:241-254 over the vectors `xs`, all of them being `vectors`. -/
def undominated (reverse : Bool) (vars : List (String × Nat)) (vectors : List (AMap String Nat)) :
    List (AMap String Nat) → Option (List (AMap String Nat))
  | [] => some []
  | x :: xs =>
    match domAny reverse vars x vectors, undominated reverse vars vectors xs with
    | some b, some r => some (if b then r else x :: r)
    | _, _ => none

/-- `extract_level`, /repo/mss/src/zmdd.rs:234-255. -/
def extractLevel (m : Arena (Option Int)) (z : ZNd) (v : Int) : Option (List (AMap String Nat)) :=
  match labels m z.node with
  | none => none
  | some ls =>
    match pathNew z (ls.filter (fun w => if z.reverse then decide (w ≤ v) else decide (w ≥ v))) with
    | none => none
    | some st =>
      match collectF (pathNext m) (turns m (maxDeg m) st.stack + 1) st with
      | none => none
      | some vectors => undominated z.reverse z.vars vectors vectors

end Zma

/-! ## Sessions -/

/-- A `ZmddMgr` and the `ZmddNode`s the client holds. -/
structure ZMWorld where
  mgr : Wr Zmdd Nat
  hs : Hs ZNd

/-- Public calls on `ZmddNode`s.  (A client reaches `ZmddMgr` itself only by shared reference: `size`.) -/
inductive ZMCmd where
  | intersect (f g : Nat)
  | setdiff (f g : Nat)
  | clone (f : Nat)
  | drop (f : Nat)
  | getId (f : Nat)
  | isCut (f : Nat)
  | vars (f : Nat)
  | labels (f : Nat)
  | count (ss : List Int) (f : Nat)
  | extractLevel (v : Int) (f : Nat)
  | size
deriving DecidableEq, Repr

/-- What a call returns. -/
inductive ZMOut where
  | unit
  | handle (h : Nat)
  | nat (n : Nat)
  | bool (b : Bool)
  | vars (l : List (String × Nat))
  | labels (l : List Int)
  | vectors (l : List (AMap String Nat))
  | quad (p : Nat × Nat × Nat × Nat)
deriving DecidableEq

namespace ZMWorld

/-- /repo/mss/src/zmdd.rs:53-62 -/
def new : ZMWorld := { mgr := Wr.new Zmdd.new, hs := Hs.empty }

/-- `wrap`/`rewrap`, /repo/mss/src/zmdd.rs:64-68, 165-177: pin, collect if due, and hand out the new node. -/
def give (w : ZMWorld) (reverse : Bool) (vars : List (String × Nat)) (res : Option (Nat × Zmdd)) :
    Option (Nat × ZMWorld) :=
  match w.mgr.wrap zmOps res with
  | none => none
  | some (r, m) => some (w.hs.next, { mgr := m, hs := w.hs.give ⟨r, reverse, vars⟩ })

/-- A call on one handle. -/
def on1 {A : Type} (w : ZMWorld) (f : Nat) (k : ZNd → Option A) : Option A :=
  match w.hs.held.get f with
  | none => none
  | some z => k z

/-- /repo/mss/src/zmdd.rs:258-269 -/
def op2 (w : ZMWorld) (op : Zmdd → Nat → Nat → Option (Nat × Zmdd)) (f g : Nat) : Option (ZMOut × ZMWorld) :=
  w.on1 f fun x => w.on1 g fun y =>
    (w.give x.reverse x.vars (op w.mgr.eng x.node y.node)).map fun p => (.handle p.1, p.2)

/-- `convert` (`reverse = false`) and `convert_rev`, /repo/mss/src/zmdd.rs:72-86, 92-106. -/
def convert (w : ZMWorld) (src : Mtmdd2) (node : MNode) (reverse : Bool) (vars : List (String × Nat))
    (baseline : Int) : Option (Nat × ZMWorld) :=
  match toZmdd src node w.mgr.eng reverse with
  | none => none
  | some (r, e) => w.give reverse vars (e.setBaseline r baseline)

/-- /repo/mss/src/zmdd.rs:112-114 -/
def clearCache (w : ZMWorld) : ZMWorld := { w with mgr := { w.mgr with eng := w.mgr.eng.clearCache } }

/-- One public call; `none` = panic, or an operand handle that the client does not hold. -/
def step (w : ZMWorld) : ZMCmd → Option (ZMOut × ZMWorld)
  | .intersect f g => w.op2 Zmdd.intersect f g
  | .setdiff f g => w.op2 Zmdd.setdiff f g
  -- zmdd.rs:305-318
  | .clone f => w.on1 f fun z => some (.handle w.hs.next, { mgr := w.mgr.pin z.node, hs := w.hs.give z })
  -- zmdd.rs:320-332
  | .drop f => w.on1 f fun z => some (.unit, { mgr := w.mgr.unpin z.node, hs := w.hs.drop f })
  -- zmdd.rs:183-185
  | .getId f => w.on1 f fun z => some (.nat z.node, w)
  -- zmdd.rs:190-192
  | .isCut f => w.on1 f fun z => some (.bool z.reverse, w)
  -- zmdd.rs:196-198
  | .vars f => w.on1 f fun z => some (.vars z.vars, w)
  | .labels f => w.on1 f fun z => (Zma.labels w.mgr.eng.arena z.node).map fun l => (.labels l, w)
  | .count ss f => w.on1 f fun z => (Zma.count w.mgr.eng.arena ss z.node).map fun n => (.nat n, w)
  | .extractLevel v f => w.on1 f fun z => (Zma.extractLevel w.mgr.eng.arena z v).map fun l => (.vectors l, w)
  -- zmdd.rs:108-110
  | .size => some (.quad w.mgr.eng.size, w)

/-- `extract`, /repo/mss/src/zmdd.rs:300-302: the iterator's first state.  The clone of the handle that the iterator
keeps is not counted here (it only pins a node that is pinned already). -/
def extract (w : ZMWorld) (ss : List Int) (f : Nat) : Option Zma.PathSt := w.on1 f fun z => Zma.pathNew z ss

/-- `ZmddPath::next` of an iterator of this manager. -/
def next (w : ZMWorld) (st : Zma.PathSt) : Option (Option (AMap String Nat) × Zma.PathSt) :=
  Zma.pathNext w.mgr.eng.arena st

end ZMWorld
end DD
