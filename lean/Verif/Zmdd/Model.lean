import Verif.Core.Memo
import Verif.Core.Gc
import Verif.Core.SemZ
import Verif.Mtmdd.Model

/-!
# Model of `mddcore::ZmddManager<V>`

/repo/mddcore/src/zmdd.rs and /repo/mddcore/src/zmdd_ops.rs, with `V` the mathematical integers.
Terminals: `none` is `Node::Undet` (slot 0, the empty family), `some v` is the label `Terminal(v)`
(hash-consed).
-/

set_option autoImplicit false

namespace DD

/-- /repo/mddcore/src/zmdd.rs:19-27.  `undet` is the constant 0; `vtable` and `utable` are the two kinds
of keys of the arena's table. -/
structure Zmdd where
  arena : Arena (Option Int)
  cache : ComputeCache

namespace Zmdd

/-- /repo/mddcore/src/zmdd.rs:65-84 -/
def new : Zmdd where
  arena := { headers := [], nodes := [.term none], utable := AMap.empty, free := [] }
  cache := ComputeCache.new

/-- /repo/mddcore/src/zmdd.rs:142-148 -/
def createHeader (s : Zmdd) (level : Nat) (label : String) (edgeNum : Nat) : Nat × Zmdd :=
  let (h, m) := s.arena.createHeader level label edgeNum
  (h, { s with arena := m })

/-- /repo/mddcore/src/zmdd.rs:150-157; `none` = index panic in `alloc`. -/
def value (s : Zmdd) (v : Int) : Option (Nat × Zmdd) :=
  match s.arena.mkNode (.term (some v)) with
  | none => none
  | some (r, m) => some (r, { s with arena := m })

/-- /repo/mddcore/src/zmdd.rs:163-174; `nodes[1..]` panics on the empty slice. -/
def createNode (s : Zmdd) (h : Nat) (ch : List Nat) : Option (Nat × Zmdd) :=
  if ch = [] then none
  else
    match s.arena.createZ h ch with
    | none => none
    | some (r, m) => some (r, { s with arena := m })

/-- /repo/mddcore/src/zmdd.rs:208-210 -/
def undet : Nat := 0

/-- Operation codes, /repo/mddcore/src/zmdd_ops.rs:22-30. -/
def opIntersect : Nat := 0
@[inherit_doc opIntersect] def opSetdiff : Nat := 1

/-- /repo/mddcore/src/zmdd.rs:213-217 -/
def cacheGet (op f g : Nat) (s : Zmdd) : Option Nat := s.cache.get op f g

/-- /repo/mddcore/src/zmdd.rs:220-223 -/
def cachePut (op f g : Nat) (s : Zmdd) (r : Nat) : Zmdd :=
  { s with cache := s.cache.put op f g r }

/-- /repo/mddcore/src/zmdd.rs:226-228 -/
def clearCache (s : Zmdd) : Zmdd := { s with cache := s.cache.clear }

/-- /repo/mddcore/src/zmdd.rs:138-140 -/
def liveNodeCount (s : Zmdd) : Nat := s.arena.liveNodeCount

/-- /repo/mddcore/src/zmdd.rs:177-184; the third component is the length of the value table. -/
def size (s : Zmdd) : Nat × Nat × Nat × Nat :=
  (s.arena.headers.length, s.arena.nodes.length,
    (s.arena.utable.kvs.filter (fun e => match e.1 with | .term _ => true | .nt _ _ => false)).length,
    s.cache.len)

/-- /repo/mddcore/src/zmdd.rs:108-135; returns the number of reclaimed slots. -/
def gc (s : Zmdd) (roots : List Nat) : Option (Nat × Zmdd) :=
  match s.arena.gcA roots with
  | none => none
  | some (live, m) =>
    match s.cache.retainLive live with
    | some c => some (m.free.length, { arena := m, cache := c })
    | none => none

/-- `ch[0] = self.op(ch[0]); self.create_node(h, &ch)`; `none` = index panic on an empty list. -/
def onFirst (rec : Zmdd → Nat → Option (Nat × Zmdd)) (s : Zmdd) (h : Nat) (ch : List Nat) :
    Option (Nat × Zmdd) :=
  match ch with
  | [] => none
  | c :: cs =>
    match rec s c with
    | none => none
    | some (r, s1) => s1.createNode h (r :: cs)

/-- Descend along the 0-edge (`fv[0]`); `none` = index panic. -/
def first (rec : Zmdd → Nat → Option (Nat × Zmdd)) (s : Zmdd) (ch : List Nat) : Option (Nat × Zmdd) :=
  match ch with
  | [] => none
  | c :: _ => rec s c

/-- /repo/mddcore/src/zmdd.rs:195-206, with recursion fuel. -/
def setBaselineF (v : Int) : Nat → Zmdd → Nat → Option (Nat × Zmdd)
  | 0, _, _ => none
  | n + 1, s, f =>
    match s.arena.node? f with
    | some (.term none) => s.value v
    | some (.term (some _)) => some (f, s)
    | some (.nt h ch) => onFirst (setBaselineF v n) s h ch
    | none => none

/-- /repo/mddcore/src/zmdd.rs:195-206 with enough fuel. -/
def setBaseline (s : Zmdd) (f : Nat) (v : Int) : Option (Nat × Zmdd) :=
  setBaselineF v (s.arena.rank f + 1) s f

/-- The non-terminal/non-terminal arms of `intersect`, /repo/mddcore/src/zmdd_ops.rs:66-84. -/
def intersectNN (rec : Zmdd → Nat × Nat → Option (Nat × Zmdd)) (s : Zmdd) (lf lg : Option Nat)
    (f hf : Nat) (cf : List Nat) (g : Nat) (cg : List Nat) : Option (Nat × Zmdd) :=
  match lf, lg with
  | some lf, some lg =>
    if lf > lg then first (fun s c => rec s (c, g)) s cf
    else if lf < lg then first (fun s c => rec s (f, c)) s cg
    else branchS createNode rec s hf (cf.zip cg)
  | _, _ => none

/-- /repo/mddcore/src/zmdd_ops.rs:38-88, with recursion fuel. -/
def intersectF : Nat → Zmdd → Nat × Nat → Option (Nat × Zmdd)
  | 0, _, _ => none
  | n + 1, s, (f0, g0) =>
    let f := min f0 g0
    let g := max f0 g0
    memo (cacheGet opIntersect f g) (cachePut opIntersect f g) (fun s =>
      match s.arena.node? f, s.arena.node? g with
      | some (.term none), some _ => some (undet, s)
      | some _, some (.term none) => some (undet, s)
      | some (.term (some a)), some (.term (some b)) =>
        if a = b then s.value a else some (undet, s)
      | some (.nt _ cf), some (.term (some _)) => first (fun s c => intersectF n s (c, g)) s cf
      | some (.term (some _)), some (.nt _ cg) => first (fun s c => intersectF n s (f, c)) s cg
      | some (.nt hf cf), some (.nt _ cg) =>
        intersectNN (intersectF n) s (s.arena.level? f) (s.arena.level? g) f hf cf g cg
      | _, _ => none) s

/-- /repo/mddcore/src/zmdd_ops.rs:38-88 with enough fuel. -/
def intersect (s : Zmdd) (f g : Nat) : Option (Nat × Zmdd) :=
  intersectF (Max.max (s.arena.rank f) (s.arena.rank g) + 1) s (f, g)

/-- The non-terminal/non-terminal arms of `setdiff`, /repo/mddcore/src/zmdd_ops.rs:120-140. -/
def setdiffNN (rec : Zmdd → Nat × Nat → Option (Nat × Zmdd)) (s : Zmdd) (lf lg : Option Nat)
    (f hf : Nat) (cf : List Nat) (g : Nat) (cg : List Nat) : Option (Nat × Zmdd) :=
  match lf, lg with
  | some lf, some lg =>
    if lf > lg then onFirst (fun s c => rec s (c, g)) s hf cf
    else if lf < lg then first (fun s c => rec s (f, c)) s cg
    else branchS createNode rec s hf (cf.zip cg)
  | _, _ => none

/-- /repo/mddcore/src/zmdd_ops.rs:92-144, with recursion fuel. -/
def setdiffF : Nat → Zmdd → Nat × Nat → Option (Nat × Zmdd)
  | 0, _, _ => none
  | n + 1, s, (f, g) =>
    memo (cacheGet opSetdiff f g) (cachePut opSetdiff f g) (fun s =>
      match s.arena.node? f, s.arena.node? g with
      | some (.term none), some _ => some (undet, s)
      | some _, some (.term none) => some (f, s)
      | some (.term (some a)), some (.term (some b)) =>
        if a ≠ b then s.value a else some (undet, s)
      | some (.nt hf cf), some (.term (some _)) => onFirst (fun s c => setdiffF n s (c, g)) s hf cf
      | some (.term (some _)), some (.nt _ cg) => first (fun s c => setdiffF n s (f, c)) s cg
      | some (.nt hf cf), some (.nt _ cg) =>
        setdiffNN (setdiffF n) s (s.arena.level? f) (s.arena.level? g) f hf cf g cg
      | _, _ => none) s

/-- /repo/mddcore/src/zmdd_ops.rs:92-144 with enough fuel. -/
def setdiff (s : Zmdd) (f g : Nat) : Option (Nat × Zmdd) :=
  setdiffF (Max.max (s.arena.rank f) (s.arena.rank g) + 1) s (f, g)

end Zmdd

end DD
