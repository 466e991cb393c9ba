import Verif.Core.SemZ
import Verif.Core.Memo
import Verif.Core.Gc
import Verif.Core.T3
import Verif.Common.HCache

/-!
# Model of `bddcore::ZddManager`

/repo/bddcore/src/zdd.rs and /repo/bddcore/src/zdd_ops.rs.
-/

set_option autoImplicit false

namespace DD

/-- /repo/bddcore/src/zdd.rs:28-41.  The fields `zero`, `one`, `undet` are the constants 0, 1, 2. -/
structure Zdd where
  arena : Arena T3
  cache : HCache

namespace Zdd

/-- /repo/bddcore/src/zdd.rs:73-109 -/
def new : Zdd where
  arena := { headers := [], nodes := [.term .zero, .term .one, .term .undet],
             utable := AMap.empty, free := [] }
  cache := AMap.empty

/-- /repo/bddcore/src/zdd.rs:185-191 -/
def createHeader (s : Zdd) (level : Nat) (label : String) : Nat × Zdd :=
  let (h, m) := s.arena.createHeader level label 2
  (h, { s with arena := m })

/-- /repo/bddcore/src/zdd.rs:210-223 -/
def zero : Nat := 0
@[inherit_doc zero] def one : Nat := 1
@[inherit_doc zero] def undet : Nat := 2

/-- /repo/bddcore/src/zdd.rs:193-204; `none` = index panic in `new_nonterminal`
(/repo/bddcore/src/zdd.rs:111-125). -/
def createNode (s : Zdd) (h low high : Nat) : Option (Nat × Zdd) :=
  if high = zero then some (low, s)
  else
    match s.arena.mkNode (.nt h [low, high]) with
    | none => none
    | some (r, m) => some (r, { s with arena := m })

/-- Operation codes, /repo/bddcore/src/zdd_ops.rs:6-12. -/
def opIntersect : Nat := 0
@[inherit_doc opIntersect] def opUnion : Nat := 1
@[inherit_doc opIntersect] def opSetdiff : Nat := 2
@[inherit_doc opIntersect] def opProduct : Nat := 3
@[inherit_doc opIntersect] def opDivision : Nat := 4

/-- /repo/bddcore/src/zdd.rs:227-229 -/
def cacheGet (op f g : Nat) (s : Zdd) : Option Nat := s.cache.get (op, f, g)

/-- /repo/bddcore/src/zdd.rs:233-235 -/
def cachePut (op f g : Nat) (s : Zdd) (r : Nat) : Zdd := { s with cache := s.cache.insert (op, f, g) r }

/-- /repo/bddcore/src/zdd.rs:238-240 -/
def clearCache (s : Zdd) : Zdd := { s with cache := AMap.empty }

/-- /repo/bddcore/src/zdd.rs:168-170 -/
def liveNodeCount (s : Zdd) : Nat := s.arena.liveNodeCount

/-- /repo/bddcore/src/zdd.rs:206-208 -/
def size (s : Zdd) : Nat × Nat × Nat := (s.arena.headers.length, s.arena.nodes.length, s.cache.len)

/-- /repo/bddcore/src/zdd.rs:132-164; returns the number of reclaimed slots. -/
def gc (s : Zdd) (roots : List Nat) : Option (Nat × Zdd) :=
  match s.arena.gcA roots with
  | none => none
  | some (live, m) =>
    match s.cache.retainLive live with
    | some c => some (m.free.length, { arena := m, cache := c })
    | none => none

/-- Recurse for the low child only and keep the given high child. -/
def lowS (rec : Zdd → Nat × Nat → Option (Nat × Zdd)) (s : Zdd) (h : Nat) (x : Nat × Nat) (high : Nat) :
    Option (Nat × Zdd) :=
  match rec s x with
  | none => none
  | some (low, s) => s.createNode h low high

/-- Recurse for the low child, then for the high child. -/
def bothS (rec : Zdd → Nat × Nat → Option (Nat × Zdd)) (s : Zdd) (h : Nat) (x y : Nat × Nat) :
    Option (Nat × Zdd) :=
  match rec s x with
  | none => none
  | some (low, s) =>
    match rec s y with
    | none => none
    | some (high, s) => s.createNode h low high

/-- The comparisons `node_level(f) > node_level(g)`, `<`, `==` between non-terminals
(/repo/bddcore/src/zdd.rs:178-183, used as match guards in zdd_ops.rs). -/
def byLevel {α : Type} (m : Arena T3) (f g : Nat) (gt lt eq : Option α) : Option α :=
  match m.level? f, m.level? g with
  | some lf, some lg => if lf > lg then gt else if lf < lg then lt else eq
  | _, _ => none

/-- /repo/bddcore/src/zdd_ops.rs:15-53 -/
def intersectF : Nat → Zdd → Nat × Nat → Option (Nat × Zdd)
  | 0, _, _ => none
  | n + 1, s, (f, g) =>
    if f = g then some (f, s)
    else
      memo (cacheGet opIntersect f g) (cachePut opIntersect f g) (fun s =>
        match s.arena.node? f, s.arena.node? g with
        | some (.term .undet), some _ => some (g, s)
        | some _, some (.term .undet) => some (f, s)
        | some (.term .zero), some _ => some (zero, s)
        | some _, some (.term .zero) => some (zero, s)
        | some (.term .one), some _ => some (g, s)
        | some _, some (.term .one) => some (f, s)
        | some (.nt hf [f0, f1]), some (.nt _ [g0, g1]) =>
          byLevel s.arena f g
            (intersectF n s (f0, g))
            (intersectF n s (f, g0))
            (bothS (intersectF n) s hf (f0, g0) (f1, g1))
        | _, _ => none) s

/-- `intersect` with enough fuel. -/
def intersect (s : Zdd) (f g : Nat) : Option (Nat × Zdd) :=
  intersectF (Max.max (s.arena.rank f) (s.arena.rank g) + 1) s (f, g)

/-- /repo/bddcore/src/zdd_ops.rs:55-112 -/
def unionF : Nat → Zdd → Nat × Nat → Option (Nat × Zdd)
  | 0, _, _ => none
  | n + 1, s, (f, g) =>
    if f = g then some (f, s)
    else
      memo (cacheGet opUnion f g) (cachePut opUnion f g) (fun s =>
        match s.arena.node? f, s.arena.node? g with
        | some (.term .undet), some _ => some (f, s)
        | some _, some (.term .undet) => some (g, s)
        | some (.term .zero), some _ => some (g, s)
        | some _, some (.term .zero) => some (f, s)
        | some (.term .one), some (.term .one) => some (one, s)
        | some (.nt hf [f0, f1]), some (.term .one) => lowS (unionF n) s hf (f0, one) f1
        | some (.term .one), some (.nt hg [g0, g1]) => lowS (unionF n) s hg (one, g0) g1
        | some (.nt hf [f0, f1]), some (.nt hg [g0, g1]) =>
          byLevel s.arena f g
            (lowS (unionF n) s hf (f0, g) f1)
            (lowS (unionF n) s hg (f, g0) g1)
            (bothS (unionF n) s hf (f0, g0) (f1, g1))
        | _, _ => none) s

/-- `union` with enough fuel. -/
def union (s : Zdd) (f g : Nat) : Option (Nat × Zdd) :=
  unionF (Max.max (s.arena.rank f) (s.arena.rank g) + 1) s (f, g)

/-- /repo/bddcore/src/zdd_ops.rs:114-170 -/
def setdiffF : Nat → Zdd → Nat × Nat → Option (Nat × Zdd)
  | 0, _, _ => none
  | n + 1, s, (f, g) =>
    if f = g then some (if f = undet then undet else zero, s)
    else
      memo (cacheGet opSetdiff f g) (cachePut opSetdiff f g) (fun s =>
        match s.arena.node? f, s.arena.node? g with
        | some (.term .undet), some _ => some (undet, s)
        | some _, some (.term .undet) => some (f, s)
        | some (.term .zero), some _ => some (zero, s)
        | some _, some (.term .zero) => some (f, s)
        | some (.term .one), some (.term .one) => some (zero, s)
        | some (.nt hf [f0, f1]), some (.term .one) => lowS (setdiffF n) s hf (f0, one) f1
        | some (.term .one), some (.nt _ [g0, _]) => setdiffF n s (one, g0)
        | some (.nt hf [f0, f1]), some (.nt _ [g0, g1]) =>
          byLevel s.arena f g
            (lowS (setdiffF n) s hf (f0, g) f1)
            (setdiffF n s (f, g0))
            (bothS (setdiffF n) s hf (f0, g0) (f1, g1))
        | _, _ => none) s

/-- `setdiff` with enough fuel. -/
def setdiff (s : Zdd) (f g : Nat) : Option (Nat × Zdd) :=
  setdiffF (Max.max (s.arena.rank f) (s.arena.rank g) + 1) s (f, g)

/-- The equal-level arm of `product`, /repo/bddcore/src/zdd_ops.rs:202-213. -/
def productEq (rec : Zdd → Nat × Nat → Option (Nat × Zdd)) (s : Zdd) (h f0 f1 g0 g1 : Nat) :
    Option (Nat × Zdd) :=
  match rec s (f0, g0) with
  | none => none
  | some (low, s) =>
    match rec s (f1, g1) with
    | none => none
    | some (high, s) =>
      match rec s (f1, g0) with
      | none => none
      | some (tmp, s) =>
        match s.union high tmp with
        | none => none
        | some (high, s) =>
          match rec s (f0, g1) with
          | none => none
          | some (tmp, s) =>
            match s.union high tmp with
            | none => none
            | some (high, s) => s.createNode h low high

/-- /repo/bddcore/src/zdd_ops.rs:172-217 -/
def productF : Nat → Zdd → Nat × Nat → Option (Nat × Zdd)
  | 0, _, _ => none
  | n + 1, s, (f, g) =>
    memo (cacheGet opProduct f g) (cachePut opProduct f g) (fun s =>
      match s.arena.node? f, s.arena.node? g with
      | some (.term .undet), some _ => some (undet, s)
      | some _, some (.term .undet) => some (undet, s)
      | some (.term .zero), some _ => some (zero, s)
      | some _, some (.term .zero) => some (zero, s)
      | some _, some (.term .one) => some (f, s)
      | some (.term .one), some _ => some (g, s)
      | some (.nt hf [f0, f1]), some (.nt hg [g0, g1]) =>
        byLevel s.arena f g
          (bothS (productF n) s hf (f0, g) (f1, g))
          (bothS (productF n) s hg (f, g0) (f, g1))
          (productEq (productF n) s hf f0 f1 g0 g1)
      | _, _ => none) s

/-- `product` with enough fuel. -/
def product (s : Zdd) (f g : Nat) : Option (Nat × Zdd) :=
  productF (Max.max (s.arena.rank f) (s.arena.rank g) + 1) s (f, g)

/-- The equal-level arm of `divide`, /repo/bddcore/src/zdd_ops.rs:242-248. -/
def divideEq (rec : Zdd → Nat × Nat → Option (Nat × Zdd)) (s : Zdd) (f0 f1 g0 g1 : Nat) :
    Option (Nat × Zdd) :=
  match rec s (f0, g0) with
  | none => none
  | some (x, s) =>
    match rec s (f1, g1) with
    | none => none
    | some (y, s) => s.intersect x y

/-- /repo/bddcore/src/zdd_ops.rs:219-252 -/
def divideF : Nat → Zdd → Nat × Nat → Option (Nat × Zdd)
  | 0, _, _ => none
  | n + 1, s, (f, g) =>
    memo (cacheGet opDivision f g) (cachePut opDivision f g) (fun s =>
      match s.arena.node? f, s.arena.node? g with
      | some (.term .undet), some _ => some (undet, s)
      | some _, some (.term .undet) => some (undet, s)
      | some _, some (.term .zero) => some (undet, s)
      | some _, some (.term .one) => some (f, s)
      | some (.term .zero), some _ => some (zero, s)
      | some (.term .one), some _ => some (g, s)
      | some (.nt _ [f0, f1]), some (.nt _ [g0, g1]) =>
        byLevel s.arena f g
          (divideF n s (f0, g))
          (some (undet, s))
          (divideEq (divideF n) s f0 f1 g0 g1)
      | _, _ => none) s

/-- `divide` with enough fuel. -/
def divide (s : Zdd) (f g : Nat) : Option (Nat × Zdd) :=
  divideF (Max.max (s.arena.rank f) (s.arena.rank g) + 1) s (f, g)

end Zdd
end DD
