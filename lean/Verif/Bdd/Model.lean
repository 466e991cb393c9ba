import Verif.Core.Memo
import Verif.Core.Gc
import Verif.Core.T3

/-!
# Model of `bddcore::BddManager`

/repo/bddcore/src/bdd.rs and /repo/bddcore/src/bdd_ops.rs.
-/

set_option autoImplicit false

namespace DD

/-- /repo/bddcore/src/bdd.rs:43-64.  The fields `zero`, `one`, `undet` are the constants 0, 1, 2. -/
structure Bdd where
  arena : Arena T3
  cache : ComputeCache
  iteCache : ComputeCache

namespace Bdd

/-- /repo/bddcore/src/bdd.rs:96-134 -/
def new : Bdd where
  arena := { headers := [], nodes := [.term .zero, .term .one, .term .undet],
             utable := AMap.empty, free := [] }
  cache := ComputeCache.new
  iteCache := ComputeCache.new

/-- /repo/bddcore/src/bdd.rs:225-231 -/
def createHeader (s : Bdd) (level : Nat) (label : String) : Nat × Bdd :=
  let (h, m) := s.arena.createHeader level label 2
  (h, { s with arena := m })

/-- /repo/bddcore/src/bdd.rs:233-244; `none` = index panic in `new_nonterminal`. -/
def createNode (s : Bdd) (h low high : Nat) : Option (Nat × Bdd) :=
  if low = high then some (low, s)
  else
    match s.arena.mkNode (.nt h [low, high]) with
    | none => none
    | some (r, m) => some (r, { s with arena := m })

/-- `create_node` on the list of results of the two recursive calls. -/
def mkn (s : Bdd) (h : Nat) : List Nat → Option (Nat × Bdd)
  | [low, high] => s.createNode h low high
  | _ => none

/-- /repo/bddcore/src/bdd.rs:252, 257, 262 -/
def zero : Nat := 0
@[inherit_doc zero] def one : Nat := 1
@[inherit_doc zero] def undet : Nat := 2

/-- Operation codes, /repo/bddcore/src/bdd_ops.rs:16-23. -/
def opAnd : Nat := 0
@[inherit_doc opAnd] def opOr : Nat := 1
@[inherit_doc opAnd] def opXor : Nat := 2
@[inherit_doc opAnd] def opNot : Nat := 3

/-- /repo/bddcore/src/bdd.rs:268-270 -/
def cacheGet (op f g : Nat) (s : Bdd) : Option Nat := s.cache.get op f g

/-- /repo/bddcore/src/bdd.rs:274-276 -/
def cachePut (op f g : Nat) (s : Bdd) (r : Nat) : Bdd := { s with cache := s.cache.put op f g r }

/-- /repo/bddcore/src/bdd.rs:280-284 -/
def iteCacheGet (f g h : Nat) (s : Bdd) : Option Nat := s.iteCache.get f g h

/-- /repo/bddcore/src/bdd.rs:288-291 -/
def iteCachePut (f g h : Nat) (s : Bdd) (r : Nat) : Bdd :=
  { s with iteCache := s.iteCache.put f g h r }

/-- /repo/bddcore/src/bdd.rs:294-297 -/
def clearCache (s : Bdd) : Bdd :=
  { s with cache := s.cache.clear, iteCache := s.iteCache.clear }

/-- /repo/bddcore/src/bdd.rs:208-210 -/
def liveNodeCount (s : Bdd) : Nat := s.arena.liveNodeCount

/-- /repo/bddcore/src/bdd.rs:247-249 -/
def size (s : Bdd) : Nat × Nat × Nat :=
  (s.arena.headers.length, s.arena.nodes.length, s.cache.len)

/-- /repo/bddcore/src/bdd.rs:165-204; returns the number of reclaimed slots. -/
def gc (s : Bdd) (roots : List Nat) : Option (Nat × Bdd) :=
  match s.arena.gcA roots with
  | none => none
  | some (live, m) =>
    match s.cache.retainLive live, s.iteCache.retainLive3 live with
    | some c, some ic => some (m.free.length, { arena := m, cache := c, iteCache := ic })
    | _, _ => none

/-- /repo/bddcore/src/bdd_ops.rs:27-46 -/
def notF : Nat → Bdd → Nat → Option (Nat × Bdd)
  | 0, _, _ => none
  | n + 1, s, f =>
    memo (cacheGet opNot f 0) (cachePut opNot f 0) (fun s =>
      match s.arena.node? f with
      | none => none
      | some (.nt h ch) => branchS mkn (notF n) s h ch
      | some (.term .zero) => some (one, s)
      | some (.term .one) => some (zero, s)
      | some (.term .undet) => some (undet, s)) s

/-- `not` with enough fuel. -/
def not (s : Bdd) (f : Nat) : Option (Nat × Bdd) := notF (s.arena.rank f + 1) s f

/-- /repo/bddcore/src/bdd_ops.rs:48-97 -/
def andF : Nat → Bdd → Nat × Nat → Option (Nat × Bdd)
  | 0, _, _ => none
  | n + 1, s, (f0, g0) =>
    if f0 = g0 then some (f0, s)
    else
      let f := min f0 g0
      let g := max f0 g0
      memo (cacheGet opAnd f g) (cachePut opAnd f g) (fun s =>
        match s.arena.node? f, s.arena.node? g with
        | some (.nt hf cf), some (.nt hg cg) =>
          arms2 mkn (andF n) s (s.arena.level? f) (s.arena.level? g) hf f hf cf g hg cg
        | some (.term .one), some _ => some (g, s)
        | some _, some (.term .one) => some (f, s)
        | some (.term .zero), some _ => some (zero, s)
        | some _, some (.term .zero) => some (zero, s)
        | some (.term .undet), some _ => some (undet, s)
        | some _, some (.term .undet) => some (undet, s)
        | _, _ => none) s

/-- `and` with enough fuel. -/
def and (s : Bdd) (f g : Nat) : Option (Nat × Bdd) :=
  andF (Max.max (s.arena.rank f) (s.arena.rank g) + 1) s (f, g)

/-- /repo/bddcore/src/bdd_ops.rs:99-146 -/
def orF : Nat → Bdd → Nat × Nat → Option (Nat × Bdd)
  | 0, _, _ => none
  | n + 1, s, (f0, g0) =>
    if f0 = g0 then some (f0, s)
    else
      let f := min f0 g0
      let g := max f0 g0
      memo (cacheGet opOr f g) (cachePut opOr f g) (fun s =>
        match s.arena.node? f, s.arena.node? g with
        | some (.nt hf cf), some (.nt hg cg) =>
          arms2 mkn (orF n) s (s.arena.level? f) (s.arena.level? g) hf f hf cf g hg cg
        | some (.term .zero), some _ => some (g, s)
        | some _, some (.term .zero) => some (f, s)
        | some (.term .one), some _ => some (one, s)
        | some _, some (.term .one) => some (one, s)
        | some (.term .undet), some _ => some (undet, s)
        | some _, some (.term .undet) => some (undet, s)
        | _, _ => none) s

/-- `or` with enough fuel. -/
def or (s : Bdd) (f g : Nat) : Option (Nat × Bdd) :=
  orF (Max.max (s.arena.rank f) (s.arena.rank g) + 1) s (f, g)

/-- /repo/bddcore/src/bdd_ops.rs:148-200 -/
def xorF : Nat → Bdd → Nat × Nat → Option (Nat × Bdd)
  | 0, _, _ => none
  | n + 1, s, (f0, g0) =>
    if f0 = g0 then some (if f0 = undet then undet else zero, s)
    else
      let f := min f0 g0
      let g := max f0 g0
      memo (cacheGet opXor f g) (cachePut opXor f g) (fun s =>
        match s.arena.node? f, s.arena.node? g with
        | some (.nt hf cf), some (.nt hg cg) =>
          arms2 mkn (xorF n) s (s.arena.level? f) (s.arena.level? g) hf f hf cf g hg cg
        | some (.term .zero), some _ => some (g, s)
        | some _, some (.term .zero) => some (f, s)
        | some (.term .one), some _ => s.not g
        | some _, some (.term .one) => s.not f
        | some (.term .undet), some _ => some (undet, s)
        | some _, some (.term .undet) => some (undet, s)
        | _, _ => none) s

/-- `xor` with enough fuel. -/
def xor (s : Bdd) (f g : Nat) : Option (Nat × Bdd) :=
  xorF (Max.max (s.arena.rank f) (s.arena.rank g) + 1) s (f, g)

/-- /repo/bddcore/src/bdd_ops.rs:202-205 -/
def imp (s : Bdd) (f g : Nat) : Option (Nat × Bdd) :=
  match s.not f with
  | none => none
  | some (t, s) => s.or t g

/-- /repo/bddcore/src/bdd_ops.rs:207-210 -/
def nand (s : Bdd) (f g : Nat) : Option (Nat × Bdd) :=
  match s.and f g with
  | none => none
  | some (t, s) => s.not t

/-- /repo/bddcore/src/bdd_ops.rs:212-215 -/
def nor (s : Bdd) (f g : Nat) : Option (Nat × Bdd) :=
  match s.or f g with
  | none => none
  | some (t, s) => s.not t

/-- /repo/bddcore/src/bdd_ops.rs:217-220 -/
def xnor (s : Bdd) (f g : Nat) : Option (Nat × Bdd) :=
  match s.xor f g with
  | none => none
  | some (t, s) => s.not t

/-- /repo/bddcore/src/bdd_ops.rs:230-267 (`top_header` is evaluated after the cofactors in the
code; neither has effects). -/
def iteF : Nat → Bdd → Nat × Nat × Nat → Option (Nat × Bdd)
  | 0, _, _ => none
  | n + 1, s, (f, g, h) =>
    match s.arena.node? f with
    | none => none
    | some (.term .one) => some (g, s)
    | some (.term .zero) => some (h, s)
    | some (.term .undet) => some (undet, s)
    | some (.nt _ _) =>
      if g = h then some (g, s)
      else
        memo (iteCacheGet f g h) (iteCachePut f g h) (fun s =>
          match s.arena.level? f with
          | none => none
          | some lf =>
            let top := s.arena.topLevel lf [g, h]
            match s.arena.topHeader top [f, g, h] with
            | none => none
            | some (hx, k) =>
              branchS mkn (iteF n) s hx (zip3 (s.arena.cofactor f top k)
                (s.arena.cofactor g top k) (s.arena.cofactor h top k))) s

/-- `ite` with enough fuel. -/
def ite (s : Bdd) (f g h : Nat) : Option (Nat × Bdd) :=
  iteF (Max.max (s.arena.rank f) (Max.max (s.arena.rank g) (s.arena.rank h)) + 1) s (f, g, h)

end Bdd
end DD
