import Verif.Core.Memo
import Verif.Core.Gc
import Verif.Core.T3

/-!
# Model of `mddcore::MddManager`

/repo/mddcore/src/mdd.rs and /repo/mddcore/src/mdd_ops.rs.
-/

set_option autoImplicit false

namespace DD

/-- /repo/mddcore/src/mdd.rs:31-49.  The fields `zero`, `one`, `undet` are the constants 0, 1, 2. -/
structure Mdd where
  arena : Arena T3
  cache : ComputeCache
  iteCache : ComputeCache

namespace Mdd

/-- /repo/mddcore/src/mdd.rs:82-118 -/
def new : Mdd where
  arena := { headers := [], nodes := [.term .zero, .term .one, .term .undet],
             utable := AMap.empty, free := [] }
  cache := ComputeCache.new
  iteCache := ComputeCache.new

/-- /repo/mddcore/src/mdd.rs:183-189 -/
def createHeader (s : Mdd) (level : Nat) (label : String) (edgeNum : Nat) : Nat × Mdd :=
  let (h, m) := s.arena.createHeader level label edgeNum
  (h, { s with arena := m })

/-- /repo/mddcore/src/mdd.rs:191-204; `none` = index panic in `new_nonterminal`. -/
def createNode (s : Mdd) (h : Nat) (ch : List Nat) : Option (Nat × Mdd) :=
  match s.arena.createFull h ch with
  | none => none
  | some (r, m) => some (r, { s with arena := m })

/-- /repo/mddcore/src/mdd.rs:211-224 -/
def zero : Nat := 0
@[inherit_doc zero] def one : Nat := 1
@[inherit_doc zero] def undet : Nat := 2

/-- Operation codes, /repo/mddcore/src/mdd_ops.rs:17-25. -/
def opNot : Nat := 0
@[inherit_doc opNot] def opAnd : Nat := 1
@[inherit_doc opNot] def opOr : Nat := 2
@[inherit_doc opNot] def opXor : Nat := 3
@[inherit_doc opNot] def opReplace : Nat := 4

/-- /repo/mddcore/src/mdd.rs:228-232 -/
def cacheGet (op f g : Nat) (s : Mdd) : Option Nat := s.cache.get op f g

/-- /repo/mddcore/src/mdd.rs:236-239 -/
def cachePut (op f g : Nat) (s : Mdd) (r : Nat) : Mdd := { s with cache := s.cache.put op f g r }

/-- /repo/mddcore/src/mdd.rs:243-247 -/
def iteCacheGet (f g h : Nat) (s : Mdd) : Option Nat := s.iteCache.get f g h

/-- /repo/mddcore/src/mdd.rs:251-254 -/
def iteCachePut (f g h : Nat) (s : Mdd) (r : Nat) : Mdd :=
  { s with iteCache := s.iteCache.put f g h r }

/-- /repo/mddcore/src/mdd.rs:257-260 -/
def clearCache (s : Mdd) : Mdd :=
  { s with cache := s.cache.clear, iteCache := s.iteCache.clear }

/-- /repo/mddcore/src/mdd.rs:179-181 -/
def liveNodeCount (s : Mdd) : Nat := s.arena.liveNodeCount

/-- /repo/mddcore/src/mdd.rs:207-209 -/
def size (s : Mdd) : Nat × Nat × Nat :=
  (s.arena.headers.length, s.arena.nodes.length, s.cache.len)

/-- /repo/mddcore/src/mdd.rs:142-175; returns the number of reclaimed slots. -/
def gc (s : Mdd) (roots : List Nat) : Option (Nat × Mdd) :=
  match s.arena.gcA roots with
  | none => none
  | some (live, m) =>
    match s.cache.retainLive live, s.iteCache.retainLive3 live with
    | some c, some ic => some (m.free.length, { arena := m, cache := c, iteCache := ic })
    | _, _ => none

/-- /repo/mddcore/src/mdd_ops.rs:29-47 -/
def notF : Nat → Mdd → Nat → Option (Nat × Mdd)
  | 0, _, _ => none
  | n + 1, s, f =>
    memo (cacheGet opNot f 0) (cachePut opNot f 0) (fun s =>
      match s.arena.node? f with
      | none => none
      | some (.term .undet) => some (undet, s)
      | some (.term .zero) => some (one, s)
      | some (.term .one) => some (zero, s)
      | some (.nt h ch) => branchS createNode (notF n) s h ch) s

/-- `not` with enough fuel. -/
def not (s : Mdd) (f : Nat) : Option (Nat × Mdd) := notF (s.arena.rank f + 1) s f

/-- /repo/mddcore/src/mdd_ops.rs:49-97 -/
def andF : Nat → Mdd → Nat × Nat → Option (Nat × Mdd)
  | 0, _, _ => none
  | n + 1, s, (f0, g0) =>
    let f := min f0 g0
    let g := max f0 g0
    memo (cacheGet opAnd f g) (cachePut opAnd f g) (fun s =>
      match s.arena.node? f, s.arena.node? g with
      | some (.nt hf cf), some (.nt hg cg) =>
        if f = g then some (f, s)
        else arms2 createNode (andF n) s (s.arena.level? f) (s.arena.level? g) hg f hf cf g hg cg
      | some (.term .undet), some _ => some (undet, s)
      | some _, some (.term .undet) => some (undet, s)
      | some (.term .zero), some _ => some (zero, s)
      | some (.term .one), some _ => some (g, s)
      | some _, some (.term .zero) => some (zero, s)
      | some _, some (.term .one) => some (f, s)
      | _, _ => none) s

/-- `and` with enough fuel. -/
def and (s : Mdd) (f g : Nat) : Option (Nat × Mdd) :=
  andF (Max.max (s.arena.rank f) (s.arena.rank g) + 1) s (f, g)

/-- /repo/mddcore/src/mdd_ops.rs:99-145 -/
def orF : Nat → Mdd → Nat × Nat → Option (Nat × Mdd)
  | 0, _, _ => none
  | n + 1, s, (f0, g0) =>
    let f := min f0 g0
    let g := max f0 g0
    memo (cacheGet opOr f g) (cachePut opOr f g) (fun s =>
      match s.arena.node? f, s.arena.node? g with
      | some (.nt hf cf), some (.nt hg cg) =>
        if f = g then some (f, s)
        else arms2 createNode (orF n) s (s.arena.level? f) (s.arena.level? g) hg f hf cf g hg cg
      | some (.term .undet), some _ => some (undet, s)
      | some _, some (.term .undet) => some (undet, s)
      | some (.term .zero), some _ => some (g, s)
      | some (.term .one), some _ => some (one, s)
      | some _, some (.term .zero) => some (f, s)
      | some _, some (.term .one) => some (one, s)
      | _, _ => none) s

/-- `or` with enough fuel. -/
def or (s : Mdd) (f g : Nat) : Option (Nat × Mdd) :=
  orF (Max.max (s.arena.rank f) (s.arena.rank g) + 1) s (f, g)

/-- /repo/mddcore/src/mdd_ops.rs:147-195 -/
def xorF : Nat → Mdd → Nat × Nat → Option (Nat × Mdd)
  | 0, _, _ => none
  | n + 1, s, (f0, g0) =>
    let f := min f0 g0
    let g := max f0 g0
    memo (cacheGet opXor f g) (cachePut opXor f g) (fun s =>
      match s.arena.node? f, s.arena.node? g with
      | some (.nt hf cf), some (.nt hg cg) =>
        if f = g then some (zero, s)
        else arms2 createNode (xorF n) s (s.arena.level? f) (s.arena.level? g) hg f hf cf g hg cg
      | some (.term .undet), some _ => some (undet, s)
      | some _, some (.term .undet) => some (undet, s)
      | some (.term .zero), some _ => some (g, s)
      | some (.term .one), some _ => s.not g
      | some _, some (.term .zero) => some (f, s)
      | some _, some (.term .one) => s.not f
      | _, _ => none) s

/-- `xor` with enough fuel. -/
def xor (s : Mdd) (f g : Nat) : Option (Nat × Mdd) :=
  xorF (Max.max (s.arena.rank f) (s.arena.rank g) + 1) s (f, g)

/-- /repo/mddcore/src/mdd_ops.rs:197-200 -/
def imp (s : Mdd) (f g : Nat) : Option (Nat × Mdd) :=
  match s.not f with
  | none => none
  | some (t, s) => s.or t g

/-- /repo/mddcore/src/mdd_ops.rs:202-205 -/
def nand (s : Mdd) (f g : Nat) : Option (Nat × Mdd) :=
  match s.and f g with
  | none => none
  | some (t, s) => s.not t

/-- /repo/mddcore/src/mdd_ops.rs:207-210 -/
def nor (s : Mdd) (f g : Nat) : Option (Nat × Mdd) :=
  match s.or f g with
  | none => none
  | some (t, s) => s.not t

/-- /repo/mddcore/src/mdd_ops.rs:212-215 -/
def xnor (s : Mdd) (f g : Nat) : Option (Nat × Mdd) :=
  match s.xor f g with
  | none => none
  | some (t, s) => s.not t

/-- /repo/mddcore/src/mdd_ops.rs:226-258.  The code indexes `fc[i]` for `i < k`; the three cofactor
lists have length `k` (proved), so zipping them is the same. -/
def iteF : Nat → Mdd → Nat × Nat × Nat → Option (Nat × Mdd)
  | 0, _, _ => none
  | n + 1, s, (f, g, h) =>
    match s.arena.node? f with
    | none => none
    | some (.term .one) => some (g, s)
    | some (.term .zero) => some (h, s)
    | some (.term .undet) => some (undet, s)
    | some (.nt _ _) =>
      if g = h then some (g, s)
      else
        memo (iteCacheGet f g h) (iteCachePut f g h) (fun s =>
          match s.arena.level? f with
          | none => none
          | some lf =>
            let top := s.arena.topLevel lf [g, h]
            match s.arena.topHeader top [f, g, h] with
            | none => none
            | some (hx, k) =>
              branchS createNode (iteF n) s hx (zip3 (s.arena.cofactor f top k)
                (s.arena.cofactor g top k) (s.arena.cofactor h top k))) s

/-- `ite` with enough fuel. -/
def ite (s : Mdd) (f g h : Nat) : Option (Nat × Mdd) :=
  iteF (Max.max (s.arena.rank f) (Max.max (s.arena.rank g) (s.arena.rank h)) + 1) s (f, g, h)

/-- /repo/mddcore/src/mdd_ops.rs:288-340 -/
def replaceF : Nat → Mdd → Nat × Nat → Option (Nat × Mdd)
  | 0, _, _ => none
  | n + 1, s, (f, g) =>
    memo (cacheGet opReplace f g) (cachePut opReplace f g) (fun s =>
      match s.arena.node? f, s.arena.node? g with
      | some (.term .undet), some _ => some (g, s)
      | some _, some (.term .undet) => some (f, s)
      | some (.term .zero), some _ => some (zero, s)
      | some (.term .one), some _ => some (one, s)
      | some (.nt hf cf), some (.term _) =>
        branchS createNode (replaceF n) s hf (cf.map (fun x => (x, g)))
      | some (.nt hf cf), some (.nt hg cg) =>
        arms2 createNode (replaceF n) s (s.arena.level? f) (s.arena.level? g) hg f hf cf g hg cg
      | _, _ => none) s

/-- `replace` with enough fuel. -/
def replace (s : Mdd) (f g : Nat) : Option (Nat × Mdd) :=
  replaceF (Max.max (s.arena.rank f) (s.arena.rank g) + 1) s (f, g)

end Mdd
end DD
