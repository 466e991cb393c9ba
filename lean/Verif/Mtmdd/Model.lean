import Verif.Core.Memo
import Verif.Core.Gc

/-!
# Model of `mddcore::MtMddManager<V>`

/repo/mddcore/src/mtmdd.rs and /repo/mddcore/src/mtmdd_ops.rs, with `V` the mathematical integers
(machine overflow is outside the model; `/` and `%` truncate towards zero as in Rust).
Terminals: `none` is `Node::Undet` (slot 0), `some v` is `Node::Terminal(v)` (hash-consed).
-/

set_option autoImplicit false

namespace DD

/-- Terminal slots of MTMDD and ZMDD: only `Undet` is allocated by the constructor
(/repo/mddcore/src/mtmdd.rs:114-120, /repo/mddcore/src/zmdd.rs). -/
instance : Fixed (Option Int) where
  fix
    | none => some 0
    | some _ => none
  slots := [0]
  slots_iff i := by
    constructor
    · intro h
      simp at h
      exact ⟨none, by rw [h]⟩
    · rintro ⟨t, ht⟩
      cases t with
      | none => simp at ht; simp [ht]
      | some v => simp at ht

/-- /repo/mddcore/src/mtmdd.rs:62-73.  `undet` is the constant 0; `vtable` and `utable` are the two
kinds of keys of the arena's table. -/
structure Mtmdd where
  arena : Arena (Option Int)
  cache : ComputeCache

namespace Mtmdd

/-- /repo/mddcore/src/mtmdd.rs:111-133 -/
def new : Mtmdd where
  arena := { headers := [], nodes := [.term none], utable := AMap.empty, free := [] }
  cache := ComputeCache.new

/-- /repo/mddcore/src/mtmdd.rs:200-206 -/
def createHeader (s : Mtmdd) (level : Nat) (label : String) (edgeNum : Nat) : Nat × Mtmdd :=
  let (h, m) := s.arena.createHeader level label edgeNum
  (h, { s with arena := m })

/-- /repo/mddcore/src/mtmdd.rs:208-215; `none` = index panic in `alloc`. -/
def value (s : Mtmdd) (v : Int) : Option (Nat × Mtmdd) :=
  match s.arena.mkNode (.term (some v)) with
  | none => none
  | some (r, m) => some (r, { s with arena := m })

/-- /repo/mddcore/src/mtmdd.rs:217-230 -/
def createNode (s : Mtmdd) (h : Nat) (ch : List Nat) : Option (Nat × Mtmdd) :=
  match s.arena.createFull h ch with
  | none => none
  | some (r, m) => some (r, { s with arena := m })

/-- /repo/mddcore/src/mtmdd.rs:243-245 -/
def undet : Nat := 0

/-- Operation codes, /repo/mddcore/src/mtmdd_ops.rs:22-33. -/
def opAdd : Nat := 0
@[inherit_doc opAdd] def opSub : Nat := 1
@[inherit_doc opAdd] def opMul : Nat := 2
@[inherit_doc opAdd] def opDiv : Nat := 3
@[inherit_doc opAdd] def opRem : Nat := 4
@[inherit_doc opAdd] def opMin : Nat := 5
@[inherit_doc opAdd] def opMax : Nat := 6
@[inherit_doc opAdd] def opReplace : Nat := 7

/-- /repo/mddcore/src/mtmdd.rs:249-253 -/
def cacheGet (op f g : Nat) (s : Mtmdd) : Option Nat := s.cache.get op f g

/-- /repo/mddcore/src/mtmdd.rs:257-260 -/
def cachePut (op f g : Nat) (s : Mtmdd) (r : Nat) : Mtmdd :=
  { s with cache := s.cache.put op f g r }

/-- /repo/mddcore/src/mtmdd.rs:263-265 -/
def clearCache (s : Mtmdd) : Mtmdd := { s with cache := s.cache.clear }

/-- /repo/mddcore/src/mtmdd.rs:196-198 -/
def liveNodeCount (s : Mtmdd) : Nat := s.arena.liveNodeCount

/-- /repo/mddcore/src/mtmdd.rs:233-240; the third component is the length of the value table. -/
def size (s : Mtmdd) : Nat × Nat × Nat × Nat :=
  (s.arena.headers.length, s.arena.nodes.length,
    (s.arena.utable.kvs.filter (fun e => match e.1 with | .term _ => true | .nt _ _ => false)).length,
    s.cache.len)

/-- /repo/mddcore/src/mtmdd.rs:162-192; returns the number of reclaimed slots. -/
def gc (s : Mtmdd) (roots : List Nat) : Option (Nat × Mtmdd) :=
  match s.arena.gcA roots with
  | none => none
  | some (live, m) =>
    match s.cache.retainLive live with
    | some c => some (m.free.length, { arena := m, cache := c })
    | none => none

/-- The terminal/terminal case hits the early `return self.undet()` of `div`/`rem`
(/repo/mddcore/src/mtmdd_ops.rs:222-224, 280-282), which skips the cache. -/
def early (s : Mtmdd) (tt : Int → Int → Option (Option Int)) (f g : Nat) : Bool :=
  match s.arena.node? f, s.arena.node? g with
  | some (.term (some a)), some (.term (some b)) => decide (tt a b = some none)
  | _, _ => false

/-- A terminal/terminal arm that never panics. -/
abbrev total (tt : Int → Int → Option Int) (a b : Int) : Option (Option Int) := some (tt a b)

/-- The common text of `add`, `sub`, `mul`, `div`, `rem`, `min`, `max`
(/repo/mddcore/src/mtmdd_ops.rs:40-443), which differ only in the operation code, in whether the
operands are put in id order first (`comm`), and in the terminal/terminal arm (`tt`; `some none` is the
division-by-zero `return self.undet()`, `none` is an overflow panic of the value type). -/
def binF (op : Nat) (comm : Bool) (tt : Int → Int → Option (Option Int)) :
    Nat → Mtmdd → Nat × Nat → Option (Nat × Mtmdd)
  | 0, _, _ => none
  | n + 1, s, (f0, g0) =>
    let f := if comm then min f0 g0 else f0
    let g := if comm then max f0 g0 else g0
    memo (cacheGet op f g) (fun s r => if s.early tt f g then s else cachePut op f g s r) (fun s =>
      match s.arena.node? f, s.arena.node? g with
      | some (.term none), some _ => some (undet, s)
      | some _, some (.term none) => some (undet, s)
      | some (.term (some a)), some (.term (some b)) =>
        match tt a b with
        | none => none
        | some none => some (undet, s)
        | some (some v) => s.value v
      | some (.term (some _)), some (.nt hg cg) =>
        branchS createNode (binF op comm tt n) s hg (cg.map (fun y => (f, y)))
      | some (.nt hf cf), some (.term (some _)) =>
        branchS createNode (binF op comm tt n) s hf (cf.map (fun x => (x, g)))
      | some (.nt hf cf), some (.nt hg cg) =>
        arms2 createNode (binF op comm tt n) s (s.arena.level? f) (s.arena.level? g) hf f hf cf g hg cg
      | _, _ => none) s

/-- A call with enough fuel. -/
def bin (op : Nat) (comm : Bool) (tt : Int → Int → Option (Option Int)) (s : Mtmdd) (f g : Nat) :
    Option (Nat × Mtmdd) :=
  binF op comm tt (Max.max (s.arena.rank f) (s.arena.rank g) + 1) s (f, g)

/-- /repo/mddcore/src/mtmdd_ops.rs:40-98 -/
def add : Mtmdd → Nat → Nat → Option (Nat × Mtmdd) := bin opAdd true (total fun a b => some (a + b))

/-- /repo/mddcore/src/mtmdd_ops.rs:100-153 -/
def sub : Mtmdd → Nat → Nat → Option (Nat × Mtmdd) := bin opSub false (total fun a b => some (a - b))

/-- /repo/mddcore/src/mtmdd_ops.rs:155-211 -/
def mul : Mtmdd → Nat → Nat → Option (Nat × Mtmdd) := bin opMul true (total fun a b => some (a * b))

/-- /repo/mddcore/src/mtmdd_ops.rs:213-269 -/
def div : Mtmdd → Nat → Nat → Option (Nat × Mtmdd) :=
  bin opDiv false (total fun a b => if b = 0 then none else some (a.tdiv b))

/-- /repo/mddcore/src/mtmdd_ops.rs:271-327 -/
def rem : Mtmdd → Nat → Nat → Option (Nat × Mtmdd) :=
  bin opRem false (total fun a b => if b = 0 then none else some (a.tmod b))

/-- /repo/mddcore/src/mtmdd_ops.rs:329-385 -/
def min : Mtmdd → Nat → Nat → Option (Nat × Mtmdd) := bin opMin true (total fun a b => some (Min.min a b))

/-- /repo/mddcore/src/mtmdd_ops.rs:387-443 -/
def max : Mtmdd → Nat → Nat → Option (Nat × Mtmdd) := bin opMax true (total fun a b => some (Max.max a b))

/-- /repo/mddcore/src/mtmdd_ops.rs:445-490 -/
def replaceF : Nat → Mtmdd → Nat × Nat → Option (Nat × Mtmdd)
  | 0, _, _ => none
  | n + 1, s, (f, g) =>
    memo (cacheGet opReplace f g) (cachePut opReplace f g) (fun s =>
      match s.arena.node? f, s.arena.node? g with
      | some (.term none), some _ => some (g, s)
      | some _, some (.term none) => some (f, s)
      | some (.term (some _)), some _ => some (f, s)
      | some (.nt hf cf), some (.term (some _)) =>
        branchS createNode (replaceF n) s hf (cf.map (fun x => (x, g)))
      | some (.nt hf cf), some (.nt hg cg) =>
        arms2 createNode (replaceF n) s (s.arena.level? f) (s.arena.level? g) hf f hf cf g hg cg
      | _, _ => none) s

/-- `replace` with enough fuel. -/
def replace (s : Mtmdd) (f g : Nat) : Option (Nat × Mtmdd) :=
  replaceF (Max.max (s.arena.rank f) (s.arena.rank g) + 1) s (f, g)

end Mtmdd
end DD
