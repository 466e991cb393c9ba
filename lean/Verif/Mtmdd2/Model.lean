import Verif.Mdd.Model
import Verif.Mtmdd.Model

/-!
# Model of `mddcore::MtMdd2Manager<V>`

/repo/mddcore/src/mtmdd2.rs and /repo/mddcore/src/mtmdd2_ops.rs: a boolean forest (MDD) and a value
forest (MTMDD) with the same headers, and operations between them.  `V` = mathematical integers.
-/

set_option autoImplicit false

namespace DD

/-- /repo/mddcore/src/mtmdd2.rs:7-11 -/
inductive MNode where
  | value (i : Nat)
  | bool (i : Nat)
  deriving DecidableEq

/-- /repo/mddcore/src/mtmdd2.rs:14-25 -/
structure Mtmdd2 where
  mdd : Mdd
  mtmdd : Mtmdd
  bcache : ComputeCache
  vcache : ComputeCache
  viteCache : ComputeCache

namespace Mtmdd2

/-- /repo/mddcore/src/mtmdd2.rs:31-39 -/
def new : Mtmdd2 where
  mdd := Mdd.new
  mtmdd := Mtmdd.new
  bcache := ComputeCache.new
  vcache := ComputeCache.new
  viteCache := ComputeCache.new

/-- /repo/mddcore/src/mtmdd2.rs:62-71 -/
def size (s : Mtmdd2) : Nat × Nat × Nat × Nat :=
  let (vh, vn, vv, vc) := s.mtmdd.size
  let (_, bn, bc) := s.mdd.size
  (vh, vn + bn, vv, vc + bc + s.vcache.len + s.bcache.len + s.viteCache.len)

/-- A result in the boolean forest. -/
def liftB (s : Mtmdd2) : Option (Nat × Mdd) → Option (MNode × Mtmdd2)
  | none => none
  | some (r, b) => some (.bool r, { s with mdd := b })

/-- A result in the value forest. -/
def liftV (s : Mtmdd2) : Option (Nat × Mtmdd) → Option (MNode × Mtmdd2)
  | none => none
  | some (r, v) => some (.value r, { s with mtmdd := v })

/-- /repo/mddcore/src/mtmdd2.rs:73-76 -/
def one : MNode := .bool Mdd.one

/-- /repo/mddcore/src/mtmdd2.rs:78-81 -/
def zero : MNode := .bool Mdd.zero

/-- /repo/mddcore/src/mtmdd2.rs:83-86 -/
def value (s : Mtmdd2) (v : Int) : Option (MNode × Mtmdd2) := s.liftV (s.mtmdd.value v)

/-- /repo/mddcore/src/mtmdd2.rs:88-91 (as written: the id comes from the value forest). -/
def undetBoolean : MNode := .bool Mtmdd.undet

/-- /repo/mddcore/src/mtmdd2.rs:93-96 -/
def undetValue : MNode := .value Mtmdd.undet

/-- /repo/mddcore/src/mtmdd2.rs:98-104; `none` = failed `assert_eq!`. -/
def createHeader (s : Mtmdd2) (level : Nat) (label : String) (edgeNum : Nat) :
    Option (Nat × Mtmdd2) :=
  let (h1, v) := s.mtmdd.createHeader level label edgeNum
  let (h2, b) := s.mdd.createHeader level label edgeNum
  if h1 = h2 then some (h1, { s with mdd := b, mtmdd := v }) else none

/-- The id inside a node (/repo/mddcore/src/mtmdd2.rs:107-113). -/
def MNode.id : MNode → Nat
  | .value f => f
  | .bool f => f

/-- /repo/mddcore/src/mtmdd2.rs:106-118; `none` also = index panic on an empty slice. -/
def createNode (s : Mtmdd2) (h : Nat) (nodes : List MNode) : Option (MNode × Mtmdd2) :=
  match nodes with
  | [] => none
  | .value _ :: _ => s.liftV (s.mtmdd.createNode h (nodes.map MNode.id))
  | .bool _ :: _ => s.liftB (s.mdd.createNode h (nodes.map MNode.id))

/-- `self.mdd_mut().create_node(..)` on plain ids. -/
def mkB (s : Mtmdd2) (h : Nat) (ch : List Nat) : Option (Nat × Mtmdd2) :=
  match s.mdd.createNode h ch with
  | none => none
  | some (r, b) => some (r, { s with mdd := b })

/-- `self.mtmdd_mut().create_node(..)` on plain ids. -/
def mkV (s : Mtmdd2) (h : Nat) (ch : List Nat) : Option (Nat × Mtmdd2) :=
  match s.mtmdd.createNode h ch with
  | none => none
  | some (r, v) => some (r, { s with mtmdd := v })

/-- Operation codes, /repo/mddcore/src/mtmdd2_ops.rs:22-29. -/
def opEq : Nat := 0
@[inherit_doc opEq] def opLt : Nat := 1
@[inherit_doc opEq] def opIf : Nat := 2

/-- /repo/mddcore/src/mtmdd2.rs:120-160 -/
def bcacheGet (op f g : Nat) (s : Mtmdd2) : Option Nat := s.bcache.get op f g
@[inherit_doc bcacheGet] def bcachePut (op f g : Nat) (s : Mtmdd2) (r : Nat) : Mtmdd2 :=
  { s with bcache := s.bcache.put op f g r }
@[inherit_doc bcacheGet] def vcacheGet (op f g : Nat) (s : Mtmdd2) : Option Nat := s.vcache.get op f g
@[inherit_doc bcacheGet] def vcachePut (op f g : Nat) (s : Mtmdd2) (r : Nat) : Mtmdd2 :=
  { s with vcache := s.vcache.put op f g r }
@[inherit_doc bcacheGet] def viteGet (f g h : Nat) (s : Mtmdd2) : Option Nat := s.viteCache.get f g h
@[inherit_doc bcacheGet] def vitePut (f g h : Nat) (s : Mtmdd2) (r : Nat) : Mtmdd2 :=
  { s with viteCache := s.viteCache.put f g h r }

/-- /repo/mddcore/src/mtmdd2.rs:162-169 -/
def clearCache (s : Mtmdd2) : Mtmdd2 where
  vcache := s.vcache.clear
  bcache := s.bcache.clear
  viteCache := s.viteCache.clear
  mtmdd := s.mtmdd.clearCache
  mdd := s.mdd.clearCache

/-- `Node::Value` roots (/repo/mddcore/src/mtmdd2.rs:179-186). -/
def vroots (roots : List MNode) : List Nat :=
  roots.filterMap (fun r => match r with | .value f => some f | .bool _ => none)

/-- `Node::Bool` roots (/repo/mddcore/src/mtmdd2.rs:179-186). -/
def broots (roots : List MNode) : List Nat :=
  roots.filterMap (fun r => match r with | .value _ => none | .bool f => some f)

/-- /repo/mddcore/src/mtmdd2.rs:178-193 -/
def gc (s : Mtmdd2) (roots : List MNode) : Option ((Nat × Nat) × Mtmdd2) :=
  match s.mtmdd.gc (vroots roots) with
  | none => none
  | some (nv, v) =>
    match s.mdd.gc (broots roots) with
    | none => none
    | some (nb, b) =>
      some ((nv, nb), { mdd := b, mtmdd := v, bcache := s.bcache.clear, vcache := s.vcache.clear,
                        viteCache := s.viteCache.clear })

/-- /repo/mddcore/src/mtmdd2.rs:197-199 -/
def liveNodeCount (s : Mtmdd2) : Nat := s.mtmdd.liveNodeCount + s.mdd.liveNodeCount

/-! ## Routed operations (/repo/mddcore/src/mtmdd2_ops.rs:36-104) -/

/-- Both operands boolean: route to the MDD; otherwise the MDD's undet. -/
def routeB (op : Mdd → Nat → Nat → Option (Nat × Mdd)) (s : Mtmdd2) (f g : MNode) :
    Option (MNode × Mtmdd2) :=
  match f, g with
  | .bool f, .bool g => s.liftB (op s.mdd f g)
  | _, _ => some (.bool Mdd.undet, s)

/-- Both operands values: route to the MTMDD; otherwise the MTMDD's undet. -/
def routeV (op : Mtmdd → Nat → Nat → Option (Nat × Mtmdd)) (s : Mtmdd2) (f g : MNode) :
    Option (MNode × Mtmdd2) :=
  match f, g with
  | .value f, .value g => s.liftV (op s.mtmdd f g)
  | _, _ => some (.value Mtmdd.undet, s)

/-- /repo/mddcore/src/mtmdd2_ops.rs:36-41 -/
def and : Mtmdd2 → MNode → MNode → Option (MNode × Mtmdd2) := routeB Mdd.and
/-- /repo/mddcore/src/mtmdd2_ops.rs:43-48 -/
def or : Mtmdd2 → MNode → MNode → Option (MNode × Mtmdd2) := routeB Mdd.or
/-- /repo/mddcore/src/mtmdd2_ops.rs:50-55 -/
def xor : Mtmdd2 → MNode → MNode → Option (MNode × Mtmdd2) := routeB Mdd.xor
/-- /repo/mddcore/src/mtmdd2_ops.rs:57-62 -/
def not (s : Mtmdd2) (f : MNode) : Option (MNode × Mtmdd2) :=
  match f with
  | .bool f => s.liftB (s.mdd.not f)
  | .value _ => some (.bool Mdd.undet, s)
/-- /repo/mddcore/src/mtmdd2_ops.rs:64-69 -/
def add : Mtmdd2 → MNode → MNode → Option (MNode × Mtmdd2) := routeV Mtmdd.add
/-- /repo/mddcore/src/mtmdd2_ops.rs:71-76 -/
def sub : Mtmdd2 → MNode → MNode → Option (MNode × Mtmdd2) := routeV Mtmdd.sub
/-- /repo/mddcore/src/mtmdd2_ops.rs:78-83 -/
def mul : Mtmdd2 → MNode → MNode → Option (MNode × Mtmdd2) := routeV Mtmdd.mul
/-- /repo/mddcore/src/mtmdd2_ops.rs:85-90 -/
def div : Mtmdd2 → MNode → MNode → Option (MNode × Mtmdd2) := routeV Mtmdd.div
/-- /repo/mddcore/src/mtmdd2_ops.rs:92-97 -/
def max : Mtmdd2 → MNode → MNode → Option (MNode × Mtmdd2) := routeV Mtmdd.max
/-- /repo/mddcore/src/mtmdd2_ops.rs:99-104 -/
def min : Mtmdd2 → MNode → MNode → Option (MNode × Mtmdd2) := routeV Mtmdd.min

/-! ## Comparisons -/

/-- The common text of `veq` (/repo/mddcore/src/mtmdd2_ops.rs:122-179) and `vlt` (199-256), which
differ in the operation code and the guard `p` of the terminal/terminal arm. -/
def cmpF (op : Nat) (p : Int → Int → Bool) : Nat → Mtmdd2 → Nat × Nat → Option (Nat × Mtmdd2)
  | 0, _, _ => none
  | n + 1, s, (f, g) =>
    memo (bcacheGet op f g) (bcachePut op f g) (fun s =>
      match s.mtmdd.arena.node? f, s.mtmdd.arena.node? g with
      | some (.term none), some _ => some (Mdd.zero, s)
      | some _, some (.term none) => some (Mdd.zero, s)
      | some (.term (some a)), some (.term (some b)) =>
        if p a b then some (Mdd.one, s) else some (Mdd.zero, s)
      | some (.term (some _)), some (.nt hg cg) =>
        branchS mkB (cmpF op p n) s hg (cg.map (fun y => (f, y)))
      | some (.nt hf cf), some (.term (some _)) =>
        branchS mkB (cmpF op p n) s hf (cf.map (fun x => (x, g)))
      | some (.nt hf cf), some (.nt hg cg) =>
        arms2 mkB (cmpF op p n) s (s.mtmdd.arena.level? f) (s.mtmdd.arena.level? g) hf f hf cf g hg cg
      | _, _ => none) s

/-- A call with enough fuel. -/
def cmp (op : Nat) (p : Int → Int → Bool) (s : Mtmdd2) (f g : Nat) : Option (Nat × Mtmdd2) :=
  cmpF op p (Max.max (s.mtmdd.arena.rank f) (s.mtmdd.arena.rank g) + 1) s (f, g)

/-- /repo/mddcore/src/mtmdd2_ops.rs:122-179 -/
def veq : Mtmdd2 → Nat → Nat → Option (Nat × Mtmdd2) := cmp opEq (fun a b => decide (a = b))

/-- /repo/mddcore/src/mtmdd2_ops.rs:199-256 -/
def vlt : Mtmdd2 → Nat → Nat → Option (Nat × Mtmdd2) := cmp opLt (fun a b => decide (a < b))

/-- Tag a result as boolean. -/
def tagB : Option (Nat × Mtmdd2) → Option (MNode × Mtmdd2)
  | none => none
  | some (r, s) => some (.bool r, s)

/-- `let tmp = …; self.mdd_mut().not(tmp)` -/
def thenNot : Option (Nat × Mtmdd2) → Option (MNode × Mtmdd2)
  | none => none
  | some (r, s) => s.liftB (s.mdd.not r)

/-- /repo/mddcore/src/mtmdd2_ops.rs:111-120 -/
def eq (s : Mtmdd2) (f g : MNode) : Option (MNode × Mtmdd2) :=
  match f, g with
  | .bool f, .bool g => s.liftB (s.mdd.xnor f g)
  | .value f, .value g => tagB (s.veq f g)
  | _, _ => some (.bool Mdd.undet, s)

/-- /repo/mddcore/src/mtmdd2_ops.rs:181-190 -/
def neq (s : Mtmdd2) (f g : MNode) : Option (MNode × Mtmdd2) :=
  match f, g with
  | .bool f, .bool g => s.liftB (s.mdd.xor f g)
  | .value f, .value g => thenNot (s.veq f g)
  | _, _ => some (.bool Mdd.undet, s)

/-- /repo/mddcore/src/mtmdd2_ops.rs:192-197 -/
def lt (s : Mtmdd2) (f g : MNode) : Option (MNode × Mtmdd2) :=
  match f, g with
  | .value f, .value g => tagB (s.vlt f g)
  | _, _ => some (.bool Mdd.undet, s)

/-- /repo/mddcore/src/mtmdd2_ops.rs:258-270 -/
def lte (s : Mtmdd2) (f g : MNode) : Option (MNode × Mtmdd2) :=
  match f, g with
  | .value f, .value g =>
    match s.veq f g with
    | none => none
    | some (r, s1) => if r = Mdd.one then some (.bool Mdd.one, s1) else tagB (s1.vlt f g)
  | _, _ => some (.bool Mdd.undet, s)

/-- /repo/mddcore/src/mtmdd2_ops.rs:272-280 -/
def gt (s : Mtmdd2) (f g : MNode) : Option (MNode × Mtmdd2) :=
  match f, g with
  | .value f, .value g => tagB (s.vlt g f)
  | _, _ => some (.bool Mdd.undet, s)

/-- /repo/mddcore/src/mtmdd2_ops.rs:282-291 -/
def gte (s : Mtmdd2) (f g : MNode) : Option (MNode × Mtmdd2) :=
  match f, g with
  | .value f, .value g => thenNot (s.vlt f g)
  | _, _ => some (.bool Mdd.undet, s)

/-! ## Selection -/

/-- /repo/mddcore/src/mtmdd2_ops.rs:314-363 -/
def vifF : Nat → Mtmdd2 → Nat × Nat → Option (Nat × Mtmdd2)
  | 0, _, _ => none
  | n + 1, s, (f, g) =>
    memo (vcacheGet opIf f g) (vcachePut opIf f g) (fun s =>
      match s.mdd.arena.node? f, s.mtmdd.arena.node? g with
      | some (.term .undet), some _ => some (Mtmdd.undet, s)
      | some _, some (.term none) => some (Mtmdd.undet, s)
      | some (.term .zero), some _ => some (Mtmdd.undet, s)
      | some (.term .one), some _ => some (g, s)
      | some (.nt hf cf), some (.term (some _)) =>
        branchS mkV (vifF n) s hf (cf.map (fun x => (x, g)))
      | some (.nt hf cf), some (.nt hg cg) =>
        arms2 mkV (vifF n) s (s.mdd.arena.level? f) (s.mtmdd.arena.level? g) hf f hf cf g hg cg
      | _, _ => none) s

/-- `vif` with enough fuel. -/
def vif (s : Mtmdd2) (f g : Nat) : Option (Nat × Mtmdd2) :=
  vifF (Max.max (s.mdd.arena.rank f) (s.mtmdd.arena.rank g) + 1) s (f, g)

/-- /repo/mddcore/src/mtmdd2_ops.rs:437-451 (`vite_top_header`); `none` = `unreachable!`. -/
def viteTopHeader (s : Mtmdd2) (f g h top : Nat) : Option (Nat × Nat) :=
  match s.mdd.arena.topHeader top [f] with
  | some x => some x
  | none => s.mtmdd.arena.topHeader top [g, h]

/-- /repo/mddcore/src/mtmdd2_ops.rs:373-408.  As for the MDD `ite`, the cofactor lists have length
`k`, so zipping them is indexing by `0..k`. -/
def viteF : Nat → Mtmdd2 → Nat × Nat × Nat → Option (Nat × Mtmdd2)
  | 0, _, _ => none
  | n + 1, s, (f, g, h) =>
    match s.mdd.arena.node? f with
    | none => none
    | some (.term .one) => some (g, s)
    | some (.term .zero) => some (h, s)
    | some (.term .undet) => some (Mtmdd.undet, s)
    | some (.nt _ _) =>
      if g = h then some (g, s)
      else
        memo (viteGet f g h) (vitePut f g h) (fun s =>
          match s.mdd.arena.level? f with
          | none => none
          | some lf =>
            let top := s.mtmdd.arena.topLevel lf [g, h]
            match s.viteTopHeader f g h top with
            | none => none
            | some (hx, k) =>
              branchS mkV (viteF n) s hx (zip3 (s.mdd.arena.cofactor f top k)
                (s.mtmdd.arena.cofactor g top k) (s.mtmdd.arena.cofactor h top k))) s

/-- `vite` with enough fuel. -/
def vite (s : Mtmdd2) (f g h : Nat) : Option (Nat × Mtmdd2) :=
  viteF (Max.max (s.mdd.arena.rank f) (Max.max (s.mtmdd.arena.rank g) (s.mtmdd.arena.rank h)) + 1) s (f, g, h)

/-- Tag a result as value. -/
def tagV : Option (Nat × Mtmdd2) → Option (MNode × Mtmdd2)
  | none => none
  | some (r, s) => some (.value r, s)

/-- /repo/mddcore/src/mtmdd2_ops.rs:293-312; `none` = the `panic!` for branches of different kinds. -/
def ite (s : Mtmdd2) (f g h : MNode) : Option (MNode × Mtmdd2) :=
  match f, g, h with
  | .bool f, .value g, .value h => tagV (s.vite f g h)
  | .bool f, .bool g, .bool h => s.liftB (s.mdd.ite f g h)
  | .value _, .value _, .value _ => some (.value Mtmdd.undet, s)
  | .value _, .bool _, .bool _ => some (.bool Mdd.undet, s)
  | _, _, _ => none

end Mtmdd2
end DD
