import Verif.Core.Arena

/-!
# The edge-valued engine

`EvMddManager` of /repo/evmdd_core/src/evplus_mdd.rs.  The crate is not a member of the workspace and the trait
`EdgeValue` is not in the repository; the model takes `V = i64`-like values without overflow, `Int`.
A node id is a position in `nodes`; nodes are never removed.  `none` = panic.
-/

set_option autoImplicit false
set_option linter.unusedVariables false

namespace DD

/-- /repo/evmdd_core/src/evplus_mdd.rs:13-17 -/
structure EvEdge where
  value : Int
  node : Nat
deriving DecidableEq, Repr

/-- /repo/evmdd_core/src/evplus_mdd.rs:100-105, the non-terminal 38-43 without its own id. -/
inductive EvNode where
  | omega
  | infinity
  | nt (h : Nat) (edges : List EvEdge)
deriving DecidableEq, Repr

/-- /repo/evmdd_core/src/evplus_mdd.rs:90-98 -/
inductive EvOp where
  | add
  | sub
  | min
  | max
deriving DecidableEq, Repr

/-- /repo/evmdd_core/src/evplus_mdd.rs:131-142 -/
structure Ev where
  headers : List Header
  nodes : List EvNode
  utable : AMap (Nat × List EvEdge) Nat
  cache : AMap (EvOp × Nat × Nat × Int) EvEdge

namespace Ev

/-- /repo/evmdd_core/src/evplus_mdd.rs:222-224; the position is fixed by :118 and 151-157. -/
def omega : Nat := 0

/-- /repo/evmdd_core/src/evplus_mdd.rs:226-228; the position is fixed by :119 and 158-164. -/
def infinity : Nat := 1

/-- /repo/evmdd_core/src/evplus_mdd.rs:148-175 -/
def new : Ev := ⟨[], [.omega, .infinity], AMap.empty, AMap.empty⟩

/-- /repo/evmdd_core/src/evplus_mdd.rs:185-187 -/
def size (s : Ev) : Nat × Nat × Nat := (s.headers.length, s.nodes.length, s.utable.len)

/-- /repo/evmdd_core/src/evplus_mdd.rs:189-195 -/
def createHeader (s : Ev) (level : Nat) (label : String) (edgeNum : Nat) : Nat × Ev :=
  (s.headers.length, { s with headers := s.headers ++ [⟨level, label, edgeNum⟩] })

/-- `iter().map(|x| x.value()).min()` of a list with first element `e`, /repo/evmdd_core/src/evplus_mdd.rs:205. -/
def minValue : EvEdge → List EvEdge → Int
  | e, [] => e.value
  | e, e' :: es => min e.value (minValue e' es)

/-- /repo/evmdd_core/src/evplus_mdd.rs:197-215, 177-183 -/
def createNode (s : Ev) (h : Nat) (edges : List EvEdge) : Option (EvEdge × Ev) :=
  match edges with
  | [] => none
  | first :: rest =>
    if edges.all (fun x => first == x) then some (first, s)
    else
      let mu := minValue first rest
      let es := edges.map (fun x => (⟨x.value - mu, x.node⟩ : EvEdge))
      match s.utable.get (h, es) with
      | some x => some (⟨mu, x⟩, s)
      | none =>
        some (⟨mu, s.nodes.length⟩,
          { s with nodes := s.nodes ++ [.nt h es], utable := s.utable.insert (h, es) s.nodes.length })

/-- /repo/evmdd_core/src/evplus_mdd.rs:238-243; the inner `none` = not a non-terminal, or no such header. -/
def level? (s : Ev) (i : Nat) : Option Nat :=
  match s.nodes[i]? with
  | some (.nt h _) => (s.headers[h]?).map (·.level)
  | _ => none

/-- Order of `Option<Level>`, `None` first. -/
def depth : Option Nat → Nat
  | none => 0
  | some l => l + 1

/-- What is added to a cached or newly made result: `mu` for `min` and `max`
(/repo/evmdd_core/src/evplus_mdd.rs:261, 277, …, 343, 358, …), `mu + mu` for `add` (:424, 439, …), nothing for `sub`
(:505, 521, …). -/
def offset : EvOp → Int → Int
  | .min, mu => mu
  | .max, mu => mu
  | .add, mu => mu + mu
  | .sub, _ => 0

/-- The arms with one infinite operand, the other being `e`: `min` /repo/evmdd_core/src/evplus_mdd.rs:265-266, the
others :346-347, 427-428, 508-509. -/
def withInf (o : EvOp) (e : EvEdge) : EvEdge :=
  match o with
  | .min => e
  | _ => ⟨0, infinity⟩

/-- The first arms of the `match`, on terminals: `min` /repo/evmdd_core/src/evplus_mdd.rs:264-267, `max` :346-348,
`add` :427-429, `sub` :508-510.  `none` = none of these arms. -/
def base (o : EvOp) (fv : Int) (f : Nat) (gv : Int) (g : Nat) : EvNode → EvNode → Option EvEdge
  | .infinity, .infinity => some ⟨0, infinity⟩
  | .infinity, _ => some (withInf o ⟨gv, g⟩)
  | _, .infinity => some (withInf o ⟨fv, f⟩)
  | .omega, .omega => some (match o with
    | .min => ⟨min fv gv, omega⟩
    | .max => ⟨max fv gv, omega⟩
    | .add => ⟨fv + gv, omega⟩
    | .sub => ⟨fv - gv, omega⟩)
  | _, _ => none

/-- The remaining arms: the header of the result and the operands of the recursive calls
(/repo/evmdd_core/src/evplus_mdd.rs:268-335 for `min`; the same text for `max` 349-416, `add` 430-497, `sub` 511-578). -/
def expand (s : Ev) (fv : Int) (f : Nat) (gv : Int) (g : Nat) : EvNode → EvNode → Option (Nat × List (EvEdge × EvEdge))
  | .omega, .nt hg ge => some (hg, ge.map fun e => (⟨fv - min fv gv, f⟩, ⟨gv - min fv gv + e.value, e.node⟩))
  | .nt hf fe, .omega => some (hf, fe.map fun e => (⟨fv - min fv gv + e.value, e.node⟩, ⟨gv - min fv gv, g⟩))
  | .nt hf fe, .nt hg ge =>
    if depth (s.level? f) > depth (s.level? g) then
      some (hf, fe.map fun e => (⟨fv - min fv gv + e.value, e.node⟩, ⟨gv - min fv gv, g⟩))
    else if depth (s.level? f) < depth (s.level? g) then
      some (hg, ge.map fun e => (⟨fv - min fv gv, f⟩, ⟨gv - min fv gv + e.value, e.node⟩))
    else
      some (hf, (fe.zip ge).map fun p =>
        (⟨fv - min fv gv + p.1.value, p.1.node⟩, ⟨gv - min fv gv + p.2.value, p.2.node⟩))
  | _, _ => none

/-- The calls made by `map(…).collect()`, in order. -/
def mapS (rec : Ev → EvEdge → EvEdge → Option (EvEdge × Ev)) : Ev → List (EvEdge × EvEdge) → Option (List EvEdge × Ev)
  | s, [] => some ([], s)
  | s, (x, y) :: ps =>
    match rec s x y with
    | none => none
    | some (e, s) =>
      match mapS rec s ps with
      | none => none
      | some (es, s) => some (e :: es, s)

/-- `min` /repo/evmdd_core/src/evplus_mdd.rs:257-337, `max` :339-418, `add` :420-499, `sub` :501-580: one text but
for `base` and `offset`. -/
def applyF (o : EvOp) : Nat → Ev → EvEdge → EvEdge → Option (EvEdge × Ev)
  | 0, _, _, _ => none
  | fuel + 1, s, x, y =>
    match s.cache.get (o, x.node, y.node, x.value - y.value) with
    | some r => some (⟨offset o (min x.value y.value) + r.value, r.node⟩, s)
    | none =>
      match s.nodes[x.node]?, s.nodes[y.node]? with
      | some nf, some ng =>
        match base o x.value x.node y.value y.node nf ng with
        | some e => some (e, s)
        | none =>
          match expand s x.value x.node y.value y.node nf ng with
          | none => none
          | some (h, ps) =>
            match mapS (applyF o fuel) s ps with
            | none => none
            | some (es, s) =>
              match s.createNode h es with
              | none => none
              | some (r, s) =>
                some (⟨offset o (min x.value y.value) + r.value, r.node⟩,
                  { s with cache := s.cache.insert (o, x.node, y.node, x.value - y.value) r })
      | _, _ => none

/-- Rank of a node: terminals 0, else one more than the level. -/
def rank (s : Ev) (i : Nat) : Nat := depth (s.level? i)

/-- A call with enough fuel. -/
def apply (o : EvOp) (s : Ev) (x y : EvEdge) : Option (EvEdge × Ev) :=
  applyF o (Max.max (s.rank x.node) (s.rank y.node) + 1) s x y

end Ev
end DD
