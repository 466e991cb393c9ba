import Verif.Wrap.Core
import Verif.Zdd.Prod

/-!
# Model of `bss::ZddMgr` and `ZddNode`

/repo/bss/src/zdd.rs.  A handle (`ZddNode`) is a node id pinned in the root table.
-/

set_option autoImplicit false
set_option linter.unusedSectionVars false

namespace DD
open Arena

/-- Engine calls of the wrapper. -/
def zops : EngOps Zdd Nat := { live := Zdd.liveNodeCount, gc := Zdd.gc }

/-- /repo/bss/src/zdd.rs:45-51; `vars` maps an element name to its header. -/
structure ZddMgr where
  w : Wr Zdd Nat
  vars : AMap String Nat

namespace ZddMgr

/-- /repo/bss/src/zdd.rs:54-64 -/
def new : ZddMgr := { w := Wr.new Zdd.new, vars := AMap.empty }

/-- `wrap`, keeping `vars`. -/
def wrap (m : ZddMgr) (res : Option (Nat × Zdd)) : Option (Nat × ZddMgr) :=
  match m.w.wrap zops res with
  | none => none
  | some (r, w) => some (r, { m with w := w })

/-- /repo/bss/src/zdd.rs:67-69, 139-142 -/
def empty (m : ZddMgr) : Option (Nat × ZddMgr) := m.wrap (some (Zdd.zero, m.w.eng))

/-- /repo/bss/src/zdd.rs:72-74, 144-147 -/
def base (m : ZddMgr) : Option (Nat × ZddMgr) := m.wrap (some (Zdd.one, m.w.eng))

/-- /repo/bss/src/zdd.rs:79-87: the header of an element, created on first use. -/
def header (m : ZddMgr) (label : String) : Nat × ZddMgr :=
  match m.vars.get label with
  | some h => (h, m)
  | none =>
    let (h, e) := m.w.eng.createHeader m.vars.len label
    (h, { w := { m.w with eng := e }, vars := m.vars.insert label h })

/-- /repo/bss/src/zdd.rs:78-94 -/
def singleton (m : ZddMgr) (label : String) : Option (Nat × ZddMgr) :=
  let (h, m) := m.header label
  m.wrap (m.w.eng.createNode h Zdd.zero Zdd.one)

/-- `Drop` of a local handle. -/
def unpin (m : ZddMgr) (i : Nat) : ZddMgr := { m with w := m.w.unpin i }

/-- The inner loop of `from_sets`, /repo/bss/src/zdd.rs:103-106: `fam` is the handle built so far; on
assignment the old `fam` is dropped, at the end of the body `single` is. -/
def fromSet (m : ZddMgr) (fam : Nat) : List String → Option (Nat × ZddMgr)
  | [] => some (fam, m)
  | x :: xs =>
    match m.singleton x with
    | none => none
    | some (single, m) =>
      match m.wrap (m.w.eng.product fam single) with
      | none => none
      | some (fam', m) => ((m.unpin fam).unpin single).fromSet fam' xs

/-- The outer loop, /repo/bss/src/zdd.rs:101-109: `result` is replaced (old one dropped), then `fam`
goes out of scope. -/
def fromSetsLoop (m : ZddMgr) (result : Nat) : List (List String) → Option (Nat × ZddMgr)
  | [] => some (result, m)
  | s :: ss =>
    match m.base with
    | none => none
    | some (fam, m) =>
      match m.fromSet fam s with
      | none => none
      | some (fam, m) =>
        match m.wrap (m.w.eng.union result fam) with
        | none => none
        | some (result', m) => ((m.unpin result).unpin fam).fromSetsLoop result' ss

/-- /repo/bss/src/zdd.rs:99-110 -/
def fromSets (m : ZddMgr) (ss : List (List String)) : Option (Nat × ZddMgr) :=
  match m.empty with
  | none => none
  | some (result, m) => m.fromSetsLoop result ss

/-- /repo/bss/src/zdd.rs:149-151 -/
def clearCache (m : ZddMgr) : ZddMgr := { m with w := { m.w with eng := m.w.eng.clearCache } }

end ZddMgr

/-- A manager and its live client handles. -/
structure ZWorld where
  mgr : ZddMgr
  hs : Hs Nat

/-- Public calls.  Operands are handle numbers. -/
inductive ZCmd where
  | empty
  | base
  | singleton (x : String)
  | fromSets (ss : List (List String))
  | union (f g : Nat)
  | intersect (f g : Nat)
  | setdiff (f g : Nat)
  | product (f g : Nat)
  | divide (f g : Nat)
  | clone (f : Nat)
  | drop (f : Nat)
  | children (f : Nat)
  | setThreshold (n : Nat)
  | clearCache
  | eq (f g : Nat)
  | isZero (f : Nat)
  | isOne (f : Nat)
  | header (f : Nat)
  | level (f : Nat)
  | label (f : Nat)
deriving DecidableEq, Repr

/-- What a call returns (handles by number). -/
inductive ZOut where
  | unit
  | handle (h : Nat)
  | pair (p : Option (Nat × Nat))
  | bool (b : Bool)
  | nat (l : Option Nat)
  | str (l : Option String)
deriving DecidableEq, Repr

namespace ZWorld

/-- Give the client a new handle on a node pinned by the call. -/
def give (w : ZWorld) : Option (Nat × ZddMgr) → Option (ZOut × ZWorld)
  | none => none
  | some (r, m) => some (.handle w.hs.next, { mgr := m, hs := w.hs.give r })

/-- A set operation on two handles. -/
def op2 (w : ZWorld) (op : Zdd → Nat → Nat → Option (Nat × Zdd)) (f g : Nat) : Option (ZOut × ZWorld) :=
  match w.hs.held.get f, w.hs.held.get g with
  | some f, some g => w.give (w.mgr.wrap (op w.mgr.w.eng f g))
  | _, _ => none

/-- One public call; `none` = panic, or an operand handle that the client does not hold. -/
def step (w : ZWorld) : ZCmd → Option (ZOut × ZWorld)
  | .empty => w.give w.mgr.empty
  | .base => w.give w.mgr.base
  | .singleton x => w.give (w.mgr.singleton x)
  | .fromSets ss => w.give (w.mgr.fromSets ss)
  -- zdd.rs:252-256
  | .union f g => w.op2 Zdd.union f g
  -- zdd.rs:259-263
  | .intersect f g => w.op2 Zdd.intersect f g
  -- zdd.rs:266-270
  | .setdiff f g => w.op2 Zdd.setdiff f g
  -- zdd.rs:273-277
  | .product f g => w.op2 Zdd.product f g
  -- zdd.rs:280-284
  | .divide f g => w.op2 Zdd.divide f g
  -- zdd.rs:308-312
  | .clone f =>
    match w.hs.held.get f with
    | some i => w.give (some (i, { w.mgr with w := w.mgr.w.pin i }))
    | none => none
  -- zdd.rs:314-326
  | .drop f =>
    match w.hs.held.get f with
    | some i => some (.unit, { mgr := w.mgr.unpin i, hs := w.hs.drop f })
    | none => none
  -- zdd.rs:214-225
  | .children f =>
    match w.hs.held.get f with
    | none => none
    | some i =>
      match w.mgr.w.eng.arena.node? i with
      | some (.nt _ [lo, hi]) =>
        some (.pair (some (w.hs.next, w.hs.next + 1)),
          { mgr := { w.mgr with w := (w.mgr.w.pin lo).pin hi }, hs := (w.hs.give lo).give hi })
      | some (.nt _ _) => none
      | _ => some (.pair none, w)
  | .setThreshold n => some (.unit, { w with mgr := { w.mgr with w := w.mgr.w.setGcThreshold n } })
  | .clearCache => some (.unit, { w with mgr := w.mgr.clearCache })
  -- zdd.rs:239-241
  | .eq f g =>
    match w.hs.held.get f, w.hs.held.get g with
    | some f, some g => some (.bool (decide (f = g)), w)
    | _, _ => none
  -- zdd.rs:227-231
  | .isZero f =>
    match w.hs.held.get f with
    | some i => (w.mgr.w.eng.arena.node? i).map (fun n => (.bool (decide (n = .term .zero)), w))
    | none => none
  -- zdd.rs:233-237
  | .isOne f =>
    match w.hs.held.get f with
    | some i => (w.mgr.w.eng.arena.node? i).map (fun n => (.bool (decide (n = .term .one)), w))
    | none => none
  -- zdd.rs:194-198
  | .header f =>
    match w.hs.held.get f with
    | some i =>
      some (.nat (match w.mgr.w.eng.arena.node? i with | some (.nt h _) => some h | _ => none), w)
    | none => none
  -- zdd.rs:200-205
  | .level f =>
    match w.hs.held.get f with
    | some i => some (.nat (w.mgr.w.eng.arena.level? i), w)
    | none => none
  -- zdd.rs:207-212
  | .label f =>
    match w.hs.held.get f with
    | some i => some (.str (w.mgr.w.eng.arena.label? i), w)
    | none => none

/-- A fresh manager, no handles. -/
def new : ZWorld := { mgr := ZddMgr.new, hs := Hs.empty }

/-- A whole session: outputs in order. -/
def run (w : ZWorld) : List ZCmd → Option (List ZOut × ZWorld)
  | [] => some ([], w)
  | c :: cs =>
    match w.step c with
    | none => none
    | some (o, w') =>
      match run w' cs with
      | none => none
      | some (os, w'') => some (o :: os, w'')

/-- Worlds reachable from a new manager by public calls. -/
inductive Reachable : ZWorld → Prop
  | new : Reachable ZWorld.new
  | step {w w' : ZWorld} {o : ZOut} (c : ZCmd) : Reachable w → w.step c = some (o, w') → Reachable w'

/-- Operand handles of a call. -/
def operands : ZCmd → List Nat
  | .union f g | .intersect f g | .setdiff f g | .product f g | .divide f g | .eq f g => [f, g]
  | .clone f | .drop f | .children f | .isZero f | .isOne f | .header f | .level f | .label f => [f]
  | .empty | .base | .singleton _ | .fromSets _ | .setThreshold _ | .clearCache => []

end ZWorld
end DD
