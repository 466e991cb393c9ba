import Verif.Bss.Roots
import Verif.Bss.Kofn
import Verif.Bss.Dual
import Verif.Bss.Minsol

/-!
# Model of `bss::BddMgr` and `BddNode`

/repo/bss/src/bdd.rs.  A handle (`BddNode`) is a node id pinned in the root table.  `Rc`, `RefCell`
and `Weak` are one shared state; use of a handle after its manager is dropped is outside the model.
-/

set_option autoImplicit false
set_option linter.unusedSectionVars false

namespace DD
open Arena

/-- /repo/bss/src/bdd.rs:55-59; `vars` maps a name to the node of the handle kept for it. -/
structure BddMgr where
  bdd : Bdd
  gc : GcState Nat
  vars : AMap String Nat

/-- Tokens of a postfix expression, /repo/bss/src/bdd.rs:268-327. -/
inductive Tok where
  | const (b : Bool)
  | and
  | or
  | xor
  | not
  | ite
  | save (id : String)
  | load (id : String)
  | var (name : String)
deriving DecidableEq, Repr

/-- The `match token` of /repo/bss/src/bdd.rs:268-327, on one whitespace-separated token.
`&token[5..len-1]` is "drop five characters and the last one" (prefix and suffix are ASCII). -/
def parseTok (t : String) : Tok :=
  if t = "0" ∨ t = "False" then .const false
  else if t = "1" ∨ t = "True" then .const true
  else if t = "&" then .and
  else if t = "|" then .or
  else if t = "^" then .xor
  else if t = "~" then .not
  else if t = "?" then .ite
  else if "save(".toList.isPrefixOf t.toList ∧ t.toList.getLast? = some ')' then
    .save (String.ofList (t.toList.drop 5).dropLast)
  else if "load(".toList.isPrefixOf t.toList ∧ t.toList.getLast? = some ')' then
    .load (String.ofList (t.toList.drop 5).dropLast)
  else .var t

/-- Error messages of `rpn`, /repo/bss/src/bdd.rs:318, 324, 332. -/
inductive RpnErr where
  | emptySave
  | noCached (id : String)
  | invalid
deriving DecidableEq, Repr

namespace BddMgr

/-- /repo/bss/src/bdd.rs:15 -/
def GC_FLOOR : Nat := 65536

/-- /repo/bss/src/bdd.rs:122-132 -/
def new : BddMgr where
  bdd := Bdd.new
  gc := { roots := AMap.empty, threshold := GC_FLOOR, floor := GC_FLOOR }
  vars := AMap.empty

/-- Handle creation, /repo/bss/src/bdd.rs:78-87. -/
def pin (m : BddMgr) (i : Nat) : BddMgr := { m with gc := { m.gc with roots := pinR m.gc.roots i } }

/-- `Drop`, /repo/bss/src/bdd.rs:106-118. -/
def unpin (m : BddMgr) (i : Nat) : BddMgr :=
  { m with gc := { m.gc with roots := unpinR m.gc.roots i } }

/-- /repo/bss/src/bdd.rs:35-47 (`saturating_mul` is plain multiplication). -/
def maybeGc (m : BddMgr) : Option BddMgr :=
  if m.bdd.liveNodeCount < m.gc.threshold then some m
  else
    match m.bdd.gc m.gc.roots.keys with
    | none => none
    | some (_, b) =>
      some { m with bdd := b, gc := { m.gc with threshold := max (b.liveNodeCount * 2) m.gc.floor } }

/-- `wrap` /repo/bss/src/bdd.rs:150-154 and `rewrap` 91-97 of a result `(node, manager)`. -/
def wrap (m : BddMgr) (res : Option (Nat × Bdd)) : Option (Nat × BddMgr) :=
  match res with
  | none => none
  | some (r, b) =>
    match ({ m with bdd := b }.pin r).maybeGc with
    | none => none
    | some m' => some (r, m')

/-- /repo/bss/src/bdd.rs:137-141 -/
def setGcThreshold (m : BddMgr) (n : Nat) : BddMgr :=
  { m with gc := { m.gc with threshold := n, floor := n } }

/-- /repo/bss/src/bdd.rs:168-174 -/
def collect (m : BddMgr) (keep : List Nat) : Option (Nat × BddMgr) :=
  match m.bdd.gc (m.gc.roots.keys ++ keep) with
  | none => none
  | some (n, b) => some (n, { m with bdd := b })

/-- /repo/bss/src/bdd.rs:194-209; returns the node of the new handle (already pinned). -/
def defvar (m : BddMgr) (v : String) : Option (Nat × BddMgr) :=
  match m.vars.get v with
  | some i => some (i, m.pin i)
  | none =>
    let level := m.vars.len
    let (h, b) := m.bdd.createHeader level v
    match b.createNode h Bdd.zero Bdd.one with
    | none => none
    | some (i, b) =>
      let m := { m with bdd := b }.pin i
      some (i, { m.pin i with vars := m.vars.insert v i })

/-- /repo/bss/src/bdd.rs:211-221; `none` = panic. -/
def getVarorder (m : BddMgr) : Option (List String) :=
  m.vars.kvs.foldl (init := some (List.replicate m.vars.len "?")) fun acc (k, v) =>
    match acc with
    | none => none
    | some result =>
      match m.bdd.arena.node? v with
      | some (.nt h _) =>
        match m.bdd.arena.headers[h]? with
        | none => none
        | some hd => if hd.level < result.length then some (result.set hd.level k) else none
      | _ => none

/-- /repo/bss/src/bdd.rs:354-356 -/
def clearCache (m : BddMgr) : BddMgr := { m with bdd := m.bdd.clearCache }

/-- Replace the manager component after an engine call, pushing the result on the stack. -/
def pushRes (m : BddMgr) (st : List Nat) : Option (Nat × Bdd) → Option (BddMgr × List Nat)
  | none => none
  | some (r, b) => some ({ m with bdd := b }, r :: st)

/-- State of the `rpn` loop. -/
structure RpnSt where
  mgr : BddMgr
  stack : List Nat
  cache : AMap String Nat

/-- One token, /repo/bss/src/bdd.rs:268-327.  Outer `none` = panic (`pop().unwrap()`). -/
def rpnTok (s : RpnSt) : Tok → Option (Except RpnErr RpnSt)
  | .const b => some (.ok { s with stack := (if b then Bdd.one else Bdd.zero) :: s.stack })
  | .and =>
    match s.stack with
    | r :: l :: st => (pushRes s.mgr st (s.mgr.bdd.and l r)).map
        (fun p => .ok { s with mgr := p.1, stack := p.2 })
    | _ => none
  | .or =>
    match s.stack with
    | r :: l :: st => (pushRes s.mgr st (s.mgr.bdd.or l r)).map
        (fun p => .ok { s with mgr := p.1, stack := p.2 })
    | _ => none
  | .xor =>
    match s.stack with
    | r :: l :: st => (pushRes s.mgr st (s.mgr.bdd.xor l r)).map
        (fun p => .ok { s with mgr := p.1, stack := p.2 })
    | _ => none
  | .not =>
    match s.stack with
    | x :: st => (pushRes s.mgr st (s.mgr.bdd.not x)).map
        (fun p => .ok { s with mgr := p.1, stack := p.2 })
    | _ => none
  | .ite =>
    match s.stack with
    | e :: t :: c :: st => (pushRes s.mgr st (s.mgr.bdd.ite c t e)).map
        (fun p => .ok { s with mgr := p.1, stack := p.2 })
    | _ => none
  | .save id =>
    match s.stack with
    | x :: _ => some (.ok { s with cache := s.cache.insert id x })
    | [] => some (.error .emptySave)
  | .load id =>
    match s.cache.get id with
    | some x => some (.ok { s with stack := x :: s.stack })
    | none => some (.error (.noCached id))
  | .var v =>
    match s.mgr.defvar v with
    | none => none
    | some (i, m) => some (.ok { s with mgr := m.unpin i, stack := i :: s.stack })

/-- The loop over the tokens; on `Err` the manager as it is at that point is returned. -/
def rpnLoop (s : RpnSt) : List Tok → Option (Except (RpnErr × BddMgr) RpnSt)
  | [] => some (.ok s)
  | t :: ts =>
    match rpnTok s t with
    | none => none
    | some (.error e) => some (.error (e, s.mgr))
    | some (.ok s') => rpnLoop s' ts

/-- /repo/bss/src/bdd.rs:264-334 on the list of tokens. -/
def rpn (m : BddMgr) (ts : List Tok) : Option (Except RpnErr Nat × BddMgr) :=
  match rpnLoop { mgr := m, stack := [], cache := AMap.empty } ts with
  | none => none
  | some (.error (e, m')) => some (.error e, m')
  | some (.ok s) =>
    match s.stack with
    | [x] =>
      match s.mgr.wrap (some (x, s.mgr.bdd)) with
      | none => none
      | some (r, m') => some (.ok r, m')
    | _ => some (.error .invalid, s.mgr)

/-- Node ids of handles, by handle number. -/
abbrev Held := AMap Nat Nat

end BddMgr

/-! ## Client sessions

A world is a manager plus the handles the client currently holds, numbered in order of creation. -/

/-- A manager and its live client handles. -/
structure World where
  mgr : BddMgr
  held : AMap Nat Nat
  next : Nat

/-- Public calls.  Operands are handle numbers. -/
inductive Cmd where
  | const (b : Bool)
  | defvar (v : String)
  | not (f : Nat)
  | and (f g : Nat)
  | or (f g : Nat)
  | xor (f g : Nat)
  | ite (f g h : Nat)
  | dual (f : Nat)
  | createNode (h f g : Nat)
  | andList (fs : List Nat)
  | orList (fs : List Nat)
  | kofn (k : Nat) (fs : List Nat)
  | rpn (ts : List Tok)
  | clone (f : Nat)
  | drop (f : Nat)
  | children (f : Nat)
  | gc (keep : List Nat)
  | setThreshold (n : Nat)
  | clearCache
  | eq (f g : Nat)
  | isZero (f : Nat)
  | isOne (f : Nat)
  | isUndet (f : Nat)
  | level (f : Nat)
  | varorder
  | minsol (f : Nat)
deriving DecidableEq, Repr

/-- What a call returns (handles by number; the count returned by `gc` is treated separately). -/
inductive Out where
  | unit
  | handle (h : Nat)
  | pair (p : Option (Nat × Nat))
  | bool (b : Bool)
  | level (l : Option Nat)
  | strs (l : List String)
  | err (e : RpnErr)
deriving DecidableEq, Repr

namespace World

/-- Nodes of a list of handles; `none` = some handle is not held. -/
def nodes (w : World) : List Nat → Option (List Nat)
  | [] => some []
  | f :: fs =>
    match w.held.get f, w.nodes fs with
    | some i, some is => some (i :: is)
    | _, _ => none

/-- Give the client a new handle on a node pinned by the call. -/
def give (w : World) : Option (Nat × BddMgr) → Option (Out × World)
  | none => none
  | some (r, m) =>
    some (.handle w.next, { mgr := m, held := w.held.insert w.next r, next := w.next + 1 })

/-- One public call; `none` = panic, or an operand handle that the client does not hold. -/
def step (w : World) : Cmd → Option (Out × World)
  -- bdd.rs:177-186
  | .const b => w.give (w.mgr.wrap (some (if b then Bdd.one else Bdd.zero, w.mgr.bdd)))
  | .defvar v => w.give (w.mgr.defvar v)
  -- bdd.rs:463-467
  | .not f =>
    match w.held.get f with
    | some f => w.give (w.mgr.wrap (w.mgr.bdd.not f))
    | _ => none
  -- bdd.rs:445-449
  | .and f g =>
    match w.held.get f, w.held.get g with
    | some f, some g => w.give (w.mgr.wrap (w.mgr.bdd.and f g))
    | _, _ => none
  -- bdd.rs:451-455
  | .or f g =>
    match w.held.get f, w.held.get g with
    | some f, some g => w.give (w.mgr.wrap (w.mgr.bdd.or f g))
    | _, _ => none
  -- bdd.rs:457-461
  | .xor f g =>
    match w.held.get f, w.held.get g with
    | some f, some g => w.give (w.mgr.wrap (w.mgr.bdd.xor f g))
    | _, _ => none
  -- bdd.rs:469-473
  | .ite f g h =>
    match w.held.get f, w.held.get g, w.held.get h with
    | some f, some g, some h => w.give (w.mgr.wrap (w.mgr.bdd.ite f g h))
    | _, _, _ => none
  -- bdd.rs:508-516
  | .dual f =>
    match w.held.get f with
    | some f => w.give (w.mgr.wrap (w.mgr.bdd.dual f))
    | _ => none
  -- bdd.rs:188-191
  | .createNode h f g =>
    match w.held.get f, w.held.get g with
    | some f, some g => w.give (w.mgr.wrap (w.mgr.bdd.createNode h f g))
    | _, _ => none
  -- bdd.rs:336-340
  | .andList fs =>
    match w.nodes fs with
    | some is => w.give (w.mgr.wrap (w.mgr.bdd.andList is))
    | none => none
  -- bdd.rs:342-346
  | .orList fs =>
    match w.nodes fs with
    | some is => w.give (w.mgr.wrap (w.mgr.bdd.orList is))
    | none => none
  -- bdd.rs:348-352
  | .kofn k fs =>
    match w.nodes fs with
    | some is => w.give (w.mgr.wrap (w.mgr.bdd.kofn k is))
    | none => none
  | .rpn ts =>
    match w.mgr.rpn ts with
    | none => none
    | some (.error e, m) => some (.err e, { w with mgr := m })
    | some (.ok r, m) => w.give (some (r, m))
  -- bdd.rs:100-104
  | .clone f =>
    match w.held.get f with
    | some i => w.give (some (i, w.mgr.pin i))
    | none => none
  -- bdd.rs:106-118
  | .drop f =>
    match w.held.get f with
    | some i => some (.unit, { w with mgr := w.mgr.unpin i, held := w.held.remove f })
    | none => none
  -- bdd.rs:393-406
  | .children f =>
    match w.held.get f with
    | none => none
    | some i =>
      match w.mgr.bdd.arena.node? i with
      | some (.nt _ [lo, hi]) =>
        some (.pair (some (w.next, w.next + 1)),
          { mgr := (w.mgr.pin lo).pin hi
            held := (w.held.insert w.next lo).insert (w.next + 1) hi
            next := w.next + 2 })
      | some (.nt _ _) => none
      | _ => some (.pair none, w)
  | .gc keep =>
    match w.nodes keep with
    | none => none
    | some is =>
      match w.mgr.collect is with
      | none => none
      | some (_, m) => some (.unit, { w with mgr := m })
  | .setThreshold n => some (.unit, { w with mgr := w.mgr.setGcThreshold n })
  | .clearCache => some (.unit, { w with mgr := w.mgr.clearCache })
  -- bdd.rs:474-476
  | .eq f g =>
    match w.held.get f, w.held.get g with
    | some f, some g => some (.bool (decide (f = g)), w)
    | _, _ => none
  -- bdd.rs:408-416
  | .isZero f =>
    match w.held.get f with
    | some i => (w.mgr.bdd.arena.node? i).map (fun n => (.bool (decide (n = .term .zero)), w))
    | none => none
  -- bdd.rs:418-426
  | .isOne f =>
    match w.held.get f with
    | some i => (w.mgr.bdd.arena.node? i).map (fun n => (.bool (decide (n = .term .one)), w))
    | none => none
  -- bdd.rs:428-436
  | .isUndet f =>
    match w.held.get f with
    | some i => (w.mgr.bdd.arena.node? i).map (fun n => (.bool (decide (n = .term .undet)), w))
    | none => none
  -- bdd.rs:375-382
  | .level f =>
    match w.held.get f with
    | some i => some (.level (w.mgr.bdd.arena.level? i), w)
    | none => none
  | .varorder => w.mgr.getVarorder.map (fun l => (.strs l, w))
  -- bss.rs:110-116: what `BssMgr::minpath` does to the BDD manager; the answer tells whether `minsol`
  -- found a result
  | .minsol f =>
    match w.held.get f with
    | none => none
    | some i =>
      match w.mgr.bdd.minsol i with
      | none => none
      | some (x, b) => some (.bool x.isSome, { w with mgr := { w.mgr with bdd := b } })

/-- A fresh manager, no handles. -/
def new : World := { mgr := BddMgr.new, held := AMap.empty, next := 0 }

/-- A whole session: outputs in order. -/
def run (w : World) : List Cmd → Option (List Out × World)
  | [] => some ([], w)
  | c :: cs =>
    match w.step c with
    | none => none
    | some (o, w') =>
      match run w' cs with
      | none => none
      | some (os, w'') => some (o :: os, w'')

end World
end DD
