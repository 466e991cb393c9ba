import Verif.Mtmdd2.Reach
import Verif.Wrap.Core
import Verif.Bss.BddMgr
import Verif.Mss.Minsol

/-!
# Model of `mss::MddMgr<V>` and `mss::MddNode<V>`

/repo/mss/src/mdd.rs.  `V` = mathematical integers (`V::from(i32)` is the inclusion).  A handle points
to a tagged node; the manager itself holds one handle per variable.
-/

set_option autoImplicit false

namespace DD

/-- What the wrapper uses of `MtMdd2Manager`; the collector's pair of counts is dropped by `maybe_gc`
(/repo/mss/src/mdd.rs:39), here it is added up. -/
def mops : EngOps Mtmdd2 MNode where
  live := Mtmdd2.liveNodeCount
  gc e roots :=
    match e.gc roots with
    | none => none
    | some (n, e') => some (n.1 + n.2, e')

/-- /repo/mss/src/mdd.rs:53-57 -/
structure MddMgr where
  w : Wr Mtmdd2 MNode
  vars : AMap String MNode

/-- Tokens of a postfix expression, /repo/mss/src/mdd.rs:301-463 (`xor` has no token). -/
inductive MTok where
  | bin (o : M2Bin)
  | not
  | ite
  | const (b : Bool)
  | save (id : String)
  | load (id : String)
  | int (v : Int)
  | var (name : String)
deriving DecidableEq, Repr

/-- Decimal digits, most significant first; `none` on any other character. -/
def parseDigits (acc : Nat) : List Char → Option Nat
  | [] => some acc
  | c :: cs => if '0' ≤ c ∧ c ≤ '9' then parseDigits (acc * 10 + (c.toNat - 48)) cs else none

/-- The digits of `token.parse::<i32>()`: at least one, value in range. -/
def signedI32 (neg : Bool) (ds : List Char) : Option Int :=
  if ds = [] then none
  else
    match parseDigits 0 ds with
    | none => none
    | some n =>
      if neg then (if (n : Int) ≤ 2147483648 then some (- (n : Int)) else none)
      else (if (n : Int) ≤ 2147483647 then some (n : Int) else none)

/-- `token.parse::<i32>()`, /repo/mss/src/mdd.rs:446: an optional sign, at least one digit, in range. -/
def parseI32 (t : String) : Option Int :=
  match t.toList with
  | '-' :: ds => signedI32 true ds
  | '+' :: ds => signedI32 false ds
  | ds => signedI32 false ds

/-- The `match token` of /repo/mss/src/mdd.rs:301-463, on one whitespace-separated token. -/
def parseMTok (t : String) : MTok :=
  if t = "+" then .bin .add
  else if t = "-" then .bin .sub
  else if t = "*" then .bin .mul
  else if t = "/" then .bin .div
  else if t = "min" then .bin .min
  else if t = "max" then .bin .max
  else if t = "==" then .bin .eq
  else if t = "!=" then .bin .neq
  else if t = "<" then .bin .lt
  else if t = "<=" then .bin .lte
  else if t = ">" then .bin .gt
  else if t = ">=" then .bin .gte
  else if t = "&&" then .bin .and
  else if t = "||" then .bin .or
  else if t = "!" then .not
  else if t = "?" then .ite
  else if t = "True" then .const true
  else if t = "False" then .const false
  else if "save(".toList.isPrefixOf t.toList ∧ t.toList.getLast? = some ')' then
    .save (String.ofList (t.toList.drop 5).dropLast)
  else if "load(".toList.isPrefixOf t.toList ∧ t.toList.getLast? = some ')' then
    .load (String.ofList (t.toList.drop 5).dropLast)
  else
    match parseI32 t with
    | some v => .int v
    | none => .var t

namespace MddMgr

/-- /repo/mss/src/mdd.rs:127-137 -/
def new : MddMgr := { w := Wr.new Mtmdd2.new, vars := AMap.empty }

/-- The engine. -/
abbrev eng (m : MddMgr) : Mtmdd2 := m.w.eng

/-- Handle creation. -/
def pin (m : MddMgr) (x : MNode) : MddMgr := { m with w := m.w.pin x }

/-- `Drop`. -/
def unpin (m : MddMgr) (x : MNode) : MddMgr := { m with w := m.w.unpin x }

/-- /repo/mss/src/mdd.rs:159-163 and `rewrap` 114-120. -/
def wrap (m : MddMgr) (res : Option (MNode × Mtmdd2)) : Option (MNode × MddMgr) :=
  match m.w.wrap mops res with
  | none => none
  | some (r, w) => some (r, { m with w := w })

/-- /repo/mss/src/mdd.rs:172-178 -/
def collect (m : MddMgr) (keep : List MNode) : Option ((Nat × Nat) × MddMgr) :=
  match m.w.eng.gc (m.w.gc.roots.keys ++ keep) with
  | none => none
  | some (n, e) => some (n, { m with w := { m.w with eng := e } })

/-- /repo/mss/src/mdd.rs:180-190 -/
def boolean (m : MddMgr) (b : Bool) : Option (MNode × MddMgr) :=
  m.wrap (some (if b then Mtmdd2.one else Mtmdd2.zero, m.w.eng))

/-- /repo/mss/src/mdd.rs:192-195 -/
def value (m : MddMgr) (v : Int) : Option (MNode × MddMgr) := m.wrap (m.w.eng.value v)

/-- /repo/mss/src/mdd.rs:197-200 -/
def undetBoolean (m : MddMgr) : Option (MNode × MddMgr) := m.wrap (some (Mtmdd2.undetBoolean, m.w.eng))

/-- /repo/mss/src/mdd.rs:202-205 -/
def undetValue (m : MddMgr) : Option (MNode × MddMgr) := m.wrap (some (Mtmdd2.undetValue, m.w.eng))

/-- /repo/mss/src/mdd.rs:207-211 -/
def createNode (m : MddMgr) (h : Nat) (xs : List MNode) : Option (MNode × MddMgr) :=
  m.wrap (m.w.eng.createNode h xs)

/-- `(lo..hi).map(|x| mdd.value(x)).collect()`, /repo/mss/src/mdd.rs:220, with `n = hi - lo`. -/
def valuesFrom (e : Mtmdd2) (lo : Nat) : Nat → Option (List MNode × Mtmdd2)
  | 0 => some ([], e)
  | n + 1 =>
    match e.value (lo : Int) with
    | none => none
    | some (x, e) =>
      match valuesFrom e (lo + 1) n with
      | none => none
      | some (xs, e) => some (x :: xs, e)

/-- The engine part of `defvar`, /repo/mss/src/mdd.rs:217-223. -/
def varNode (e : Mtmdd2) (level : Nat) (label : String) (range : Nat) : Option (MNode × Mtmdd2) :=
  match valuesFrom e 0 range with
  | none => none
  | some (xs, e) =>
    match e.createHeader level label range with
    | none => none
    | some (h, e) => e.createNode h xs

/-- /repo/mss/src/mdd.rs:213-228; returns the node of the new handle (already pinned). -/
def defvar (m : MddMgr) (label : String) (range : Nat) : Option (MNode × MddMgr) :=
  match m.vars.get label with
  | some x => some (x, m.pin x)
  | none =>
    match varNode m.w.eng m.vars.len label range with
    | none => none
    | some (x, e) =>
      let m : MddMgr := { m with w := { m.w with eng := e } }
      some (x, { (m.pin x).pin x with vars := m.vars.insert label x })

end MddMgr

/-- The header of a node (/repo/mss/src/mdd.rs:552-567). -/
def Mtmdd2.header? (e : Mtmdd2) : MNode → Option Nat
  | .value i => match e.mtmdd.arena.node? i with | some (.nt h _) => some h | _ => none
  | .bool i => match e.mdd.arena.node? i with | some (.nt h _) => some h | _ => none

/-- The label of a node's header (/repo/mss/src/mdd.rs:590-609). -/
def Mtmdd2.mlabel (e : Mtmdd2) : MNode → Option String
  | .value i => e.mtmdd.arena.label? i
  | .bool i => e.mdd.arena.label? i

/-- The children of a node (/repo/mss/src/mdd.rs:611-660): outer `none` = panic on a missing node,
inner `none` = terminal. -/
def Mtmdd2.children? (e : Mtmdd2) : MNode → Option (Option (List MNode))
  | .value i =>
    match e.mtmdd.arena.node? i with
    | none => none
    | some (.term _) => some none
    | some (.nt _ ch) => some (some (ch.map .value))
  | .bool i =>
    match e.mdd.arena.node? i with
    | none => none
    | some (.term _) => some none
    | some (.nt _ ch) => some (some (ch.map .bool))

/-- `is_zero`, `is_one`, `is_undet` (/repo/mss/src/mdd.rs:676-725): is it the boolean terminal `t`?
`none` = panic. -/
def Mtmdd2.isTerm (e : Mtmdd2) (t : T3) : MNode → Option Bool
  | .value _ => some false
  | .bool i =>
    match e.mdd.arena.node? i with
    | none => none
    | some n => some (decide (n = .term t))

/-- /repo/mss/src/mdd.rs:727-740; outer `none` = panic. -/
def Mtmdd2.valueOf (e : Mtmdd2) : MNode → Option (Option Int)
  | .value i =>
    match e.mtmdd.arena.node? i with
    | none => none
    | some (.term t) => some t
    | some (.nt _ _) => some none
  | .bool _ => some none

/-- `for x in nodes { result = op(result, x) }`, /repo/mss/src/mdd.rs:476-478, 488-490, 500-502,
512-514. -/
def foldOp (o : M2Bin) : Mtmdd2 → MNode → List MNode → Option (MNode × Mtmdd2)
  | e, r, [] => some (r, e)
  | e, r, x :: xs =>
    match o.run e r x with
    | none => none
    | some (r, e) => foldOp o e r xs

namespace MddMgr

/-- /repo/mss/src/mdd.rs:230-240; `none` = panic. -/
def getVarorder (m : MddMgr) : Option (List (String × Nat)) :=
  m.vars.kvs.foldl (init := some (List.replicate m.vars.len ("?", 0))) fun acc (k, v) =>
    match acc with
    | none => none
    | some result =>
      match m.w.eng.header? v with
      | none => none
      | some h =>
        match m.w.eng.mtmdd.arena.headers[h]? with
        | none => none
        | some hd => if hd.level < result.length then some (result.set hd.level (k, hd.edgeNum)) else none

/-- /repo/mss/src/mdd.rs:472-482 -/
def andL (m : MddMgr) (xs : List MNode) : Option (MNode × MddMgr) :=
  m.wrap (foldOp .and m.w.eng Mtmdd2.one xs)

/-- /repo/mss/src/mdd.rs:484-494 -/
def orL (m : MddMgr) (xs : List MNode) : Option (MNode × MddMgr) :=
  m.wrap (foldOp .or m.w.eng Mtmdd2.zero xs)

/-- /repo/mss/src/mdd.rs:496-506; `none` on an empty slice (index panic). -/
def minL (m : MddMgr) : List MNode → Option (MNode × MddMgr)
  | [] => none
  | x :: xs => m.wrap (foldOp .min m.w.eng x xs)

/-- /repo/mss/src/mdd.rs:508-518; `none` on an empty slice (index panic). -/
def maxL (m : MddMgr) : List MNode → Option (MNode × MddMgr)
  | [] => none
  | x :: xs => m.wrap (foldOp .max m.w.eng x xs)

/-- /repo/mss/src/mdd.rs:520-523 -/
def clearCache (m : MddMgr) : MddMgr := { m with w := { m.w with eng := m.w.eng.clearCache } }

/-- State of the `rpn` loop, /repo/mss/src/mdd.rs:298-299. -/
structure RpnSt where
  mgr : MddMgr
  stack : List MNode
  cache : AMap String MNode

/-- Push an engine result, keeping the new engine. -/
def RpnSt.push (s : RpnSt) (st : List MNode) : Option (MNode × Mtmdd2) → Option (Except RpnErr RpnSt)
  | none => none
  | some (r, e) =>
    some (.ok { s with mgr := { s.mgr with w := { s.mgr.w with eng := e } }, stack := r :: st })

/-- One token, /repo/mss/src/mdd.rs:301-463; `vars` gives the number of states of each name.  Outer
`none` = panic. -/
def rpnTok (vars : String → Option Nat) (s : RpnSt) : MTok → Option (Except RpnErr RpnSt)
  | .bin o =>
    match s.stack with
    | b :: a :: st => s.push st (o.run s.mgr.w.eng a b)
    | _ => none
  | .not =>
    match s.stack with
    | a :: st => s.push st (s.mgr.w.eng.not a)
    | _ => none
  | .ite =>
    match s.stack with
    | c :: b :: a :: st => s.push st (s.mgr.w.eng.ite a b c)
    | _ => none
  | .const b => some (.ok { s with stack := (if b then Mtmdd2.one else Mtmdd2.zero) :: s.stack })
  | .save id =>
    match s.stack with
    | x :: _ => some (.ok { s with cache := s.cache.insert id x })
    | [] => some (.error .emptySave)
  | .load id =>
    match s.cache.get id with
    | some x => some (.ok { s with stack := x :: s.stack })
    | none => some (.error (.noCached id))
  | .int v => s.push s.stack (s.mgr.w.eng.value v)
  | .var x =>
    match vars x with
    | none => none
    | some r =>
      match s.mgr.defvar x r with
      | none => none
      | some (i, m) => some (.ok { s with mgr := m.unpin i, stack := i :: s.stack })

/-- The loop over the tokens; on `Err` the manager as it is at that point is returned. -/
def rpnLoop (vars : String → Option Nat) (s : RpnSt) : List MTok → Option (Except (RpnErr × MddMgr) RpnSt)
  | [] => some (.ok s)
  | t :: ts =>
    match rpnTok vars s t with
    | none => none
    | some (.error e) => some (.error (e, s.mgr))
    | some (.ok s') => rpnLoop vars s' ts

/-- /repo/mss/src/mdd.rs:297-470 on the list of tokens. -/
def rpn (m : MddMgr) (vars : String → Option Nat) (ts : List MTok) :
    Option (Except RpnErr MNode × MddMgr) :=
  match rpnLoop vars { mgr := m, stack := [], cache := AMap.empty } ts with
  | none => none
  | some (.error (e, m')) => some (.error e, m')
  | some (.ok s) =>
    match s.stack with
    | [x] =>
      match s.mgr.wrap (some (x, s.mgr.w.eng)) with
      | none => none
      | some (r, m') => some (.ok r, m')
    | _ => some (.error .invalid, s.mgr)

end MddMgr

/-- A manager and its live client handles. -/
structure MWorld where
  mgr : MddMgr
  hs : Hs MNode

/-- Public calls.  Operands are handle numbers. -/
inductive MCmd where
  | boolean (b : Bool)
  | value (v : Int)
  | undetBoolean
  | undetValue
  | createNode (h : Nat) (fs : List Nat)
  | defvar (x : String) (r : Nat)
  | varorder
  | rpn (ts : List MTok) (vars : String → Option Nat)
  | andL (fs : List Nat)
  | orL (fs : List Nat)
  | minL (fs : List Nat)
  | maxL (fs : List Nat)
  | clearCache
  | setThreshold (n : Nat)
  | gc (keep : List Nat)
  | not (f : Nat)
  | bin (o : M2Bin) (f g : Nat)
  | ite (f g h : Nat)
  | clone (f : Nat)
  | drop (f : Nat)
  | children (f : Nat)
  | node (f : Nat)
  | header (f : Nat)
  | level (f : Nat)
  | label (f : Nat)
  | isBoolean (f : Nat)
  | isValue (f : Nat)
  | isTerm (t : T3) (f : Nat)
  | valueOf (f : Nat)
  | size
  | liveNodeCount

/-- What a call returns (handles by number). -/
inductive MOut where
  | unit
  | handle (h : Nat)
  | handles (hs : Option (List Nat))
  | err (e : RpnErr)
  | order (l : List (String × Nat))
  | node (x : MNode)
  | bool (b : Bool)
  | nat (l : Option Nat)
  | str (l : Option String)
  | int (v : Option Int)
  | pair (p : Nat × Nat)
  | quad (p : Nat × Nat × Nat × Nat)
deriving DecidableEq

namespace MWorld

/-- Give the client a new handle on a node pinned by the call. -/
def give (w : MWorld) : Option (MNode × MddMgr) → Option (MOut × MWorld)
  | none => none
  | some (r, m) => some (.handle w.hs.next, { mgr := m, hs := w.hs.give r })

/-- New handles on the given nodes (`from_weak` on each: pins only). -/
def giveAll (w : MWorld) : List MNode → List Nat × MWorld
  | [] => ([], w)
  | x :: xs =>
    let r := giveAll { mgr := w.mgr.pin x, hs := w.hs.give x } xs
    (w.hs.next :: r.1, r.2)

/-- A call on one handle. -/
def on1 (w : MWorld) (f : Nat) (k : MNode → Option (MOut × MWorld)) : Option (MOut × MWorld) :=
  match w.hs.held.get f with
  | none => none
  | some x => k x

/-- A call on a list of handles. -/
def onL (w : MWorld) (fs : List Nat) (k : List MNode → Option (MOut × MWorld)) : Option (MOut × MWorld) :=
  match w.hs.nodes fs with
  | none => none
  | some xs => k xs

/-- One public call; `none` = panic, or an operand handle that the client does not hold. -/
def step (w : MWorld) : MCmd → Option (MOut × MWorld)
  | .boolean b => w.give (w.mgr.boolean b)
  | .value v => w.give (w.mgr.value v)
  | .undetBoolean => w.give w.mgr.undetBoolean
  | .undetValue => w.give w.mgr.undetValue
  | .createNode h fs => w.onL fs fun xs => w.give (w.mgr.createNode h xs)
  | .defvar x r => w.give (w.mgr.defvar x r)
  | .varorder => match w.mgr.getVarorder with | none => none | some l => some (.order l, w)
  | .rpn ts vars =>
    match w.mgr.rpn vars ts with
    | none => none
    | some (.error e, m) => some (.err e, { w with mgr := m })
    | some (.ok x, m) => w.give (some (x, m))
  | .andL fs => w.onL fs fun xs => w.give (w.mgr.andL xs)
  | .orL fs => w.onL fs fun xs => w.give (w.mgr.orL xs)
  | .minL fs => w.onL fs fun xs => w.give (w.mgr.minL xs)
  | .maxL fs => w.onL fs fun xs => w.give (w.mgr.maxL xs)
  | .clearCache => some (.unit, { w with mgr := w.mgr.clearCache })
  -- mdd.rs:146-150
  | .setThreshold n => some (.unit, { w with mgr := { w.mgr with w := w.mgr.w.setGcThreshold n } })
  | .gc keep => w.onL keep fun xs =>
    match w.mgr.collect xs with
    | none => none
    | some (n, m) => some (.pair n, { w with mgr := m })
  -- mdd.rs:868-874
  | .not f => w.on1 f fun x => w.give (w.mgr.wrap (w.mgr.w.eng.not x))
  -- mdd.rs:748-866
  | .bin o f g => w.on1 f fun x => w.on1 g fun y => w.give (w.mgr.wrap (o.run w.mgr.w.eng x y))
  -- mdd.rs:876-882
  | .ite f g h => w.on1 f fun x => w.on1 g fun y => w.on1 h fun z =>
    w.give (w.mgr.wrap (w.mgr.w.eng.ite x y z))
  -- mdd.rs:88-92
  | .clone f => w.on1 f fun x => w.give (some (x, w.mgr.pin x))
  -- mdd.rs:94-106
  | .drop f => w.on1 f fun x => some (.unit, { mgr := w.mgr.unpin x, hs := w.hs.drop f })
  -- mdd.rs:611-660
  | .children f => w.on1 f fun x =>
    match w.mgr.w.eng.children? x with
    | none => none
    | some none => some (.handles none, w)
    | some (some xs) =>
      let r := w.giveAll xs
      some (.handles (some r.1), r.2)
  -- mdd.rs:534-536 (and 538-550, functions of it)
  | .node f => w.on1 f fun x => some (.node x, w)
  -- mdd.rs:552-567
  | .header f => w.on1 f fun x => some (.nat (w.mgr.w.eng.header? x), w)
  -- mdd.rs:569-588
  | .level f => w.on1 f fun x => some (.nat (w.mgr.w.eng.mlevel x), w)
  -- mdd.rs:590-609
  | .label f => w.on1 f fun x => some (.str (w.mgr.w.eng.mlabel x), w)
  -- mdd.rs:662-667
  | .isBoolean f => w.on1 f fun x => some (.bool x.isBool, w)
  -- mdd.rs:669-674
  | .isValue f => w.on1 f fun x => some (.bool (!x.isBool), w)
  -- mdd.rs:676-725
  | .isTerm t f => w.on1 f fun x =>
    match w.mgr.w.eng.isTerm t x with
    | none => none
    | some b => some (.bool b, w)
  -- mdd.rs:727-740
  | .valueOf f => w.on1 f fun x =>
    match w.mgr.w.eng.valueOf x with
    | none => none
    | some v => some (.int v, w)
  -- mdd.rs:139-141
  | .size => some (.quad w.mgr.w.eng.size, w)
  -- mdd.rs:153-155
  | .liveNodeCount => some (.nat (some w.mgr.w.eng.liveNodeCount), w)

/-- A fresh manager, no handles. -/
def new : MWorld := { mgr := MddMgr.new, hs := Hs.empty }

/-- Operand handles of a call. -/
def operands : MCmd → List Nat
  | .createNode _ fs | .andL fs | .orL fs | .minL fs | .maxL fs | .gc fs => fs
  | .bin _ f g => [f, g]
  | .ite f g h => [f, g, h]
  | .not f | .clone f | .drop f | .children f | .node f | .header f | .level f | .label f
  | .isBoolean f | .isValue f | .isTerm _ f | .valueOf f => [f]
  | _ => []

/-- `create_node` used as intended: an existing header, one child per state, all children of one kind
and strictly below the header's level.  (The code does not check this.) -/
def CreateOk (w : MWorld) (h : Nat) (fs : List Nat) : Prop :=
  ∃ hd k, w.mgr.w.eng.mdd.arena.headers[h]? = some hd ∧ fs.length = hd.edgeNum ∧
    ∀ f ∈ fs, ∃ x, w.hs.held.get f = some x ∧ x.isBool = k ∧
      ∀ l, w.mgr.w.eng.mlevel x = some l → l < hd.level

/-- Calls the code does not check. -/
def Checked (w : MWorld) : MCmd → Prop
  | .createNode h fs => w.CreateOk h fs
  | _ => True

/-- The public functions `minsol` (`top = false`) and `maxsol` of /repo/mss/src/mdd_minsol.rs applied to the forest of
the manager and the node of a handle, as `MssMgr` does (/repo/mss/src/mss.rs:171-174, 201-204).  The result is a raw
node, not a handle. -/
def sol (w : MWorld) (top : Bool) (f : Nat) : Option (Option MNode × MWorld) :=
  match w.hs.held.get f with
  | none => none
  | some x =>
    match w.mgr.w.eng.solT top x with
    | none => none
    | some (o, e) => some (o, { w with mgr := { w.mgr with w := { w.mgr.w with eng := e } } })

/-- Worlds reachable from a new manager by public calls. -/
inductive Reachable : MWorld → Prop
  | new : Reachable MWorld.new
  | sol {w w' : MWorld} {o : Option MNode} (top : Bool) (f : Nat) : Reachable w → w.sol top f = some (o, w') →
      Reachable w'
  | step {w w' : MWorld} {o : MOut} (c : MCmd) : Reachable w → w.Checked c → w.step c = some (o, w') →
      Reachable w'

end MWorld
end DD
