import Verif.Bss.BddMgr

/-!
# Specification of a BDD session

The reference machine: a list of variable names and, for each handle number, a Boolean function.
It has no nodes, tables, caches, reference counts or collections.
-/

set_option autoImplicit false

namespace DD

/-- `F` depends only on the variables of levels below `n`. -/
def DependsBelow (n : Nat) (F : BFun) : Prop := ∀ a b, (∀ l, l < n → a l = b l) → F a = F b

/-- Fix variable `l` to `b`. -/
def BFun.cof (F : BFun) (l : Nat) (b : Bool) : BFun := fun a => F (fun x => if x = l then b else a x)

/-- `o` is the level of the highest variable on which `F` depends (`none` for a constant). -/
def IsTop (F : BFun) : Option Nat → Prop
  | none => ∀ a b, F a = F b
  | some l => DependsBelow (l + 1) F ∧ ∃ a, F.cof l false a ≠ F.cof l true a

/-- Abstract session state. -/
structure Abs where
  names : List String
  held : Nat → Option BFun
  next : Nat

/-- State of the abstract `rpn` evaluation. -/
structure ARpn where
  names : List String
  stack : List BFun
  cache : String → Option BFun

/-- Names after mentioning variable `v`. -/
def addName (names : List String) (v : String) : List String :=
  if v ∈ names then names else names ++ [v]

/-- The variable called `v`. -/
def proj (names : List String) (v : String) : BFun := fun a => a (names.idxOf v)

/-- Postfix evaluation over Boolean functions: one token. `none` = too few operands. -/
def arpnTok (s : ARpn) : Tok → Option (Except RpnErr ARpn)
  | .const b => some (.ok { s with stack := (fun _ => b) :: s.stack })
  | .and =>
    match s.stack with
    | r :: l :: st => some (.ok { s with stack := (fun a => l a && r a) :: st })
    | _ => none
  | .or =>
    match s.stack with
    | r :: l :: st => some (.ok { s with stack := (fun a => l a || r a) :: st })
    | _ => none
  | .xor =>
    match s.stack with
    | r :: l :: st => some (.ok { s with stack := (fun a => l a ^^ r a) :: st })
    | _ => none
  | .not =>
    match s.stack with
    | x :: st => some (.ok { s with stack := (fun a => !x a) :: st })
    | _ => none
  | .ite =>
    match s.stack with
    | e :: t :: c :: st => some (.ok { s with stack := (fun a => if c a then t a else e a) :: st })
    | _ => none
  | .save id =>
    match s.stack with
    | x :: _ => some (.ok { s with cache := fun k => if k = id then some x else s.cache k })
    | [] => some (.error .emptySave)
  | .load id =>
    match s.cache id with
    | some x => some (.ok { s with stack := x :: s.stack })
    | none => some (.error (.noCached id))
  | .var v =>
    some (.ok { s with names := addName s.names v, stack := proj (addName s.names v) v :: s.stack })

/-- All tokens; on an error, the variables defined so far are returned. -/
def arpnLoop (s : ARpn) : List Tok → Option (Except (RpnErr × List String) ARpn)
  | [] => some (.ok s)
  | t :: ts =>
    match arpnTok s t with
    | none => none
    | some (.error e) => some (.error (e, s.names))
    | some (.ok s') => arpnLoop s' ts

/-- Postfix evaluation; `none` = an operator met too few operands. -/
def arpn (names : List String) (ts : List Tok) : Option (Except RpnErr BFun × List String) :=
  match arpnLoop { names := names, stack := [], cache := fun _ => none } ts with
  | none => none
  | some (.error (e, ns)) => some (.error e, ns)
  | some (.ok s) =>
    match s.stack with
    | [x] => some (.ok x, s.names)
    | _ => some (.error .invalid, s.names)

/-- Pointwise order of assignments. -/
def leB (a b : Nat → Bool) : Prop := ∀ l, a l = true → b l = true

/-- The function is monotone. -/
def MonoB (F : BFun) : Prop := ∀ a b, leB a b → F a = true → F b = true

namespace Abs

/-- New handle for `F`. -/
def give (A : Abs) (F : BFun) : Abs :=
  { A with held := fun h => if h = A.next then some F else A.held h, next := A.next + 1 }

/-- The functions of a list of handles. -/
def funs (A : Abs) : List Nat → Option (List BFun)
  | [] => some []
  | f :: fs =>
    match A.held f, A.funs fs with
    | some F, some Fs => some (F :: Fs)
    | _, _ => none

/-- Calls a client may make: operands are handles it holds; `create_node` respects the variable
order; `rpn` operators have their operands. -/
def Legal (A : Abs) : Cmd → Prop
  | .const _ | .defvar _ | .setThreshold _ | .clearCache | .varorder => True
  | .not f | .dual f | .clone f | .drop f | .children f | .isZero f | .isOne f | .isUndet f
  | .level f | .minsol f => (A.held f).isSome
  | .and f g | .or f g | .xor f g | .eq f g => (A.held f).isSome ∧ (A.held g).isSome
  | .ite f g h => (A.held f).isSome ∧ (A.held g).isSome ∧ (A.held h).isSome
  | .createNode h f g => h < A.names.length ∧
      ∃ F G, A.held f = some F ∧ A.held g = some G ∧ DependsBelow h F ∧ DependsBelow h G
  | .andList fs | .orList fs | .kofn _ fs | .gc fs => (A.funs fs).isSome
  | .rpn ts => (arpn A.names ts).isSome

/-- What a call must return and how the abstract state changes. -/
def Post (A : Abs) : Cmd → Out → Abs → Prop
  | .const b, o, A' => o = .handle A.next ∧ A' = A.give (fun _ => b)
  | .defvar v, o, A' => o = .handle A.next ∧
      A' = { A with names := addName A.names v }.give (proj (addName A.names v) v)
  | .not f, o, A' => ∃ F, A.held f = some F ∧ o = .handle A.next ∧ A' = A.give (fun a => !F a)
  | .and f g, o, A' => ∃ F G, A.held f = some F ∧ A.held g = some G ∧ o = .handle A.next ∧
      A' = A.give (fun a => F a && G a)
  | .or f g, o, A' => ∃ F G, A.held f = some F ∧ A.held g = some G ∧ o = .handle A.next ∧
      A' = A.give (fun a => F a || G a)
  | .xor f g, o, A' => ∃ F G, A.held f = some F ∧ A.held g = some G ∧ o = .handle A.next ∧
      A' = A.give (fun a => F a ^^ G a)
  | .ite f g h, o, A' => ∃ F G H, A.held f = some F ∧ A.held g = some G ∧ A.held h = some H ∧
      o = .handle A.next ∧ A' = A.give (fun a => if F a then G a else H a)
  | .dual f, o, A' => ∃ F, A.held f = some F ∧ o = .handle A.next ∧
      A' = A.give (fun a => !F (fun l => !a l))
  | .createNode h f g, o, A' => ∃ F G, A.held f = some F ∧ A.held g = some G ∧
      o = .handle A.next ∧ A' = A.give (fun a => if a h then G a else F a)
  | .andList fs, o, A' => ∃ Fs, A.funs fs = some Fs ∧ o = .handle A.next ∧
      A' = A.give (fun a => Fs.all (· a))
  | .orList fs, o, A' => ∃ Fs, A.funs fs = some Fs ∧ o = .handle A.next ∧
      A' = A.give (fun a => Fs.any (· a))
  | .kofn k fs, o, A' => ∃ Fs, A.funs fs = some Fs ∧ o = .handle A.next ∧
      A' = A.give (fun a => decide (k ≤ Fs.countP (· a)))
  | .rpn ts, o, A' => ∃ r ns, arpn A.names ts = some (r, ns) ∧
      match r with
      | .ok F => o = .handle A.next ∧ A' = { A with names := ns }.give F
      | .error e => o = .err e ∧ A' = { A with names := ns }
  | .clone f, o, A' => ∃ F, A.held f = some F ∧ o = .handle A.next ∧ A' = A.give F
  | .drop f, o, A' => o = .unit ∧ A' = { A with held := fun h => if h = f then none else A.held h }
  | .children f, o, A' => ∃ F t, A.held f = some F ∧ IsTop F t ∧
      match t with
      | none => o = .pair none ∧ A' = A
      | some l => o = .pair (some (A.next, A.next + 1)) ∧
          A' = (A.give (F.cof l false)).give (F.cof l true)
  | .gc _, o, A' => o = .unit ∧ A' = A
  | .setThreshold _, o, A' => o = .unit ∧ A' = A
  | .clearCache, o, A' => o = .unit ∧ A' = A
  | .eq f g, o, A' => ∃ F G b, A.held f = some F ∧ A.held g = some G ∧ o = .bool b ∧
      (b = true ↔ F = G) ∧ A' = A
  | .isZero f, o, A' => ∃ F b, A.held f = some F ∧ o = .bool b ∧ (b = true ↔ ∀ a, F a = false) ∧
      A' = A
  | .isOne f, o, A' => ∃ F b, A.held f = some F ∧ o = .bool b ∧ (b = true ↔ ∀ a, F a = true) ∧
      A' = A
  | .isUndet _, o, A' => o = .bool false ∧ A' = A
  | .level f, o, A' => ∃ F t, A.held f = some F ∧ IsTop F t ∧ o = .level t ∧ A' = A
  | .minsol f, o, A' => ∃ F b, A.held f = some F ∧ o = .bool b ∧ (b = true ↔ MonoB F) ∧ A' = A
  | .varorder, o, A' => o = .strs A.names ∧ A' = A

/-- No variables, no handles. -/
def init : Abs := { names := [], held := fun _ => none, next := 0 }

/-- A legal session with its outputs. -/
inductive Runs : Abs → List Cmd → List Out → Abs → Prop
  | nil (A : Abs) : Runs A [] [] A
  | cons {A A' A'' : Abs} {c : Cmd} {cs : List Cmd} {o : Out} {os : List Out} :
      A.Legal c → A.Post c o A' → Runs A' cs os A'' → Runs A (c :: cs) (o :: os) A''

/-- Every call of the session is legal, whatever the outputs allowed so far. -/
inductive LegalRun : Abs → List Cmd → Prop
  | nil (A : Abs) : LegalRun A []
  | cons {A : Abs} {c : Cmd} {cs : List Cmd} : A.Legal c →
      (∀ o A', A.Post c o A' → LegalRun A' cs) → LegalRun A (c :: cs)

end Abs
end DD
