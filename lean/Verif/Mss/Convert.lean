import Verif.Zmdd.Model
import Verif.Mtmdd2.Model

/-!
# Model of `/repo/mss/src/zmdd_convert.rs` and `eval_extreme`

`to_zmdd_value` and `to_zmdd_bool` differ only in the terminal arms; the recursion is written once over the
source forest's terminals.
-/

set_option autoImplicit false

namespace DD
open Arena

/-- Destination forest, header map and memo table (/repo/mss/src/zmdd_convert.rs:31-32). -/
structure ConvM where
  dst : Zmdd
  zh : AMap Nat Nat
  memo : AMap Nat Nat

section
variable {T : Type}

/-- `dst_header`, /repo/mss/src/zmdd_convert.rs:39-58; level and label as read at :83-86 and :125-128. -/
def dstHeader (src : Arena T) (st : ConvM) (shid edgeNum : Nat) : Option (Nat × ConvM) :=
  match src.headers[shid]? with
  | none => none
  | some hd =>
    match st.zh.get shid with
    | some h => some (h, st)
    | none =>
      let (h, dst) := st.dst.createHeader hd.level hd.label edgeNum
      some (h, { st with dst := dst, zh := st.zh.insert shid h })

/-- A terminal: the empty family or a value, /repo/mss/src/zmdd_convert.rs:75-79, :117-121. -/
def convTerm (st : ConvM) : Option Int → Option (Nat × ConvM)
  | none => some (Zmdd.undet, st)
  | some v =>
    match st.dst.value v with
    | none => none
    | some (r, dst) => some (r, { st with dst := dst })

/-- The non-terminal arm, /repo/mss/src/zmdd_convert.rs:80-96, :122-138. -/
def convNode (src : Arena T) (reverse : Bool) (rec : ConvM → Nat → Option (Nat × ConvM)) (st : ConvM) (shid : Nat)
    (edges : List Nat) : Option (Nat × ConvM) :=
  match mapS rec st edges with
  | none => none
  | some (ch, st) =>
    match dstHeader src st shid edges.length with
    | none => none
    | some (dhid, st) =>
      match st.dst.createNode dhid (if reverse then ch.reverse else ch) with
      | none => none
      | some (r, dst) => some (r, { st with dst := dst })

/-- /repo/mss/src/zmdd_convert.rs:60-100, :102-142; `tm` says what the terminals become. -/
def toZmddF (src : Arena T) (tm : T → Option Int) (reverse : Bool) : Nat → ConvM → Nat → Option (Nat × ConvM)
  | 0, _, _ => none
  | n + 1, st, i =>
    match st.memo.get i with
    | some x => some (x, st)
    | none =>
      match (match src.node? i with
        | none => none
        | some (.term t) => convTerm st (tm t)
        | some (.nt shid edges) => convNode src reverse (toZmddF src tm reverse n) st shid edges) with
      | none => none
      | some (r, st) => some (r, { st with memo := st.memo.insert i r })

/-- A whole copy, with fresh maps. -/
def toZmddA (src : Arena T) (tm : T → Option Int) (reverse : Bool) (dst : Zmdd) (i : Nat) : Option (Nat × Zmdd) :=
  match toZmddF src tm reverse (src.rank i + 1) ⟨dst, AMap.empty, AMap.empty⟩ i with
  | none => none
  | some (r, st) => some (r, st.dst)

end

/-- Terminals of the Boolean forest, /repo/mss/src/zmdd_convert.rs:117-121. -/
def convB (reverse : Bool) : T3 → Option Int
  | .undet => none
  | .zero => none
  | .one => some (if reverse then 0 else 1)

/-- `to_zmdd`, /repo/mss/src/zmdd_convert.rs:22-37. -/
def toZmdd (src : Mtmdd2) (node : MNode) (dst : Zmdd) (reverse : Bool) : Option (Nat × Zmdd) :=
  match node with
  | .value i => toZmddA src.mtmdd.arena (fun t => t) reverse dst i
  | .bool i => toZmddA src.mdd.arena (convB reverse) reverse dst i

/-- The loops of `eval_extreme`, /repo/mss/src/mss.rs:28-37, :41-50: follow the first or the last edge to a
terminal; `none` = panic (or fuel, which the proofs exclude). -/
def extremeF {T : Type} (src : Arena T) (top : Bool) : Nat → Nat → Option T
  | 0, _ => none
  | n + 1, i =>
    match src.node? i with
    | none => none
    | some (.term t) => some t
    | some (.nt _ edges) =>
      match (if top then edges.getLast? else edges.head?) with
      | none => none
      | some c => extremeF src top n c

/-- `eval_extreme`, /repo/mss/src/mss.rs:21-54. -/
def evalExtreme (src : Mtmdd2) (node : MNode) (top : Bool) : Option Int :=
  match node with
  | .value i =>
    match extremeF src.mtmdd.arena top (src.mtmdd.arena.rank i + 1) i with
    | none => none
    | some (some v) => some v
    | some none => some 0
  | .bool i =>
    match extremeF src.mdd.arena top (src.mdd.arena.rank i + 1) i with
    | none => none
    | some .one => some 1
    | some .zero => some 0
    | some .undet => some 0

end DD
