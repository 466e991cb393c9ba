import Verif.Bdd.Model
import Verif.Zdd.Model

/-!
# Minimal solutions and their conversion to a ZDD

/repo/bss/src/bdd_minsol.rs and /repo/bss/src/zdd_convert.rs.  `none` = panic or out of fuel; the `HashMap`s of
these functions are local to one call of `minpath`.
-/

set_option autoImplicit false
set_option linter.unusedSectionVars false

namespace DD
open Arena
namespace Bdd

/-- Memo of `without`. -/
abbrev WCache := AMap (Nat × Nat) Nat

/-- Two recursive calls, then `create_node`, /repo/bss/src/bdd_minsol.rs:217-221, 226-231. -/
def withoutNode (rec : Bdd → Nat → Nat → WCache → Option (Nat × Bdd × WCache)) (s : Bdd) (h f0 g0 f1 g1 : Nat)
    (c : WCache) : Option (Nat × Bdd × WCache) :=
  match rec s f0 g0 c with
  | none => none
  | some (low, s, c) =>
    match rec s f1 g1 c with
    | none => none
    | some (high, s, c) =>
      match s.createNode h low high with
      | none => none
      | some (r, s) => some (r, s, c)

/-- The `match` of `without`, /repo/bss/src/bdd_minsol.rs:199-233.  The two guards compare
`Option<Level>`s that are both `Some`. -/
def withoutArms (rec : Bdd → Nat → Nat → WCache → Option (Nat × Bdd × WCache)) (s : Bdd) (f g : Nat)
    (c : WCache) : Option (Nat × Bdd × WCache) :=
  match s.arena.node? f, s.arena.node? g with
  | some (.term .zero), some _ => some (zero, s, c)
  | some _, some (.term .zero) => some (f, s, c)
  | some _, some (.term .one) => some (zero, s, c)
  | some (.term .one), some (.nt _ [g0, _]) => rec s f g0 c
  | some (.nt h [f0, f1]), some (.nt _ [g0, g1]) =>
    if f = g then some (zero, s, c)
    else
      match s.arena.level? f, s.arena.level? g with
      | some lf, some lg =>
        if lf > lg then withoutNode rec s h f0 g f1 g c
        else if lf < lg then rec s f g0 c
        else withoutNode rec s h f0 g0 f1 g1 c
      | _, _ => none
  | _, _ => none

/-- /repo/bss/src/bdd_minsol.rs:189-236 -/
def withoutF : Nat → Bdd → Nat → Nat → WCache → Option (Nat × Bdd × WCache)
  | 0, _, _, _, _ => none
  | n + 1, s, f, g, c =>
    match c.get (f, g) with
    | some r => some (r, s, c)
    | none =>
      match withoutArms (withoutF n) s f g c with
      | none => none
      | some (r, s, c) => some (r, s, c.insert (f, g) r)

/-- `without` with enough fuel. -/
def without (s : Bdd) (f g : Nat) (c : WCache) : Option (Nat × Bdd × WCache) :=
  withoutF (Max.max (s.arena.rank f) (s.arena.rank g) + 1) s f g c

/-- Memo of `minsol`. -/
abbrev MCache := AMap Nat (Option Nat)

/-- State of `minsol`: the manager, `cache1`, `cache2`. -/
structure MinSt where
  dd : Bdd
  c1 : MCache
  c2 : WCache

/-- The non-terminal arm of `minsol`, /repo/bss/src/bdd_minsol.rs:25-47. -/
def minsolNt (rec : MinSt → Nat → Option (Option Nat × MinSt)) (st : MinSt) (h f0 f1 : Nat) :
    Option (Option Nat × MinSt) :=
  match rec st f0 with
  | none => none
  | some (none, st) => some (none, st)
  | some (some low, st) =>
    match rec st f1 with
    | none => none
    | some (none, st) => some (none, st)
    | some (some highSrc, st) =>
      match st.dd.and f0 f1 with
      | none => none
      | some (r, dd) =>
        if r ≠ f0 then some (none, { st with dd := dd })
        else
          match dd.without highSrc f0 st.c2 with
          | none => none
          | some (high, dd, c2) =>
            match dd.createNode h low high with
            | none => none
            | some (r, dd) => some (some r, { st with dd := dd, c2 := c2 })

/-- The `match` of `minsol`, /repo/bss/src/bdd_minsol.rs:22-48. -/
def minsolArms (rec : MinSt → Nat → Option (Option Nat × MinSt)) (st : MinSt) (f : Nat) :
    Option (Option Nat × MinSt) :=
  match st.dd.arena.node? f with
  | some (.term .zero) => some (some zero, st)
  | some (.term .one) => some (some one, st)
  | some (.nt h [f0, f1]) => minsolNt rec st h f0 f1
  | _ => none

/-- /repo/bss/src/bdd_minsol.rs:12-52 -/
def minsolF : Nat → MinSt → Nat → Option (Option Nat × MinSt)
  | 0, _, _ => none
  | n + 1, st, f =>
    match st.c1.get f with
    | some x => some (x, st)
    | none =>
      match minsolArms (minsolF n) st f with
      | none => none
      | some (x, st) => some (x, { st with c1 := st.c1.insert f x })

/-- `minsol` with empty caches, /repo/bss/src/bss.rs:111-116. -/
def minsol (s : Bdd) (f : Nat) : Option (Option Nat × Bdd) :=
  (minsolF (s.arena.rank f + 1) ⟨s, AMap.empty, AMap.empty⟩ f).map (fun p => (p.1, p.2.dd))

end Bdd

namespace Zdd

/-- State of `to_zdd`: destination, header map, memo. -/
structure ConvSt where
  dst : Zdd
  zh : AMap Nat Nat
  memo : AMap Nat Nat

/-- The destination header of a source header, /repo/bss/src/zdd_convert.rs:39-47. -/
def convHeader (src : Arena T3) (st : ConvSt) (shid : Nat) : Option (Nat × ConvSt) :=
  match st.zh.get shid with
  | some h => some (h, st)
  | none =>
    match src.headers[shid]? with
    | none => none
    | some hd =>
      let (h, dst) := st.dst.createHeader hd.level hd.label
      some (h, { st with dst := dst, zh := st.zh.insert shid h })

/-- The non-terminal arm, /repo/bss/src/zdd_convert.rs:32-49. -/
def convNt (src : Arena T3) (rec : ConvSt → Nat → Option (Nat × ConvSt)) (st : ConvSt) (shid e0 e1 : Nat) :
    Option (Nat × ConvSt) :=
  match rec st e0 with
  | none => none
  | some (low, st) =>
    match rec st e1 with
    | none => none
    | some (high, st) =>
      match convHeader src st shid with
      | none => none
      | some (dhid, st) =>
        match st.dst.createNode dhid low high with
        | none => none
        | some (r, dst) => some (r, { st with dst := dst })

/-- The `match` of `to_zdd`, /repo/bss/src/zdd_convert.rs:28-50. -/
def convArms (src : Arena T3) (rec : ConvSt → Nat → Option (Nat × ConvSt)) (st : ConvSt) (i : Nat) :
    Option (Nat × ConvSt) :=
  match src.node? i with
  | some (.term t) => some (t.slot, st)
  | some (.nt shid [e0, e1]) => convNt src rec st shid e0 e1
  | _ => none

/-- /repo/bss/src/zdd_convert.rs:18-52 -/
def toZddF (src : Arena T3) : Nat → ConvSt → Nat → Option (Nat × ConvSt)
  | 0, _, _ => none
  | n + 1, st, i =>
    match st.memo.get i with
    | some x => some (x, st)
    | none =>
      match convArms src (toZddF src n) st i with
      | none => none
      | some (r, st) => some (r, { st with memo := st.memo.insert i r })

/-- `to_zdd` with empty maps, /repo/bss/src/bss.rs:118-124. -/
def toZdd (src : Arena T3) (dst : Zdd) (i : Nat) : Option (Nat × Zdd) :=
  (toZddF src (src.rank i + 1) ⟨dst, AMap.empty, AMap.empty⟩ i).map (fun p => (p.1, p.2.dst))

end Zdd
end DD
