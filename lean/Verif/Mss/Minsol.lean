import Verif.Mtmdd2.Model
import Verif.Core.Memo

/-!
# Model of `/repo/mss/src/mdd_minsol.rs`

The file contains the same pair of recursions four times: `vminsol`/`vwithout` and `vmaxsol`/`vupwithout` on
the value forest, `bminsol`/`bwithout` and `bmaxsol`/`bupwithout` on the Boolean forest.  They differ in

* the terminal arms (a table per instance below),
* the meet used by the coherence test (`dd.min` or `dd.and`),
* whether the baseline edge is edge 0 (`min…`) or the last edge (`max…`).

The recursion is written once, with these three as parameters; the four instances follow.  `none` is a panic
(or exhausted fuel, which the proofs exclude); a result `some (none, _)` is the Rust `None` (not coherent).
The states `S × …` thread the forest and the call-local memo tables.
-/

set_option autoImplicit false

namespace DD
open Arena

namespace Sol

/-- What an arm of `vwithout` and its three siblings does. -/
inductive WAct where
  /-- return `g` -/
  | g
  /-- return a constant terminal -/
  | const (n : Nat)
  /-- recurse into the baseline edge of `f` -/
  | skipF
  /-- recurse into every child of `g`, keep `f` -/
  | mapG
  /-- the three non-terminal/non-terminal arms, by level -/
  | byLevel

/-- The parameters of one instance. -/
structure Tab (T : Type) where
  /-- baseline edge: `true` = last edge, `false` = edge 0 -/
  top : Bool
  /-- terminal arm of the outer recursion: `none` = the node itself, `some n` = a constant -/
  term : T → Option Nat
  /-- arms of the inner recursion by the terminal values of `f` and `g` (`none` = non-terminal) -/
  arm : Option T → Option T → WAct

/-- The terminal value of a node, if it is a terminal. -/
def tv {T : Type} : Node T → Option T
  | .term t => some t
  | .nt _ _ => none

/-- The baseline edge, `fnode.edge(0)` (/repo/mss/src/mdd_minsol.rs:119, :128) or
`fnode.iter().last().unwrap()` (:386, :402). -/
def base (top : Bool) (ch : List Nat) : Option Nat := if top then ch.getLast? else ch.head?

variable {S T : Type} [DecidableEq T] [Fixed T]

/-- `create_node` with the memo table alongside. -/
def mkC {C : Type} (mk : S → Nat → List Nat → Option (Nat × S)) (q : S × C) (h : Nat) (ch : List Nat) :
    Option (Nat × (S × C)) :=
  match mk q.1 h ch with
  | none => none
  | some (r, s) => some (r, (s, q.2))

/-- `vwithout` /repo/mss/src/mdd_minsol.rs:89-159, `bwithout` :215-269, `vupwithout` :357-427,
`bupwithout` :485-541: the members of the family `g` that `f` does not reach. -/
def withoutF (ar : S → Arena T) (mk : S → Nat → List Nat → Option (Nat × S)) (X : Tab T) :
    Nat → S × AMap (Nat × Nat) Nat → Nat × Nat → Option (Nat × (S × AMap (Nat × Nat) Nat))
  | 0, _, _ => none
  | n + 1, q, (f, g) =>
    memo (fun q => q.2.get (f, g)) (fun q r => (q.1, q.2.insert (f, g) r)) (fun q =>
      match (ar q.1).node? f, (ar q.1).node? g with
      | some nf, some ng =>
        match X.arm (tv nf) (tv ng) with
        | .g => some (g, q)
        | .const k => some (k, q)
        | .skipF =>
          match nf with
          | .nt _ cf =>
            match base X.top cf with
            | some c => withoutF ar mk X n q (c, g)
            | none => none
          | .term _ => none
        | .mapG =>
          match ng with
          | .nt hg cg => branchS (mkC mk) (withoutF ar mk X n) q hg (cg.map (fun y => (f, y)))
          | .term _ => none
        | .byLevel =>
          match nf, ng, (ar q.1).level? f, (ar q.1).level? g with
          | .nt hf cf, .nt hg cg, some lf, some lg =>
            if lf > lg then
              match base X.top cf with
              | some c => withoutF ar mk X n q (c, g)
              | none => none
            else if lf < lg then branchS (mkC mk) (withoutF ar mk X n) q hg (cg.map (fun y => (f, y)))
            else branchS (mkC mk) (withoutF ar mk X n) q hf (cf.zip cg)
          | _, _, _, _ => none
      | _, _ => none) q

/-- `without` with enough fuel. -/
def without (ar : S → Arena T) (mk : S → Nat → List Nat → Option (Nat × S)) (X : Tab T)
    (q : S × AMap (Nat × Nat) Nat) (f g : Nat) : Option (Nat × (S × AMap (Nat × Nat) Nat)) :=
  withoutF ar mk X (Max.max ((ar q.1).rank f) ((ar q.1).rank g) + 1) q (f, g)

/-- The coherence test `(1..children.len()).all(|i| dd.min(children[i-1], children[i]) == children[i-1])`,
/repo/mss/src/mdd_minsol.rs:51-52, :183-184, :319-320, :451-452, on the list of adjacent pairs. -/
def chain (inf : S → Nat → Nat → Option (Nat × S)) : S → List (Nat × Nat) → Option (Bool × S)
  | s, [] => some (true, s)
  | s, (a, b) :: ps =>
    match inf s a b with
    | none => none
    | some (r, s1) => if r = a then chain inf s1 ps else some (false, s1)

/-- Each child with the neighbour it is compared with: the previous one and none for edge 0
(/repo/mss/src/mdd_minsol.rs:66-70, :198-202), or the next one and none for the last edge
(:337-341, :469-473). -/
def nbrs (top : Bool) (ch : List Nat) : List (Nat × Option Nat) :=
  if top then ch.zip (ch.tail.map some ++ [none]) else ch.zip (none :: ch.map some)

/-- The memo tables of a call: forest, `cache1`, `cache2`. -/
structure Q (S : Type) where
  s : S
  c1 : AMap Nat (Option Nat)
  c2 : AMap (Nat × Nat) Nat

/-- The entry for one child: the child's own family on the baseline edge, otherwise what the neighbour does
not reach, /repo/mss/src/mdd_minsol.rs:66-70, :198-202, :337-341, :469-473. -/
def pick (wo : S × AMap (Nat × Nat) Nat → Nat → Nat → Option (Nat × (S × AMap (Nat × Nat) Nat)))
    (q : Q S) (nb : Option Nat) (m : Nat) : Option (Nat × Q S) :=
  match nb with
  | none => some (m, q)
  | some b =>
    match wo (q.s, q.c2) b m with
    | none => none
    | some (v, (s, c2)) => some (v, { q with s := s, c2 := c2 })

/-- The loop over the children, stopping at the first non-coherent one: /repo/mss/src/mdd_minsol.rs:57-75,
:189-207, :326-346, :458-478. -/
def kids (rec : Q S → Nat → Option (Option Nat × Q S))
    (wo : S × AMap (Nat × Nat) Nat → Nat → Nat → Option (Nat × (S × AMap (Nat × Nat) Nat))) :
    Q S → List (Nat × Option Nat) → Option (Option (List Nat) × Q S)
  | q, [] => some (some [], q)
  | q, (c, nb) :: ps =>
    match rec q c with
    | none => none
    | some (none, q1) => some (none, q1)
    | some (some m, q1) =>
      match pick wo q1 nb m with
      | none => none
      | some (v, q2) =>
        match kids rec wo q2 ps with
        | none => none
        | some (none, q3) => some (none, q3)
        | some (some vs, q3) => some (some (v :: vs), q3)

/-- `vminsol` /repo/mss/src/mdd_minsol.rs:31-87, `bminsol` :161-213, `vmaxsol` :299-355, `bmaxsol`
:429-483. -/
def solF (ar : S → Arena T) (mk : S → Nat → List Nat → Option (Nat × S))
    (inf : S → Nat → Nat → Option (Nat × S)) (X : Tab T) :
    Nat → Q S → Nat → Option (Option Nat × Q S)
  | 0, _, _ => none
  | n + 1, q, i =>
    match q.c1.get i with
    | some x => some (x, q)
    | none =>
      match (match (ar q.s).node? i with
        | none => none
        | some (.term t) => some (some ((X.term t).getD i), q)
        | some (.nt h ch) =>
          match chain inf q.s (ch.zip ch.tail) with
          | none => none
          | some (false, s1) => some (none, { q with s := s1 })
          | some (true, s1) =>
            match kids (solF ar mk inf X n) (without ar mk X) { q with s := s1 } (nbrs X.top ch) with
            | none => none
            | some (none, q1) => some (none, q1)
            | some (some rs, q1) =>
              match mk q1.s h rs with
              | none => none
              | some (r, s2) => some (some r, { q1 with s := s2 })) with
      | none => none
      | some (x, q1) => some (x, { q1 with c1 := q1.c1.insert i x })

/-- A whole call: fresh memo tables. -/
def sol (ar : S → Arena T) (mk : S → Nat → List Nat → Option (Nat × S))
    (inf : S → Nat → Nat → Option (Nat × S)) (X : Tab T) (s : S) (i : Nat) : Option (Option Nat × S) :=
  match solF ar mk inf X ((ar s).rank i + 1) ⟨s, AMap.empty, AMap.empty⟩ i with
  | none => none
  | some (x, q) => some (x, q.s)

end Sol

open Sol

/-- Arms of `vwithout` (/repo/mss/src/mdd_minsol.rs:102-156) and `vupwithout` (:370-424). -/
def vArm : Option (Option Int) → Option (Option Int) → WAct
  | some none, _ => .g
  | _, some none => .const Mtmdd.undet
  | some (some x), some (some y) => if x = y then .const Mtmdd.undet else .g
  | none, some (some _) => .skipF
  | some (some _), none => .mapG
  | none, none => .byLevel

/-- Terminal arms of `vminsol` and `vmaxsol`, /repo/mss/src/mdd_minsol.rs:45-46, :313-314. -/
def vTerm : Option Int → Option Nat
  | some _ => none
  | none => some Mtmdd.undet

/-- `vminsol`/`vwithout`. -/
def vminTab : Tab (Option Int) where
  top := false
  term := vTerm
  arm := vArm

/-- `vmaxsol`/`vupwithout`. -/
def vmaxTab : Tab (Option Int) where
  top := true
  term := vTerm
  arm := vArm

/-- `bminsol` (terminal arms /repo/mss/src/mdd_minsol.rs:173-175) and `bwithout` (arms :226-266). -/
def bminTab : Tab T3 where
  top := false
  term
    | .zero => some Mdd.undet
    | .one => none
    | .undet => some Mdd.undet
  arm
    | some .undet, _ => .g
    | _, some .undet => .const Mdd.undet
    | some .zero, some .one => .const Mdd.one
    | some .zero, _ => .g
    | _, some .zero => .const Mdd.undet
    | some .one, _ => .const Mdd.undet
    | none, some .one => .skipF
    | none, none => .byLevel

/-- `bmaxsol` (terminal arms /repo/mss/src/mdd_minsol.rs:444-446) and `bupwithout` (arms :496-538). -/
def bmaxTab : Tab T3 where
  top := true
  term
    | .zero => some Mdd.one
    | .one => some Mdd.undet
    | .undet => some Mdd.undet
  arm
    | some .undet, _ => .g
    | _, some .undet => .const Mdd.undet
    | some .one, _ => .g
    | some .zero, _ => .const Mdd.undet
    | none, some .one => .skipF
    | none, some .zero => .const Mdd.undet
    | none, none => .byLevel

namespace Mtmdd2

/-- Run the value-forest instance. -/
def solV (X : Tab (Option Int)) (s : Mtmdd2) (f : Nat) : Option (Option MNode × Mtmdd2) :=
  match sol Mtmdd.arena Mtmdd.createNode Mtmdd.min X s.mtmdd f with
  | none => none
  | some (r, v) => some (r.map .value, { s with mtmdd := v })

/-- Run the Boolean-forest instance. -/
def solB (X : Tab T3) (s : Mtmdd2) (f : Nat) : Option (Option MNode × Mtmdd2) :=
  match sol Mdd.arena Mdd.createNode Mdd.and X s.mdd f with
  | none => none
  | some (r, b) => some (r.map .bool, { s with mdd := b })

/-- /repo/mss/src/mdd_minsol.rs:13-29 -/
def minsol (s : Mtmdd2) : MNode → Option (Option MNode × Mtmdd2)
  | .value f => s.solV vminTab f
  | .bool f => s.solB bminTab f

/-- /repo/mss/src/mdd_minsol.rs:281-297 -/
def maxsol (s : Mtmdd2) : MNode → Option (Option MNode × Mtmdd2)
  | .value f => s.solV vmaxTab f
  | .bool f => s.solB bmaxTab f

/-- `minsol` (`top = false`) or `maxsol`. -/
def solT (top : Bool) (e : Mtmdd2) (x : MNode) : Option (Option MNode × Mtmdd2) :=
  if top then e.maxsol x else e.minsol x

end Mtmdd2
end DD
