import Verif.Mss.ProbRel
import Verif.Props.BddAnalysis
import Verif.Props.MssAnalysis
import Mathlib.Algebra.Order.Ring.Defs
import Mathlib.Algebra.Order.Ring.Rat
import Mathlib.Tactic.Linarith

/-!
# Property C62: `prob` and `bmeas` on interval probabilities

`prob` and `bmeas` are generic in the type of numbers.  `A` is that type, with any arithmetic whatsoever;
`γ a x` says that the number `x` lies in the box `a`.
-/

set_option autoImplicit false
set_option linter.unusedSectionVars false
set_option linter.unusedVariables false

namespace DD.Props
open Arena Mtmdd2

/-! ## Vocabulary -/

/-- Each probability of `pv` lies in its box; the same names have entries. -/
def Within {A X : Type} (γ : A → X → Prop) (bx : String → Option A) (pv : String → Option X) : Prop :=
  ∀ x, Option.Rel γ (bx x) (pv x)

/-- Each probability of each state lies in its box. -/
def MWithin {A X : Type} (γ : A → X → Prop) (bx : String → Option (List A)) (pv : String → Option (List X)) : Prop :=
  ∀ x, Option.Rel (List.Forall₂ γ) (bx x) (pv x)

/-- There is a box for each state of each variable on which `F` depends. -/
def BoxesFor {A : Type} (vs : List (String × Nat)) (F : MFun) (bx : String → Option (List A)) : Prop :=
  ∀ l p, vs[l]? = some p → MDepends vs F l → ∃ fp, bx p.1 = some fp ∧ p.2 ≤ fp.length

/-- The weights `q` with the variable of level `l` in state `k` for sure. -/
def sureQ {X : Type} [Zero X] [One X] (q : Nat → Nat → X) (l k : Nat) : Nat → Nat → X :=
  fun l' j => if l' = l then (if j = k then 1 else 0) else q l' j

/-- Everything stands for everything. -/
theorem stands_true {A X : Type} [Zero A] [One A] [Add A] [Sub A] [Mul A] [Zero X] [One X] [Add X] [Sub X] [Mul X] :
    Stands (fun (_ : A) (_ : X) => True) := ⟨trivial, trivial, fun _ _ => trivial, fun _ _ => trivial, fun _ _ => trivial⟩

section
variable {A X : Type} {γ : A → X → Prop}

theorem rel_isSome {a : Option A} {b : Option X} (h : Option.Rel γ a b) : a.isSome = b.isSome := by
  cases h <;> rfl

theorem rel_some {a : Option A} {x : X} (h : Option.Rel γ a (some x)) : ∃ r, a = some r ∧ γ r x := by
  cases h with
  | some h => exact ⟨_, rfl, h⟩

theorem rel_of_some {a : A} {b : Option X} (h : Option.Rel γ (some a) b) : ∃ x, b = some x ∧ γ a x := by
  cases h with
  | some h => exact ⟨_, rfl, h⟩

end

section
variable {A : Type} [Zero A] [One A] [Add A] [Sub A] [Mul A]

/-! ## BDDs -/

section
variable {w : World}

theorem bddProb_rel {X : Type} [Zero X] [One X] [Add X] [Sub X] [Mul X] {γ : A → X → Prop} (hs : Stands γ)
    {bx : String → Option A} {pv : String → Option X} (hp : ∀ x, γ ((bx x).getD 0) ((pv x).getD 0)) (ss : List Bool)
    (f : Nat) : Option.Rel γ (w.bddProb bx ss f) (w.bddProb pv ss f) := by
  unfold World.bddProb
  cases w.held.get f with
  | none => exact Option.Rel.none
  | some i => exact Bdd.prob_rel hs _ hp ss i

theorem bddBmeas_rel {X : Type} [Zero X] [One X] [Add X] [Sub X] [Mul X] {γ : A → X → Prop} (hs : Stands γ)
    {bx : String → Option A} {pv : String → Option X} (hp : ∀ x, γ ((bx x).getD 0) ((pv x).getD 0)) (ss : List Bool)
    (f : Nat) : Option.Rel (MapRel γ) (w.bddBmeas bx ss f) (w.bddBmeas pv ss f) := by
  unfold World.bddBmeas
  cases w.held.get f with
  | none => exact Option.Rel.none
  | some i => exact Bdd.bmeas_rel hs _ hp ss i

theorem Within.getD {X : Type} [Zero X] [One X] [Add X] [Sub X] [Mul X] {γ : A → X → Prop} (hs : Stands γ)
    {bx : String → Option A} {pv : String → Option X} (h : Within γ bx pv) (x : String) :
    γ ((bx x).getD 0) ((pv x).getD 0) := rel_getD (h x) hs.zero

/-- **C62 (BDD, `prob`).** On boxes of probabilities, `prob` returns a box that contains the probability that
the value lies in `ss`, for every choice of probabilities within the boxes. -/
theorem C62_bdd_prob {X : Type} [CommRing X] {γ : A → X → Prop} (hs : Stands γ) (hw : w.Reachable) {f : Nat} {F : BFun}
    (hf : w.Denotes f F) {names : List String} (hnm : Names w names) (bx : String → Option A) (ss : List Bool) :
    ∃ r, w.bddProb bx ss f = some r ∧
      ∀ pv, Within γ bx pv → γ r (probSpec names.length (probs names pv) F ss) := by
  have h0 := bddProb_rel (w := w) (γ := fun (_ : A) (_ : Int) => True) stands_true (bx := bx) (pv := fun _ => none)
    (fun _ => trivial) ss f
  rw [C14_prob hw hf hnm] at h0
  obtain ⟨r, hr, -⟩ := rel_some h0
  refine ⟨r, hr, fun pv hpv => ?_⟩
  have h1 := bddProb_rel (w := w) hs (hpv.getD hs) ss f
  rw [C14_prob hw hf hnm, hr] at h1
  obtain ⟨x, e, h⟩ := rel_of_some h1
  cases e
  exact h

/-- **C62 (BDD, `bmeas`).** On boxes of probabilities, `bmeas` returns for each variable a box (0 if absent)
that contains the variable's Birnbaum importance, for every choice of probabilities within the boxes.  The
variables with an entry are those that label a node of the diagram. -/
theorem C62_bdd_bmeas {X : Type} [CommRing X] {γ : A → X → Prop} (hs : Stands γ) (hw : w.Reachable) {f : Nat} {F : BFun}
    (hf : w.Denotes f F) {names : List String} (hnm : Names w names) (bx : String → Option A) (ss : List Bool) :
    ∃ ev, w.bddBmeas bx ss f = some ev ∧
      (∀ pv, Within γ bx pv → ∀ x ∈ names, γ ((ev.get x).getD 0)
        (probSpec names.length (probs names (setPv pv x 1)) F ss -
          probSpec names.length (probs names (setPv pv x 0)) F ss)) ∧
      ∀ x, (ev.get x).isSome ↔ ∃ i j, w.held.get f = some i ∧ Reach w.mgr.bdd.arena i j ∧
        w.mgr.bdd.arena.label? j = some x := by
  have h0 := bddBmeas_rel (w := w) (γ := fun (_ : A) (_ : Int) => True) stands_true (bx := bx) (pv := fun _ => none)
    (fun _ => trivial) ss f
  obtain ⟨ev0, e0, -, e2⟩ := C15_bmeas hw hf hnm (fun _ => (none : Option Int)) ss
  rw [e0] at h0
  obtain ⟨ev, hev, hm⟩ := rel_some h0
  refine ⟨ev, hev, fun pv hpv x hx => ?_, fun x => ?_⟩
  · have h1 := bddBmeas_rel (w := w) hs (hpv.getD hs) ss f
    obtain ⟨ev', k0, k1, -⟩ := C15_bmeas hw hf hnm pv ss
    rw [hev, k0] at h1
    obtain ⟨ev'', e, h⟩ := rel_of_some h1
    cases e
    obtain ⟨p1, p0, q1, q0, q⟩ := k1 x hx
    rw [C14_prob hw hf hnm] at q1 q0
    cases q1; cases q0
    rw [← q]
    exact rel_getD (h x) hs.zero
  · rw [rel_isSome (hm x)]; exact e2 x

/-- **C62 (BDD, degenerate boxes).** If the arithmetic of `A` agrees with that of `X` on the boxes `ι x`, then
`prob` and `bmeas` on these boxes give the boxes of the results in `X`, whatever the arithmetic of `X`. -/
theorem C62_bdd_degenerate {X : Type} [Zero X] [One X] [Add X] [Sub X] [Mul X] {ι : X → A} (h0 : ι 0 = 0) (h1 : ι 1 = 1)
    (ha : ∀ x y, ι (x + y) = ι x + ι y) (hb : ∀ x y, ι (x - y) = ι x - ι y) (hm : ∀ x y, ι (x * y) = ι x * ι y)
    (w : World) (f : Nat) (pv : String → Option X) (ss : List Bool) :
    w.bddProb (fun x => (pv x).map ι) ss f = (w.bddProb pv ss f).map ι ∧
      Option.Rel (fun ev ev' => ∀ x, ev.get x = (ev'.get x).map ι)
        (w.bddBmeas (fun x => (pv x).map ι) ss f) (w.bddBmeas pv ss f) := by
  have hs : Stands (fun (a : A) (x : X) => a = ι x) :=
    ⟨h0.symm, h1.symm, fun e e' => by rw [e, e', ha], fun e e' => by rw [e, e', hb], fun e e' => by rw [e, e', hm]⟩
  have hp : ∀ x, (fun (a : A) (x : X) => a = ι x) (((pv x).map ι).getD 0) ((pv x).getD 0) := by
    intro x
    cases pv x with
    | none => exact h0.symm
    | some v => rfl
  have back : ∀ {a : Option A} {b : Option X}, Option.Rel (fun a x => a = ι x) a b → a = b.map ι := by
    intro a b h
    cases h with
    | some h => rw [h]; rfl
    | none => rfl
  refine ⟨back (bddProb_rel (w := w) hs hp ss f), ?_⟩
  have := bddBmeas_rel (w := w) hs hp ss f
  revert this
  generalize w.bddBmeas (fun x => (pv x).map ι) ss f = o
  generalize w.bddBmeas pv ss f = o'
  intro h
  cases h with
  | some h => exact Option.Rel.some fun x => back (h x)
  | none => exact Option.Rel.none

end

/-! ## MDDs -/

section
variable {w : MWorld} {vs : List (String × Nat)}

theorem mddProb_rel {X : Type} [Zero X] [One X] [Add X] [Sub X] [Mul X] {γ : A → X → Prop} (hs : Stands γ)
    {bx : String → Option (List A)} {pv : String → Option (List X)} (hp : MWithin γ bx pv) (ss : List Int)
    (f : Nat) : Option.Rel γ (w.prob bx ss f) (w.prob pv ss f) := by
  unfold MWorld.prob MWorld.query
  cases w.hs.held.get f with
  | none => exact Option.Rel.none
  | some x =>
    cases x with
    | value i => exact Mda.prob_rel hs _ hp _ i
    | bool i => exact Mda.prob_rel hs _ hp _ i

theorem mddBmeas_rel {X : Type} [Zero X] [One X] [Add X] [Sub X] [Mul X] {γ : A → X → Prop} (hs : Stands γ)
    {bx : String → Option (List A)} {pv : String → Option (List X)} (hp : MWithin γ bx pv) (ss : List Int)
    (f : Nat) : Option.Rel (MapRel (List.Forall₂ γ)) (w.bmeas bx ss f) (w.bmeas pv ss f) := by
  unfold MWorld.bmeas MWorld.query
  cases w.hs.held.get f with
  | none => exact Option.Rel.none
  | some x =>
    cases x with
    | value i => exact Mda.bmeas_rel hs _ hp _ i
    | bool i => exact Mda.bmeas_rel hs _ hp _ i

/-- A table of integers of the same boxShape. -/
def boxShape (bx : String → Option (List A)) : String → Option (List Int) := fun x => (bx x).map (List.map fun _ => 0)

theorem within_shape (bx : String → Option (List A)) : MWithin (fun _ _ => True) bx (boxShape bx) := by
  intro x
  unfold boxShape
  cases bx x with
  | none => exact Option.Rel.none
  | some l =>
    refine Option.Rel.some ?_
    induction l with
    | nil => exact List.Forall₂.nil
    | cons a l ih => exact List.Forall₂.cons trivial ih

theorem boxesFor_shape {bx : String → Option (List A)} {F : MFun} :
    TableFor vs F (boxShape bx) ↔ BoxesFor vs F bx := by
  unfold TableFor BoxesFor boxShape
  refine forall_congr' fun l => forall_congr' fun p => imp_congr_right fun _ => imp_congr_right fun _ => ?_
  cases bx p.1 <;> simp

/-- **C62 (MDD, `prob`).** On boxes of probabilities, `prob` returns iff there are boxes for the variables on
which the function depends; the result contains the probability that the value lies in `ss`, for every choice
of probabilities within the boxes that add up to one. -/
theorem C62_mdd_prob {X : Type} [CommRing X] {γ : A → X → Prop} (hs : Stands γ) (hw : w.Reachable) (hv : MVars w vs)
    {f : Nat} {F : MFun} (hf : w.Has f F) (bx : String → Option (List A)) (ss : List Int) :
    ((w.prob bx ss f).isSome ↔ BoxesFor vs F bx) ∧
      ∀ r, w.prob bx ss f = some r → ∀ (pv : String → Option (List X)) (q : Nat → Nat → X), MWithin γ bx pv →
        (∀ l, l < vs.length → ∑ j ∈ Finset.range (states vs l), q l j = 1) →
        (∀ l p, vs[l]? = some p → MDepends vs F l → ∃ fp, pv p.1 = some fp ∧ ∀ j, j < p.2 → fp[j]? = some (q l j)) →
        γ r (mprobSpec vs q ss F) := by
  refine ⟨?_, fun r hr pv q hpv hq hag => ?_⟩
  · rw [rel_isSome (mddProb_rel (w := w) stands_true (within_shape bx) ss f), ← boxesFor_shape,
      ← C36_returns hw hv hf (boxShape bx) ss, Option.isSome_iff_exists]
  · have h1 := mddProb_rel (w := w) hs hpv ss f
    rw [hr, C36_prob hw hv hf pv ss q hq hag] at h1
    obtain ⟨x, e, h⟩ := rel_of_some h1
    cases e
    exact h

/-- Certainty of state `k` adds up to one. -/
theorem sureQ_sum {X : Type} [CommRing X] {q : Nat → Nat → X}
    (hq : ∀ l, l < vs.length → ∑ j ∈ Finset.range (states vs l), q l j = 1) {l k : Nat} (hk : k < states vs l) :
    ∀ l', l' < vs.length → ∑ j ∈ Finset.range (states vs l'), sureQ q l k l' j = 1 := by
  intro l' hl'
  unfold sureQ
  by_cases e : l' = l
  · subst e
    simp only [if_true, Finset.sum_ite_eq', Finset.mem_range, if_pos hk]
  · simp only [if_neg e]; exact hq l' hl'

/-- **C62 (MDD, `bmeas`).** With boxes for the variables on which the function depends, `bmeas` returns; it has an
entry for exactly these variables; the entry of a variable with `r` states has `r - 1` boxes, and box `d` (0
without an entry) contains the difference of the probabilities that the value lies in `ss` with the variable
in state `d + 1` and in state `d`, for every choice of probabilities within the boxes that add up to one. -/
theorem C62_mdd_bmeas {X : Type} [CommRing X] {γ : A → X → Prop} (hs : Stands γ) (hw : w.Reachable) (hv : MVars w vs)
    {f : Nat} {F : MFun} (hf : w.Has f F) (bx : String → Option (List A)) (ss : List Int)
    (hb : BoxesFor vs F bx) :
    ∃ ev, w.bmeas bx ss f = some ev ∧
      (∀ x, (ev.get x).isSome ↔ ∃ l p, vs[l]? = some p ∧ p.1 = x ∧ MDepends vs F l) ∧
      ∀ (l : Nat) (p : String × Nat), vs[l]? = some p → (∀ v, ev.get p.1 = some v → v.length = p.2 - 1) ∧
        ∀ d, d + 1 < p.2 → ∀ (pv : String → Option (List X)) (q : Nat → Nat → X), MWithin γ bx pv →
          (∀ l, l < vs.length → ∑ j ∈ Finset.range (states vs l), q l j = 1) →
          (∀ l p, vs[l]? = some p → MDepends vs F l → ∃ fp, pv p.1 = some fp ∧ ∀ j, j < p.2 → fp[j]? = some (q l j)) →
          γ (((ev.get p.1).getD []).getD d 0)
            (mprobSpec vs (sureQ q l (d + 1)) ss F - mprobSpec vs (sureQ q l d) ss F) := by
  have hnd : (vs.map Prod.fst).Nodup := by
    rcases forest hw hv hf ss with ⟨i, -, h⟩ | ⟨i, -, h⟩
    · exact h.nodup
    · exact h.nodup
  have h0 := mddBmeas_rel (w := w) stands_true (within_shape bx) ss f
  obtain ⟨ev0, e0, e1, e2⟩ := C37_bmeas hw hv hf (boxShape bx) ss (boxesFor_shape.2 hb)
  rw [e0] at h0
  obtain ⟨ev, hev, hm⟩ := rel_some h0
  refine ⟨ev, hev, fun x => by rw [rel_isSome (hm x)]; exact e1 x, fun l p hp => ⟨fun v hv => ?_, ?_⟩⟩
  · have := hm p.1
    rw [hv] at this
    obtain ⟨v', e3, e4⟩ := rel_of_some this
    rw [e4.length_eq]
    exact (e2 l p hp).1 v' e3
  · intro d hd pv q hpv hq hag
    have hT : TableFor vs F pv := by
      intro l p hp hd
      obtain ⟨fp, f1, f2⟩ := hag l p hp hd
      refine ⟨fp, f1, Nat.le_of_not_lt fun hlt => ?_⟩
      have := f2 _ hlt
      simp at this
    obtain ⟨ev', k0, -, k2⟩ := C37_bmeas hw hv hf pv ss hT
    have h1 := mddBmeas_rel (w := w) hs hpv ss f
    rw [hev, k0] at h1
    obtain ⟨ev'', e, h⟩ := rel_of_some h1
    cases e
    obtain ⟨r1, r0, q1, q0, hr⟩ := (k2 l p hp).2 d hd
    have sure : ∀ k, k < p.2 → w.prob (setState pv p.1 p.2 k) ss f = some (mprobSpec vs (sureQ q l k) ss F) := by
      intro k hk
      refine C36_prob hw hv hf _ ss _ (sureQ_sum hq (by rw [states, List.getD_eq_getElem?_getD, hp]; exact hk)) ?_
      intro l' p' hp' hd'
      unfold setState sureQ
      by_cases en : p'.1 = p.1
      · have el : l' = l := by
          refine (List.getElem?_inj (l := vs.map Prod.fst) (by simpa using (List.getElem?_eq_some_iff.1 hp').1) hnd).1 ?_
          rw [List.getElem?_map, List.getElem?_map, hp, hp']
          exact congrArg some en
        subst el
        rw [hp] at hp'; cases hp'
        refine ⟨_, if_pos en, fun j hj => ?_⟩
        rw [List.getElem?_ofFn, dif_pos hj]
        simp
      · have el : l' ≠ l := fun el => by subst el; rw [hp] at hp'; cases hp'; exact en rfl
        obtain ⟨fp, f1, f2⟩ := hag l' p' hp' hd'
        refine ⟨fp, by rw [if_neg en, f1], fun j hj => ?_⟩
        rw [if_neg el]; exact f2 j hj
    rw [sure _ hd] at q1
    rw [sure _ (by omega)] at q0
    cases q1; cases q0
    rw [← hr]
    have hx := h p.1
    revert hx
    generalize ev.get p.1 = o
    generalize ev'.get p.1 = o'
    intro hx
    cases hx with
    | some hx =>
      rw [Option.getD_some, Option.getD_some, List.getD_eq_getElem?_getD, List.getD_eq_getElem?_getD]
      exact rel_getD (rel_getElem? hx d) hs.zero
    | none => exact hs.zero

/-- **C62 (MDD, degenerate boxes).** -/
theorem C62_mdd_degenerate {X : Type} [Zero X] [One X] [Add X] [Sub X] [Mul X] {ι : X → A} (h0 : ι 0 = 0) (h1 : ι 1 = 1)
    (ha : ∀ x y, ι (x + y) = ι x + ι y) (hb : ∀ x y, ι (x - y) = ι x - ι y) (hm : ∀ x y, ι (x * y) = ι x * ι y)
    (w : MWorld) (f : Nat) (pv : String → Option (List X)) (ss : List Int) :
    w.prob (fun x => (pv x).map (List.map ι)) ss f = (w.prob pv ss f).map ι ∧
      Option.Rel (fun ev ev' => ∀ x, ev.get x = (ev'.get x).map (List.map ι))
        (w.bmeas (fun x => (pv x).map (List.map ι)) ss f) (w.bmeas pv ss f) := by
  have hs : Stands (fun (a : A) (x : X) => a = ι x) :=
    ⟨h0.symm, h1.symm, fun e e' => by rw [e, e', ha], fun e e' => by rw [e, e', hb], fun e e' => by rw [e, e', hm]⟩
  have hp : MWithin (fun (a : A) (x : X) => a = ι x) (fun x => (pv x).map (List.map ι)) pv := by
    intro x
    show Option.Rel _ ((pv x).map (List.map ι)) (pv x)
    cases pv x with
    | none => exact Option.Rel.none
    | some l =>
      refine Option.Rel.some ?_
      induction l with
      | nil => exact List.Forall₂.nil
      | cons a l ih => exact List.Forall₂.cons rfl ih
  have back : ∀ {a : Option A} {b : Option X}, Option.Rel (fun a x => a = ι x) a b → a = b.map ι := by
    intro a b h
    cases h with
    | some h => rw [h]; rfl
    | none => rfl
  have tol : ∀ {a : List A} {b : List X}, List.Forall₂ (fun a x => a = ι x) a b → a = b.map ι := by
    intro a b h
    induction h with
    | nil => rfl
    | cons h _ ih => rw [h, ih]; rfl
  refine ⟨back (mddProb_rel (w := w) hs hp ss f), ?_⟩
  have := mddBmeas_rel (w := w) hs hp ss f
  revert this
  generalize w.bmeas (fun x => (pv x).map (List.map ι)) ss f = o
  generalize w.bmeas pv ss f = o'
  intro h
  cases h with
  | some h =>
    refine Option.Rel.some fun x => ?_
    have := h x
    revert this
    generalize AMap.get _ x = a
    generalize AMap.get _ x = b
    intro h
    cases h with
    | some h => rw [tol h]; rfl
    | none => rfl
  | none => exact Option.Rel.none

end
end

/-! ## Closed intervals -/

/-- A closed interval. -/
structure Ivl (K : Type) where
  lo : K
  hi : K
deriving DecidableEq, Repr

namespace Ivl
section
variable {K : Type} [CommRing K] [LinearOrder K]

instance : Zero (Ivl K) := ⟨⟨0, 0⟩⟩
instance : One (Ivl K) := ⟨⟨1, 1⟩⟩
instance : Add (Ivl K) := ⟨fun a b => ⟨a.lo + b.lo, a.hi + b.hi⟩⟩
instance : Sub (Ivl K) := ⟨fun a b => ⟨a.lo - b.hi, a.hi - b.lo⟩⟩
instance : Mul (Ivl K) := ⟨fun a b =>
  ⟨min (min (a.lo * b.lo) (a.lo * b.hi)) (min (a.hi * b.lo) (a.hi * b.hi)),
   max (max (a.lo * b.lo) (a.lo * b.hi)) (max (a.hi * b.lo) (a.hi * b.hi))⟩⟩

/-- The number lies in the interval. -/
def Has (a : Ivl K) (x : K) : Prop := a.lo ≤ x ∧ x ≤ a.hi

variable [IsStrictOrderedRing K]

theorem mul_mid {a b x y : K} (h1 : a ≤ x) (h2 : x ≤ b) : min (a * y) (b * y) ≤ x * y ∧ x * y ≤ max (a * y) (b * y) := by
  rcases le_total 0 y with hy | hy
  · exact ⟨le_trans (min_le_left _ _) (mul_le_mul_of_nonneg_right h1 hy),
      le_trans (mul_le_mul_of_nonneg_right h2 hy) (le_max_right _ _)⟩
  · exact ⟨le_trans (min_le_right _ _) (mul_le_mul_of_nonpos_right h2 hy),
      le_trans (mul_le_mul_of_nonpos_right h1 hy) (le_max_left _ _)⟩

/-- Interval arithmetic is sound, so the theorems above apply to it. -/
theorem stands : Stands (Has : Ivl K → K → Prop) where
  zero := ⟨le_refl _, le_refl _⟩
  one := ⟨le_refl _, le_refl _⟩
  add h h' := ⟨add_le_add h.1 h'.1, add_le_add h.2 h'.2⟩
  sub h h' := ⟨sub_le_sub h.1 h'.2, sub_le_sub h.2 h'.1⟩
  mul {a b x y} h h' := by
    have k := mul_mid (y := y) h.1 h.2
    have k0 := mul_mid (y := a.lo) h'.1 h'.2
    have k1 := mul_mid (y := a.hi) h'.1 h'.2
    simp only [mul_comm _ a.lo, mul_comm _ a.hi] at k0 k1
    exact ⟨le_trans (min_le_min k0.1 k1.1) k.1, le_trans k.2 (max_le_max k0.2 k1.2)⟩

/-- Points. -/
def pt (x : K) : Ivl K := ⟨x, x⟩

theorem pt_ops : pt (0 : K) = 0 ∧ pt (1 : K) = 1 ∧ (∀ x y : K, pt (x + y) = pt x + pt y) ∧
    (∀ x y : K, pt (x - y) = pt x - pt y) ∧ ∀ x y : K, pt (x * y) = pt x * pt y := by
  refine ⟨rfl, rfl, fun _ _ => rfl, fun _ _ => rfl, fun x y => ?_⟩
  show Ivl.mk _ _ = Ivl.mk _ _
  simp [pt]

end
end Ivl

/-! ## Concrete cases

The structure function is `y ∧ (x ∨ z)` with `x` above `y` above `z`; handle 4.  All probabilities lie in
`[1/5, 4/5]`.  The importance of `x` is `py * (1 - pz)`, between `1/25` and `16/25`; the returned interval contains
0: an enclosure, not the tightest one. -/

/-- The session. -/
def boxCmds : List Cmd := [.defvar "z", .defvar "y", .defvar "x", .or 2 0, .and 1 3]

/-- The boxes. -/
def boxes (_ : String) : Option (Ivl ℚ) := some ⟨1/5, 4/5⟩

example : (World.new.run boxCmds).bind (fun p => (p.2.bddBmeas boxes [true] 4).map (fun e => (e.get "x"))) =
    some (some ⟨-11/25, 19/25⟩) := by
  decide +kernel

example : (World.new.run boxCmds).bind (fun p => p.2.bddProb boxes [true] 4) = some ⟨6/125, 144/125⟩ ∧
    (World.new.run boxCmds).bind (fun p => p.2.bddProb (R := ℚ) (fun _ => some (1/2)) [true] 4) = some (3/8) := by
  decide +kernel

example : (mrun MWorld.new manalysis).bind (fun p => (p.2.bmeas (fun s => (mtable s).map (List.map fun x => (⟨x, x + 1/10⟩ : Ivl ℚ)))
      [1] 1).map (fun e => (e.get "x", e.get "y"))) =
    some (some [⟨3/4, 17/20⟩, ⟨1/4, 7/20⟩], some [⟨7/30, 8/15⟩]) := by
  decide +kernel

end DD.Props
