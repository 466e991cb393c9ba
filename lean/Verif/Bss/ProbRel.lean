import Verif.Core.FoldRel
import Verif.Bss.Analysis

/-!
# `prob` and `bmeas` of BDDs over two types of numbers

`T` is generic in /repo/bss/src/bdd_prob.rs:5-14, 47-57.  When the operations of two types respect a relation,
so do `prob` and `bmeas`.
-/

set_option autoImplicit false
set_option linter.unusedSectionVars false

namespace DD
open Arena

/-- `γ a x` (`a` stands for `x`) is respected by the constants and operations that `prob` and `bmeas` use. -/
structure Stands {A X : Type} [Zero A] [One A] [Add A] [Sub A] [Mul A] [Zero X] [One X] [Add X] [Sub X] [Mul X]
    (γ : A → X → Prop) : Prop where
  zero : γ 0 0
  one : γ 1 1
  add {a b x y} : γ a x → γ b y → γ (a + b) (x + y)
  sub {a b x y} : γ a x → γ b y → γ (a - b) (x - y)
  mul {a b x y} : γ a x → γ b y → γ (a * b) (x * y)

namespace Bdd

section
variable {A X : Type} [Zero A] [One A] [Add A] [Sub A] [Mul A] [Zero X] [One X] [Add X] [Sub X] [Mul X]
  {γ : A → X → Prop}

theorem probLeaf_rel (hs : Stands γ) (ss : List Bool) (t : T3) :
    Option.Rel γ (probLeaf (R := A) ss t) (probLeaf (R := X) ss t) := by
  cases t <;> simp only [probLeaf]
  · exact Option.Rel.some (by split <;> [exact hs.one; exact hs.zero])
  · exact Option.Rel.some (by split <;> [exact hs.one; exact hs.zero])
  · exact Option.Rel.none

theorem probComb_rel (hs : Stands γ) (m : Arena T3) {pv : String → Option A} {qv : String → Option X}
    (hp : ∀ x, γ ((pv x).getD 0) ((qv x).getD 0)) (i h : Nat) (l : List (Nat × A)) (l' : List (Nat × X))
    (hl : List.Forall₂ (fun (p : Nat × A) (q : Nat × X) => p.1 = q.1 ∧ γ p.2 q.2) l l') :
    Option.Rel γ (probComb m pv i h l) (probComb m qv i h l') := by
  match l, l', hl with
  | _, _, .nil => exact Option.Rel.none
  | _, _, .cons _ .nil => exact Option.Rel.none
  | _, _, .cons (a := (_, a)) (b := (_, b)) h1 (.cons (a := (_, c)) (b := (_, d)) h2 .nil) =>
    simp only [probComb]
    cases m.label? i with
    | none => exact Option.Rel.none
    | some x =>
      exact Option.Rel.some (hs.add (hs.mul (hs.sub hs.one (hp x)) h1.2) (hs.mul (hp x) h2.2))
  | _, _, .cons _ (.cons _ (.cons _ _)) => exact Option.Rel.none

theorem probC_rel (hs : Stands γ) (m : Arena T3) {pv : String → Option A} {qv : String → Option X}
    (hp : ∀ x, γ ((pv x).getD 0) ((qv x).getD 0)) (ss : List Bool) (i : Nat) {c : AMap Nat A} {c' : AMap Nat X}
    (hc : MapRel γ c c') : Option.Rel (OutRel γ) (probC m pv ss i c) (probC m qv ss i c') :=
  m.memoFold_rel (probLeaf_rel hs ss) (probComb_rel hs m hp) _ i c c' hc

/-- `prob` respects the relation. -/
theorem prob_rel (hs : Stands γ) (m : Arena T3) {pv : String → Option A} {qv : String → Option X}
    (hp : ∀ x, γ ((pv x).getD 0) ((qv x).getD 0)) (ss : List Bool) (i : Nat) :
    Option.Rel γ (prob m pv ss i) (prob m qv ss i) :=
  rel_map (probC_rel hs m hp ss i MapRel.empty) fun _ _ h => h.1

theorem accum_rel (hs : Stands γ) {K : Type} [DecidableEq K] {c : AMap K A} {c' : AMap K X} (hc : MapRel γ c c')
    (k : K) {a : A} {x : X} (h : γ a x) : MapRel γ (accum c k a) (accum c' k x) := by
  refine hc.insert k ?_
  have h0 := hc k
  revert h0
  cases c.get k <;> cases c'.get k <;> intro h0 <;> cases h0
  · exact h
  · rename_i h0
    exact hs.add h0 h

theorem bmeasLoop_rel (hs : Stands γ) (m : Arena T3) {pv : String → Option A} {qv : String → Option X}
    (hp : ∀ x, γ ((pv x).getD 0) ((qv x).getD 0)) (ss : List Bool) (fs : List Nat) :
    ∀ {g : AMap Nat A} {g' : AMap Nat X} {c : AMap Nat A} {c' : AMap Nat X} {ev : AMap String A} {ev' : AMap String X},
      MapRel γ g g' → MapRel γ c c' → MapRel γ ev ev' →
      Option.Rel (MapRel γ) (bmeasLoop m ss pv fs g c ev) (bmeasLoop m ss qv fs g' c' ev') := by
  induction fs with
  | nil => exact fun _ _ h => Option.Rel.some h
  | cons f fs ih =>
    intro g g' c c' ev ev' hg hc hev
    simp only [bmeasLoop]
    cases m.nodes[f]? with
    | none => exact Option.Rel.none
    | some nd =>
      match nd with
      | .term _ => exact ih hg hc hev
      | .nt _ [] => exact Option.Rel.none
      | .nt _ [_] => exact Option.Rel.none
      | .nt _ (_ :: _ :: _ :: _) => exact Option.Rel.none
      | .nt _ [c0, c1] =>
        simp only
        cases m.label? f with
        | none => exact Option.Rel.none
        | some x =>
          simp only
          have hw : γ ((g.get f).getD 0) ((g'.get f).getD 0) := rel_getD (hg f) hs.zero
          have h0 := probC_rel hs m hp ss c0 hc
          revert h0
          cases probC m pv ss c0 c <;> cases probC m qv ss c0 c' <;> intro h0 <;> cases h0
          · exact Option.Rel.none
          · rename_i p q h0
            simp only
            have h1 := probC_rel hs m hp ss c1 h0.2
            revert h1
            cases probC m pv ss c1 p.2 <;> cases probC m qv ss c1 q.2 <;> intro h1 <;> cases h1
            · exact Option.Rel.none
            · rename_i h1
              exact ih (accum_rel hs (accum_rel hs hg c0 (hs.mul hw (hs.sub hs.one (hp x)))) c1 (hs.mul hw (hp x))) h1.2
                (accum_rel hs hev x (hs.mul hw (hs.sub h1.1 h0.1)))

/-- `bmeas` respects the relation. -/
theorem bmeas_rel (hs : Stands γ) (m : Arena T3) {pv : String → Option A} {qv : String → Option X}
    (hp : ∀ x, γ ((pv x).getD 0) ((qv x).getD 0)) (ss : List Bool) (i : Nat) :
    Option.Rel (MapRel γ) (bmeas m ss i pv) (bmeas m ss i qv) := by
  unfold bmeas
  cases topologicalSort m i with
  | none => exact Option.Rel.none
  | some o => exact bmeasLoop_rel hs m hp ss o (MapRel.empty.insert i hs.one) MapRel.empty MapRel.empty

end

end Bdd
end DD
