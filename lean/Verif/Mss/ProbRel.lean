import Verif.Bss.ProbRel
import Verif.Mss.Analysis

/-!
# `prob` and `bmeas` of MDDs over two types of numbers

`T` is generic in /repo/mss/src/mdd_prob.rs:6-15, 147-156.
-/

set_option autoImplicit false
set_option linter.unusedSectionVars false

namespace DD
open Arena

namespace Mda

section
variable {T : Type} [DecidableEq T] [Fixed T]
variable {A X : Type} [Zero A] [One A] [Add A] [Sub A] [Mul A] [Zero X] [One X] [Add X] [Sub X] [Mul X]
  {γ : A → X → Prop}

theorem dotKids_rel (hs : Stands γ) {fp : List A} {fq : List X} (hp : List.Forall₂ γ fp fq)
    {l : List (Nat × A)} {l' : List (Nat × X)}
    (hl : List.Forall₂ (fun (p : Nat × A) (q : Nat × X) => p.1 = q.1 ∧ γ p.2 q.2) l l') :
    ∀ i {a : A} {x : X}, γ a x → Option.Rel γ (dotKids fp i l a) (dotKids fq i l' x) := by
  induction hl with
  | nil => exact fun _ _ _ h => Option.Rel.some h
  | cons h _ ih =>
    intro i a x ha
    simp only [dotKids]
    have h0 := rel_getElem? hp i
    revert h0
    cases fp[i]? <;> cases fq[i]? <;> intro h0 <;> cases h0
    · exact Option.Rel.none
    · rename_i h0
      exact ih (i + 1) (hs.add ha (hs.mul h0 h.2))

theorem probLeaf_rel (hs : Stands γ) (s : Sel T) (t : T) :
    Option.Rel γ (probLeaf (R := A) s t) (probLeaf (R := X) s t) := by
  unfold probLeaf
  split
  · exact Option.Rel.some hs.zero
  · split
    · exact Option.Rel.some hs.one
    · exact Option.Rel.some hs.zero

theorem probComb_rel (hs : Stands γ) (m : Arena T) {pv : String → Option (List A)} {qv : String → Option (List X)}
    (hp : ∀ x, Option.Rel (List.Forall₂ γ) (pv x) (qv x)) (i h : Nat) (l : List (Nat × A)) (l' : List (Nat × X))
    (hl : List.Forall₂ (fun (p : Nat × A) (q : Nat × X) => p.1 = q.1 ∧ γ p.2 q.2) l l') :
    Option.Rel γ (probComb m pv i h l) (probComb m qv i h l') := by
  simp only [probComb]
  cases m.label? i with
  | none => exact Option.Rel.none
  | some x =>
    have h0 := hp x
    simp only
    revert h0
    cases pv x <;> cases qv x <;> intro h0 <;> cases h0
    · exact Option.Rel.none
    · rename_i h0
      exact dotKids_rel hs h0 hl 0 hs.zero

theorem probC_rel (hs : Stands γ) (m : Arena T) {pv : String → Option (List A)} {qv : String → Option (List X)}
    (hp : ∀ x, Option.Rel (List.Forall₂ γ) (pv x) (qv x)) (s : Sel T) (i : Nat) {c : AMap Nat A} {c' : AMap Nat X}
    (hc : MapRel γ c c') : Option.Rel (OutRel γ) (probC m pv s i c) (probC m qv s i c') :=
  m.memoFold_rel (probLeaf_rel hs s) (probComb_rel hs m hp) _ i c c' hc

/-- `prob` respects the relation. -/
theorem prob_rel (hs : Stands γ) (m : Arena T) {pv : String → Option (List A)} {qv : String → Option (List X)}
    (hp : ∀ x, Option.Rel (List.Forall₂ γ) (pv x) (qv x)) (s : Sel T) (i : Nat) :
    Option.Rel γ (prob m pv s i) (prob m qv s i) :=
  rel_map (probC_rel hs m hp s i MapRel.empty) fun _ _ h => h.1

/-- The results of `edgeLoop`. -/
def EdgeRel (γ : A → X → Prop) (p : AMap Nat A × AMap Nat A × List A) (q : AMap Nat X × AMap Nat X × List X) : Prop :=
  MapRel γ p.1 q.1 ∧ MapRel γ p.2.1 q.2.1 ∧ List.Forall₂ γ p.2.2 q.2.2

theorem edgeLoop_rel (hs : Stands γ) (m : Arena T) {pv : String → Option (List A)} {qv : String → Option (List X)}
    (hp : ∀ x, Option.Rel (List.Forall₂ γ) (pv x) (qv x)) (s : Sel T) {w : A} {v : X} (hw : γ w v)
    {pj : List A} {qj : List X} (hj : List.Forall₂ γ pj qj) (es : List Nat) :
    ∀ j {g : AMap Nat A} {g' : AMap Nat X} {c : AMap Nat A} {c' : AMap Nat X}, MapRel γ g g' → MapRel γ c c' →
      Option.Rel (EdgeRel γ) (edgeLoop m pv s w pj j es g c) (edgeLoop m qv s v qj j es g' c') := by
  induction es with
  | nil => exact fun _ _ _ _ _ hg hc => Option.Rel.some ⟨hg, hc, List.Forall₂.nil⟩
  | cons e es ih =>
    intro j g g' c c' hg hc
    simp only [edgeLoop]
    have h0 := rel_getElem? hj j
    revert h0
    cases pj[j]? <;> cases qj[j]? <;> intro h0 <;> cases h0
    · exact Option.Rel.none
    · rename_i a x h0
      simp only
      have hg' := hg.insert e (hs.add (rel_getD (hg e) hs.zero) (hs.mul hw h0))
      have h1 := probC_rel hs m hp s e hc
      revert h1
      cases probC m pv s e c <;> cases probC m qv s e c' <;> intro h1 <;> cases h1
      · exact Option.Rel.none
      · rename_i p q h1
        simp only
        have h2 := ih (j + 1) hg' h1.2
        revert h2
        generalize edgeLoop m pv s w pj (j + 1) es _ p.2 = o
        generalize edgeLoop m qv s v qj (j + 1) es _ q.2 = o'
        intro h2
        cases h2
        · rename_i h2
          exact Option.Rel.some ⟨h2.1, h2.2.1, List.Forall₂.cons h1.1 h2.2.2⟩
        · exact Option.Rel.none

theorem set_rel {l : List A} {l' : List X} (h : List.Forall₂ γ l l') {a : A} {x : X} (ha : γ a x) (d : Nat) :
    List.Forall₂ γ (l.set d a) (l'.set d x) := by
  induction h generalizing d with
  | nil => exact List.Forall₂.nil
  | cons h t ih =>
    cases d with
    | zero => exact List.Forall₂.cons ha t
    | succ d => exact List.Forall₂.cons h (ih d)

theorem addDiffs_rel (hs : Stands γ) {w : A} {v : X} (hw : γ w v) {ps : List A} {qs : List X}
    (hp : List.Forall₂ γ ps qs) (ds : List Nat) :
    ∀ {sl : List A} {sl' : List X}, List.Forall₂ γ sl sl' →
      Option.Rel (List.Forall₂ γ) (addDiffs w ps ds sl) (addDiffs v qs ds sl') := by
  induction ds with
  | nil => exact fun h => Option.Rel.some h
  | cons d ds ih =>
    intro sl sl' h
    simp only [addDiffs]
    have h0 := rel_getElem? h d
    have h1 := rel_getElem? hp (d + 1)
    have h2 := rel_getElem? hp d
    revert h0 h1 h2
    generalize sl[d]? = o1
    generalize sl'[d]? = o1'
    generalize ps[d + 1]? = o2
    generalize qs[d + 1]? = o2'
    generalize ps[d]? = o3
    generalize qs[d]? = o3'
    intro h0 h1 h2
    cases h0 <;> cases h1 <;> cases h2 <;> first | exact Option.Rel.none | skip
    rename_i h0 _ _ h1 _ _ h2
    exact ih (set_rel h (hs.add h0 (hs.mul hw (hs.sub h1 h2))) d)

theorem bmeasLoop_rel (hs : Stands γ) (m : Arena T) {pv : String → Option (List A)} {qv : String → Option (List X)}
    (hp : ∀ x, Option.Rel (List.Forall₂ γ) (pv x) (qv x)) (s : Sel T) (fs : List Nat) :
    ∀ {g : AMap Nat A} {g' : AMap Nat X} {c : AMap Nat A} {c' : AMap Nat X} {ev : AMap String (List A)}
      {ev' : AMap String (List X)}, MapRel γ g g' → MapRel γ c c' → MapRel (List.Forall₂ γ) ev ev' →
      Option.Rel (MapRel (List.Forall₂ γ)) (bmeasLoop m pv s fs g c ev) (bmeasLoop m qv s fs g' c' ev') := by
  induction fs with
  | nil => exact fun _ _ h => Option.Rel.some h
  | cons f fs ih =>
    intro g g' c c' ev ev' hg hc hev
    simp only [bmeasLoop]
    cases m.nodes[f]? with
    | none => exact Option.Rel.none
    | some nd =>
      cases nd with
      | term _ => exact ih hg hc hev
      | nt _ es =>
        simp only
        cases m.label? f with
        | none => exact Option.Rel.none
        | some x =>
          simp only
          have hw : γ ((g.get f).getD 0) ((g'.get f).getD 0) := rel_getD (hg f) hs.zero
          have h0 := hp x
          revert h0
          cases pv x <;> cases qv x <;> intro h0 <;> cases h0
          · exact Option.Rel.none
          · rename_i h0
            simp only
            have h1 := edgeLoop_rel hs m hp s hw h0 es 0 hg hc
            revert h1
            generalize edgeLoop m pv s _ _ 0 es g c = o
            generalize edgeLoop m qv s _ _ 0 es g' c' = o'
            intro h1
            cases h1
            · rename_i p q h1
              simp only
              split
              · exact Option.Rel.none
              · have hr : List.Forall₂ γ (List.replicate (es.length - 1) (0 : A)) (List.replicate (es.length - 1) (0 : X)) := by
                  generalize es.length - 1 = n
                  induction n with
                  | zero => exact List.Forall₂.nil
                  | succ n ih => exact List.Forall₂.cons hs.zero ih
                have h2 := addDiffs_rel hs hw h1.2.2 (List.range (es.length - 1)) (rel_getD (hev x) hr)
                revert h2
                generalize addDiffs _ p.2.2 _ _ = o
                generalize addDiffs _ q.2.2 _ _ = o'
                intro h2
                cases h2
                · rename_i h2
                  exact ih h1.1 h1.2.1 (hev.insert x h2)
                · exact Option.Rel.none
            · exact Option.Rel.none

/-- `bmeas` respects the relation. -/
theorem bmeas_rel (hs : Stands γ) (m : Arena T) {pv : String → Option (List A)} {qv : String → Option (List X)}
    (hp : ∀ x, Option.Rel (List.Forall₂ γ) (pv x) (qv x)) (s : Sel T) (i : Nat) :
    Option.Rel (MapRel (List.Forall₂ γ)) (bmeas m pv s i) (bmeas m qv s i) := by
  unfold bmeas
  cases topo m i with
  | none => exact Option.Rel.none
  | some o => exact bmeasLoop_rel hs m hp s o (MapRel.empty.insert i hs.one) MapRel.empty MapRel.empty

end

end Mda
end DD
