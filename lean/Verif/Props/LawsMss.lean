import Verif.Mss.ProbLaws
import Verif.Props.BddAnalysis
import Verif.Props.MssAnalysis
import Mathlib.Tactic.NormNum
import Mathlib.Algebra.Order.Field.Rat

/-!
# C81: laws relating the analyses of one MDD session

`prob`, `bmeas` and `mdd_count` against each other and against the operations of the API: no formula for a
probability appears in these statements, only calls.
-/

set_option autoImplicit false
set_option linter.unusedSectionVars false
set_option linter.unusedVariables false

namespace DD.Props
open Arena Mda

variable {w : MWorld} {vs : List (String × Nat)}

section ring
variable {R : Type} [CommRing R]

/-- The first `r` numbers of the row add up to one. -/
def IsRow (r : Nat) (fp : List R) : Prop := r ≤ fp.length ∧ (fp.take r).sum = 1

/-- Each variable has a row of weights, one for each of its states, that add up to one. -/
def IsDist (vs : List (String × Nat)) (pv : String → Option (List R)) : Prop :=
  ∀ p ∈ vs, ∃ fp, pv p.1 = some fp ∧ IsRow p.2 fp

/-- The table with another row for `x`. -/
def setRow (pv : String → Option (List R)) (x : String) (fp : List R) : String → Option (List R) :=
  fun y => if y = x then some fp else pv y

theorem IsDist.setRow {pv : String → Option (List R)} (h : IsDist vs pv) {p : String × Nat} {fp : List R}
    (hnd : (vs.map Prod.fst).Nodup) (hp : p ∈ vs) (hfp : IsRow p.2 fp) : IsDist vs (setRow pv p.1 fp) := by
  intro p' hp'
  unfold Props.setRow
  by_cases e : p'.1 = p.1
  · have : p' = p := by
      obtain ⟨i, hi⟩ := List.mem_iff_getElem?.1 hp'
      obtain ⟨j, hj⟩ := List.mem_iff_getElem?.1 hp
      have e1 : (vs.map Prod.fst)[i]? = some p'.1 := by rw [List.getElem?_map, hi]; rfl
      have e2 : (vs.map Prod.fst)[j]? = some p.1 := by rw [List.getElem?_map, hj]; rfl
      have := nodup_getElem?_inj hnd (e ▸ e1) e2
      subst this
      rw [hi] at hj; cases hj; rfl
    subst this
    exact ⟨fp, if_pos rfl, hfp⟩
  · rw [if_neg e]; exact h p' hp'

theorem sum_take (fp : List R) : ∀ (r : Nat), r ≤ fp.length →
    (fp.take r).sum = ∑ j ∈ Finset.range r, fp.getD j 0 := by
  intro r
  induction r with
  | zero => intro _; simp
  | succ r ih =>
    intro h
    rw [List.take_succ_eq_append_getElem (by omega), List.sum_append, ih (by omega), Finset.sum_range_succ]
    simp [List.getD_eq_getElem?_getD, List.getElem?_eq_getElem (show r < fp.length by omega)]

theorem tableQ_row {pv : String → Option (List R)} {l : Nat} {p : String × Nat} (hl : vs[l]? = some p)
    {fp : List R} (h : pv p.1 = some fp) (j : Nat) : tableQ vs pv l j = fp.getD j 0 := by
  have : varName vs l = p.1 := Mda.nameOf_get hl
  unfold tableQ
  rw [this, h]; rfl

theorem IsDist.sum {pv : String → Option (List R)} (h : IsDist vs pv) (l : Nat) (hl : l < vs.length) :
    ∑ j ∈ Finset.range (states vs l), tableQ vs pv l j = 1 := by
  have hp : vs[l]? = some vs[l] := List.getElem?_eq_getElem hl
  obtain ⟨fp, h1, h2, h3⟩ := h _ (List.mem_of_getElem? hp)
  rw [states_get hp, ← h3, sum_take fp _ h2]
  exact Finset.sum_congr rfl fun j _ => tableQ_row hp h1 j

theorem IsDist.table {pv : String → Option (List R)} (h : IsDist vs pv) (F : MFun) : TableFor vs F pv := by
  intro l p hp _
  obtain ⟨fp, h1, h2, _⟩ := h p (List.mem_of_getElem? hp)
  exact ⟨fp, h1, h2⟩

/-- Indicator of the selected values. -/
abbrev mind (R : Type) [CommRing R] (ss : List Int) (F : MFun) (a : Nat → Nat) : R := if InSet ss (F a) then 1 else 0

theorem vb_valid {a : Nat → Nat} (h : VB (states vs) vs.length a) : ValidV vs a := by
  intro i x r hi
  have := h i (List.getElem?_eq_some_iff.1 hi).1
  rwa [states_get hi] at this

theorem valid_vb {a : Nat → Nat} (h : ValidV vs a) : VB (states vs) vs.length a := by
  intro l hl
  have hp : vs[l]? = some vs[l] := List.getElem?_eq_getElem hl
  rw [states_get hp]
  exact h l vs[l].1 vs[l].2 hp

/-- `prob` as a sum over the assignments. -/
theorem prob_msum (hw : w.Reachable) (hv : MVars w vs) {f : Nat} {F : MFun} (hf : w.Has f F)
    {pv : String → Option (List R)} (hd : IsDist vs pv) (ss : List Int) :
    w.prob pv ss f = some (msum (states vs) (tableQ vs pv) vs.length (mind R ss F)) := by
  rw [C36_prob hw hv hf pv ss (tableQ vs pv) hd.sum (fun l p hp _ => by
    obtain ⟨fp, h1, h2, _⟩ := hd p (List.mem_of_getElem? hp)
    refine ⟨fp, h1, fun j hj => ?_⟩
    rw [tableQ_row hp h1, List.getElem?_eq_getElem (by omega)]
    simp [List.getD_eq_getElem?_getD, List.getElem?_eq_getElem (show j < fp.length by omega)])]
  congr 1
  unfold mprobSpec msum wsum
  refine Finset.sum_congr rfl fun a _ => ?_
  have e : extA (D := fun l => Fin (states vs l)) (fun _ x => x.val) 0 a = mextend (vs := vs) a := rfl
  rw [e]
  unfold mind
  split
  · rw [mul_one]
  · rw [mul_zero]

theorem vs_nodup (hw : w.Reachable) (hv : MVars w vs) : (vs.map Prod.fst).Nodup := (mrel hw hv).mok.nodup

theorem vs_pos (hw : w.Reachable) (hv : MVars w vs) : ∀ l, l < vs.length → 0 < states vs l := by
  intro l hl
  have hp : vs[l]? = some vs[l] := List.getElem?_eq_getElem hl
  rw [states_get hp]
  have R := mrel hw hv
  exact (R.mok.valid.1 R.mok.inv.zero) l vs[l].1 vs[l].2 hp

/-- **C81.** Probabilities of disjoint sets of values add up; a set that contains all values has probability 1
and one that contains none has probability 0. -/
theorem C81_total (hw : w.Reachable) (hv : MVars w vs) {f : Nat} {F : MFun} (hf : w.Has f F)
    {pv : String → Option (List R)} (hd : IsDist vs pv) {ss ss' : List Int} :
    (List.Disjoint ss ss' → ∃ p p', w.prob pv ss f = some p ∧ w.prob pv ss' f = some p' ∧
      w.prob pv (ss ++ ss') f = some (p + p')) ∧
    ((∀ a, ValidV vs a → InSet ss (F a)) → w.prob pv ss f = some 1) ∧
    ((∀ a, ValidV vs a → ¬ InSet ss (F a)) → w.prob pv ss f = some 0) := by
  refine ⟨fun hdis => ⟨_, _, prob_msum hw hv hf hd _, prob_msum hw hv hf hd _, ?_⟩, fun h => ?_, fun h => ?_⟩
  · rw [prob_msum hw hv hf hd, ← msum_add]
    congr 1
    refine msum_congr (fun _ _ _ _ => rfl) fun a _ => ?_
    have hno : ∀ z : Int, z ∈ ss → z ∉ ss' := fun z h1 h2 => hdis h1 h2
    have key : ∀ z : Int, ((if z ∈ ss ++ ss' then 1 else 0 : R)) = (if z ∈ ss then 1 else 0) + if z ∈ ss' then 1 else 0 := by
      intro z
      by_cases h1 : z ∈ ss
      · simp [h1, hno z h1]
      · by_cases h2 : z ∈ ss' <;> simp [h1, h2]
    unfold mind InSet
    rcases F a with (_ | _ | _) | (_ | z)
    · exact key 0
    · exact key 1
    · simp
    · simp
    · exact key z
  · rw [prob_msum hw hv hf hd, ← msum_const hd.sum (1 : R)]
    exact congrArg some (msum_congr (fun _ _ _ _ => rfl) fun a ha => if_pos (h a (vb_valid ha)))
  · rw [prob_msum hw hv hf hd, ← msum_const hd.sum (0 : R)]
    exact congrArg some (msum_congr (fun _ _ _ _ => rfl) fun a ha => if_neg (h a (vb_valid ha)))

/-- **C81.** If at each assignment exactly one of two conditions "the value of `f` is in `ss`", "the value of `g`
is in `ss'`" holds, their probabilities add up to one: `f` and `not f`, `lt` and `gte`, `eq` and `neq`. -/
theorem C81_complement (hw : w.Reachable) (hv : MVars w vs) {f g : Nat} {F G : MFun} (hf : w.Has f F)
    (hg : w.Has g G) {pv : String → Option (List R)} (hd : IsDist vs pv) {ss ss' : List Int}
    (h : ∀ a, ValidV vs a → (InSet ss' (G a) ↔ ¬ InSet ss (F a))) :
    ∃ p, w.prob pv ss f = some p ∧ w.prob pv ss' g = some (1 - p) := by
  refine ⟨_, prob_msum hw hv hf hd _, ?_⟩
  rw [prob_msum hw hv hg hd]
  congr 1
  rw [eq_sub_iff_add_eq, ← msum_add, ← msum_const hd.sum (1 : R)]
  refine msum_congr (fun _ _ _ _ => rfl) fun a ha => ?_
  have := h a (vb_valid ha)
  unfold mind
  by_cases h1 : InSet ss (F a) <;> simp [h1, this]

/-- **C81.** `P(f ∨ g) + P(f ∧ g) = P(f) + P(g)`, for any selections of values of the four handles that are
related as conjunction and disjunction. -/
theorem C81_incl_excl (hw : w.Reachable) (hv : MVars w vs) {f g c d : Nat} {F G C D : MFun} (hf : w.Has f F)
    (hg : w.Has g G) (hc : w.Has c C) (hd : w.Has d D) {pv : String → Option (List R)} (hp : IsDist vs pv)
    {ss ss' sc sd : List Int}
    (h1 : ∀ a, ValidV vs a → (InSet sc (C a) ↔ InSet ss (F a) ∧ InSet ss' (G a)))
    (h2 : ∀ a, ValidV vs a → (InSet sd (D a) ↔ InSet ss (F a) ∨ InSet ss' (G a))) :
    ∃ p q r s, w.prob pv ss f = some p ∧ w.prob pv ss' g = some q ∧ w.prob pv sc c = some r ∧
      w.prob pv sd d = some s ∧ s + r = p + q := by
  refine ⟨_, _, _, _, prob_msum hw hv hf hp _, prob_msum hw hv hg hp _, prob_msum hw hv hc hp _,
    prob_msum hw hv hd hp _, ?_⟩
  rw [← msum_add, ← msum_add]
  refine msum_congr (fun _ _ _ _ => rfl) fun a ha => ?_
  have e1 := h1 a (vb_valid ha)
  have e2 := h2 a (vb_valid ha)
  unfold mind
  by_cases i1 : InSet ss (F a) <;> by_cases i2 : InSet ss' (G a) <;> simp [i1, i2, e1, e2]

theorem ign_of (hw : w.Reachable) (hv : MVars w vs) {F : MFun} {l : Nat} (hn : ¬ MDepends vs F l) (ss : List Int) :
    Ign (R := R) (states vs) vs.length (mind R ss F) l := by
  intro a x ha hx
  have : F (Function.update a l x) = F a := by
    refine Classical.byContradiction fun hne => hn ⟨_, _, vb_valid (ha.upd' hx), vb_valid ha, fun y hy => ?_, hne⟩
    rw [Function.update_of_ne hy]
  unfold mind
  rw [this]

/-- **C81.** If no variable matters to both `f` and `g`, the probability that both have selected values is the
product. -/
theorem C81_independent (hw : w.Reachable) (hv : MVars w vs) {f g c : Nat} {F G C : MFun} (hf : w.Has f F)
    (hg : w.Has g G) (hc : w.Has c C) {pv : String → Option (List R)} (hp : IsDist vs pv) {ss ss' sc : List Int}
    (h1 : ∀ a, ValidV vs a → (InSet sc (C a) ↔ InSet ss (F a) ∧ InSet ss' (G a)))
    (hi : ∀ l, ¬ MDepends vs F l ∨ ¬ MDepends vs G l) :
    ∃ p q, w.prob pv ss f = some p ∧ w.prob pv ss' g = some q ∧ w.prob pv sc c = some (p * q) := by
  refine ⟨_, _, prob_msum hw hv hf hp _, prob_msum hw hv hg hp _, ?_⟩
  rw [prob_msum hw hv hc hp, ← msum_indep (vs_pos hw hv) hp.sum (fun l _ =>
    (hi l).imp (fun h => ign_of hw hv h ss) (fun h => ign_of hw hv h ss'))]
  congr 1
  refine msum_congr (fun _ _ _ _ => rfl) fun a ha => ?_
  have e1 := h1 a (vb_valid ha)
  unfold mind
  by_cases i1 : InSet ss (F a) <;> by_cases i2 : InSet ss' (G a) <;> simp [i1, i2, e1]

/-- The row of certainty. -/
theorem certain_row {r k : Nat} (hk : k < r) :
    IsRow r (List.ofFn (fun j : Fin r => if j.val = k then (1 : R) else 0)) := by
  refine ⟨by simp, ?_⟩
  rw [sum_take _ _ (by simp), Finset.sum_eq_single_of_mem k (Finset.mem_range.2 hk)]
  · simp [List.getD_eq_getElem?_getD, hk]
  · intro j hj hne
    have := Finset.mem_range.1 hj
    simp [List.getD_eq_getElem?_getD, this, hne]

theorem setState_dist {pv : String → Option (List R)} (hnd : (vs.map Prod.fst).Nodup) (hd : IsDist vs pv)
    {p : String × Nat} (hp : p ∈ vs) {k : Nat} (hk : k < p.2) : IsDist vs (setState pv p.1 p.2 k) :=
  IsDist.setRow hd hnd hp (certain_row hk)

theorem tableQ_setRow {pv : String → Option (List R)} (hnd : (vs.map Prod.fst).Nodup) {l : Nat} {p : String × Nat}
    (hl : vs[l]? = some p) (fp : List R) {k : Nat} (hk : k < vs.length) (j : Nat) :
    tableQ vs (setRow pv p.1 fp) k j = if k = l then fp.getD j 0 else tableQ vs pv k j := by
  have hp : vs[k]? = some vs[k] := List.getElem?_eq_getElem hk
  have hn : varName vs k = vs[k].1 := Mda.nameOf_get hp
  unfold tableQ setRow
  by_cases e : k = l
  · subst e
    rw [hl] at hp
    simp only [Option.some.injEq] at hp
    rw [hn, ← hp, if_pos rfl, if_pos rfl]; rfl
  · have hne : vs[k].1 ≠ p.1 := by
      intro h
      have e1 : (vs.map Prod.fst)[k]? = some vs[k].1 := by rw [List.getElem?_map, hp]; rfl
      have e2 : (vs.map Prod.fst)[l]? = some p.1 := by rw [List.getElem?_map, hl]; rfl
      exact e (nodup_getElem?_inj hnd (h ▸ e1) e2)
    rw [hn, if_neg hne, if_neg e]

theorem msum_setState {pv : String → Option (List R)} (hnd : (vs.map Prod.fst).Nodup) {l : Nat} {p : String × Nat}
    (hl : vs[l]? = some p) (k : Nat) (G : (Nat → Nat) → R) :
    msum (states vs) (tableQ vs (setState pv p.1 p.2 k)) vs.length G =
      msum (states vs) (setq (tableQ vs pv) l k) vs.length G := by
  refine msum_congr (fun l' hl' j hj => ?_) (fun _ _ => rfl)
  rw [show setState pv p.1 p.2 k = setRow pv p.1 _ from rfl, tableQ_setRow hnd hl _ hl']
  unfold setq
  by_cases e : l' = l
  · subst e
    rw [states_get hl] at hj
    rw [if_pos rfl, if_pos rfl]
    simp [List.getD_eq_getElem?_getD, hj]
  · rw [if_neg e, if_neg e]

/-- **C81.** Conditioning on the state of one variable. -/
theorem C81_pivot (hw : w.Reachable) (hv : MVars w vs) {f : Nat} {F : MFun} (hf : w.Has f F)
    {pv : String → Option (List R)} (hd : IsDist vs pv) (ss : List Int) {p : String × Nat} (hp : p ∈ vs)
    {fp : List R} (hfp : pv p.1 = some fp) :
    ∃ (r : R) (P : Nat → R), w.prob pv ss f = some r ∧
      (∀ k, k < p.2 → w.prob (setState pv p.1 p.2 k) ss f = some (P k)) ∧
      r = ∑ k ∈ Finset.range p.2, fp.getD k 0 * P k := by
  obtain ⟨l, hl⟩ := List.mem_iff_getElem?.1 hp
  refine ⟨_, fun k => msum (states vs) (setq (tableQ vs pv) l k) vs.length (mind R ss F),
    prob_msum hw hv hf hd ss, fun k hk => ?_, ?_⟩
  · rw [prob_msum hw hv hf (setState_dist (vs_nodup hw hv) hd hp hk), msum_setState (vs_nodup hw hv) hl]
  · rw [msum_pivot _ (List.getElem?_eq_some_iff.1 hl).1, states_get hl]
    exact Finset.sum_congr rfl fun k _ => by rw [tableQ_row hl hfp]

/-- **C81.** `bmeas` is the exact sensitivity: if the row `fp` of the variable is replaced by `fp'`, then `prob`
changes by the sum over `d` of the change of the probability that the variable is above state `d`, times
number `d` of its entry in `bmeas` (0 if it has none). -/
theorem C81_sensitivity (hw : w.Reachable) (hv : MVars w vs) {f : Nat} {F : MFun} (hf : w.Has f F)
    {pv : String → Option (List R)} (hd : IsDist vs pv) (ss : List Int) {p : String × Nat} (hp : p ∈ vs)
    {fp fp' : List R} (hfp : pv p.1 = some fp) (hfp' : IsRow p.2 fp') :
    ∃ ev r r', w.bmeas pv ss f = some ev ∧ w.prob pv ss f = some r ∧
      w.prob (setRow pv p.1 fp') ss f = some r' ∧
      r' = r + ∑ d ∈ Finset.range (p.2 - 1),
        (∑ j ∈ Finset.Ico (d + 1) p.2, (fp'.getD j 0 - fp.getD j 0)) * ((ev.get p.1).getD []).getD d 0 := by
  have hnd := vs_nodup hw hv
  obtain ⟨l, hl⟩ := List.mem_iff_getElem?.1 hp
  obtain ⟨ev, h1, _, h3⟩ := C37_bmeas hw hv hf pv ss (hd.table F)
  obtain ⟨r, P, e, eP, hr⟩ := C81_pivot hw hv hf hd ss hp hfp
  obtain ⟨r', P', e', eP', hr'⟩ := C81_pivot hw hv hf (hd.setRow hnd hp hfp') ss hp (fp := fp') (by simp [setRow])
  have hset : ∀ k, setState (setRow pv p.1 fp') p.1 p.2 k = setState pv p.1 p.2 k := by
    intro k; funext y; simp only [setState, setRow]; split <;> rfl
  have hP : ∀ k, k < p.2 → P' k = P k := by
    intro k hk
    have := eP' k hk
    rw [hset, eP k hk] at this
    exact (Option.some.inj this).symm
  refine ⟨ev, r, r', h1, e, e', ?_⟩
  obtain ⟨fq, g1, g2, g3⟩ := hd p hp
  rw [hfp] at g1; cases g1
  have hb : ∀ d, d + 1 < p.2 → ((ev.get p.1).getD []).getD d 0 = P (d + 1) - P d := by
    intro d hd'
    obtain ⟨r1, r0, k1, k0, k⟩ := (h3 l p hl).2 d hd'
    rw [eP _ hd'] at k1
    rw [eP _ (by omega)] at k0
    cases k1; cases k0
    exact k
  have h0 : ∑ k ∈ Finset.range p.2, (fp'.getD k 0 - fp.getD k 0) = 0 := by
    rw [Finset.sum_sub_distrib, ← sum_take _ _ g2, ← sum_take _ _ hfp'.1, g3, hfp'.2, sub_self]
  have key := sum_parts (fun k => fp'.getD k 0 - fp.getD k 0) P p.2
  rw [h0, zero_mul, zero_add] at key
  rw [Finset.sum_congr rfl (g := fun d => (∑ j ∈ Finset.Ico (d + 1) p.2, (fp'.getD j 0 - fp.getD j 0)) *
    (P (d + 1) - P d)) (fun d hd' => by rw [hb d (by have := Finset.mem_range.1 hd'; omega)]), ← key, hr, hr',
    ← Finset.sum_add_distrib]
  refine Finset.sum_congr rfl fun k hk => ?_
  rw [hP k (Finset.mem_range.1 hk)]; ring

end ring

section order
variable {R : Type} [CommRing R] [LinearOrder R] [IsStrictOrderedRing R]

/-- No weight is negative. -/
def NonNeg (vs : List (String × Nat)) (pv : String → Option (List R)) : Prop :=
  ∀ p ∈ vs, ∀ fp, pv p.1 = some fp → ∀ j, j < p.2 → 0 ≤ fp.getD j 0

theorem NonNeg.tableQ {pv : String → Option (List R)} (h : NonNeg vs pv) (hd : IsDist vs pv) :
    ∀ l, l < vs.length → ∀ j, j < states vs l → 0 ≤ tableQ vs pv l j := by
  intro l hl j hj
  have hp : vs[l]? = some vs[l] := List.getElem?_eq_getElem hl
  obtain ⟨fp, h1, _⟩ := hd _ (List.mem_of_getElem? hp)
  rw [tableQ_row hp h1]
  rw [states_get hp] at hj
  exact h _ (List.mem_of_getElem? hp) fp h1 j hj

/-- **C81.** `prob` of probabilities is between 0 and 1, and larger for a larger event. -/
theorem C81_range (hw : w.Reachable) (hv : MVars w vs) {f g : Nat} {F G : MFun} (hf : w.Has f F) (hg : w.Has g G)
    {pv : String → Option (List R)} (hd : IsDist vs pv) (hp : NonNeg vs pv) {ss ss' : List Int}
    (hle : ∀ a, ValidV vs a → InSet ss (F a) → InSet ss' (G a)) :
    ∃ p q, w.prob pv ss f = some p ∧ w.prob pv ss' g = some q ∧ 0 ≤ p ∧ p ≤ q ∧ q ≤ 1 := by
  refine ⟨_, _, prob_msum hw hv hf hd _, prob_msum hw hv hg hd _, ?_, ?_, ?_⟩
  · rw [← msum_const hd.sum (0 : R)]
    exact msum_le (hp.tableQ hd) fun a _ => by simp only [mind]; split <;> simp
  · refine msum_le (hp.tableQ hd) fun a ha => ?_
    have := hle a (vb_valid ha)
    unfold mind
    by_cases h1 : InSet ss (F a)
    · simp [h1, this h1]
    · rw [if_neg h1]; split <;> simp
  · rw [← msum_const hd.sum (1 : R)]
    exact msum_le (hp.tableQ hd) fun a _ => by simp only [mind]; split <;> simp

/-- Higher states keep the value in `ss`. -/
def Rising (vs : List (String × Nat)) (F : MFun) (ss : List Int) : Prop :=
  ∀ a b, ValidV vs a → ValidV vs b → (∀ l, a l ≤ b l) → InSet ss (F a) → InSet ss (F b)

/-- Each variable is at least as likely above each state under `pv'` as under `pv`. -/
def Dominated (vs : List (String × Nat)) (pv pv' : String → Option (List R)) : Prop :=
  ∀ p ∈ vs, ∀ fp fp', pv p.1 = some fp → pv' p.1 = some fp' → ∀ d,
    ∑ j ∈ Finset.Ico (d + 1) p.2, fp.getD j 0 ≤ ∑ j ∈ Finset.Ico (d + 1) p.2, fp'.getD j 0

/-- **C81.** Making higher states of the components more likely never lowers the probability of a condition that
higher states cannot destroy. -/
theorem C81_mono (hw : w.Reachable) (hv : MVars w vs) {f : Nat} {F : MFun} (hf : w.Has f F) {ss : List Int}
    (hm : Rising vs F ss) {pv pv' : String → Option (List R)} (hd : IsDist vs pv) (hd' : IsDist vs pv')
    (hp : NonNeg vs pv) (hp' : NonNeg vs pv') (hle : Dominated vs pv pv') :
    ∃ p p', w.prob pv ss f = some p ∧ w.prob pv' ss f = some p' ∧ p ≤ p' := by
  refine ⟨_, _, prob_msum hw hv hf hd _, prob_msum hw hv hf hd' _, ?_⟩
  refine msum_mono (hp.tableQ hd) (hp'.tableQ hd') (fun l hl => by rw [hd.sum l hl, hd'.sum l hl])
    (fun l hl d => ?_) (fun a b ha hb hab => ?_)
  · have hq : vs[l]? = some vs[l] := List.getElem?_eq_getElem hl
    have hmem := List.mem_of_getElem? hq
    obtain ⟨fp, h1, _⟩ := hd _ hmem
    obtain ⟨fp', h1', _⟩ := hd' _ hmem
    rw [states_get hq, Finset.sum_congr rfl (fun j _ => tableQ_row hq h1 j),
      Finset.sum_congr rfl (fun j _ => tableQ_row hq h1' j)]
    exact hle _ hmem fp fp' h1 h1' d
  · have := hm a b (vb_valid ha) (vb_valid hb) hab
    unfold mind
    by_cases h1 : InSet ss (F a)
    · simp [h1, this h1]
    · rw [if_neg h1]; split <;> simp

theorem setState_nonneg {pv : String → Option (List R)} (hp : NonNeg vs pv) (x : String) (r k : Nat) :
    NonNeg vs (setState pv x r k) := by
  intro p hm fp hfp j hj
  unfold setState at hfp
  split at hfp
  · cases hfp
    simp only [List.getD_eq_getElem?_getD, List.getElem?_ofFn]
    split
    · simp only [Option.getD_some]; split <;> simp
    · simp
  · exact hp p hm fp hfp j hj

theorem sum_certain {r k d : Nat} (hk : k < r) :
    ∑ j ∈ Finset.Ico (d + 1) r, (List.ofFn (fun j : Fin r => if j.val = k then (1 : R) else 0)).getD j 0 =
      if d < k then 1 else 0 := by
  rw [Finset.sum_congr rfl (g := fun j => if j = k then (1 : R) else 0) (fun j hj => by
    have := (Finset.mem_Ico.1 hj).2
    simp [List.getD_eq_getElem?_getD, this])]
  rw [Finset.sum_ite_eq']
  by_cases h : d < k
  · rw [if_pos (Finset.mem_Ico.2 ⟨h, hk⟩), if_pos h]
  · rw [if_neg (fun hc => h (Finset.mem_Ico.1 hc).1), if_neg h]

/-- **C81.** The numbers in `bmeas` of a condition that higher states cannot destroy lie between 0 and 1. -/
theorem C81_bmeas_range (hw : w.Reachable) (hv : MVars w vs) {f : Nat} {F : MFun} (hf : w.Has f F) {ss : List Int}
    (hm : Rising vs F ss) {pv : String → Option (List R)} (hd : IsDist vs pv) (hp : NonNeg vs pv) :
    ∃ ev, w.bmeas pv ss f = some ev ∧ ∀ p ∈ vs, ∀ d, d + 1 < p.2 →
      0 ≤ ((ev.get p.1).getD []).getD d 0 ∧ ((ev.get p.1).getD []).getD d 0 ≤ 1 := by
  have hnd := vs_nodup hw hv
  obtain ⟨ev, h1, _, h3⟩ := C37_bmeas hw hv hf pv ss (hd.table F)
  refine ⟨ev, h1, fun p hmem d hd' => ?_⟩
  obtain ⟨l, hl⟩ := List.mem_iff_getElem?.1 hmem
  obtain ⟨r1, r0, k1, k0, k⟩ := (h3 l p hl).2 d hd'
  have d1 := setState_dist hnd hd hmem hd'
  have d0 := setState_dist hnd hd hmem (show d < p.2 by omega)
  have n1 := setState_nonneg hp p.1 p.2 (d + 1)
  have n0 := setState_nonneg hp p.1 p.2 d
  obtain ⟨q0, q1, e0, e1, hle⟩ := C81_mono hw hv hf hm d0 d1 n0 n1 (by
    intro p' hmem' fp fp' g g' c
    by_cases e : p'.1 = p.1
    · have : p' = p := by
        obtain ⟨l', hl'⟩ := List.mem_iff_getElem?.1 hmem'
        have e1 : (vs.map Prod.fst)[l']? = some p'.1 := by rw [List.getElem?_map, hl']; rfl
        have e2 : (vs.map Prod.fst)[l]? = some p.1 := by rw [List.getElem?_map, hl]; rfl
        have := nodup_getElem?_inj hnd (e ▸ e1) e2
        subst this
        rw [hl] at hl'; cases hl'; rfl
      subst this
      simp only [setState, if_true, Option.some.injEq] at g g'
      subst g g'
      rw [sum_certain (by omega), sum_certain hd']
      split
      · rw [if_pos (by omega)]
      · split <;> simp
    · simp only [setState, if_neg e] at g g'
      rw [g] at g'; cases g'; exact le_refl _)
  obtain ⟨a, b, ea, eb, ha, _, hb⟩ := C81_range hw hv hf hf d1 n1 (ss := ss) (fun _ _ h => h)
  obtain ⟨c, e, ec, ee, hc, _, he⟩ := C81_range hw hv hf hf d0 n0 (ss := ss) (fun _ _ h => h)
  rw [k0] at e0 ec; rw [k1] at e1 eb
  cases e0; cases e1; cases ec; cases eb
  rw [k]
  exact ⟨by linarith, by linarith⟩

end order

/-! ## Counting -/

section
variable {T : Type} [DecidableEq T] [Fixed T] {m : Arena T} {s : Sel T} {ss : List Int} {i : Nat} {F : MFun}

theorem Forest.psum_upto {R : Type} [CommRing R] (h : Forest m s vs ss i F) {q : Nat → Nat → R} {n : Nat}
    (hn : m.rank i ≤ n) (hle : n ≤ vs.length)
    (hq : ∀ l, l < vs.length → ∑ j ∈ Finset.range (states vs l), q l j = 1) :
    Mda.psum m s q i = ∑ a : MAssign vs n, if InSet ss (F (mextend a)) then ∏ k : Fin n, q k (a k) else 0 := by
  rw [Mda.psum_msum h.wf s (Mda.rngOK h.hdrs) n i h.live hn (fun l hl => hq l (by omega))]
  unfold Mda.msum wsum
  refine Finset.sum_congr rfl fun a _ => ?_
  have e : extA (D := fun l => Fin (Mda.rngOf vs l)) (fun _ x => x.val) 0 a = mextend (vs := vs) a := rfl
  rw [e]
  unfold Mda.sind
  have hs := h.sat _ (mextend_valid h.pos a)
  classical
  by_cases hin : InSet ss (F (mextend a))
  · rw [if_pos hin, if_pos (hs.2 hin), mul_one]
  · rw [if_neg hin, if_neg (fun k => hin (hs.1 k)), mul_zero]

end

/-- All states of a variable are equally likely. -/
def IsUniform (vs : List (String × Nat)) (pv : String → Option (List ℚ)) : Prop :=
  ∀ p ∈ vs, pv p.1 = some (List.replicate p.2 (1 / (p.2 : ℚ)))

/-- **C81.** With equally likely states, `prob` times the number of assignments of the variables up to the top one
is `mdd_count`, for value diagrams (C38 says what `mdd_count` returns for Boolean ones). -/
theorem C81_count (hw : w.Reachable) (hv : MVars w vs) {f : Nat} {F : MFun} (hf : w.Has f F) {l : Nat}
    (ht : MTop vs F (some l)) (hval : ∀ a, ValidV vs a → (F a).isBool = false) (ss : List Int)
    {pv : String → Option (List ℚ)} (hu : IsUniform vs pv) :
    ∃ (c : Nat) (p : ℚ), w.count ss f = some c ∧ w.prob pv ss f = some p ∧
      (c : ℚ) = (∏ k ∈ Finset.range (l + 1), (states vs k : ℚ)) * p := by
  have hd : IsDist vs pv := by
    intro p hp
    refine ⟨_, hu p hp, by simp, ?_⟩
    obtain ⟨i, hi⟩ := List.mem_iff_getElem?.1 hp
    have := vs_pos hw hv i (List.getElem?_eq_some_iff.1 hi).1
    rw [states_get hi] at this
    rw [List.take_of_length_le (by simp), List.sum_replicate, nsmul_eq_mul]
    have : (p.2 : ℚ) ≠ 0 := by exact_mod_cast (by omega : p.2 ≠ 0)
    exact mul_one_div_cancel this
  have key : ∃ p, w.prob pv ss f = some p ∧
      ∑ a : MAssign vs (l + 1), (if InSet ss (F (mextend a)) then ∏ k : Fin (l + 1), tableQ vs pv k (a k) else 0) = p ∧
      l + 1 ≤ vs.length := by
    unfold MWorld.prob MWorld.query
    rcases forest hw hv hf ss with ⟨i, hx, h⟩ | ⟨i, hx, h⟩
    · have hr : _ = l + 1 := h.rank ht
      have hle := h.levels_le ht
      rw [hx]
      exact ⟨_, h.prob (hd.table F), (h.psum_upto (Nat.le_of_eq hr) hle hd.sum).symm, hle⟩
    · have hr : _ = l + 1 := h.rank ht
      have hle := h.levels_le ht
      rw [hx]
      exact ⟨_, h.prob (hd.table F), (h.psum_upto (Nat.le_of_eq hr) hle hd.sum).symm, hle⟩
  obtain ⟨p, h1, h2, hle⟩ := key
  refine ⟨_, p, C38_value_partial hw hv hf ht hval ss, h1, ?_⟩
  rw [← h2, mcountSpec, Finset.card_filter, Finset.mul_sum, Nat.cast_sum]
  refine Finset.sum_congr rfl fun a _ => ?_
  split
  · rw [← Fin.prod_univ_eq_prod_range (fun k => (states vs k : ℚ)), ← Finset.prod_mul_distrib]
    rw [Nat.cast_one]
    symm
    refine Finset.prod_eq_one fun k _ => ?_
    have hk : k.val < vs.length := by omega
    have hp : vs[k.val]? = some vs[k.val] := List.getElem?_eq_getElem hk
    have hpos := vs_pos hw hv k hk
    have ha := (a k).isLt
    rw [tableQ_row hp (hu _ (List.mem_of_getElem? hp)), List.getD_eq_getElem?_getD, List.getElem?_replicate,
      if_pos (by rw [← states_get hp]; exact ha), ← states_get hp]
    have : (states vs k : ℚ) ≠ 0 := by exact_mod_cast (by omega : states vs k ≠ 0)
    simp [this]
  · simp

/-! ## A concrete case

`x` has three states, `y` two; handle 0 is `x + y`, handle 1 is `x + y ≥ 2` (rising in the selection `[1]`). -/

/-- `x` becomes better: 1/4, 1/4, 1/2. -/
def mbetter : String → Option (List ℚ) := setRow mtable "x" [1/4, 1/4, 1/2]

example : (mrun MWorld.new manalysis).bind (fun p => p.2.prob mtable [1] 1) = some (5/12) ∧
    (mrun MWorld.new manalysis).bind (fun p => p.2.prob mbetter [1] 1) =
      some (5/12 + ((1/4 - 1/3 + (1/2 - 1/6)) * (3/4) + (1/2 - 1/6) * (1/4))) := by
  decide +kernel

example : (mrun MWorld.new manalysis).bind (fun p =>
    p.2.prob (fun s => if s = "x" then some [1/3, 1/3, 1/3] else some [1/2, 1/2]) [1, 3] 0) = some (3 / 6 : ℚ) ∧
    (mrun MWorld.new manalysis).bind (fun p => p.2.count [1, 3] 0) = some 3 := by
  decide +kernel

example : IsDist [("x", 3), ("y", 2)] mtable ∧ NonNeg [("x", 3), ("y", 2)] mtable ∧
    IsDist [("x", 3), ("y", 2)] mbetter ∧ IsRow 3 [(1/4 : ℚ), 1/4, 1/2] := by
  refine ⟨?_, ?_, ?_, ?_⟩
  · intro p hp
    simp only [List.mem_cons, List.not_mem_nil, or_false] at hp
    rcases hp with rfl | rfl
    · exact ⟨[1/2, 1/3, 1/6], rfl, by simp, by norm_num [List.take]⟩
    · exact ⟨[1/4, 3/4], rfl, by simp, by norm_num [List.take]⟩
  · intro p hp fp hfp j hj
    simp only [List.mem_cons, List.not_mem_nil, or_false] at hp
    rcases hp with rfl | rfl
    · simp only [mtable, if_true, Option.some.injEq] at hfp
      subst hfp
      have : j = 0 ∨ j = 1 ∨ j = 2 := by simp only at hj; omega
      rcases this with rfl | rfl | rfl <;> norm_num
    · simp [mtable] at hfp
      subst hfp
      have : j = 0 ∨ j = 1 := by simp only at hj; omega
      rcases this with rfl | rfl <;> norm_num
  · intro p hp
    simp only [List.mem_cons, List.not_mem_nil, or_false] at hp
    rcases hp with rfl | rfl
    · exact ⟨[1/4, 1/4, 1/2], rfl, by simp, by norm_num [List.take]⟩
    · exact ⟨[1/4, 3/4], rfl, by simp, by norm_num [List.take]⟩
  · exact ⟨by simp, by norm_num [List.take]⟩

example : Rising [("x", 3), ("y", 2)] (fun a => .b (T3.ofBool (decide (2 ≤ a 0 + a 1)))) [1] := by
  intro a b _ _ hab h
  have h0 := hab 0
  have h1 := hab 1
  by_cases e : 2 ≤ a 0 + a 1
  · have : 2 ≤ b 0 + b 1 := by omega
    simp [this, T3.ofBool, InSet]
  · simp [e, T3.ofBool, InSet] at h

end DD.Props
