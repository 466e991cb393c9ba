import Verif.Bss.ProbLaws
import Verif.Props.BddAnalysis
import Verif.Props.Bss
import Mathlib.Tactic.NormNum
import Mathlib.Algebra.Order.Field.Rat

/-!
# C76: laws relating the analyses of one BDD session

`prob`, `bmeas`, `bdd_count` and the operations of the API against each other: no formula for a
probability appears in these statements, only calls.
-/

set_option autoImplicit false
set_option linter.unusedSectionVars false
set_option linter.unusedVariables false

namespace DD.Props
open Arena Prob

variable {w : World}

section ring
variable {R : Type} [CommRing R]

/-- `prob` as a sum over the assignments. -/
theorem prob_pr (hw : w.Reachable) {f : Nat} {F : BFun} (hf : w.Denotes f F) {names : List String}
    (hnm : Names w names) (pv : String → Option R) (ss : List Bool) :
    w.bddProb pv ss f = some (pr (probs names pv) (Bdd.ind ss) names.length F) := by
  rw [C14_prob hw hf hnm, ← probSpec_eq]

theorem names_nodup (hw : w.Reachable) {names : List String} (hnm : Names w names) : names.Nodup := by
  obtain ⟨A, r⟩ := hw.rel
  rw [names_iff r] at hnm
  subst hnm
  exact r.mok.nodup

theorem names_exists (hw : w.Reachable) : ∃ names, Names w names := by
  obtain ⟨A, r⟩ := hw.rel
  exact ⟨A.names, (names_iff r _).2 rfl⟩

theorem dependsBelow_names (hw : w.Reachable) {f : Nat} {F : BFun} (hf : w.Denotes f F) {names : List String}
    (hnm : Names w names) : DependsBelow names.length F := by
  obtain ⟨n, h1, h2⟩ := height_exists hw hf hnm
  exact fun a b h => h1.1 a b fun l hl => h l (by omega)

/-- Changing the entry of the variable at level `l`. -/
theorem probs_set {names : List String} (nd : names.Nodup) {l : Nat} {x : String} (hx : names[l]? = some x)
    (pv : String → Option R) (v : R) {k : Nat} (hk : k < names.length) :
    probs names (setPv pv x v) k = Function.update (probs names pv) l v k := by
  have e1 : names[k]? = some names[k] := List.getElem?_eq_getElem hk
  by_cases e : k = l
  · subst e
    simp [probs, setPv, List.getD_eq_getElem?_getD, hx]
  · rw [Function.update_of_ne e]
    have hne : names[k] ≠ x := fun h => e (nodup_getElem?_inj nd (h ▸ e1) hx)
    simp [probs, setPv, List.getD_eq_getElem?_getD, e1, hne]

theorem pr_probs_set {names : List String} (nd : names.Nodup) {l : Nat} {x : String} (hx : names[l]? = some x)
    (pv : String → Option R) (v : R) (g : Bool → R) (F : BFun) :
    pr (probs names (setPv pv x v)) g names.length F =
      pr (Function.update (probs names pv) l v) g names.length F :=
  Bdd.bsum_sub_same _ _ _ _ _ fun k hk => probs_set nd hx pv v hk

/-- **C76.** The probabilities of the two values add up to one, whatever the probabilities. -/
theorem C76_total (hw : w.Reachable) {f : Nat} {F : BFun} (hf : w.Denotes f F) (pv : String → Option R) :
    ∃ p q, w.bddProb pv [true] f = some p ∧ w.bddProb pv [false] f = some q ∧ p + q = 1 ∧
      w.bddProb pv [true, false] f = some 1 ∧ w.bddProb pv [] f = some 0 := by
  obtain ⟨names, hnm⟩ := names_exists hw
  refine ⟨_, _, prob_pr hw hf hnm pv _, prob_pr hw hf hnm pv _, ?_, ?_, ?_⟩
  · have := pr_lin (probs names pv) (Bdd.ind [true]) names.length (fun b => if b then 1 else 0) F (fun a => !F a)
      (fun _ => true) (fun _ => false) (fun a => by cases F a <;> simp [Bdd.ind])
    rw [pr_const, pr_const] at this
    rw [pr_congr _ (Bdd.ind [false]) _ (Bdd.ind [true]) F (fun a => !F a) (fun a => by cases F a <;> simp [Bdd.ind])]
    simpa using this
  · rw [prob_pr hw hf hnm, pr_congr _ _ _ (fun _ => 1) F (fun _ => true) (fun a => by cases F a <;> simp [Bdd.ind]),
      pr_const]
  · rw [prob_pr hw hf hnm, pr_congr _ _ _ (fun _ => 0) F (fun _ => true) (fun a => by cases F a <;> simp [Bdd.ind]),
      pr_const]

/-- **C76.** A negated handle (`not` returns one, C01) has the complementary probability. -/
theorem C76_not (hw : w.Reachable) {f g : Nat} {F : BFun} (hf : w.Denotes f F)
    (hg : w.Denotes g (fun a => !F a)) (pv : String → Option R) :
    ∃ p, w.bddProb pv [true] f = some p ∧ w.bddProb pv [true] g = some (1 - p) ∧
      w.bddProb pv [false] g = some p := by
  obtain ⟨names, hnm⟩ := names_exists hw
  obtain ⟨p, q, h1, h2, h3, _⟩ := C76_total hw hf pv
  refine ⟨p, h1, ?_, ?_⟩
  · rw [prob_pr hw hg hnm, pr_congr _ _ _ (Bdd.ind [false]) _ F (fun a => by cases F a <;> simp [Bdd.ind]),
      ← prob_pr hw hf hnm, h2]
    rw [← h3]; congr 1; ring
  · rw [prob_pr hw hg hnm, pr_congr _ _ _ (Bdd.ind [true]) _ F (fun a => by cases F a <;> simp [Bdd.ind]),
      ← prob_pr hw hf hnm, h1]

/-- **C76.** `P(f ∨ g) + P(f ∧ g) = P(f) + P(g)`. -/
theorem C76_incl_excl (hw : w.Reachable) {f g c d : Nat} {F G : BFun} (hf : w.Denotes f F) (hg : w.Denotes g G)
    (hc : w.Denotes c (fun a => F a && G a)) (hd : w.Denotes d (fun a => F a || G a)) (pv : String → Option R) :
    ∃ p q r s, w.bddProb pv [true] f = some p ∧ w.bddProb pv [true] g = some q ∧
      w.bddProb pv [true] c = some r ∧ w.bddProb pv [true] d = some s ∧ s + r = p + q := by
  obtain ⟨names, hnm⟩ := names_exists hw
  refine ⟨_, _, _, _, prob_pr hw hf hnm pv _, prob_pr hw hg hnm pv _, prob_pr hw hc hnm pv _,
    prob_pr hw hd hnm pv _, ?_⟩
  refine pr_lin _ _ _ _ _ _ _ _ fun a => ?_
  cases F a <;> cases G a <;> simp [Bdd.ind]

/-- **C76.** If no variable matters to both `f` and `g`, their conjunction has the product of the
probabilities. -/
theorem C76_independent (hw : w.Reachable) {f g c : Nat} {F G : BFun} (hf : w.Denotes f F) (hg : w.Denotes g G)
    (hc : w.Denotes c (fun a => F a && G a)) (hd : ∀ l, Ignores F l ∨ Ignores G l) (pv : String → Option R) :
    ∃ p q, w.bddProb pv [true] f = some p ∧ w.bddProb pv [true] g = some q ∧
      w.bddProb pv [true] c = some (p * q) := by
  obtain ⟨names, hnm⟩ := names_exists hw
  refine ⟨_, _, prob_pr hw hf hnm pv _, prob_pr hw hg hnm pv _, ?_⟩
  rw [prob_pr hw hc hnm, pr_indep _ _ _ F G (fun x y => x && y) (Bdd.ind [true]) (Bdd.ind [true])
    (fun x y => by cases x <;> cases y <;> simp [Bdd.ind]) (fun l _ => hd l)]

/-- **C76.** Conditioning on one variable (Shannon, pivotal decomposition). -/
theorem C76_pivot (hw : w.Reachable) {f : Nat} {F : BFun} (hf : w.Denotes f F) {names : List String}
    (hnm : Names w names) {x : String} (hx : x ∈ names) (pv : String → Option R) (ss : List Bool) :
    ∃ p p1 p0, w.bddProb pv ss f = some p ∧ w.bddProb (setPv pv x 1) ss f = some p1 ∧
      w.bddProb (setPv pv x 0) ss f = some p0 ∧ p = (pv x).getD 0 * p1 + (1 - (pv x).getD 0) * p0 := by
  obtain ⟨l, hl⟩ := List.mem_iff_getElem?.1 hx
  have hlt := (List.getElem?_eq_some_iff.1 hl).1
  refine ⟨_, _, _, prob_pr hw hf hnm pv _, prob_pr hw hf hnm _ _, prob_pr hw hf hnm _ _, ?_⟩
  rw [pr_probs_set (names_nodup hw hnm) hl, pr_probs_set (names_nodup hw hnm) hl]
  have e1 := pr_set (probs names pv) (Bdd.ind ss) hlt F true
  have e0 := pr_set (probs names pv) (Bdd.ind ss) hlt F false
  simp only [if_true, Bool.false_eq_true, if_false] at e1 e0
  rw [e1, e0, pr_pivot _ _ hlt]
  have : probs names pv l = (pv x).getD 0 := by simp [probs, List.getD_eq_getElem?_getD, hl]
  rw [this]; ring

/-- **C76.** `bmeas` is the exact sensitivity: replacing the probability `v` of `x` by `v + d` changes `prob` by
`d` times the measure of `x` (0 if `x` is not in the returned map). -/
theorem C76_sensitivity (hw : w.Reachable) {f : Nat} {F : BFun} (hf : w.Denotes f F) {names : List String}
    (hnm : Names w names) {x : String} (hx : x ∈ names) (pv : String → Option R) (ss : List Bool) (d : R) :
    ∃ ev p, w.bddBmeas pv ss f = some ev ∧ w.bddProb pv ss f = some p ∧
      w.bddProb (setPv pv x ((pv x).getD 0 + d)) ss f = some (p + d * (ev.get x).getD 0) := by
  obtain ⟨ev, h1, h2, _⟩ := C15_bmeas hw hf hnm pv ss
  obtain ⟨q1, q0, k1, k0, hq⟩ := h2 x hx
  obtain ⟨p, p1, p0, e, e1, e0, hp⟩ := C76_pivot hw hf hnm hx pv ss
  obtain ⟨p', p1', p0', e', e1', e0', hp'⟩ := C76_pivot hw hf hnm hx (setPv pv x ((pv x).getD 0 + d)) ss
  have hset : ∀ u v : R, setPv (setPv pv x u) x v = setPv pv x v := by
    intro u v; funext y; simp only [setPv]; split <;> rfl
  rw [hset] at e1' e0'
  rw [e1] at e1' k1; rw [e0] at e0' k0
  cases e1'; cases e0'; cases k1; cases k0
  refine ⟨ev, p, h1, e, ?_⟩
  rw [e', hp', hp, hq]
  simp only [setPv, if_true, Option.getD_some]
  congr 1; ring

/-- **C76.** A dual handle (`dual` returns one, C16): its probability is one minus the probability of the
original under the complementary probabilities. -/
theorem C76_dual (hw : w.Reachable) {f g : Nat} {F : BFun} (hf : w.Denotes f F)
    (hg : w.Denotes g (fun a => !F (fun l => !a l))) {pv pv' : String → Option R}
    {names : List String} (hnm : Names w names)
    (hc : ∀ x ∈ names, (pv' x).getD 0 = 1 - (pv x).getD 0) :
    ∃ p, w.bddProb pv' [true] f = some p ∧ w.bddProb pv [true] g = some (1 - p) := by
  obtain ⟨p, q, h1, h2, h3, _⟩ := C76_total hw hf pv'
  refine ⟨p, h1, ?_⟩
  rw [prob_pr hw hg hnm,
    pr_congr _ _ _ (Bdd.ind [false]) _ (fun a => F (fun l => !a l)) (fun a => by
      cases F (fun l => !a l) <;> simp [Bdd.ind]),
    pr_compl _ _ _ _ (dependsBelow_names hw hf hnm)]
  have : pr (fun l => 1 - probs names pv l) (Bdd.ind [false]) names.length F =
      pr (probs names pv') (Bdd.ind [false]) names.length F := by
    refine Bdd.bsum_sub_same _ _ _ _ _ fun l hl => ?_
    have := hc names[l] (List.getElem_mem hl)
    simp only [probs, List.getD_eq_getElem?_getD, List.getElem?_eq_getElem hl, Option.getD_some]
    exact this.symm
  rw [this, ← prob_pr hw hf hnm, h2, ← h3]
  congr 1; ring

end ring

section order
variable {R : Type} [CommRing R] [LinearOrder R] [IsStrictOrderedRing R]

/-- All probabilities are between 0 and 1. -/
def IsProb (names : List String) (pv : String → Option R) : Prop :=
  ∀ x ∈ names, 0 ≤ (pv x).getD 0 ∧ (pv x).getD 0 ≤ 1

theorem IsProb.probs {names : List String} {pv : String → Option R} (h : IsProb names pv) :
    ∀ l, l < names.length → 0 ≤ probs names pv l ∧ Props.probs names pv l ≤ 1 := by
  intro l hl
  have := h names[l] (List.getElem_mem hl)
  simpa [Props.probs, List.getD_eq_getElem?_getD, List.getElem?_eq_getElem hl] using this

/-- **C76.** `prob` of probabilities is between 0 and 1, and larger for a larger function. -/
theorem C76_range (hw : w.Reachable) {f g : Nat} {F G : BFun} (hf : w.Denotes f F) (hg : w.Denotes g G)
    {names : List String} (hnm : Names w names) {pv : String → Option R} (hp : IsProb names pv)
    (hle : ∀ a, F a = true → G a = true) :
    ∃ p q, w.bddProb pv [true] f = some p ∧ w.bddProb pv [true] g = some q ∧ 0 ≤ p ∧ p ≤ q ∧ q ≤ 1 := by
  refine ⟨_, _, prob_pr hw hf hnm pv _, prob_pr hw hg hnm pv _, ?_, ?_, ?_⟩
  · rw [← pr_const (probs names pv) (fun _ => 0) names.length true]
    exact pr_le hp.probs _ _ fun a => by simp only [Bdd.ind]; split <;> simp
  · refine pr_le hp.probs _ _ fun a => ?_
    have := hle a
    cases h1 : F a <;> cases h2 : G a <;> simp_all [Bdd.ind]
  · rw [← pr_const (probs names pv) (fun _ => 1) names.length true]
    exact pr_le hp.probs _ _ fun a => by simp only [Bdd.ind]; split <;> simp

theorem ind_cof_mono {F : BFun} (hm : MonoB F) (a : Nat → Bool) (l : Nat) :
    (Bdd.ind [true] (F.cof l false a) : R) ≤ Bdd.ind [true] (F.cof l true a) := by
  have : F.cof l false a = true → F.cof l true a = true := fun h =>
    hm _ _ (fun k hk => by by_cases e : k = l <;> simp_all) h
  cases h1 : F.cof l false a <;> cases h2 : F.cof l true a <;> simp_all [Bdd.ind]

/-- **C76.** Raising component probabilities never lowers the probability of a monotone function. -/
theorem C76_mono (hw : w.Reachable) {f : Nat} {F : BFun} (hf : w.Denotes f F) (hm : MonoB F)
    {names : List String} (hnm : Names w names) {pv pv' : String → Option R} (hp : IsProb names pv)
    (hp' : IsProb names pv') (hle : ∀ x ∈ names, (pv x).getD 0 ≤ (pv' x).getD 0) :
    ∃ p p', w.bddProb pv [true] f = some p ∧ w.bddProb pv' [true] f = some p' ∧ p ≤ p' := by
  refine ⟨_, _, prob_pr hw hf hnm pv _, prob_pr hw hf hnm pv' _, ?_⟩
  refine pr_mono (fun l hl => ⟨(hp.probs l hl).1, ?_, (hp'.probs l hl).2⟩) (ind_cof_mono hm)
  have := hle names[l] (List.getElem_mem hl)
  simpa [Props.probs, List.getD_eq_getElem?_getD, List.getElem?_eq_getElem hl] using this

/-- **C76.** The Birnbaum measures of a monotone function lie between 0 and 1. -/
theorem C76_bmeas_range (hw : w.Reachable) {f : Nat} {F : BFun} (hf : w.Denotes f F) (hm : MonoB F)
    {names : List String} (hnm : Names w names) {pv : String → Option R} (hp : IsProb names pv) :
    ∃ ev, w.bddBmeas pv [true] f = some ev ∧
      ∀ x ∈ names, 0 ≤ (ev.get x).getD 0 ∧ (ev.get x).getD 0 ≤ 1 := by
  obtain ⟨ev, h1, h2, _⟩ := C15_bmeas hw hf hnm pv [true]
  refine ⟨ev, h1, fun x hx => ?_⟩
  obtain ⟨p1, p0, k1, k0, hq⟩ := h2 x hx
  have hset : ∀ v : R, 0 ≤ v → v ≤ 1 → IsProb names (setPv pv x v) := by
    intro v h0 h1 y hy
    simp only [setPv]
    split
    · exact ⟨h0, h1⟩
    · exact hp y hy
  have i1 := hset 1 zero_le_one le_rfl
  have i0 := hset 0 le_rfl zero_le_one
  obtain ⟨q0, q1, e0, e1, hle⟩ := C76_mono hw hf hm hnm i0 i1 (fun y hy => by
    simp only [setPv]; split
    · exact zero_le_one
    · exact le_rfl)
  obtain ⟨a, b, ea, eb, ha, _, hb⟩ := C76_range hw hf hf hnm i1 (fun _ h => h)
  obtain ⟨c, d, ec, ed, hc, _, hd⟩ := C76_range hw hf hf hnm i0 (fun _ h => h)
  rw [k0] at e0 ec; rw [k1] at e1 eb
  cases e0; cases e1; cases ec; cases eb
  rw [hq]
  exact ⟨by linarith, by linarith⟩

end order

/-- **C76.** With all probabilities 1/2, `prob` times `2^n` is `bdd_count`, `n` the number of variables up to the
top one. -/
theorem C76_count (hw : w.Reachable) {f : Nat} {F : BFun} (hf : w.Denotes f F) {n : Nat} (hn : Height F n)
    (ss : List Bool) :
    ∃ (p : ℚ) (c : Nat), w.bddProb (fun _ => some (1 / 2 : ℚ)) ss f = some p ∧ w.bddCount ss f = some c ∧
      (c : ℚ) = 2 ^ n * p := by
  obtain ⟨names, hnm⟩ := names_exists hw
  obtain ⟨m, hm, hle⟩ := height_exists hw hf hnm
  have hmn : n = m := Nat.le_antisymm (hn.2 m hm.1) (hm.2 n hn.1)
  subst hmn
  refine ⟨_, _, prob_pr hw hf hnm _ ss, C12_count hw hf hn ss, ?_⟩
  rw [pr, Bdd.bsum_pw_gap _ _ hle hn.1, probSpec_eq, probSpec, Finset.card_filter, Finset.mul_sum, Nat.cast_sum]
  refine Finset.sum_congr rfl fun a _ => ?_
  split
  · rw [Finset.prod_congr rfl (g := fun _ => (1 / 2 : ℚ)) (fun i _ => by
      have : probs names (fun _ => some (1 / 2 : ℚ)) i = 1 / 2 := rfl
      rw [this]; split <;> norm_num)]
    rw [Finset.prod_const, Finset.card_univ, Fintype.card_fin, ← mul_pow]
    norm_num
  · simp

/-! ## A concrete case

Handle 4 is `(x ∧ y) ∨ z`, monotone; 3 is `x ∧ y`, and `x ∧ y`, `z` share no variable. -/

/-- With the dual (5) and the negation (6). -/
def lawCmds : List Cmd := analysisCmds ++ [.dual 4, .not 4, .and 3 2]

/-- Probabilities `x ↦ 1/2`, `y ↦ 1/3`, `z ↦ 1/4`. -/
def lawPv : String → Option ℚ := fun s => if s = "x" then some (1/2) else if s = "y" then some (1/3) else some (1/4)

example : (World.new.run lawCmds).map (fun p => [4, 6, 5, 3, 2, 7].map (fun h => p.2.bddProb lawPv [true] h)) =
    some [some (3/8), some (5/8), some (1/6), some (1/6), some (1/4), some (1/24)] := by
  decide +kernel

example : (World.new.run lawCmds).bind (fun p => p.2.bddProb (setPv lawPv "z" (1/4 + 1/2)) [true] 4) =
    some (3/8 + 1/2 * (5/6)) ∧
    (World.new.run lawCmds).bind (fun p => (p.2.bddBmeas lawPv [true] 4).map (fun e => e.get "z")) =
      some (some (5/6)) := by
  decide +kernel

example : IsProb ["x", "y", "z"] lawPv := by
  intro x hx
  simp at hx
  rcases hx with rfl | rfl | rfl <;> simp [lawPv] <;> norm_num

end DD.Props
