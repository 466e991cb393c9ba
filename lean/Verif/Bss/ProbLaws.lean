import Verif.Bss.AnalysisOk
import Mathlib.Algebra.Order.BigOperators.Ring.Finset
import Mathlib.Tactic.Linarith
import Mathlib.Tactic.LinearCombination

/-!
# Laws of the probability of a Boolean function

About sums over assignments only; nothing here mentions diagrams.
-/

set_option autoImplicit false
set_option linter.unusedSectionVars false
set_option linter.unusedVariables false

namespace DD
namespace Prob
open Bdd

/-- Probability that `F` has a value counted by `g`, variables below `n`. -/
abbrev pr {R : Type} [CommRing R] (p : Nat → R) (g : Bool → R) (n : Nat) (F : BFun) : R := bsum (pw p) g n F

section ring
variable {R : Type} [CommRing R] (p : Nat → R) (g : Bool → R)

theorem pr_zero (F : BFun) : pr p g 0 F = g (F (fun _ => false)) := by
  unfold pr bsum; rw [wsum_zero]

theorem pr_succ (n : Nat) (F : BFun) : pr p g (n + 1) F =
    (1 - p n) * pr p g n (F.cof n false) + p n * pr p g n (F.cof n true) := by
  unfold pr; rw [bsum_succ]; simp [pw]

theorem cof_comm (F : BFun) {l l' : Nat} (h : l ≠ l') (b b' : Bool) :
    (F.cof l b).cof l' b' = (F.cof l' b').cof l b := by
  funext a
  unfold BFun.cof
  congr 1
  funext x
  by_cases h1 : x = l
  · subst h1; simp [h]
  · simp [h1]

theorem cof_cof (F : BFun) (l : Nat) (b b' : Bool) : (F.cof l b).cof l b' = F.cof l b := by
  funext a
  unfold BFun.cof
  congr 1
  funext x
  by_cases h1 : x = l <;> simp [h1]

/-- A function with a fixed value of `l` does not see the probability of `l`. -/
theorem pr_cof_update (n : Nat) (F : BFun) (l : Nat) (b : Bool) (v : R) :
    pr (Function.update p l v) g n (F.cof l b) = pr p g n (F.cof l b) := by
  induction n generalizing F with
  | zero => rw [pr_zero, pr_zero]
  | succ n ih =>
    rw [pr_succ, pr_succ]
    by_cases h : l = n
    · subst h
      rw [cof_cof, cof_cof, ih]; ring
    · rw [cof_comm _ h, cof_comm _ h, ih, ih, Function.update_of_ne (Ne.symm h)]

/-- Conditioning on one variable. -/
theorem pr_pivot {n l : Nat} (hl : l < n) (F : BFun) : pr p g n F =
    (1 - p l) * pr p g n (F.cof l false) + p l * pr p g n (F.cof l true) := by
  induction n generalizing F with
  | zero => omega
  | succ n ih =>
    by_cases h : l = n
    · subst h
      simp only [pr_succ, cof_cof]; ring
    · have hl' : l < n := by omega
      have e := fun b => ih hl' (F.cof n b)
      rw [pr_succ, e, e, pr_succ, pr_succ, cof_comm _ h, cof_comm _ h, cof_comm _ h, cof_comm _ h]
      ring

theorem pr_set {n l : Nat} (hl : l < n) (F : BFun) (b : Bool) :
    pr (Function.update p l (if b then 1 else 0)) g n F = pr p g n (F.cof l b) := by
  rw [pr_pivot _ _ hl, pr_cof_update, pr_cof_update]
  cases b <;> simp

theorem pr_const (n : Nat) (b : Bool) : pr p g n (fun _ => b) = g b := by
  induction n with
  | zero => rw [pr_zero]
  | succ n ih =>
    rw [pr_succ]
    show (1 - p n) * pr p g n (fun _ => b) + p n * pr p g n (fun _ => b) = _
    rw [ih]; ring

theorem pr_lin (n : Nat) (g' : Bool → R) (F G H K : BFun) (h : ∀ a, g (F a) + g (G a) = g' (H a) + g' (K a)) :
    pr p g n F + pr p g n G = pr p g' n H + pr p g' n K := by
  induction n generalizing F G H K with
  | zero => simp only [pr_zero]; exact h _
  | succ n ih =>
    simp only [pr_succ]
    have e := fun b => ih (F.cof n b) (G.cof n b) (H.cof n b) (K.cof n b) (fun a => h _)
    linear_combination (1 - p n) * e false + p n * e true

theorem pr_congr (n : Nat) (g' : Bool → R) (F G : BFun) (h : ∀ a, g (F a) = g' (G a)) :
    pr p g n F = pr p g' n G := by
  induction n generalizing F G with
  | zero => simp only [pr_zero]; exact h _
  | succ n ih =>
    rw [pr_succ, pr_succ, ih (F.cof n false) (G.cof n false) (fun a => h _), ih (F.cof n true) (G.cof n true) (fun a => h _)]

/-- Complementing all variables. -/
theorem pr_compl (n : Nat) (F : BFun) (h : DependsBelow n F) :
    pr p g n (fun a => F (fun l => !a l)) = pr (fun l => 1 - p l) g n F := by
  induction n generalizing F with
  | zero =>
    rw [pr_zero, pr_zero, h _ _ (fun l hl => by omega)]
  | succ n ih =>
    rw [pr_succ, pr_succ]
    have e : ∀ b, BFun.cof (fun a => F (fun l => !a l)) n b = fun a => F.cof n (!b) (fun l => !a l) := by
      intro b; funext a; unfold BFun.cof; beta_reduce; congr 1; funext x
      by_cases hx : x = n <;> simp [hx]
    have d : ∀ b, DependsBelow n (F.cof n b) := by
      intro b a a' haa
      unfold BFun.cof
      refine h _ _ fun l hl => ?_
      by_cases hx : l = n
      · simp [hx]
      · simp only [hx, if_false]; exact haa l (by omega)
    rw [e, e, ih _ (d _), ih _ (d _)]
    simp only [Bool.not_false, Bool.not_true]
    ring

/-- `F` ignores variable `l`. -/
def Ignores (F : BFun) (l : Nat) : Prop := ∀ a b, F.cof l b a = F a

theorem Ignores.cof {F : BFun} {l : Nat} (h : Ignores F l) (l' : Nat) (b : Bool) : Ignores (F.cof l' b) l := by
  by_cases e : l' = l
  · subst e; intro a b'; rw [cof_cof]
  · intro a b'
    rw [cof_comm _ e]
    unfold BFun.cof
    exact h _ _

/-- Functions of disjoint sets of variables are independent. -/
theorem pr_indep (n : Nat) (F G : BFun) (k : Bool → Bool → Bool) (g1 g2 : Bool → R)
    (hk : ∀ x y, g (k x y) = g1 x * g2 y) (h : ∀ l, l < n → Ignores F l ∨ Ignores G l) :
    pr p g n (fun a => k (F a) (G a)) = pr p g1 n F * pr p g2 n G := by
  induction n generalizing F G with
  | zero => rw [pr_zero, pr_zero, pr_zero, hk]
  | succ n ih =>
    have e : ∀ b, pr p g n (BFun.cof (fun a => k (F a) (G a)) n b) =
        pr p g1 n (F.cof n b) * pr p g2 n (G.cof n b) := fun b =>
      ih (F.cof n b) (G.cof n b) (fun l hl => (h l (by omega)).imp (·.cof n b) (·.cof n b))
    rw [pr_succ, pr_succ, pr_succ, e, e]
    rcases h n (by omega) with hF | hG
    · rw [show F.cof n false = F.cof n true from funext fun a => by rw [hF, hF]]; ring
    · rw [show G.cof n false = G.cof n true from funext fun a => by rw [hG, hG]]; ring

end ring

section order
variable {R : Type} [CommRing R] [LinearOrder R] [IsStrictOrderedRing R]

theorem pr_le {p : Nat → R} {n : Nat} (hp : ∀ l, l < n → 0 ≤ p l ∧ p l ≤ 1) {g g' : Bool → R} (F G : BFun)
    (h : ∀ a, g (F a) ≤ g' (G a)) : pr p g n F ≤ pr p g' n G := by
  induction n generalizing F G with
  | zero => simp only [pr_zero]; exact h _
  | succ n ih =>
    rw [pr_succ, pr_succ]
    obtain ⟨h1, h2⟩ := hp n (by omega)
    have i := fun b => ih (fun l hl => hp l (by omega)) (F.cof n b) (G.cof n b) (fun a => h _)
    have := mul_le_mul_of_nonneg_left (i false) (sub_nonneg.2 h2)
    have := mul_le_mul_of_nonneg_left (i true) h1
    linarith

/-- Raising one probability. -/
theorem pr_update_le {p : Nat → R} {n : Nat} (hp : ∀ l, l < n → 0 ≤ p l ∧ p l ≤ 1) {g : Bool → R} {F : BFun}
    (hm : ∀ a l, g (F.cof l false a) ≤ g (F.cof l true a)) {l : Nat} {v : R} (hv : p l ≤ v) :
    pr p g n F ≤ pr (Function.update p l v) g n F := by
  by_cases hl : l < n
  · rw [pr_pivot p g hl, pr_pivot (Function.update p l v) g hl, pr_cof_update, pr_cof_update,
      Function.update_self]
    have := pr_le (n := n) hp (F.cof l false) (F.cof l true) (g := g) (g' := g) (fun a => hm a l)
    nlinarith
  · refine le_of_eq (bsum_sub_same' _ _ _ _ _ fun k hk => ?_)
    rw [Function.update_of_ne (by omega)]
where
  bsum_sub_same' (p p' : Nat → R) (g : Bool → R) (n : Nat) (F : BFun) (h : ∀ l, l < n → p l = p' l) :
      pr p g n F = pr p' g n F := by
    induction n generalizing F with
    | zero => rw [pr_zero, pr_zero]
    | succ n ih => rw [pr_succ, pr_succ, ih _ (fun l hl => h l (by omega)), ih _ (fun l hl => h l (by omega)),
        h n (by omega)]

/-- Raising all probabilities. -/
theorem pr_mono {p p' : Nat → R} {n : Nat} (hp : ∀ l, l < n → 0 ≤ p l ∧ p l ≤ p' l ∧ p' l ≤ 1) {g : Bool → R}
    {F : BFun} (hm : ∀ a l, g (F.cof l false a) ≤ g (F.cof l true a)) : pr p g n F ≤ pr p' g n F := by
  induction n generalizing F with
  | zero => rw [pr_zero, pr_zero]
  | succ n ih =>
    obtain ⟨h1, h2, h3⟩ := hp n (by omega)
    have hmc : ∀ b a l, g ((F.cof n b).cof l false a) ≤ g ((F.cof n b).cof l true a) := by
      intro b a l
      by_cases e : n = l
      · subst e; rw [cof_cof, cof_cof]
      · rw [cof_comm _ e, cof_comm _ e]; exact hm _ _
    have i := fun b => ih (F := F.cof n b) (fun l hl => hp l (by omega)) (hmc b)
    have k : pr p' g n (F.cof n false) ≤ pr p' g n (F.cof n true) :=
      pr_le (fun l hl => ⟨(hp l (by omega)).1.trans (hp l (by omega)).2.1, (hp l (by omega)).2.2⟩) _ _
        (fun a => hm a n)
    rw [pr_succ, pr_succ]
    have a1 := mul_le_mul_of_nonneg_left (i false) (sub_nonneg.2 (h2.trans h3))
    have a2 := mul_le_mul_of_nonneg_left (i true) h1
    have a3 := mul_le_mul_of_nonneg_left k (sub_nonneg.2 h2)
    nlinarith

end order
end Prob
end DD
