import Mathlib.Algebra.BigOperators.Fin
import Mathlib.Algebra.BigOperators.Ring.Finset
import Mathlib.Algebra.BigOperators.Intervals
import Mathlib.Tactic.Ring

/-!
# Weighted sums over assignments

`wsum n q G` is the sum, over all assignments of the first `n` levels, of the product of the weights
of the chosen states times `G`.  Counting and probability are instances.  `D i` is the type of states
of level `i`, `e` reads a state as a value of `S`, `d` is the value at levels `≥ n` (irrelevant for
functions of the first `n` levels).
-/

set_option autoImplicit false
set_option linter.unusedSectionVars false

namespace DD

open Finset

section
variable {S R : Type} [CommSemiring R] {D : Nat → Type} [∀ i, Fintype (D i)]

/-- An assignment of the first `n` levels as an assignment of all levels. -/
def extA (e : ∀ i, D i → S) (d : S) {n : Nat} (a : (i : Fin n) → D i) : Nat → S :=
  fun l => if h : l < n then e l (a ⟨l, h⟩) else d

/-- Weighted sum. -/
def wsum (e : ∀ i, D i → S) (d : S) (q : ∀ i, D i → R) (n : Nat) (G : (Nat → S) → R) : R :=
  ∑ a : (i : Fin n) → D i, (∏ i : Fin n, q i (a i)) * G (extA e d a)

variable (e : ∀ i, D i → S) (d : S) (q : ∀ i, D i → R)

theorem wsum_zero (G : (Nat → S) → R) : wsum e d q 0 G = G (fun _ => d) := by
  unfold wsum
  rw [Fintype.sum_unique]
  simp only [Finset.univ_eq_empty, Finset.prod_empty, one_mul]
  congr 1

theorem extA_snoc {n : Nat} (a : (i : Fin n) → D i) (x : D n) :
    extA e d (Fin.snoc (α := fun i : Fin (n + 1) => D i) a x) =
      Function.update (extA e d a) n (e n x) := by
  funext l
  unfold extA
  by_cases h : l < n
  · rw [dif_pos (by omega), Function.update_of_ne (by omega), dif_pos h]
    congr 1
    exact Fin.snoc_castSucc (α := fun i : Fin (n + 1) => D i) x a ⟨l, h⟩
  · by_cases hl : l = n
    · subst hl
      rw [dif_pos (by omega), Function.update_self]
      congr 1
      exact Fin.snoc_last (α := fun i : Fin (l + 1) => D i) x a
    · rw [dif_neg (by omega), Function.update_of_ne hl, dif_neg h]

theorem wsum_succ (n : Nat) (G : (Nat → S) → R) :
    wsum e d q (n + 1) G =
      ∑ x : D n, q n x * wsum e d q n (fun a => G (Function.update a n (e n x))) := by
  unfold wsum
  rw [← (Fin.snocEquiv (fun i : Fin (n + 1) => D i)).sum_comp, Fintype.sum_prod_type]
  refine Finset.sum_congr rfl fun x _ => ?_
  rw [Finset.mul_sum]
  refine Finset.sum_congr rfl fun a _ => ?_
  show (∏ i : Fin (n + 1), q i (Fin.snoc (α := fun i : Fin (n + 1) => D i) a x i)) *
    G (extA e d (Fin.snoc (α := fun i : Fin (n + 1) => D i) a x)) = _
  rw [Fin.prod_univ_castSucc, extA_snoc]
  have h1 : (∏ i : Fin n, q (Fin.castSucc i) (Fin.snoc (α := fun i : Fin (n + 1) => D i) a x (Fin.castSucc i))) =
      ∏ i : Fin n, q i (a i) := by
    refine Finset.prod_congr rfl fun i _ => ?_
    rw [Fin.snoc_castSucc]; rfl
  have h2 : q (Fin.last n) (Fin.snoc (α := fun i : Fin (n + 1) => D i) a x (Fin.last n)) = q n x := by
    rw [Fin.snoc_last]; rfl
  rw [h1, h2]
  ring

theorem wsum_congr {n : Nat} {G G' : (Nat → S) → R} (h : ∀ a : (i : Fin n) → D i, G (extA e d a) = G' (extA e d a)) :
    wsum e d q n G = wsum e d q n G' :=
  Finset.sum_congr rfl fun a _ => by rw [h]

theorem wsum_skip (n : Nat) {G : (Nat → S) → R}
    (h : ∀ a x, G (Function.update a n (e n x)) = G a) :
    wsum e d q (n + 1) G = (∑ x : D n, q n x) * wsum e d q n G := by
  rw [wsum_succ, Finset.sum_mul]
  refine Finset.sum_congr rfl fun x _ => ?_
  congr 1
  exact wsum_congr e d q fun a => h _ x

/-- `G` does not depend on the levels from `n` on. -/
def Below (n : Nat) (G : (Nat → S) → R) : Prop := ∀ a b, (∀ l, l < n → a l = b l) → G a = G b

theorem Below.mono {n n' : Nat} (h : n ≤ n') {G : (Nat → S) → R} (hG : Below n G) : Below n' G :=
  fun a b hab => hG a b (fun l hl => hab l (by omega))

/-- Skipping the levels from `n` to `n'`. -/
theorem wsum_gap {n n' : Nat} (hn : n ≤ n') {G : (Nat → S) → R} (hG : Below n G) :
    wsum e d q n' G = (∏ i ∈ Finset.Ico n n', ∑ x : D i, q i x) * wsum e d q n G := by
  induction n', hn using Nat.le_induction with
  | base => simp
  | succ k hk ih =>
    rw [wsum_skip, ih, Finset.prod_Ico_succ_top hk]
    · ring
    · intro a x
      exact hG _ _ fun l hl => Function.update_of_ne (by omega) _ _

/-- The states of the levels from `n` on do not matter, so the default may be changed. -/
theorem wsum_default {n : Nat} (d' : S) {G : (Nat → S) → R} (hG : Below n G) :
    wsum e d q n G = wsum e d' q n G := by
  refine Finset.sum_congr rfl fun a _ => ?_
  congr 1
  exact hG _ _ fun l hl => by simp [extA, hl]

theorem wsum_add (n : Nat) (G G' : (Nat → S) → R) :
    wsum e d q n (fun a => G a + G' a) = wsum e d q n G + wsum e d q n G' := by
  unfold wsum
  rw [← Finset.sum_add_distrib]
  exact Finset.sum_congr rfl fun a _ => by ring

end

end DD
