import Verif.Mss.BmeasOk
import Mathlib.Algebra.Order.BigOperators.Ring.Finset
import Mathlib.Tactic.Linarith
import Mathlib.Tactic.LinearCombination

/-!
# Laws of weighted sums over the states of multi-valued variables

About sums over assignments only; nothing here mentions diagrams.
-/

set_option autoImplicit false
set_option linter.unusedSectionVars false
set_option linter.unusedVariables false

namespace DD
namespace Mda
open Finset

/-- States in range at the levels below `n`. -/
def VB (rng : Nat → Nat) (n : Nat) (a : Nat → Nat) : Prop := ∀ l, l < n → a l < rng l

theorem VB.upd {rng : Nat → Nat} {n : Nat} {a : Nat → Nat} (h : VB rng n a) {j : Nat} (hj : j < rng n) :
    VB rng (n + 1) (Function.update a n j) := by
  intro l hl
  by_cases e : l = n
  · subst e; simpa using hj
  · rw [Function.update_of_ne e]; exact h l (by omega)

theorem VB.upd' {rng : Nat → Nat} {n : Nat} {a : Nat → Nat} (h : VB rng n a) {l j : Nat} (hj : j < rng l) :
    VB rng n (Function.update a l j) := by
  intro k hk
  by_cases e : k = l
  · subst e; simpa using hj
  · rw [Function.update_of_ne e]; exact h k hk

section ring
variable {R : Type} [CommRing R] {rng : Nat → Nat}

theorem msum_congr {q q' : Nat → Nat → R} {n : Nat} {G G' : (Nat → Nat) → R}
    (hq : ∀ l, l < n → ∀ j, j < rng l → q l j = q' l j) (hG : ∀ a, VB rng n a → G a = G' a) :
    msum rng q n G = msum rng q' n G' := by
  induction n generalizing G G' with
  | zero => rw [msum_zero, msum_zero]; exact hG _ (fun l hl => by omega)
  | succ n ih =>
    rw [msum_succ, msum_succ]
    refine sum_congr rfl fun j hj => ?_
    have hj := mem_range.1 hj
    rw [hq n (by omega) j hj, ih (fun l hl => hq l (by omega)) (fun a ha => hG _ (ha.upd hj))]

theorem msum_add (q : Nat → Nat → R) (n : Nat) (G G' : (Nat → Nat) → R) :
    msum rng q n (fun a => G a + G' a) = msum rng q n G + msum rng q n G' := wsum_add _ _ _ _ _ _

theorem msum_const {q : Nat → Nat → R} {n : Nat} (hq : ∀ l, l < n → ∑ j ∈ range (rng l), q l j = 1) (c : R) :
    msum rng q n (fun _ => c) = c := by
  induction n with
  | zero => rw [msum_zero]
  | succ n ih =>
    rw [msum_succ, ← sum_mul, hq n (by omega), one_mul, ih (fun l hl => hq l (by omega))]

theorem setq_eq {q : Nat → Nat → R} {l k : Nat} (j : Nat) : setq q l k l j = if j = k then 1 else 0 := by
  simp [setq]

/-- Conditioning on the state of one variable. -/
theorem msum_pivot (q : Nat → Nat → R) {n l : Nat} (hl : l < n) (G : (Nat → Nat) → R) :
    msum rng q n G = ∑ k ∈ range (rng l), q l k * msum rng (setq q l k) n G := by
  induction n generalizing G with
  | zero => omega
  | succ n ih =>
    by_cases e : l = n
    · subst e
      rw [msum_succ]
      refine sum_congr rfl fun k hk => ?_
      congr 1
      rw [msum_succ, sum_eq_single_of_mem k hk (fun j _ hne => by rw [setq_eq, if_neg hne, zero_mul]), setq_eq,
        if_pos rfl, one_mul]
      refine msum_congr (fun l' hl' j _ => ?_) (fun _ _ => rfl)
      simp [setq, Nat.ne_of_lt hl']
    · rw [msum_succ, sum_congr rfl (fun j _ => by rw [ih (by omega)])]
      simp only [mul_sum]
      rw [sum_comm]
      refine sum_congr rfl fun k _ => ?_
      rw [msum_succ, mul_sum]
      refine sum_congr rfl fun j _ => ?_
      have : setq q l k n j = q n j := by simp [setq, Ne.symm e]
      rw [this]; ring

/-- `G` ignores level `l` on states in range. -/
def Ign (rng : Nat → Nat) (n : Nat) (G : (Nat → Nat) → R) (l : Nat) : Prop :=
  ∀ a x, VB rng n a → x < rng l → G (Function.update a l x) = G a

theorem Ign.inner {n l : Nat} {G : (Nat → Nat) → R} (h : Ign rng (n + 1) G l) (hl : l < n) {j : Nat}
    (hj : j < rng n) : Ign rng n (fun a => G (Function.update a n j)) l := by
  intro a x ha hx
  show G (Function.update (Function.update a l x) n j) = _
  rw [Function.update_comm (by omega)]
  exact h _ x (ha.upd hj) hx

theorem msum_ign {q : Nat → Nat → R} {n : Nat} {G : (Nat → Nat) → R} (h : Ign rng (n + 1) G n)
    (hq : ∑ j ∈ range (rng n), q n j = 1) {i : Nat} (hi : i < rng n) :
    msum rng q (n + 1) G = msum rng q n (fun a => G (Function.update a n i)) := by
  rw [msum_succ, ← one_mul (msum rng q n (fun a => G (Function.update a n i))), ← hq, sum_mul]
  refine sum_congr rfl fun j hj => ?_
  congr 1
  refine msum_congr (fun _ _ _ _ => rfl) fun a ha => ?_
  have := h (Function.update a n i) j (ha.upd hi) (mem_range.1 hj)
  rw [Function.update_idem] at this
  exact this

/-- Functions without a common variable are independent. -/
theorem msum_indep {q : Nat → Nat → R} {n : Nat} {G G' : (Nat → Nat) → R} (hpos : ∀ l, l < n → 0 < rng l)
    (hq : ∀ l, l < n → ∑ j ∈ range (rng l), q l j = 1) (hd : ∀ l, l < n → Ign rng n G l ∨ Ign rng n G' l) :
    msum rng q n (fun a => G a * G' a) = msum rng q n G * msum rng q n G' := by
  induction n generalizing G G' with
  | zero => simp only [msum_zero]
  | succ n ih =>
    have step : ∀ j, j < rng n → msum rng q n (fun a => G (Function.update a n j) * G' (Function.update a n j)) =
        msum rng q n (fun a => G (Function.update a n j)) * msum rng q n (fun a => G' (Function.update a n j)) := by
      intro j hj
      exact ih (G := fun a => G (Function.update a n j)) (G' := fun a => G' (Function.update a n j))
        (fun l hl => hpos l (by omega)) (fun l hl => hq l (by omega)) (fun l hl =>
          (hd l (by omega)).imp (fun h => h.inner hl hj) (fun h => h.inner hl hj))
    have h1 := hq n (by omega)
    have h0 := hpos n (by omega)
    rw [msum_succ rng q n (fun a => G a * G' a), sum_congr rfl (fun j hj => by rw [step j (mem_range.1 hj)])]
    rcases hd n (by omega) with h | h
    · rw [msum_succ rng q n G', mul_sum]
      refine sum_congr rfl fun j hj => ?_
      rw [msum_ign h h1 (mem_range.1 hj)]; ring
    · rw [msum_succ rng q n G, sum_mul]
      refine sum_congr rfl fun j hj => ?_
      rw [msum_ign h h1 (mem_range.1 hj)]; ring

/-- Summation by parts. -/
theorem sum_parts (u v : Nat → R) (r : Nat) : ∑ k ∈ range r, u k * v k =
    (∑ k ∈ range r, u k) * v 0 + ∑ d ∈ range (r - 1), (∑ j ∈ Ico (d + 1) r, u j) * (v (d + 1) - v d) := by
  induction r with
  | zero => simp
  | succ r ih =>
    rw [sum_range_succ, ih, sum_range_succ]
    have e : ∑ d ∈ range (r + 1 - 1), (∑ j ∈ Ico (d + 1) (r + 1), u j) * (v (d + 1) - v d) =
        ∑ d ∈ range r, (∑ j ∈ Ico (d + 1) r, u j) * (v (d + 1) - v d) + u r * (v r - v 0) := by
      rw [Nat.add_sub_cancel, ← sum_range_sub v r, mul_sum, ← sum_add_distrib]
      refine sum_congr rfl fun d hd => ?_
      rw [sum_Ico_succ_top (by have := mem_range.1 hd; omega)]; ring
    have e' : ∑ d ∈ range r, (∑ j ∈ Ico (d + 1) r, u j) * (v (d + 1) - v d) =
        ∑ d ∈ range (r - 1), (∑ j ∈ Ico (d + 1) r, u j) * (v (d + 1) - v d) := by
      cases r with
      | zero => rfl
      | succ r => rw [sum_range_succ]; simp
    rw [e, e']; ring

end ring

section order
variable {R : Type} [CommRing R] [LinearOrder R] [IsStrictOrderedRing R] {rng : Nat → Nat}

theorem msum_le {q : Nat → Nat → R} {n : Nat} {G G' : (Nat → Nat) → R}
    (hq : ∀ l, l < n → ∀ j, j < rng l → 0 ≤ q l j) (hG : ∀ a, VB rng n a → G a ≤ G' a) :
    msum rng q n G ≤ msum rng q n G' := by
  induction n generalizing G G' with
  | zero => rw [msum_zero, msum_zero]; exact hG _ (fun l hl => by omega)
  | succ n ih =>
    rw [msum_succ, msum_succ]
    refine sum_le_sum fun j hj => ?_
    have hj := mem_range.1 hj
    exact mul_le_mul_of_nonneg_left (ih (fun l hl => hq l (by omega)) (fun a ha => hG _ (ha.upd hj)))
      (hq n (by omega) j hj)

/-- Moving weight to higher states never lowers the sum of an increasing function. -/
theorem msum_mono {q q' : Nat → Nat → R} {n : Nat} {G : (Nat → Nat) → R}
    (hq : ∀ l, l < n → ∀ j, j < rng l → 0 ≤ q l j) (hq' : ∀ l, l < n → ∀ j, j < rng l → 0 ≤ q' l j)
    (h1 : ∀ l, l < n → ∑ j ∈ range (rng l), q l j = ∑ j ∈ range (rng l), q' l j)
    (ht : ∀ l, l < n → ∀ d, ∑ j ∈ Ico (d + 1) (rng l), q l j ≤ ∑ j ∈ Ico (d + 1) (rng l), q' l j)
    (hG : ∀ a b, VB rng n a → VB rng n b → (∀ l, a l ≤ b l) → G a ≤ G b) :
    msum rng q n G ≤ msum rng q' n G := by
  induction n generalizing G with
  | zero => rw [msum_zero, msum_zero]
  | succ n ih =>
    rw [msum_succ, msum_succ]
    have i1 : ∑ j ∈ range (rng n), q n j * msum rng q n (fun a => G (Function.update a n j)) ≤
        ∑ j ∈ range (rng n), q n j * msum rng q' n (fun a => G (Function.update a n j)) := by
      refine sum_le_sum fun j hj => ?_
      have hj := mem_range.1 hj
      refine mul_le_mul_of_nonneg_left (ih (fun l hl => hq l (by omega)) (fun l hl => hq' l (by omega))
        (fun l hl => h1 l (by omega)) (fun l hl => ht l (by omega)) fun a b ha hb hab => ?_) (hq n (by omega) j hj)
      refine hG _ _ (ha.upd hj) (hb.upd hj) fun l => ?_
      by_cases e : l = n
      · subst e; simp
      · rw [Function.update_of_ne e, Function.update_of_ne e]; exact hab l
    refine i1.trans ?_
    rw [← sub_nonneg, ← sum_sub_distrib]
    simp only [← sub_mul]
    rw [sum_parts, sum_sub_distrib, h1 n (by omega), sub_self, zero_mul, zero_add]
    refine sum_nonneg fun d hd => mul_nonneg ?_ ?_
    · rw [sum_sub_distrib]; have := ht n (by omega) d; linarith
    · have hd := mem_range.1 hd
      rw [sub_nonneg]
      refine msum_le (fun l hl => hq' l (by omega)) fun a ha => ?_
      refine hG _ _ (ha.upd (by omega)) (ha.upd (by omega)) fun l => ?_
      by_cases e : l = n
      · subst e; simp
      · rw [Function.update_of_ne e, Function.update_of_ne e]

end order

end Mda
end DD
