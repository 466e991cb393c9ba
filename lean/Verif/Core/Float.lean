import Mathlib.Algebra.Order.Archimedean.Basic
import Mathlib.Algebra.Order.Round
import Mathlib.Algebra.Order.Field.Power
import Mathlib.Data.Rat.Floor
import Mathlib.Data.Int.Interval
import Mathlib.Order.Interval.Finset.Basic
import Mathlib.Data.Finset.Max
import Mathlib.Tactic.Linarith
import Mathlib.Tactic.Ring
import Mathlib.Tactic.Positivity
import Mathlib.Tactic.FieldSimp
import Mathlib.Tactic.NormNum

/-!
# Binary64 numbers

The type `T` of `prob` (/repo/bss/src/bdd_prob.rs:5-14, /repo/mss/src/mdd_prob.rs:6-15) is `f64` in the
examples and in the Python package.  This is what the proofs use of IEEE 754: the finite numbers are
`m * 2 ^ e` with `|m| < 2 ^ 53` and `-1074 ≤ e ≤ 971`, and a sum, difference or product that is not too large
is a nearest one to the exact result.  How ties are broken is left open.
-/

set_option autoImplicit false

namespace DD

/-- The finite binary64 numbers. -/
def IsF64 (y : ℚ) : Prop := ∃ m e : ℤ, |m| < 2 ^ 53 ∧ -1074 ≤ e ∧ e ≤ 971 ∧ y = m * (2 : ℚ) ^ e

/-- `y` is a binary64 number nearest to `x`. -/
def Nearest (x y : ℚ) : Prop := IsF64 y ∧ ∀ z, IsF64 z → |y - x| ≤ |z - x|

/-- `A` with its operations behaves like `f64`: `val a` is the number that `a` stands for, `none` for infinities
and NaN.  Only results up to 2 in size are spoken about. -/
structure Binary64 (A : Type) [Zero A] [One A] [Add A] [Sub A] [Mul A] (val : A → Option ℚ) : Prop where
  fin : ∀ {a x}, val a = some x → IsF64 x
  zero : val 0 = some 0
  one : val 1 = some 1
  add : ∀ {a b x y}, val a = some x → val b = some y → |x + y| ≤ 2 → ∃ z, val (a + b) = some z ∧ Nearest (x + y) z
  sub : ∀ {a b x y}, val a = some x → val b = some y → |x - y| ≤ 2 → ∃ z, val (a - b) = some z ∧ Nearest (x - y) z
  mul : ∀ {a b x y}, val a = some x → val b = some y → |x * y| ≤ 2 → ∃ z, val (a * b) = some z ∧ Nearest (x * y) z

theorem isF64_zero : IsF64 0 := ⟨0, 0, by norm_num, by norm_num, by norm_num, by norm_num⟩

theorem isF64_one : IsF64 1 := ⟨1, 0, by norm_num, by norm_num, by norm_num, by norm_num⟩

/-- Multiples up to and including `2 ^ 53` of a power of two. -/
theorem isF64_of_le {m e : ℤ} (hm : |m| ≤ 2 ^ 53) (h1 : -1074 ≤ e) (h2 : e ≤ 970) : IsF64 (m * (2 : ℚ) ^ e) := by
  rcases lt_or_eq_of_le hm with h | h
  · exact ⟨m, e, h, h1, by omega, rfl⟩
  · rcases (abs_eq (by norm_num)).1 h with h | h
    · refine ⟨2 ^ 52, e + 1, by norm_num, by omega, by omega, ?_⟩
      rw [h, zpow_add₀ (by norm_num)]
      push_cast
      ring
    · refine ⟨-2 ^ 52, e + 1, by norm_num, by omega, by omega, ?_⟩
      rw [h, zpow_add₀ (by norm_num)]
      push_cast
      ring

theorem abs_round_le {x : ℚ} {n : ℤ} (h : |x| ≤ n) : |round x| ≤ n := by
  have h1 := abs_sub_round x
  have h2 := abs_le.1 h1
  have h3 := abs_le.1 h
  rw [abs_le]
  constructor
  · have : ((-n - 1 : ℤ) : ℚ) < (round x : ℚ) := by push_cast; linarith
    have := Int.cast_lt.1 this
    omega
  · have : ((round x : ℤ) : ℚ) < ((n + 1 : ℤ) : ℚ) := by push_cast; linarith
    have := Int.cast_lt.1 this
    omega

/-- On numbers up to `2 ^ (53 + e)` the error is at most half of `2 ^ e`. -/
theorem Nearest.err {x y : ℚ} (h : Nearest x y) {e : ℤ} (h1 : -1074 ≤ e) (h2 : e ≤ 970)
    (hx : |x| ≤ 2 ^ 53 * (2 : ℚ) ^ e) : |y - x| ≤ (2 : ℚ) ^ e / 2 := by
  have hp : (0 : ℚ) < (2 : ℚ) ^ e := zpow_pos (by norm_num) e
  have hq : |x / (2 : ℚ) ^ e| ≤ ((2 ^ 53 : ℤ) : ℚ) := by
    rw [abs_div, abs_of_pos hp, div_le_iff₀ hp]
    push_cast
    exact hx
  refine (h.2 _ (isF64_of_le (abs_round_le hq) h1 h2)).trans ?_
  have h3 := abs_sub_round (x / (2 : ℚ) ^ e)
  have h4 : (round (x / (2 : ℚ) ^ e) : ℚ) * (2 : ℚ) ^ e - x = -((x / (2 : ℚ) ^ e - round (x / (2 : ℚ) ^ e)) * (2 : ℚ) ^ e) := by
    field_simp
    ring
  rw [h4, abs_neg, abs_mul, abs_of_pos hp]
  calc _ ≤ 1 / 2 * (2 : ℚ) ^ e := mul_le_mul_of_nonneg_right h3 hp.le
    _ = _ := by ring

/-- Half of `f64::EPSILON`. -/
def uro : ℚ := 1 / 2 ^ 53

/-- On [-1, 1] the error is at most a quarter of `f64::EPSILON`. -/
theorem Nearest.err_one {x y : ℚ} (h : Nearest x y) (hx : |x| ≤ 1) : |y - x| ≤ uro / 2 := by
  have := h.err (e := -53) (by norm_num) (by norm_num) (by rw [zpow_neg]; norm_num; exact hx)
  refine this.trans (le_of_eq ?_)
  rw [zpow_neg]
  norm_num [uro]

/-- Numbers that are not tiny have small relative error. -/
theorem Nearest.rel {x y : ℚ} (h : Nearest x y) (h0 : (2 : ℚ) ^ (-1022 : ℤ) ≤ |x|) (hx : |x| ≤ 2) :
    |y - x| ≤ uro * |x| := by
  have hpos : 0 < |x| := lt_of_lt_of_le (zpow_pos (by norm_num) _) h0
  obtain ⟨n, hn⟩ := exists_mem_Ico_zpow hpos (by norm_num : (1 : ℚ) < 2)
  have hn1 : -1022 ≤ n := by
    by_contra hc
    have : (2 : ℚ) ^ (n + 1) ≤ (2 : ℚ) ^ (-1022 : ℤ) := zpow_le_zpow_right₀ (by norm_num) (by omega)
    linarith [hn.2]
  have hn2 : n ≤ 1 := by
    by_contra hc
    have : (2 : ℚ) ^ (2 : ℤ) ≤ (2 : ℚ) ^ n := zpow_le_zpow_right₀ (by norm_num) (by omega)
    have h4 : (2 : ℚ) ^ (2 : ℤ) = 4 := by norm_num
    linarith [hn.1]
  have e1 : (2 : ℚ) ^ (n + 1) = 2 ^ 53 * (2 : ℚ) ^ (n - 52) := by
    rw [← zpow_natCast, ← zpow_add₀ (by norm_num)]
    congr 1
    push_cast
    ring
  have := h.err (e := n - 52) (by omega) (by omega) (by rw [← e1]; exact hn.2.le)
  refine this.trans ?_
  have e2 : (2 : ℚ) ^ (n - 52) / 2 = uro * (2 : ℚ) ^ n := by
    have : (2 : ℚ) ^ n = (2 : ℚ) ^ (n - 52) * 2 ^ 52 := by
      rw [← zpow_natCast, ← zpow_add₀ (by norm_num)]
      congr 1
      push_cast
      ring
    rw [this, uro]
    norm_num
    ring
  rw [e2]
  exact mul_le_mul_of_nonneg_left hn.1 (by norm_num [uro])

theorem Nearest.le {x y c : ℚ} (h : Nearest x y) (hc : IsF64 c) (hx : x ≤ c) : y ≤ c := by
  have := h.2 c hc
  rw [abs_of_nonneg (by linarith : 0 ≤ c - x)] at this
  linarith [le_abs_self (y - x)]

theorem Nearest.ge {x y c : ℚ} (h : Nearest x y) (hc : IsF64 c) (hx : c ≤ x) : c ≤ y := by
  have := h.2 c hc
  rw [abs_sub_comm c x, abs_of_nonneg (by linarith : 0 ≤ x - c)] at this
  linarith [neg_abs_le (y - x)]

/-- A binary64 number is its own nearest. -/
theorem Nearest.self {x y : ℚ} (h : Nearest x y) (hx : IsF64 x) : y = x := by
  have := h.2 x hx
  rw [sub_self, abs_zero] at this
  linarith [abs_nonpos_iff.1 this]

/-- There is no binary64 number between 1 and `1 + 2 ^ -52`. -/
theorem isF64_gap {y : ℚ} (h : IsF64 y) (h1 : 1 < y) : 1 + 2 * uro ≤ y := by
  obtain ⟨m, e, hm, he1, he2, rfl⟩ := h
  have hp : (0 : ℚ) < (2 : ℚ) ^ e := zpow_pos (by norm_num) e
  have hmp : 0 < m := by
    by_contra hc
    have : (m : ℚ) ≤ 0 := by exact_mod_cast (by omega : m ≤ 0)
    nlinarith
  rw [abs_of_pos hmp] at hm
  have he : -52 ≤ e := by
    by_contra hc
    have h2 : (2 : ℚ) ^ e ≤ (2 : ℚ) ^ (-53 : ℤ) := zpow_le_zpow_right₀ (by norm_num) (by omega)
    have h3 : (m : ℚ) ≤ 2 ^ 53 := by exact_mod_cast hm.le
    have h4 : (m : ℚ) * (2 : ℚ) ^ e ≤ 2 ^ 53 * (2 : ℚ) ^ (-53 : ℤ) :=
      mul_le_mul h3 h2 hp.le (by norm_num)
    rw [zpow_neg] at h4
    norm_num at h4
    linarith
  obtain ⟨k, hk⟩ : ∃ k : ℕ, e = (k : ℤ) - 52 := ⟨(e + 52).toNat, by omega⟩
  have e1 : (2 : ℚ) ^ e = 2 ^ k / 2 ^ 52 := by
    rw [hk, zpow_sub₀ (by norm_num), zpow_natCast]
    norm_num
  rw [e1] at h1 ⊢
  have h2 : (2 : ℚ) ^ 52 < m * 2 ^ k := by
    rw [← mul_div_assoc, lt_div_iff₀ (by norm_num)] at h1
    linarith
  have h3 : (2 : ℤ) ^ 52 < m * 2 ^ k := by exact_mod_cast h2
  have h4 : (2 : ℤ) ^ 52 + 1 ≤ m * 2 ^ k := h3
  have h5 : (2 : ℚ) ^ 52 + 1 ≤ m * 2 ^ k := by exact_mod_cast h4
  rw [← mul_div_assoc, le_div_iff₀ (by norm_num)]
  norm_num [uro] at h5 ⊢
  linarith

/-- A number less than half a step above 1 is rounded to at most 1. -/
theorem Nearest.le_one {x y : ℚ} (h : Nearest x y) (hx : x < 1 + uro) : y ≤ 1 := by
  by_contra hc
  have h1 := isF64_gap h.1 (not_le.1 hc)
  rcases le_or_gt x 1 with h2 | h2
  · exact hc (h.le isF64_one h2)
  · have h3 := h.2 1 isF64_one
    rw [abs_sub_comm 1 x, abs_of_pos (by linarith : 0 < x - 1)] at h3
    linarith [le_abs_self (y - x)]

/-! ## Relative errors -/

theorem uro_pos : 0 < uro := by norm_num [uro]

theorem uro_le : uro ≤ 1 / 8 := by norm_num [uro]

/-- `y` is `x` up to `e` relative errors of `2 ^ -53`. -/
def RelErr (e : Nat) (y x : ℚ) : Prop := x * (1 - uro) ^ e ≤ y ∧ y ≤ x * (1 + uro) ^ e

theorem RelErr.refl (x : ℚ) : RelErr 0 x x := by simp [RelErr]

theorem RelErr.zero (e : Nat) : RelErr e 0 0 := by simp [RelErr]

theorem lo_pos (e : Nat) : 0 < (1 - uro) ^ e := pow_pos (by have := uro_le; linarith) e

theorem lo_le_one (e : Nat) : (1 - uro) ^ e ≤ 1 :=
  pow_le_one₀ (by have := uro_le; linarith) (by have := uro_pos; linarith)

theorem hi_ge_one (e : Nat) : 1 ≤ (1 + uro) ^ e := one_le_pow₀ (by have := uro_pos; linarith)

theorem RelErr.nonneg {e : Nat} {y x : ℚ} (h : RelErr e y x) (hx : 0 ≤ x) : 0 ≤ y :=
  (mul_nonneg hx (lo_pos e).le).trans h.1

theorem RelErr.mono {e e' : Nat} {y x : ℚ} (h : RelErr e y x) (hx : 0 ≤ x) (he : e ≤ e') : RelErr e' y x := by
  have h1 : (1 - uro) ^ e' ≤ (1 - uro) ^ e :=
    pow_le_pow_of_le_one (by have := uro_le; linarith) (by have := uro_pos; linarith) he
  have h2 : (1 + uro) ^ e ≤ (1 + uro) ^ e' := pow_le_pow_right₀ (by have := uro_pos; linarith) he
  exact ⟨(mul_le_mul_of_nonneg_left h1 hx).trans h.1, h.2.trans (mul_le_mul_of_nonneg_left h2 hx)⟩

theorem RelErr.mul {e1 e2 : Nat} {y1 x1 y2 x2 : ℚ} (h1 : RelErr e1 y1 x1) (h2 : RelErr e2 y2 x2) (hx1 : 0 ≤ x1)
    (hx2 : 0 ≤ x2) : RelErr (e1 + e2) (y1 * y2) (x1 * x2) := by
  have n1 := h1.nonneg hx1
  have n2 := h2.nonneg hx2
  constructor
  · calc x1 * x2 * (1 - uro) ^ (e1 + e2) = (x1 * (1 - uro) ^ e1) * (x2 * (1 - uro) ^ e2) := by ring
      _ ≤ _ := mul_le_mul h1.1 h2.1 (mul_nonneg hx2 (lo_pos e2).le) n1
  · calc y1 * y2 ≤ (x1 * (1 + uro) ^ e1) * (x2 * (1 + uro) ^ e2) :=
          mul_le_mul h1.2 h2.2 n2 (n1.trans h1.2)
      _ = _ := by ring

theorem RelErr.add {e : Nat} {y1 x1 y2 x2 : ℚ} (h1 : RelErr e y1 x1) (h2 : RelErr e y2 x2) :
    RelErr e (y1 + y2) (x1 + x2) :=
  ⟨by rw [add_mul]; exact add_le_add h1.1 h2.1, by rw [add_mul]; exact add_le_add h1.2 h2.2⟩

theorem RelErr.trans {e1 e2 : Nat} {z y x : ℚ} (h1 : RelErr e1 z y) (h2 : RelErr e2 y x) : RelErr (e1 + e2) z x := by
  constructor
  · calc x * (1 - uro) ^ (e1 + e2) = x * (1 - uro) ^ e2 * (1 - uro) ^ e1 := by ring
      _ ≤ y * (1 - uro) ^ e1 := mul_le_mul_of_nonneg_right h2.1 (lo_pos e1).le
      _ ≤ z := h1.1
  · calc z ≤ y * (1 + uro) ^ e1 := h1.2
      _ ≤ x * (1 + uro) ^ e2 * (1 + uro) ^ e1 :=
          mul_le_mul_of_nonneg_right h2.2 (zero_le_one.trans (hi_ge_one e1))
      _ = _ := by ring

/-- Rounding a number that is 0 or not tiny makes one relative error. -/
theorem Nearest.relErr {x y : ℚ} (h : Nearest x y) (hx : 0 ≤ x) (h0 : x = 0 ∨ (2 : ℚ) ^ (-1022 : ℤ) ≤ x)
    (h2 : x ≤ 2) : RelErr 1 y x := by
  rcases h0 with h0 | h0
  · subst h0
    rw [h.self isF64_zero]
    exact RelErr.zero 1
  · have := h.rel (by rw [abs_of_nonneg hx]; exact h0) (by rw [abs_of_nonneg hx]; exact h2)
    rw [abs_of_nonneg hx] at this
    have := abs_le.1 this
    constructor <;> rw [pow_one] <;> linarith

/-- `e` relative errors as one number. -/
theorem RelErr.abs {e : Nat} {y x : ℚ} (h : RelErr e y x) (hx : 0 ≤ x) (he : e * uro ≤ 1 / 2) :
    |y - x| ≤ 2 * e * uro * x := by
  have up : ∀ k : Nat, k ≤ e → (1 + uro) ^ k ≤ 1 + 2 * k * uro := by
    intro k
    induction k with
    | zero => intro _; simp
    | succ k ih =>
      intro hk
      have h1 := ih (by omega)
      have h2 : (k : ℚ) * uro ≤ 1 / 2 := by
        have : (k : ℚ) ≤ e := by exact_mod_cast (by omega : k ≤ e)
        nlinarith [uro_pos]
      rw [pow_succ]
      calc (1 + uro) ^ k * (1 + uro) ≤ (1 + 2 * k * uro) * (1 + uro) :=
            mul_le_mul_of_nonneg_right h1 (by have := uro_pos; linarith)
        _ = 1 + 2 * k * uro + uro + 2 * (k * uro) * uro := by ring
        _ ≤ 1 + 2 * k * uro + uro + 2 * (1 / 2) * uro := by nlinarith [uro_pos]
        _ = _ := by push_cast; ring
  have dn : ∀ k : Nat, 1 - k * uro ≤ (1 - uro) ^ k := by
    intro k
    induction k with
    | zero => simp
    | succ k ih =>
      rw [pow_succ]
      calc 1 - ((k + 1 : Nat) : ℚ) * uro ≤ (1 - k * uro) * (1 - uro) := by
            push_cast
            have : 0 ≤ (k : ℚ) * uro * uro := by have := uro_pos; positivity
            nlinarith
        _ ≤ _ := mul_le_mul_of_nonneg_right ih (by have := uro_le; linarith)
  have h1 := mul_le_mul_of_nonneg_left (up e le_rfl) hx
  have h2 := mul_le_mul_of_nonneg_left (dn e) hx
  have h3 : 0 ≤ (e : ℚ) * uro * x := by have := uro_pos; positivity
  rw [abs_le]
  constructor
  · nlinarith [h.1]
  · nlinarith [h.2]

/-! ## An instance -/

/-- Every number has a nearest binary64 number. -/
theorem exists_nearest (x : ℚ) : ∃ y, Nearest x y := by
  classical
  let N : ℤ := 2 ^ 53 * 2 ^ 2045
  let S : Finset ℚ := ((Finset.Icc (-N) N).image fun k : ℤ => (k : ℚ) / 2 ^ 1074).filter IsF64
  have hS : ∀ z, IsF64 z → z ∈ S := by
    intro z hz
    refine Finset.mem_filter.2 ⟨?_, hz⟩
    obtain ⟨m, e, hm, he1, he2, rfl⟩ := hz
    obtain ⟨k, hk⟩ : ∃ k : ℕ, e = (k : ℤ) - 1074 := ⟨(e + 1074).toNat, by omega⟩
    refine Finset.mem_image.2 ⟨m * 2 ^ k, ?_, ?_⟩
    · have h1 : |m * 2 ^ k| ≤ N := by
        rw [abs_mul, abs_of_pos (by positivity : (0 : ℤ) < 2 ^ k)]
        exact mul_le_mul hm.le (pow_le_pow_right₀ (by norm_num) (by omega)) (by positivity) (by positivity)
      exact Finset.mem_Icc.2 (abs_le.1 h1)
    · rw [hk, zpow_sub₀ (by norm_num), zpow_natCast]
      push_cast
      rw [mul_div_assoc, zpow_ofNat]
  obtain ⟨y, hy, hmin⟩ := S.exists_min_image (fun z => |z - x|) ⟨0, hS 0 isF64_zero⟩
  exact ⟨y, (Finset.mem_filter.1 hy).2, fun z hz => hmin z (hS z hz)⟩

/-- Some nearest binary64 number. -/
noncomputable def rnd (x : ℚ) : ℚ := Classical.choose (exists_nearest x)

theorem rnd_nearest (x : ℚ) : Nearest x (rnd x) := Classical.choose_spec (exists_nearest x)

/-- Binary64 numbers. -/
abbrev F64 := {x : ℚ // IsF64 x}

noncomputable instance : Zero F64 := ⟨⟨0, isF64_zero⟩⟩
noncomputable instance : One F64 := ⟨⟨1, isF64_one⟩⟩
noncomputable instance : Add F64 := ⟨fun a b => ⟨rnd (a.1 + b.1), (rnd_nearest _).1⟩⟩
noncomputable instance : Sub F64 := ⟨fun a b => ⟨rnd (a.1 - b.1), (rnd_nearest _).1⟩⟩
noncomputable instance : Mul F64 := ⟨fun a b => ⟨rnd (a.1 * b.1), (rnd_nearest _).1⟩⟩

/-- The arithmetic that rounds to some nearest number is binary64 arithmetic. -/
theorem binary64_F64 : Binary64 F64 (fun a => some a.1) where
  fin := by rintro a x ⟨⟩; exact a.2
  zero := rfl
  one := rfl
  add := by rintro a b x y ⟨⟩ ⟨⟩ _; exact ⟨_, rfl, rnd_nearest _⟩
  sub := by rintro a b x y ⟨⟩ ⟨⟩ _; exact ⟨_, rfl, rnd_nearest _⟩
  mul := by rintro a b x y ⟨⟩ ⟨⟩ _; exact ⟨_, rfl, rnd_nearest _⟩

end DD
