import Verif.Core.Float
import Verif.Core.FoldRel
import Verif.Bss.AnalysisOk

/-!
# `prob` of BDDs in binary64

Bounds for one step of the recursion of /repo/bss/src/bdd_prob.rs:34-40, and for the whole pass.
-/

set_option autoImplicit false
set_option linter.unusedSectionVars false

namespace DD
open Arena

section
variable {A : Type} [Zero A] [One A] [Add A] [Sub A] [Mul A] {val : A → Option ℚ}

/-- `a` stands for a number in [0, 1] within `k` times `f64::EPSILON` of `x`. -/
def Close (val : A → Option ℚ) (k : Nat) (a : A) (x : ℚ) : Prop :=
  ∃ y, val a = some y ∧ 0 ≤ y ∧ y ≤ 1 ∧ 0 ≤ x ∧ x ≤ 1 ∧ |y - x| ≤ k * (2 * uro)

theorem Close.mono {k k' : Nat} {a : A} {x : ℚ} (h : Close val k a x) (hk : k ≤ k') : Close val k' a x := by
  obtain ⟨y, h1, h2, h3, h4, h5, h6⟩ := h
  refine ⟨y, h1, h2, h3, h4, h5, h6.trans ?_⟩
  have : (k : ℚ) ≤ k' := by exact_mod_cast hk
  nlinarith [uro_pos]

theorem abs_mul_le {c y d : ℚ} (h : |c| ≤ d) (h0 : 0 ≤ y) (h1 : y ≤ 1) : |c * y| ≤ d := by
  rw [abs_mul, abs_of_nonneg h0]
  exact (mul_le_of_le_one_right (abs_nonneg c) h1).trans h

theorem abs_mul_le' {c y d : ℚ} (h : |c| ≤ d) (h0 : 0 ≤ y) : |y * c| ≤ y * d := by
  rw [abs_mul, abs_of_nonneg h0]
  exact mul_le_mul_of_nonneg_left h h0

/-- One node: the result stays in [0, 1] and is off by one more `f64::EPSILON`. -/
theorem Close.node (hB : Binary64 A val) {k : Nat} {p a0 a1 : A} {q x0 x1 : ℚ} (hp : val p = some q) (q0 : 0 ≤ q)
    (q1 : q ≤ 1) (h0 : Close val k a0 x0) (h1 : Close val k a1 x1) :
    Close val (k + 1) ((1 - p) * a0 + p * a1) ((1 - q) * x0 + q * x1) := by
  obtain ⟨y0, e0, l0, u0, m0, n0, d0'⟩ := h0
  obtain ⟨y1, e1, l1, u1, m1, n1, d1'⟩ := h1
  have hu := uro_pos
  obtain ⟨b, eb, hb⟩ := hB.sub hB.one hp (by rw [abs_le]; constructor <;> linarith)
  have b0 : 0 ≤ b := hb.ge isF64_zero (by linarith)
  have b1 : b ≤ 1 := hb.le isF64_one (by linarith)
  have bd' := hb.err_one (by rw [abs_le]; constructor <;> linarith)
  have bd := abs_le.1 bd'
  have by0 : 0 ≤ b * y0 := mul_nonneg b0 l0
  have by1 : b * y0 ≤ b := by nlinarith
  have qy0 : 0 ≤ q * y1 := mul_nonneg q0 l1
  have qy1 : q * y1 ≤ q := by nlinarith
  obtain ⟨m, em, hm⟩ := hB.mul eb e0 (by rw [abs_le]; constructor <;> linarith)
  obtain ⟨n, en, hn⟩ := hB.mul hp e1 (by rw [abs_le]; constructor <;> linarith)
  have mm0 : 0 ≤ m := hm.ge isF64_zero by0
  have mm1 : m ≤ b := hm.le hb.1 by1
  have nn0 : 0 ≤ n := hn.ge isF64_zero qy0
  have nn1 : n ≤ q := hn.le (hB.fin hp) qy1
  have md := abs_le.1 (hm.err_one (by rw [abs_le]; constructor <;> linarith))
  have nd := abs_le.1 (hn.err_one (by rw [abs_le]; constructor <;> linarith))
  have hs : m + n ≤ 1 + uro / 2 := by linarith [bd.2]
  obtain ⟨r, er, hr⟩ := hB.add em en (by rw [abs_le]; have := uro_le; constructor <;> linarith)
  have r0 : 0 ≤ r := hr.ge isF64_zero (by linarith)
  have r1 : r ≤ 1 := hr.le_one (by linarith)
  have rd : |r - (m + n)| ≤ uro / 2 := by
    rcases le_or_gt (m + n) 1 with h | h
    · exact hr.err_one (by rw [abs_le]; constructor <;> linarith)
    · refine (hr.2 1 isF64_one).trans ?_
      rw [abs_le]
      constructor <;> linarith
  have rd := abs_le.1 rd
  refine ⟨r, er, r0, r1, ?_, ?_, ?_⟩
  · have := mul_nonneg (sub_nonneg.2 q1) m0
    have := mul_nonneg q0 m1
    linarith
  · nlinarith
  · have s1 := abs_le.1 (abs_mul_le bd' l0 u0)
    have s3 := abs_le.1 (abs_mul_le' d0' (sub_nonneg.2 q1))
    have s5 := abs_le.1 (abs_mul_le' d1' q0)
    have e : r - ((1 - q) * x0 + q * x1) = (r - (m + n)) + (m - b * y0) + (b - (1 - q)) * y0 + (1 - q) * (y0 - x0) +
        (n - q * y1) + q * (y1 - x1) := by ring
    have e2 : ((k + 1 : Nat) : ℚ) * (2 * uro) = 2 * uro + (1 - q) * (k * (2 * uro)) + q * (k * (2 * uro)) := by
      push_cast; ring
    rw [e, e2, abs_le]
    constructor <;> linarith [rd.1, rd.2, md.1, md.2, nd.1, nd.2, s1.1, s1.2, s3.1, s3.2, s5.1, s5.2]

/-- `a` stands for `x` up to `3 k` relative errors; it is 0 or at least `(t (1 - u) ^ 3) ^ k`. -/
def RClose (val : A → Option ℚ) (t : ℚ) (k : Nat) (a : A) (x : ℚ) : Prop :=
  ∃ y, val a = some y ∧ y ≤ 1 ∧ 0 ≤ x ∧ RelErr (3 * k) y x ∧ (y = 0 ∨ (t * (1 - uro) ^ 3) ^ k ≤ y)

theorem tiny_mono {c : ℚ} (h0 : 0 < c) (h1 : c ≤ 1) {k k' : Nat} (hk : k ≤ k') : c ^ k' ≤ c ^ k :=
  pow_le_pow_of_le_one h0.le h1 hk

theorem RClose.mono {t : ℚ} (t0 : 0 < t) (t1 : t ≤ 1) {k k' : Nat} {a : A} {x : ℚ} (h : RClose val t k a x)
    (hk : k ≤ k') : RClose val t k' a x := by
  obtain ⟨y, h1, h3, h4, h5, h6⟩ := h
  refine ⟨y, h1, h3, h4, h5.mono h4 (by omega), h6.imp_right fun h => (tiny_mono ?_ ?_ hk).trans h⟩
  · exact mul_pos t0 (lo_pos 3)
  · exact mul_le_one₀ t1 (lo_pos 3).le (lo_le_one 3)

/-- One node: three more relative errors, if nothing is tiny. -/
theorem RClose.node (hB : Binary64 A val) {t : ℚ} (t0 : 0 < t) (t1 : t ≤ 1) {k : Nat}
    (ht : (2 : ℚ) ^ (-1022 : ℤ) ≤ (t * (1 - uro) ^ 3) ^ (k + 1)) {p a0 a1 : A} {q x0 x1 : ℚ}
    (hp : val p = some q) (hq0 : q = 0 ∨ t ≤ q) (hq1 : 1 - q = 0 ∨ t ≤ 1 - q)
    (h0 : RClose val t k a0 x0) (h1 : RClose val t k a1 x1) :
    RClose val t (k + 1) ((1 - p) * a0 + p * a1) ((1 - q) * x0 + q * x1) := by
  obtain ⟨y0, e0, u0, m0, d0, z0⟩ := h0
  obtain ⟨y1, e1, u1, m1, d1, z1⟩ := h1
  have hu := uro_pos
  have l0 := d0.nonneg m0
  have l1 := d1.nonneg m1
  have q0 : 0 ≤ q := by rcases hq0 with h | h <;> linarith
  have q1 : q ≤ 1 := by rcases hq1 with h | h <;> linarith
  have c0 : 0 < t * (1 - uro) ^ 3 := mul_pos t0 (lo_pos 3)
  have c1 : t * (1 - uro) ^ 3 ≤ 1 := mul_le_one₀ t1 (lo_pos 3).le (lo_le_one 3)
  set L := (t * (1 - uro) ^ 3) ^ k with hL
  have L0 : 0 < L := pow_pos c0 k
  have L1 : L ≤ 1 := pow_le_one₀ c0.le c1
  have hs : (t * (1 - uro) ^ 3) ^ (k + 1) = t * (1 - uro) ^ 3 * L := by rw [pow_succ, hL]; ring
  rw [hs] at ht
  have v0 : 0 < 1 - uro := by have := uro_le; linarith
  have v1 : 1 - uro ≤ 1 := by linarith
  have w2 : (1 - uro) ^ 2 ≤ 1 := lo_le_one 2
  have w3 : (1 - uro) ^ 3 ≤ 1 := lo_le_one 3
  have tL : 0 < t * L := mul_pos t0 L0
  -- the smallest products
  have g3 : t * (1 - uro) ^ 3 * L = (t * L) * (1 - uro) ^ 3 := by ring
  have g2 : (t * L) * (1 - uro) ^ 3 ≤ (t * L) * (1 - uro) ^ 2 :=
    mul_le_mul_of_nonneg_left (pow_le_pow_of_le_one v0.le v1 (by norm_num)) tL.le
  have g1 : (t * L) * (1 - uro) ^ 2 ≤ (t * L) * (1 - uro) := by
    have := mul_le_mul_of_nonneg_left (pow_le_pow_of_le_one v0.le v1 (show 1 ≤ 2 by norm_num)) tL.le
    rwa [pow_one] at this
  have g0 : (t * L) * (1 - uro) ≤ t * L := by nlinarith
  have gt : t * L ≤ t := by nlinarith
  rw [g3] at ht
  obtain ⟨b, eb, hb⟩ := hB.sub hB.one hp (by rw [abs_le]; constructor <;> linarith)
  have b1 : b ≤ 1 := hb.le isF64_one (by linarith)
  have bd : RelErr 1 b (1 - q) := hb.relErr (by linarith) (hq1.imp_right fun h => by linarith) (by linarith)
  have b0 := bd.nonneg (by linarith)
  have bt : b = 0 ∨ t * (1 - uro) ≤ b := by
    rcases hq1 with h | h
    · left
      have := bd.2
      rw [h, zero_mul] at this
      linarith
    · right
      have := bd.1
      rw [pow_one] at this
      exact (mul_le_mul_of_nonneg_right h v0.le).trans this
  have by1 : b * y0 ≤ 1 := mul_le_one₀ b1 l0 u0
  have qy1 : q * y1 ≤ 1 := mul_le_one₀ q1 l1 u1
  have by0 : 0 ≤ b * y0 := mul_nonneg b0 l0
  have qy0 : 0 ≤ q * y1 := mul_nonneg q0 l1
  have bz : b * y0 = 0 ∨ (t * L) * (1 - uro) ≤ b * y0 := by
    rcases bt with h | h
    · exact .inl (by rw [h, zero_mul])
    · rcases z0 with h' | h'
      · exact .inl (by rw [h', mul_zero])
      · refine .inr ?_
        calc (t * L) * (1 - uro) = (t * (1 - uro)) * L := by ring
          _ ≤ _ := mul_le_mul h h' L0.le b0
  have qz : q * y1 = 0 ∨ (t * L) * (1 - uro) ≤ q * y1 := by
    rcases hq0 with h | h
    · exact .inl (by rw [h, zero_mul])
    · rcases z1 with h' | h'
      · exact .inl (by rw [h', mul_zero])
      · exact .inr (g0.trans (mul_le_mul h h' L0.le q0))
  obtain ⟨m, em, hm⟩ := hB.mul eb e0 (by rw [abs_le]; constructor <;> linarith)
  obtain ⟨n, en, hn⟩ := hB.mul hp e1 (by rw [abs_le]; constructor <;> linarith)
  have md : RelErr 1 m (b * y0) := hm.relErr by0 (bz.imp_right fun h => by linarith) (by linarith)
  have nd : RelErr 1 n (q * y1) := hn.relErr qy0 (qz.imp_right fun h => by linarith) (by linarith)
  have m0' := md.nonneg by0
  have n0' := nd.nonneg qy0
  have mle : m ≤ b := hm.le hb.1 (by nlinarith)
  have nle : n ≤ q := hn.le (hB.fin hp) (by nlinarith)
  have keep : ∀ {s z : ℚ}, RelErr 1 z s → (s = 0 ∨ (t * L) * (1 - uro) ≤ s) → (z = 0 ∨ (t * L) * (1 - uro) ^ 2 ≤ z) := by
    intro s z hz h
    rcases h with h | h
    · subst h
      have h1 := hz.1
      have h2 := hz.2
      rw [zero_mul] at h1 h2
      exact .inl (le_antisymm h2 h1)
    · refine .inr ?_
      have := hz.1
      rw [pow_one] at this
      calc (t * L) * (1 - uro) ^ 2 = (t * L) * (1 - uro) * (1 - uro) := by ring
        _ ≤ s * (1 - uro) := mul_le_mul_of_nonneg_right h v0.le
        _ ≤ z := this
  have mz := keep md bz
  have nz := keep nd qz
  have sz : m + n = 0 ∨ (t * L) * (1 - uro) ^ 2 ≤ m + n := by
    rcases mz with h | h
    · rcases nz with h' | h'
      · exact .inl (by rw [h, h', add_zero])
      · exact .inr (by linarith)
    · exact .inr (by linarith)
  have bdd := abs_le.1 (hb.err_one (by rw [abs_le]; constructor <;> linarith))
  have hsum : m + n ≤ 1 + uro / 2 := by linarith [bdd.2]
  obtain ⟨r, er, hr⟩ := hB.add em en (by rw [abs_le]; have := uro_le; constructor <;> linarith)
  have rd : RelErr 1 r (m + n) := hr.relErr (by linarith) (sz.imp_right fun h => by linarith) (by have := uro_le; linarith)
  have r1 : r ≤ 1 := hr.le_one (by linarith)
  refine ⟨r, er, r1, ?_, ?_, ?_⟩
  · have := mul_nonneg (sub_nonneg.2 q1) m0
    have := mul_nonneg q0 m1
    linarith
  · have s1 : RelErr (3 * k + 2) m ((1 - q) * x0) := by
      have := md.trans (bd.mul d0 (by linarith) m0)
      exact this.mono (mul_nonneg (by linarith) m0) (by omega)
    have s2 : RelErr (3 * k + 2) n (q * x1) := by
      have := nd.trans ((RelErr.refl q).mul d1 q0 m1)
      exact this.mono (mul_nonneg q0 m1) (by omega)
    have := rd.trans (s1.add s2)
    refine this.mono ?_ (by omega)
    exact add_nonneg (mul_nonneg (by linarith) m0) (mul_nonneg q0 m1)
  · rw [hs, g3]
    rcases sz with h | h
    · left
      have h1 := rd.1
      have h2 := rd.2
      rw [h, zero_mul] at h1 h2
      exact le_antisymm h2 h1
    · right
      have := rd.1
      rw [pow_one] at this
      calc (t * L) * (1 - uro) ^ 3 = (t * L) * (1 - uro) ^ 2 * (1 - uro) := by ring
        _ ≤ (m + n) * (1 - uro) := mul_le_mul_of_nonneg_right h v0.le
        _ ≤ r := this

end

namespace Bdd

section
variable {A : Type} [Zero A] [One A] [Add A] [Sub A] [Mul A] {val : A → Option ℚ}

/-- The whole pass keeps a relation indexed by the height of the node. -/
theorem prob_close {s : Bdd} (hs : Inv s) {γ : Nat → A → ℚ → Prop} (mono : ∀ {k k' a x}, γ k a x → k ≤ k' → γ k' a x)
    (z : γ 0 0 0) (o : γ 0 1 1) {pv : String → Option A} {qv : String → Option ℚ} {N : Nat}
    (hN : ∀ i, s.arena.Live i → s.arena.rank i ≤ N)
    (node : ∀ k x a0 a1 x0 x1, k < N → (∃ hd ∈ s.arena.headers, hd.label = x) → γ k a0 x0 → γ k a1 x1 →
      γ (k + 1) ((1 - (pv x).getD 0) * a0 + (pv x).getD 0 * a1) ((1 - (qv x).getD 0) * x0 + (qv x).getD 0 * x1))
    (ss : List Bool) {i : Nat} (hi : s.arena.Live i) :
    Option.Rel (γ (s.arena.rank i)) (prob s.arena pv ss i) (prob s.arena qv ss i) := by
  refine rel_map (γ := fun (p : A × AMap Nat A) (q : ℚ × AMap Nat ℚ) => γ (s.arena.rank i) p.1 q.1 ∧
    MemoRel (fun i => γ (s.arena.rank i)) p.2 q.2) ?_ fun _ _ h => h.1
  · refine memoFold_memoRel (γ := fun i => γ (s.arena.rank i)) (Q := s.arena.Live)
      (fun i h ch hi hn c hc => by obtain ⟨_, _, _, _, _, _, hk⟩ := hs.wf.nt hi hn; exact (hk c hc).1) ?_ ?_ _ i _ _ hi MemoRel.empty
    · intro i t hn
      rw [rank_term hn]
      cases t <;> simp only [probLeaf]
      · exact Option.Rel.some (by split <;> [exact o; exact z])
      · exact Option.Rel.some (by split <;> [exact o; exact z])
      · exact Option.Rel.none
    · intro i h ch l l' hi hn hl hr
      obtain ⟨hd, e1, _, hrk, _, _, hk⟩ := hs.wf.nt hi hn
      match l, l', hr with
      | _, _, .nil => exact Option.Rel.none
      | _, _, .cons _ .nil => exact Option.Rel.none
      | _, _, .cons (a := (c0, a)) (b := (_, b)) h1 (.cons (a := (c1, c)) (b := (_, d)) h2 .nil) =>
        simp only [probComb]
        have hlab : s.arena.label? i = some hd.label := by simp [label?, hn, e1]
        rw [hlab]
        subst hl
        have r0 := (hk c0 (by simp)).2
        have r1 := (hk c1 (by simp)).2
        have hNi := hN i hi
        refine Option.Rel.some ?_
        have := node (s.arena.rank i - 1) hd.label a c b d (by omega) ⟨hd, List.mem_of_getElem? e1, rfl⟩
          (mono h1.2 (by simp only; omega)) (mono h2.2 (by simp only; omega))
        rwa [show s.arena.rank i - 1 + 1 = s.arena.rank i by omega] at this
      | _, _, .cons _ (.cons _ (.cons _ _)) => exact Option.Rel.none

end

end Bdd
end DD
