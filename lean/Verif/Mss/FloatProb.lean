import Verif.Bss.FloatProb
import Verif.Mss.Analysis

/-!
# `prob` of MDDs in binary64

Bounds for the loop of /repo/mss/src/mdd_prob.rs:57-60, 104-107, and for the whole pass.
-/

set_option autoImplicit false
set_option linter.unusedSectionVars false

namespace DD
open Arena

section
variable {A : Type} [Zero A] [One A] [Add A] [Sub A] [Mul A] {val : A → Option ℚ}

/-- `a` stands for the probability `q`, given with one relative error; it is 0 or at least `t`. -/
def Weight (val : A → Option ℚ) (t : ℚ) (a : A) (q : ℚ) : Prop :=
  ∃ z, val a = some z ∧ 0 ≤ q ∧ RelErr 1 z q ∧ (z = 0 ∨ t ≤ z)

/-- `a` stands for the probability `x` up to `e` relative errors; it is 0 or at least `b`. -/
def MClose (val : A → Option ℚ) (e : Nat) (b : ℚ) (a : A) (x : ℚ) : Prop :=
  ∃ y, val a = some y ∧ 0 ≤ x ∧ x ≤ 1 ∧ RelErr e y x ∧ (y = 0 ∨ b ≤ y)

theorem MClose.mono {e e' : Nat} {b b' : ℚ} {a : A} {x : ℚ} (h : MClose val e b a x) (he : e ≤ e') (hb : b' ≤ b) :
    MClose val e' b' a x := by
  obtain ⟨y, h1, h2, h3, h4, h5⟩ := h
  exact ⟨y, h1, h2, h3, h4.mono h2 he, h5.imp_right hb.trans⟩

/-- A relative error keeps 0 and loses little otherwise. -/
theorem RelErr.keep {z s b : ℚ} (h : RelErr 1 z s) (hs : s = 0 ∨ b ≤ s) : z = 0 ∨ b * (1 - uro) ≤ z := by
  rcases hs with hs | hs
  · subst hs
    have h1 := h.1
    have h2 := h.2
    rw [zero_mul] at h1 h2
    exact .inl (le_antisymm h2 h1)
  · refine .inr ?_
    have := h.1
    rw [pow_one] at this
    exact (mul_le_mul_of_nonneg_right hs (by have := uro_le; linarith)).trans this

/-- The loop over the states: from kids with `e` relative errors, `e + 2` and one more for each state. -/
theorem dot_close (hB : Binary64 A val) {t L : ℚ} (t0 : 0 < t) (L0 : 0 < L) {c e : Nat} (he : (1 + uro) ^ (e + c) ≤ 2)
    (ht : (2 : ℚ) ^ (-1022 : ℤ) ≤ (t * L) * (1 - uro) ^ c) {fp : List A} {fq : List ℚ} :
    ∀ (l : List (Nat × A)) (l' : List (Nat × ℚ)),
      List.Forall₂ (fun (p : Nat × A) (q : Nat × ℚ) => p.1 = q.1 ∧ MClose val e L p.2 q.2) l l' →
      ∀ (j : Nat) (a : A) (x : ℚ), j + l.length + 2 ≤ c →
        MClose val (e + 2 + j) ((t * L) * (1 - uro) ^ (1 + j)) a x →
        (∀ i, i < l.length → ∃ b q, fp[j + i]? = some b ∧ fq[j + i]? = some q ∧ Weight val t b q) →
        x + ∑ i ∈ Finset.range l.length, fq.getD (j + i) 0 ≤ 1 →
        Option.Rel (MClose val (e + 2 + j + l.length) ((t * L) * (1 - uro) ^ (1 + j + l.length)))
          (Mda.dotKids fp j l a) (Mda.dotKids fq j l' x) := by
  have v0 : 0 < 1 - uro := by have := uro_le; linarith
  have v1 : 1 - uro ≤ 1 := by have := uro_pos; linarith
  have tL : 0 < t * L := mul_pos t0 L0
  have low : ∀ {k k' : Nat}, k ≤ k' → (t * L) * (1 - uro) ^ k' ≤ (t * L) * (1 - uro) ^ k := fun h =>
    mul_le_mul_of_nonneg_left (pow_le_pow_of_le_one v0.le v1 h) tL.le
  have two : ∀ {k : Nat} {y x : ℚ}, k ≤ e + c → 0 ≤ x → x ≤ 1 → RelErr k y x → y ≤ 2 := by
    intro k y x hk h0 h1 h
    have := (h.mono h0 hk).2
    have h2 : 0 ≤ (1 + uro) ^ (e + c) := zero_le_one.trans (hi_ge_one _)
    nlinarith
  intro l l' hl
  induction hl with
  | nil => intro j a x _ h _ _; exact Option.Rel.some (by simpa using h)
  | cons h1 _ ih =>
    rename_i p q l l' hl'
    intro j a x hj ha hw hx
    obtain ⟨b, q0, g1, g2, z, w1, w2, w3, w4⟩ := hw 0 (by simp)
    rw [Nat.add_zero] at g1 g2
    simp only [Mda.dotKids, g1, g2]
    obtain ⟨y, a1, a2, a3, a4, a5⟩ := ha
    obtain ⟨-, y1, b1, b2, b3, b4, b5⟩ := h1
    have wn : ∀ i, i < l.length → 0 ≤ fq.getD (j + 1 + i) 0 := by
      intro i hi
      obtain ⟨_, q, _, k2, _, _, k3, _⟩ := hw (i + 1) (by simpa using hi)
      rw [List.getD_eq_getElem?_getD, show j + 1 + i = j + (i + 1) by omega, k2]
      exact k3
    have sn : 0 ≤ ∑ i ∈ Finset.range l.length, fq.getD (j + 1 + i) 0 :=
      Finset.sum_nonneg fun i hi => wn i (Finset.mem_range.1 hi)
    have hx' : x + q0 + ∑ i ∈ Finset.range l.length, fq.getD (j + 1 + i) 0 ≤ 1 := by
      rw [List.length_cons, Finset.sum_range_succ'] at hx
      have e0 : fq.getD (j + 0) 0 = q0 := by rw [List.getD_eq_getElem?_getD, Nat.add_zero, g2]; rfl
      rw [e0] at hx
      have e1 : ∀ i, fq.getD (j + (i + 1)) 0 = fq.getD (j + 1 + i) 0 := fun i => by
        rw [show j + (i + 1) = j + 1 + i by omega]
      simp only [e1] at hx
      linarith
    have q1 : q0 ≤ 1 := by linarith
    have qx0 : 0 ≤ q0 * q.2 := mul_nonneg w2 b2
    have qx1 : q0 * q.2 ≤ q0 := mul_le_of_le_one_right w2 b3
    have ny := a4.nonneg a2
    have ny1 := b4.nonneg b2
    have nz := w3.nonneg w2
    have pe : RelErr (1 + e) (z * y1) (q0 * q.2) := w3.mul b4 w2 b2
    have hlen : j + (l.length + 1) + 2 ≤ c := by simpa using hj
    have pn : 0 ≤ z * y1 := mul_nonneg nz ny1
    have p2 : z * y1 ≤ 2 := two (by omega) qx0 (by linarith) pe
    have pz : z * y1 = 0 ∨ t * L ≤ z * y1 := by
      rcases w4 with h | h
      · exact .inl (by rw [h, zero_mul])
      · rcases b5 with h' | h'
        · exact .inl (by rw [h', mul_zero])
        · exact .inr (mul_le_mul h h' L0.le nz)
    obtain ⟨m, em, hm⟩ := hB.mul w1 b1 (by rw [abs_of_nonneg pn]; exact p2)
    have lc : ∀ {k : Nat} {s : ℚ}, k ≤ c → (s = 0 ∨ (t * L) * (1 - uro) ^ k ≤ s) → (s = 0 ∨ (2 : ℚ) ^ (-1022 : ℤ) ≤ s) :=
      fun hk h => h.imp_right fun h => ht.trans ((low hk).trans h)
    have md : RelErr 1 m (z * y1) := hm.relErr pn (lc (k := 0) (by omega) (by simpa using pz)) p2
    have mn := md.nonneg pn
    have mz : m = 0 ∨ (t * L) * (1 - uro) ^ 1 ≤ m := by simpa using md.keep pz
    have me : RelErr (e + 2 + j) m (q0 * q.2) := (md.trans pe).mono qx0 (by omega)
    have se := a4.add me
    have sn0 : 0 ≤ x + q0 * q.2 := add_nonneg a2 qx0
    have s1 : x + q0 * q.2 ≤ 1 := by linarith
    have snn : 0 ≤ y + m := add_nonneg ny mn
    have s2 : y + m ≤ 2 := two (by omega) sn0 s1 se
    have sz : y + m = 0 ∨ (t * L) * (1 - uro) ^ (1 + j) ≤ y + m := by
      rcases a5 with h | h
      · rcases mz with h' | h'
        · exact .inl (by rw [h, h', add_zero])
        · exact .inr (by have := low (show 1 ≤ 1 + j by omega); linarith)
      · exact .inr (by linarith)
    obtain ⟨r, er, hr⟩ := hB.add a1 em (by rw [abs_of_nonneg snn]; exact s2)
    have rd : RelErr 1 r (y + m) := hr.relErr snn (lc (by omega) sz) s2
    have rz := rd.keep sz
    have step := ih (j + 1) (a + b * p.2) (x + q0 * q.2) (by omega)
      ⟨r, er, sn0, s1, (rd.trans se).mono sn0 (by omega), by
        rcases rz with h | h
        · exact .inl h
        · exact .inr (by rw [show 1 + (j + 1) = 1 + j + 1 by omega, pow_succ, ← mul_assoc]; exact h)⟩
      (fun i hi => by
        have := hw (i + 1) (by simpa using hi)
        rwa [show j + (i + 1) = j + 1 + i by omega] at this)
      (by linarith)
    rw [show e + 2 + (j + 1) + l.length = e + 2 + j + (p :: l).length by simp; omega,
      show 1 + (j + 1) + l.length = 1 + j + (p :: l).length by simp; omega] at step
    exact step

end

namespace Mda

section
variable {T : Type} [DecidableEq T] [Fixed T]
variable {A : Type} [Zero A] [One A] [Add A] [Sub A] [Mul A] {val : A → Option ℚ}

/-- The whole pass. -/
theorem prob_close (hB : Binary64 A val) {m : Arena T} (wf : WF RFull m) {N M : Nat} {t : ℚ} (t0 : 0 < t) (t1 : t ≤ 1)
    (he : (1 + uro) ^ ((M + 2) * N) ≤ 2) (ht : (2 : ℚ) ^ (-1022 : ℤ) ≤ (t * (1 - uro) ^ (M + 2)) ^ N)
    {pv : String → Option (List A)} {qv : String → Option (List ℚ)} {i : Nat} (hi : m.Live i) (hN : m.rank i ≤ N)
    (hw : ∀ j k ch hd, Reach m i j → m.nodes[j]? = some (.nt k ch) → m.headers[k]? = some hd →
      ch.length ≤ M ∧ ∃ fp fq, pv hd.label = some fp ∧ qv hd.label = some fq ∧
        (∀ x, x < ch.length → ∃ b q, fp[x]? = some b ∧ fq[x]? = some q ∧ Weight val t b q) ∧
        ∑ x ∈ Finset.range ch.length, fq.getD x 0 ≤ 1) (s : Sel T) :
    Option.Rel (MClose val ((M + 2) * N) ((t * (1 - uro) ^ (M + 2)) ^ N)) (prob m pv s i) (prob m qv s i) := by
  have c0 : 0 < t * (1 - uro) ^ (M + 2) := mul_pos t0 (lo_pos _)
  have c1 : t * (1 - uro) ^ (M + 2) ≤ 1 := mul_le_one₀ t1 (lo_pos _).le (lo_le_one _)
  let γ : Nat → A → ℚ → Prop := fun j =>
    MClose val ((M + 2) * m.rank j) ((t * (1 - uro) ^ (M + 2)) ^ m.rank j)
  have key : Option.Rel (fun p q => γ i p.1 q.1 ∧ MemoRel γ p.2 q.2) (probC m pv s i AMap.empty)
      (probC m qv s i AMap.empty) := by
    refine memoFold_memoRel (γ := γ) (Q := Reach m i) (fun j h ch hj hn c hc => hj.step hn hc) ?_ ?_ _ i _ _ (.refl i)
      MemoRel.empty
    · intro j u hn
      have hz : γ j 0 0 := ⟨0, hB.zero, le_rfl, zero_le_one, RelErr.zero _, .inl rfl⟩
      have ho : γ j 1 1 := by
        show MClose val _ _ _ _
        rw [rank_term hn]
        exact ⟨1, hB.one, zero_le_one, le_rfl, RelErr.refl 1, .inr (by simp)⟩
      unfold probLeaf
      split
      · exact Option.Rel.some hz
      · split
        · exact Option.Rel.some ho
        · exact Option.Rel.some hz
    · intro j h ch l l' hj hn hl hr
      have lj := wf.reach_live hj hi
      obtain ⟨hd, e1, _, hrk, _, _, hk⟩ := wf.nt lj hn
      obtain ⟨hM, fp, fq, f1, f2, f3, f4⟩ := hw j h ch hd hj hn e1
      have hlab : m.label? j = some hd.label := by simp [label?, hn, e1]
      simp only [probComb, hlab, f1, f2]
      have hlen : l.length = ch.length := by rw [← hl, List.length_map]
      have hrN : m.rank j ≤ N := (wf.reach_rank_le hi hj).trans hN
      obtain ⟨k, hkk⟩ : ∃ k, m.rank j = k + 1 := ⟨m.rank j - 1, by omega⟩
      have hr' : List.Forall₂ (fun (p : Nat × A) (q : Nat × ℚ) => p.1 = q.1 ∧
          MClose val ((M + 2) * k) ((t * (1 - uro) ^ (M + 2)) ^ k) p.2 q.2) l l' := by
        have hmem : ∀ p ∈ l, p.1 ∈ ch := fun p hp => by rw [← hl]; exact List.mem_map_of_mem hp
        clear hl hlen
        induction hr with
        | nil => exact List.Forall₂.nil
        | cons h1 _ ih =>
          refine List.Forall₂.cons ⟨h1.1, ?_⟩ (ih fun p hp => hmem p (List.mem_cons_of_mem _ hp))
          have hrk' := (hk _ (hmem _ List.mem_cons_self)).2
          exact h1.2.mono (Nat.mul_le_mul_left _ (by omega)) (tiny_mono c0 c1 (by omega))
      have e2 : (M + 2) * k + (M + 2) = (M + 2) * m.rank j := by rw [hkk, Nat.mul_succ]
      have e3 : (t * (1 - uro) ^ (M + 2)) ^ m.rank j = (t * (t * (1 - uro) ^ (M + 2)) ^ k) * (1 - uro) ^ (M + 2) := by
        rw [hkk, pow_succ]; ring
      have := dot_close hB (t := t) (L := (t * (1 - uro) ^ (M + 2)) ^ k) t0 (pow_pos c0 k) (c := M + 2)
        (e := (M + 2) * k) (fp := fp) (fq := fq)
        (by
          rw [e2]
          exact (pow_le_pow_right₀ (by have := uro_pos; linarith) (Nat.mul_le_mul_left _ hrN)).trans he)
        (by rw [← e3]; exact ht.trans (tiny_mono c0 c1 hrN)) l l' hr' 0 0 0 (by omega)
        ⟨0, hB.zero, le_rfl, zero_le_one, RelErr.zero _, .inl rfl⟩
        (by intro x hx; rw [Nat.zero_add]; exact f3 x (by omega))
        (by rw [zero_add, hlen]; simpa using f4)
      refine rel_imp this ?_
      intro r x h
      show MClose val _ _ _ _
      rw [e3, ← e2]
      exact h.mono (by omega) (mul_le_mul_of_nonneg_left
        (pow_le_pow_of_le_one (by have := uro_le; linarith) (by have := uro_pos; linarith) (by omega))
        (mul_pos t0 (pow_pos c0 k)).le)
  refine rel_map key fun p q h => ?_
  exact h.1.mono (Nat.mul_le_mul_left _ hN) (tiny_mono c0 c1 hN)

end

end Mda
end DD
