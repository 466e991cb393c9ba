import Verif.Mss.FloatProb
import Verif.Props.BddAnalysis
import Verif.Props.MssAnalysis

/-!
# Property C73: `prob` in `f64`

`A` with `val` is any arithmetic that rounds like binary64 (`Binary64`, Core/Float.lean), `val a` the number that
`a` stands for.  `f64::EPSILON` is `2 ^ -52`.
-/

set_option autoImplicit false
set_option linter.unusedSectionVars false
set_option linter.unusedVariables false

namespace DD.Props
open Arena Mtmdd2

/-- `f64::EPSILON`. -/
def eps64 : ℚ := 1 / 2 ^ 52

theorem eps64_eq : eps64 = 2 * uro := by norm_num [eps64, uro]

section
variable {A : Type} [Zero A] [One A] [Add A] [Sub A] [Mul A] {val : A → Option ℚ}

/-! ## BDDs -/

section
variable {w : World}

/-- The numbers that the entries of the table stand for. -/
def realPv (val : A → Option ℚ) (pv : String → Option A) : String → Option ℚ := fun x => (pv x).bind val

/-- An entry with its number; a missing entry is 0. -/
theorem entry_val (hB : Binary64 A val) {pv : String → Option A} {x : String} {P : ℚ → Prop} (h0 : P 0)
    (h : ∀ a, pv x = some a → ∃ q, val a = some q ∧ P q) :
    val ((pv x).getD 0) = some ((realPv val pv x).getD 0) ∧ P ((realPv val pv x).getD 0) := by
  unfold realPv
  cases hx : pv x with
  | none => exact ⟨hB.zero, h0⟩
  | some a =>
    obtain ⟨q, e, hq⟩ := h a hx
    simp only [Option.getD_some, Option.bind_some, e]
    exact ⟨trivial, hq⟩

theorem bddProb_close {γ : Nat → A → ℚ → Prop} (mono : ∀ {k k' a x}, γ k a x → k ≤ k' → γ k' a x)
    (z : γ 0 0 0) (o : γ 0 1 1) (hw : w.Reachable) {f : Nat} {F : BFun} (hf : w.Denotes f F) {names : List String}
    (hnm : Names w names) {pv : String → Option A}
    (node : ∀ k x a0 a1 x0 x1, k < names.length → x ∈ names → γ k a0 x0 → γ k a1 x1 →
      γ (k + 1) ((1 - (pv x).getD 0) * a0 + (pv x).getD 0 * a1)
        ((1 - (realPv val pv x).getD 0) * x0 + (realPv val pv x).getD 0 * x1)) (ss : List Bool) :
    ∃ r, w.bddProb pv ss f = some r ∧ γ names.length r (probSpec names.length (probs names (realPv val pv)) F ss) := by
  have h0 := C14_prob hw hf hnm (realPv val pv) ss
  obtain ⟨B, r⟩ := hw.rel
  obtain ⟨i, h1, h2⟩ := denotes_get r hf
  rw [names_iff r] at hnm
  subst hnm
  unfold World.bddProb at h0 ⊢
  rw [h1] at h0 ⊢
  simp only at h0 ⊢
  have key := Bdd.prob_close r.mok.inv (γ := γ) mono z o (pv := pv) (qv := realPv val pv) (N := B.names.length)
    (fun j hj => rank_le_names r hj)
    (fun k x a0 a1 x0 x1 hk hx => by
      obtain ⟨hd, hm, rfl⟩ := hx
      refine node k hd.label a0 a1 x0 x1 hk ?_
      rw [r.mok.hdrs] at hm
      obtain ⟨l, hl⟩ := List.mem_iff_getElem?.1 hm
      rw [mkHeaders_get] at hl
      obtain ⟨x, k1, rfl⟩ := hl
      exact List.mem_of_getElem? k1) ss h2.live
  rw [h0] at key
  revert key
  generalize Bdd.prob w.mgr.bdd.arena pv ss i = o
  intro key
  cases key with
  | some h => exact ⟨_, rfl, mono h (rank_le_names r h2.live)⟩

/-- **C73 (BDD).** With probabilities in [0, 1], `prob` in `f64` returns a number in [0, 1] that differs from the
probability that the value lies in `ss` by at most `f64::EPSILON` times the number of variables.  There is no
condition on tiny numbers. -/
theorem C73_bdd (hB : Binary64 A val) (hw : w.Reachable) {f : Nat} {F : BFun} (hf : w.Denotes f F) {names : List String}
    (hnm : Names w names) (pv : String → Option A)
    (hp : ∀ x ∈ names, ∀ a, pv x = some a → ∃ q, val a = some q ∧ 0 ≤ q ∧ q ≤ 1) (ss : List Bool) :
    ∃ r y, w.bddProb pv ss f = some r ∧ val r = some y ∧ 0 ≤ y ∧ y ≤ 1 ∧
      |y - probSpec names.length (probs names (realPv val pv)) F ss| ≤ names.length * eps64 := by
  obtain ⟨r, h1, y, h2, h3, h4, _, _, h5⟩ := bddProb_close (γ := Close val) (fun h hk => h.mono hk)
    ⟨0, hB.zero, le_rfl, zero_le_one, le_rfl, zero_le_one, by simp⟩
    ⟨1, hB.one, zero_le_one, le_rfl, zero_le_one, le_rfl, by simp⟩ hw hf hnm (pv := pv)
    (fun k x a0 a1 x0 x1 _ hx k0 k1 => by
      obtain ⟨e1, e2, e3⟩ := entry_val hB (P := fun q => 0 ≤ q ∧ q ≤ 1) ⟨le_rfl, zero_le_one⟩ (hp x hx)
      exact Close.node hB e1 e2 e3 k0 k1) ss
  exact ⟨r, y, h1, h2, h3, h4, by rw [eps64_eq]; exact h5⟩

/-- `3 n` errors do not bring numbers below the normal range. -/
theorem normal_of {t : ℚ} (t0 : 0 < t) {c n : Nat} (hn : ((c * n : Nat) : ℚ) * uro ≤ 1 / 2)
    (ht : (2 : ℚ) ^ (-1021 : ℤ) ≤ t ^ n) : (2 : ℚ) ^ (-1022 : ℤ) ≤ (t * (1 - uro) ^ c) ^ n := by
  have h1 : (1 : ℚ) / 2 ≤ (1 - uro) ^ (c * n) := by
    have dn : ∀ k : Nat, 1 - k * uro ≤ (1 - uro) ^ k := by
      intro k
      have := one_add_mul_le_pow (a := -uro) (by have := uro_le; linarith) k
      have e : (1 : ℚ) + -uro = 1 - uro := by ring
      rw [e] at this
      linarith
    have := dn (c * n)
    linarith
  have h2 : (2 : ℚ) ^ (-1022 : ℤ) = (2 : ℚ) ^ (-1021 : ℤ) * (1 / 2) := by
    rw [show (-1022 : ℤ) = -1021 + -1 by norm_num, zpow_add₀ (by norm_num)]
    norm_num
  rw [mul_pow, ← pow_mul, h2]
  exact mul_le_mul ht h1 (by norm_num) (pow_pos t0 n).le

/-- **C73 (BDD, relative error).** If each probability `q` is 0 or 1 or between `t` and `1 - t`, where products of as
many factors as there are variables do not leave the range of normal numbers (`2 ^ -1021 ≤ t ^ n`), then the
relative error of `prob` in `f64` is at most `3 n` times `f64::EPSILON`, however small the probability is. -/
theorem C73_bdd_relative (hB : Binary64 A val) (hw : w.Reachable) {f : Nat} {F : BFun} (hf : w.Denotes f F)
    {names : List String} (hnm : Names w names) (pv : String → Option A) {t : ℚ} (t0 : 0 < t) (t1 : t ≤ 1)
    (ht : (2 : ℚ) ^ (-1021 : ℤ) ≤ t ^ names.length) (hn : 3 * names.length ≤ 2 ^ 52)
    (hp : ∀ x ∈ names, ∀ a, pv x = some a → ∃ q, val a = some q ∧ (q = 0 ∨ q = 1 ∨ t ≤ q ∧ q ≤ 1 - t))
    (ss : List Bool) :
    ∃ r y, w.bddProb pv ss f = some r ∧ val r = some y ∧
      |y - probSpec names.length (probs names (realPv val pv)) F ss| ≤
        3 * names.length * eps64 * probSpec names.length (probs names (realPv val pv)) F ss := by
  have hn' : ((3 * names.length : Nat) : ℚ) * uro ≤ 1 / 2 := by
    have : ((3 * names.length : Nat) : ℚ) ≤ 2 ^ 52 := by exact_mod_cast hn
    unfold uro
    linarith
  have hN := normal_of t0 hn' ht
  have c0 : 0 < t * (1 - uro) ^ 3 := mul_pos t0 (lo_pos 3)
  have c1 : t * (1 - uro) ^ 3 ≤ 1 := mul_le_one₀ t1 (lo_pos 3).le (lo_le_one 3)
  obtain ⟨r, h1, y, h2, _, h4, h5, _⟩ := bddProb_close (γ := RClose val t) (fun h hk => h.mono t0 t1 hk)
    ⟨0, hB.zero, zero_le_one, le_rfl, RelErr.zero _, .inl rfl⟩
    ⟨1, hB.one, le_rfl, zero_le_one, RelErr.refl 1, .inr (by simp)⟩ hw hf hnm (pv := pv)
    (fun k x a0 a1 x0 x1 hk hx k0 k1 => by
      obtain ⟨e1, e2⟩ := entry_val hB (P := fun q => q = 0 ∨ q = 1 ∨ t ≤ q ∧ q ≤ 1 - t) (.inl rfl) (hp x hx)
      refine RClose.node hB t0 t1 (hN.trans (tiny_mono c0 c1 hk)) e1 ?_ ?_ k0 k1
      · rcases e2 with h | h | h
        · exact .inl h
        · exact .inr (by rw [h]; exact t1)
        · exact .inr h.1
      · rcases e2 with h | h | h
        · exact .inr (by rw [h]; linarith)
        · exact .inl (by rw [h]; ring)
        · exact .inr (by linarith [h.2])) ss
  refine ⟨r, y, h1, h2, (h5.abs h4 hn').trans (le_of_eq ?_)⟩
  rw [eps64_eq]
  push_cast
  ring

end

/-! ## MDDs -/

section
variable {w : MWorld} {vs : List (String × Nat)}

/-- The exact table. -/
def exactPv (vs : List (String × Nat)) (q : Nat → Nat → ℚ) : String → Option (List ℚ) := fun x =>
  let l := (vs.map Prod.fst).idxOf x
  some ((List.range (states vs l)).map (q l))

theorem exactPv_get (hnd : (vs.map Prod.fst).Nodup) (q : Nat → Nat → ℚ) {l : Nat} {p : String × Nat}
    (hp : vs[l]? = some p) : exactPv vs q p.1 = some ((List.range p.2).map (q l)) := by
  have hl : l < (vs.map Prod.fst).length := by simpa using (List.getElem?_eq_some_iff.1 hp).1
  have e : (vs.map Prod.fst)[l] = p.1 := by
    have := (List.getElem?_eq_some_iff.1 hp).2
    simp [this]
  have e2 : (vs.map Prod.fst).idxOf p.1 = l := by rw [← e]; exact hnd.idxOf_getElem l hl
  unfold exactPv
  simp only [e2, states_get hp]

theorem Forest.prob_close {T : Type} [DecidableEq T] [Fixed T] {m : Arena T} {s : Sel T} {ss : List Int} {i : Nat}
    {F : MFun} (h : Forest m s vs ss i F) (hB : Binary64 A val) {pv : String → Option (List A)} {q : Nat → Nat → ℚ}
    {t : ℚ} {M : Nat} (t0 : 0 < t) (t1 : t ≤ 1)
    (he : (1 + uro) ^ ((M + 2) * vs.length) ≤ 2)
    (ht : (2 : ℚ) ^ (-1022 : ℤ) ≤ (t * (1 - uro) ^ (M + 2)) ^ vs.length)
    (hM : ∀ p ∈ vs, p.2 ≤ M) (hq : ∀ l, l < vs.length → ∑ j ∈ Finset.range (states vs l), q l j = 1)
    (hpv : ∀ l p, vs[l]? = some p → MDepends vs F l → ∃ fp, pv p.1 = some fp ∧ ∀ j, j < p.2 →
      ∃ a, fp[j]? = some a ∧ Weight val t a (q l j)) :
    Option.Rel (MClose val ((M + 2) * vs.length) ((t * (1 - uro) ^ (M + 2)) ^ vs.length))
      (Mda.prob m pv s i) (Mda.prob m (exactPv vs q) s i) := by
  refine Mda.prob_close hB h.wf t0 t1 he ht h.live h.rank_le ?_ s
  intro j k ch hd hj hn hh
  obtain ⟨hd', e1, hlen, _⟩ := h.wf.nt (h.wf.reach_live hj h.live) hn
  rw [hh] at e1
  cases e1
  have hdep := (h.depends _).2 ⟨j, k, ch, hd, hj, hn, hh, rfl⟩
  obtain ⟨p, g1, rfl⟩ := h.header hh
  simp only at hdep hlen ⊢
  obtain ⟨fp, f1, f2⟩ := hpv k p g1 hdep
  refine ⟨by rw [hlen]; exact hM p (List.mem_of_getElem? g1), fp, _, f1, exactPv_get h.nodup q g1, ?_, ?_⟩
  · intro x hx
    obtain ⟨a, a1, a2⟩ := f2 x (by omega)
    exact ⟨a, q k x, a1, by simp [show x < p.2 by omega], a2⟩
  · have := hq k (List.getElem?_eq_some_iff.1 g1).1
    rw [states_get g1] at this
    rw [hlen, ← this]
    refine le_of_eq (Finset.sum_congr rfl fun x hx => ?_)
    have := Finset.mem_range.1 hx
    simp [List.getD_eq_getElem?_getD, this]

/-- **C73 (MDD).** Let the weights `q` of each variable's states add up to one, and let the table give each of them
with a relative error of at most half of `f64::EPSILON`, zero or at least `t`.  With at most `M` states per variable,
`n` variables and `2 ^ -1021 ≤ t ^ n`, the relative error of `prob` in `f64` is at most `(M + 2) n` times
`f64::EPSILON`. -/
theorem C73_mdd (hB : Binary64 A val) (hw : w.Reachable) (hv : MVars w vs) {f : Nat} {F : MFun} (hf : w.Has f F)
    (pv : String → Option (List A)) (ss : List Int) (q : Nat → Nat → ℚ) {M : Nat} (hM : ∀ p ∈ vs, p.2 ≤ M)
    {t : ℚ} (t0 : 0 < t) (t1 : t ≤ 1) (ht : (2 : ℚ) ^ (-1021 : ℤ) ≤ t ^ vs.length)
    (hn : (M + 2) * vs.length ≤ 2 ^ 52)
    (hq : ∀ l, l < vs.length → ∑ j ∈ Finset.range (states vs l), q l j = 1)
    (hpv : ∀ l p, vs[l]? = some p → MDepends vs F l → ∃ fp, pv p.1 = some fp ∧ ∀ j, j < p.2 →
      ∃ a z, fp[j]? = some a ∧ val a = some z ∧ 0 ≤ q l j ∧ |z - q l j| ≤ eps64 / 2 * q l j ∧ (z = 0 ∨ t ≤ z)) :
    ∃ r y, w.prob pv ss f = some r ∧ val r = some y ∧
      |y - mprobSpec vs q ss F| ≤ (M + 2) * vs.length * eps64 * mprobSpec vs q ss F := by
  have hn' : (((M + 2) * vs.length : Nat) : ℚ) * uro ≤ 1 / 2 := by
    have : (((M + 2) * vs.length : Nat) : ℚ) ≤ 2 ^ 52 := by exact_mod_cast hn
    unfold uro
    linarith
  have hN := normal_of t0 hn' ht
  have he : (1 + uro) ^ ((M + 2) * vs.length) ≤ 2 := by
    have h1 : RelErr ((M + 2) * vs.length) ((1 + uro) ^ ((M + 2) * vs.length)) 1 := by
      refine ⟨?_, by simp⟩
      rw [one_mul]
      exact (lo_le_one _).trans (hi_ge_one _)
    have h2 := (abs_le.1 (h1.abs zero_le_one hn')).2
    linarith
  have hpv' : ∀ l p, vs[l]? = some p → MDepends vs F l → ∃ fp, pv p.1 = some fp ∧ ∀ j, j < p.2 →
      ∃ a, fp[j]? = some a ∧ Weight val t a (q l j) := by
    intro l p hp hd
    obtain ⟨fp, f1, f2⟩ := hpv l p hp hd
    refine ⟨fp, f1, fun j hj => ?_⟩
    obtain ⟨a, z, a1, a2, a3, a4, a5⟩ := f2 j hj
    refine ⟨a, a1, z, a2, a3, ?_, a5⟩
    have := abs_le.1 a4
    rw [show eps64 / 2 = uro by norm_num [eps64, uro]] at this
    constructor <;> rw [pow_one] <;> linarith
  have fin : Option.Rel (MClose val ((M + 2) * vs.length) ((t * (1 - uro) ^ (M + 2)) ^ vs.length))
      (w.prob pv ss f) (w.prob (exactPv vs q) ss f) := by
    unfold MWorld.prob MWorld.query
    rcases forest hw hv hf ss with ⟨i, hx, h⟩ | ⟨i, hx, h⟩
    · rw [hx]; exact h.prob_close hB t0 t1 he hN hM hq hpv'
    · rw [hx]; exact h.prob_close hB t0 t1 he hN hM hq hpv'
  have hnd : (vs.map Prod.fst).Nodup := by
    rcases forest hw hv hf ss with ⟨i, -, h⟩ | ⟨i, -, h⟩
    · exact h.nodup
    · exact h.nodup
  rw [C36_prob hw hv hf (exactPv vs q) ss q hq (fun l p hp _ =>
    ⟨_, exactPv_get hnd q hp, fun j hj => by simp [hj]⟩)] at fin
  revert fin
  generalize w.prob pv ss f = o
  intro fin
  cases fin with
  | some h =>
    obtain ⟨y, h1, h2, _, h4, _⟩ := h
    refine ⟨_, y, rfl, h1, (h4.abs h2 hn').trans (le_of_eq ?_)⟩
    rw [eps64_eq]
    push_cast
    ring

end
end

/-! ## Concrete cases

`F64` rounds every operation to some nearest binary64 number. -/

/-- A quarter. -/
def quarter64 : F64 := ⟨1 / 4, 1, -2, by norm_num, by norm_num, by norm_num, by norm_num⟩

/-- A third, rounded: `6004799503160661 / 2 ^ 54`. -/
def third64 : F64 := ⟨6004799503160661 / 2 ^ 54, 6004799503160661, -54, by norm_num, by norm_num, by norm_num,
  by rw [zpow_neg]; norm_num⟩

/-- Any session with 100 variables, all of them true with probability 1/4. -/
example {w : World} (hw : w.Reachable) {f : Nat} {F : BFun} (hf : w.Denotes f F) {names : List String}
    (hnm : Names w names) (hn : names.length = 100) :
    ∃ r y, w.bddProb (fun _ => some quarter64) [true] f = some r ∧ r.1 = y ∧
      |y - probSpec 100 (probs names fun _ => some (1 / 4)) F [true]| ≤
        300 * eps64 * probSpec 100 (probs names fun _ => some (1 / 4)) F [true] := by
  obtain ⟨r, y, h1, h2, h3⟩ := C73_bdd_relative binary64_F64 hw hf hnm (fun _ => some quarter64) (t := 1 / 4)
    (by norm_num) (by norm_num) (by
      rw [hn]
      exact (zpow_le_zpow_right₀ (by norm_num) (by norm_num : (-1021 : ℤ) ≤ -200)).trans
        (by rw [zpow_neg]; norm_num)) (by rw [hn]; norm_num)
    (fun x _ a ha => by cases ha; exact ⟨1 / 4, rfl, .inr (.inr ⟨le_rfl, by norm_num⟩)⟩) [true]
  cases h2
  refine ⟨r, r.1, h1, rfl, ?_⟩
  rw [hn] at h3
  have e : (3 : ℚ) * ((100 : Nat) : ℚ) = 300 := by norm_num
  rw [e] at h3
  exact h3

/-- A variable with three equally probable states: the table entry is not exact, and the sum of the three entries is
not 1. -/
example {w : MWorld} (hw : w.Reachable) (hv : MVars w [("x", 3)]) {f : Nat} {F : MFun} (hf : w.Has f F) (ss : List Int) :
    ∃ r y, w.prob (fun _ => some [third64, third64, third64]) ss f = some r ∧ r.1 = y ∧
      |y - mprobSpec [("x", 3)] (fun _ _ => 1 / 3) ss F| ≤ 5 * eps64 * mprobSpec [("x", 3)] (fun _ _ => 1 / 3) ss F := by
  obtain ⟨r, y, h1, h2, h3⟩ := C73_mdd binary64_F64 hw hv hf (fun _ => some [third64, third64, third64]) ss
    (fun _ _ => 1 / 3) (M := 3) (by simp) (t := 1 / 4) (by norm_num) (by norm_num)
    ((zpow_le_zpow_right₀ (by norm_num) (by norm_num : (-1021 : ℤ) ≤ -2)).trans (by rw [zpow_neg]; norm_num))
    (by norm_num)
    (by
      intro l hl
      have : l = 0 := by simpa using hl
      subst this
      simp [states])
    (by
      intro l p hp _
      refine ⟨_, rfl, fun j hj => ⟨third64, third64.1, ?_, rfl, by norm_num, ?_, .inr ?_⟩⟩
      · cases l with
        | zero =>
          simp only [List.getElem?_cons_zero, Option.some.injEq] at hp
          subst hp
          match j, hj with
          | 0, _ => rfl
          | 1, _ => rfl
          | 2, _ => rfl
        | succ l => simp at hp
      · rw [abs_le]
        norm_num [third64, eps64]
      · norm_num [third64])
  cases h2
  refine ⟨r, r.1, h1, rfl, ?_⟩
  have e : ((3 : Nat) + 2 : ℚ) * (([("x", 3)] : List (String × Nat)).length : ℚ) = 5 := by norm_num
  rw [e] at h3
  exact h3

end DD.Props
