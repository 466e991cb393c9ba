import Verif.Props.LawsMss
import Verif.Props.MssSession

/-!
# C88: expected performance, series and parallel multi-state systems

The expected value of an integer-valued handle, computed by the client from `MddNode::prob` calls
(/repo/mss/src/mdd.rs:884-898, mdd_prob.rs): the sum over the values of the value times its probability.
-/

set_option autoImplicit false
set_option linter.unusedSectionVars false
set_option linter.unusedVariables false

namespace DD.Props
open Arena Mda

variable {w : MWorld} {vs : List (String × Nat)}

/-- Every value of the function is a number in `ss`. -/
def Covers (vs : List (String × Nat)) (ss : List Int) (F : MFun) : Prop :=
  ∀ a, ValidV vs a → ∃ z ∈ ss, F a = .v (some z)

/-- The number (0 for what is no number). -/
def intOf : MVal → Int
  | .v (some z) => z
  | _ => 0

section ring
variable {R : Type} [CommRing R]

/-- `e` is the sum, over the values in `ss`, of the value times what `prob` returns for it. -/
def Expectation (w : MWorld) (pv : String → Option (List R)) (ss : List Int) (f : Nat) (e : R) : Prop :=
  ∃ P : Int → R, (∀ v ∈ ss, w.prob pv [v] f = some (P v)) ∧ e = ∑ v ∈ ss.toFinset, (v : R) * P v

theorem msum_mul_left {rng : Nat → Nat} (q : Nat → Nat → R) (n : Nat) (c : R) (G : (Nat → Nat) → R) :
    msum rng q n (fun a => c * G a) = c * msum rng q n G := by
  unfold msum wsum
  rw [Finset.mul_sum]
  exact Finset.sum_congr rfl fun a _ => by ring

theorem msum_finset {ι : Type} {rng : Nat → Nat} (q : Nat → Nat → R) (n : Nat) (s : Finset ι)
    (G : ι → (Nat → Nat) → R) :
    msum rng q n (fun a => ∑ i ∈ s, G i a) = ∑ i ∈ s, msum rng q n (G i) := by
  unfold msum wsum
  rw [Finset.sum_comm]
  exact Finset.sum_congr rfl fun a _ => by rw [Finset.mul_sum]

theorem expect_msum (hw : w.Reachable) (hv : MVars w vs) {f : Nat} {F : MFun} (hf : w.Has f F)
    {pv : String → Option (List R)} (hd : IsDist vs pv) {ss : List Int} (hc : Covers vs ss F) (e : R) :
    Expectation w pv ss f e ↔
      e = msum (states vs) (tableQ vs pv) vs.length (fun a => ((intOf (F a) : Int) : R)) := by
  have key : ∑ v ∈ ss.toFinset, (v : R) * msum (states vs) (tableQ vs pv) vs.length (mind R [v] F) =
      msum (states vs) (tableQ vs pv) vs.length (fun a => ((intOf (F a) : Int) : R)) := by
    simp only [← msum_mul_left]
    rw [← msum_finset]
    refine msum_congr (fun _ _ _ _ => rfl) fun a ha => ?_
    obtain ⟨z, hz, e⟩ := hc a (vb_valid ha)
    rw [Finset.sum_eq_single_of_mem z (List.mem_toFinset.2 hz)]
    · simp [mind, e, InSet, intOf]
    · intro v _ hne
      simp [mind, e, InSet, Ne.symm hne]
  constructor
  · rintro ⟨P, h1, rfl⟩
    rw [← key]
    refine Finset.sum_congr rfl fun v hv' => ?_
    have := h1 v (List.mem_toFinset.1 hv')
    rw [prob_msum hw hv hf hd] at this
    rw [Option.some.inj this]
  · rintro rfl
    exact ⟨fun v => msum (states vs) (tableQ vs pv) vs.length (mind R [v] F), fun v _ => prob_msum hw hv hf hd _,
      key.symm⟩

/-- **C88.** The sum of value times probability, computed with `prob`, is the expected value: the sum over all
state vectors of the value times the product of the states' probabilities. Which list of values the client uses
does not matter, as long as it contains all values of the function. -/
theorem C88_expect (hw : w.Reachable) (hv : MVars w vs) {f : Nat} {F : MFun} (hf : w.Has f F)
    {pv : String → Option (List R)} (hd : IsDist vs pv) {ss : List Int} (hc : Covers vs ss F) (e : R) :
    Expectation w pv ss f e ↔
      e = ∑ a : MAssign vs vs.length, (∏ k : Fin vs.length, tableQ vs pv k (a k)) * (intOf (F (mextend a)) : R) :=
  expect_msum hw hv hf hd hc e

theorem bin_ok (hw : w.Reachable) (hv : MVars w vs) {f g : Nat} {F G : MFun} (hf : w.Has f F) (hg : w.Has g G)
    (o : M2Bin) : ∃ w' V, w.step (.bin o f g) = some (.handle w.hs.next, w') ∧ w'.Reachable ∧ MVars w' vs ∧
      w'.Has w.hs.next V ∧ ∀ a, ValidV vs a → o.Rel (F a) (G a) (V a) := by
  obtain ⟨u, w', vs', h1, ⟨rfl, h2⟩, h3, _, h5⟩ := C34_effect hw hv (c := .bin o f g) trivial (by
    intro i hi
    simp only [MWorld.operands, List.mem_cons, List.not_mem_nil, or_false] at hi
    rcases hi with rfl | rfl
    · obtain ⟨x, hx, _⟩ := hf; exact ⟨x, hx⟩
    · obtain ⟨x, hx, _⟩ := hg; exact ⟨x, hx⟩)
  obtain ⟨rfl, V, k1, k2⟩ := h2 F G hf hg
  exact ⟨w', V, h1, h5 trivial, h3, k1, k2⟩

/-- The integer operations of the statements below. -/
def intOp : M2Bin → Option (Int → Int → Int)
  | .add => some (· + ·)
  | .sub => some (· - ·)
  | .mul => some (· * ·)
  | .min => some Min.min
  | .max => some Max.max
  | _ => none

theorem rel_int {o : M2Bin} {φ : Int → Int → Int} (ho : intOp o = some φ) {x y : Int} {z : MVal}
    (h : o.Rel (.v (some x)) (.v (some y)) z) : z = .v (some (φ x y)) := by
  cases o <;> simp only [intOp, Option.some.injEq, reduceCtorEq] at ho <;> subst ho <;> exact h

theorem bin_int (hw : w.Reachable) (hv : MVars w vs) {f g : Nat} {F G : MFun} (hf : w.Has f F) (hg : w.Has g G)
    {ss ss' : List Int} (hc : Covers vs ss F) (hc' : Covers vs ss' G) {o : M2Bin} {φ : Int → Int → Int}
    (ho : intOp o = some φ) :
    ∃ w' s V, w.step (.bin o f g) = some (.handle s, w') ∧ w'.Reachable ∧ MVars w' vs ∧ w'.Has s V ∧
      ∀ a, ValidV vs a → ∃ x ∈ ss, ∃ y ∈ ss', F a = .v (some x) ∧ G a = .v (some y) ∧ V a = .v (some (φ x y)) := by
  obtain ⟨w', V, h1, h2, h3, h4, h5⟩ := bin_ok hw hv hf hg o
  refine ⟨w', _, V, h1, h2, h3, h4, fun a ha => ?_⟩
  obtain ⟨x, hx, ex⟩ := hc a ha
  obtain ⟨y, hy, ey⟩ := hc' a ha
  have := h5 a ha
  rw [ex, ey] at this
  exact ⟨x, hx, y, hy, ex, ey, rel_int ho this⟩

/-- **C88.** Expectation is linear, whatever the dependence of the two functions: the handle returned by `add` has
the sum, that by `sub` the difference. -/
theorem C88_linear (hw : w.Reachable) (hv : MVars w vs) {f g : Nat} {F G : MFun} (hf : w.Has f F) (hg : w.Has g G)
    {pv : String → Option (List R)} (hd : IsDist vs pv) {ss ss' : List Int} (hc : Covers vs ss F)
    (hc' : Covers vs ss' G) :
    ∃ e e', Expectation w pv ss f e ∧ Expectation w pv ss' g e' ∧
      (∃ w' s, w.step (.bin .add f g) = some (.handle s, w') ∧
        ∀ tt, (∀ x ∈ ss, ∀ y ∈ ss', x + y ∈ tt) → Expectation w' pv tt s (e + e')) ∧
      (∃ w' s, w.step (.bin .sub f g) = some (.handle s, w') ∧
        ∀ tt, (∀ x ∈ ss, ∀ y ∈ ss', x - y ∈ tt) → Expectation w' pv tt s (e - e')) := by
  refine ⟨_, _, (expect_msum hw hv hf hd hc _).2 rfl, (expect_msum hw hv hg hd hc' _).2 rfl, ?_, ?_⟩
  · obtain ⟨w', s, V, h1, h2, h3, h4, h5⟩ := bin_int hw hv hf hg hc hc' (o := .add) rfl
    refine ⟨w', s, h1, fun tt ht => (expect_msum h2 h3 h4 hd (fun a ha => ?_) _).2 ?_⟩
    · obtain ⟨x, hx, y, hy, _, _, e⟩ := h5 a ha
      exact ⟨_, ht x hx y hy, e⟩
    · rw [← msum_add]
      refine msum_congr (fun _ _ _ _ => rfl) fun a ha => ?_
      obtain ⟨x, hx, y, hy, e1, e2, e⟩ := h5 a (vb_valid ha)
      rw [e1, e2, e]
      simp [intOf]
  · obtain ⟨w', s, V, h1, h2, h3, h4, h5⟩ := bin_int hw hv hf hg hc hc' (o := .sub) rfl
    refine ⟨w', s, h1, fun tt ht => (expect_msum h2 h3 h4 hd (fun a ha => ?_) _).2 ?_⟩
    · obtain ⟨x, hx, y, hy, _, _, e⟩ := h5 a ha
      exact ⟨_, ht x hx y hy, e⟩
    · rw [sub_eq_iff_eq_add, ← msum_add]
      refine msum_congr (fun _ _ _ _ => rfl) fun a ha => ?_
      obtain ⟨x, hx, y, hy, e1, e2, e⟩ := h5 a (vb_valid ha)
      rw [e1, e2, e]
      simp [intOf]

theorem ign_int (hw : w.Reachable) (hv : MVars w vs) {F : MFun} {l : Nat} (hn : ¬ MDepends vs F l) :
    Ign (R := R) (states vs) vs.length (fun a => ((intOf (F a) : Int) : R)) l := by
  intro a x ha hx
  have : F (Function.update a l x) = F a := by
    refine Classical.byContradiction fun hne => hn ⟨_, _, vb_valid (ha.upd' hx), vb_valid ha, fun y hy => ?_, hne⟩
    rw [Function.update_of_ne hy]
  simp only [this]

/-- **C88.** If no variable matters to both functions, the expectation of the handle returned by `mul` is the
product. -/
theorem C88_product (hw : w.Reachable) (hv : MVars w vs) {f g : Nat} {F G : MFun} (hf : w.Has f F) (hg : w.Has g G)
    {pv : String → Option (List R)} (hd : IsDist vs pv) {ss ss' : List Int} (hc : Covers vs ss F)
    (hc' : Covers vs ss' G) (hi : ∀ l, ¬ MDepends vs F l ∨ ¬ MDepends vs G l) :
    ∃ e e' w' s, Expectation w pv ss f e ∧ Expectation w pv ss' g e' ∧
      w.step (.bin .mul f g) = some (.handle s, w') ∧
      ∀ tt, (∀ x ∈ ss, ∀ y ∈ ss', x * y ∈ tt) → Expectation w' pv tt s (e * e') := by
  obtain ⟨w', s, V, h1, h2, h3, h4, h5⟩ := bin_int hw hv hf hg hc hc' (o := .mul) rfl
  refine ⟨_, _, w', s, (expect_msum hw hv hf hd hc _).2 rfl, (expect_msum hw hv hg hd hc' _).2 rfl, h1,
    fun tt ht => (expect_msum h2 h3 h4 hd (fun a ha => ?_) _).2 ?_⟩
  · obtain ⟨x, hx, y, hy, _, _, e⟩ := h5 a ha
    exact ⟨_, ht x hx y hy, e⟩
  · rw [← msum_indep (vs_pos hw hv) hd.sum (fun l _ =>
      (hi l).imp (fun h => ign_int hw hv h) (fun h => ign_int hw hv h))]
    refine msum_congr (fun _ _ _ _ => rfl) fun a ha => ?_
    obtain ⟨x, hx, y, hy, e1, e2, e⟩ := h5 a (vb_valid ha)
    rw [e1, e2, e]
    simp [intOf]

/-- **C88.** What the weaker of two parts loses the stronger gains: the expectations of `min` and `max` add up to
those of the operands. -/
theorem C88_min_max (hw : w.Reachable) (hv : MVars w vs) {f g : Nat} {F G : MFun} (hf : w.Has f F) (hg : w.Has g G)
    {pv : String → Option (List R)} (hd : IsDist vs pv) {ss ss' : List Int} (hc : Covers vs ss F)
    (hc' : Covers vs ss' G) :
    ∃ e e' m M w₁ s₁ w₂ s₂, Expectation w pv ss f e ∧ Expectation w pv ss' g e' ∧
      w.step (.bin .min f g) = some (.handle s₁, w₁) ∧ Expectation w₁ pv (ss ++ ss') s₁ m ∧
      w.step (.bin .max f g) = some (.handle s₂, w₂) ∧ Expectation w₂ pv (ss ++ ss') s₂ M ∧ m + M = e + e' := by
  obtain ⟨w₁, s₁, V, h1, h2, h3, h4, h5⟩ := bin_int hw hv hf hg hc hc' (o := .min) rfl
  obtain ⟨w₂, s₂, U, k1, k2, k3, k4, k5⟩ := bin_int hw hv hf hg hc hc' (o := .max) rfl
  refine ⟨_, _, _, _, w₁, s₁, w₂, s₂, (expect_msum hw hv hf hd hc _).2 rfl, (expect_msum hw hv hg hd hc' _).2 rfl, h1,
    (expect_msum h2 h3 h4 hd (fun a ha => ?_) _).2 rfl, k1, (expect_msum k2 k3 k4 hd (fun a ha => ?_) _).2 rfl, ?_⟩
  · obtain ⟨x, hx, y, hy, _, _, e⟩ := h5 a ha
    exact ⟨_, by rcases min_choice x y with h | h <;> simp [h, hx, hy], e⟩
  · obtain ⟨x, hx, y, hy, _, _, e⟩ := k5 a ha
    exact ⟨_, by rcases max_choice x y with h | h <;> simp [h, hx, hy], e⟩
  · rw [← msum_add, ← msum_add]
    refine msum_congr (fun _ _ _ _ => rfl) fun a ha => ?_
    obtain ⟨x, hx, y, hy, e1, e2, e⟩ := h5 a (vb_valid ha)
    obtain ⟨x', hx', y', hy', e1', e2', e'⟩ := k5 a (vb_valid ha)
    rw [e1] at e1'; rw [e2] at e2'
    simp only [MVal.v.injEq, Option.some.injEq] at e1' e2'
    subst e1' e2'
    rw [e1, e2, e, e']
    simp only [intOf]
    rw [← Int.cast_add, ← Int.cast_add, min_add_max]

/-- **C88.** Series system: if no variable matters to both parts, the probability that `min` is at least `v` is the
product of the probabilities that the parts are. -/
theorem C88_series (hw : w.Reachable) (hv : MVars w vs) {f g : Nat} {F G : MFun} (hf : w.Has f F) (hg : w.Has g G)
    {pv : String → Option (List R)} (hd : IsDist vs pv) {ss : List Int} (hc : Covers vs ss F)
    (hc' : Covers vs ss G) (hi : ∀ l, ¬ MDepends vs F l ∨ ¬ MDepends vs G l) :
    ∃ w' s, w.step (.bin .min f g) = some (.handle s, w') ∧ ∀ v : Int, ∃ p q,
      w.prob pv (ss.filter (v ≤ ·)) f = some p ∧ w.prob pv (ss.filter (v ≤ ·)) g = some q ∧
      w'.prob pv (ss.filter (v ≤ ·)) s = some (p * q) := by
  obtain ⟨w', s, V, h1, h2, h3, h4, h5⟩ := bin_int hw hv hf hg hc hc' (o := .min) rfl
  refine ⟨w', s, h1, fun v => ⟨_, _, prob_msum hw hv hf hd _, prob_msum hw hv hg hd _, ?_⟩⟩
  rw [prob_msum h2 h3 h4 hd, ← msum_indep (vs_pos hw hv) hd.sum (fun l _ =>
    (hi l).imp (fun h => ign_of hw hv h _) (fun h => ign_of hw hv h _))]
  congr 1
  refine msum_congr (fun _ _ _ _ => rfl) fun a ha => ?_
  obtain ⟨x, hx, y, hy, e1, e2, e⟩ := h5 a (vb_valid ha)
  have hm : Min.min x y ∈ ss := by rcases min_choice x y with h | h <;> simp [h, hx, hy]
  unfold mind
  rw [e1, e2, e]
  by_cases i1 : v ≤ x <;> by_cases i2 : v ≤ y <;> simp [InSet, i1, i2, hx, hy, hm]

/-- **C88.** Parallel system: if no variable matters to both parts, the probability that `max` is at most `v` is the
product of the probabilities that the parts are. -/
theorem C88_parallel (hw : w.Reachable) (hv : MVars w vs) {f g : Nat} {F G : MFun} (hf : w.Has f F) (hg : w.Has g G)
    {pv : String → Option (List R)} (hd : IsDist vs pv) {ss : List Int} (hc : Covers vs ss F)
    (hc' : Covers vs ss G) (hi : ∀ l, ¬ MDepends vs F l ∨ ¬ MDepends vs G l) :
    ∃ w' s, w.step (.bin .max f g) = some (.handle s, w') ∧ ∀ v : Int, ∃ p q,
      w.prob pv (ss.filter (· ≤ v)) f = some p ∧ w.prob pv (ss.filter (· ≤ v)) g = some q ∧
      w'.prob pv (ss.filter (· ≤ v)) s = some (p * q) := by
  obtain ⟨w', s, V, h1, h2, h3, h4, h5⟩ := bin_int hw hv hf hg hc hc' (o := .max) rfl
  refine ⟨w', s, h1, fun v => ⟨_, _, prob_msum hw hv hf hd _, prob_msum hw hv hg hd _, ?_⟩⟩
  rw [prob_msum h2 h3 h4 hd, ← msum_indep (vs_pos hw hv) hd.sum (fun l _ =>
    (hi l).imp (fun h => ign_of hw hv h _) (fun h => ign_of hw hv h _))]
  congr 1
  refine msum_congr (fun _ _ _ _ => rfl) fun a ha => ?_
  obtain ⟨x, hx, y, hy, e1, e2, e⟩ := h5 a (vb_valid ha)
  have hm : Max.max x y ∈ ss := by rcases max_choice x y with h | h <;> simp [h, hx, hy]
  unfold mind
  rw [e1, e2, e]
  by_cases i1 : x ≤ v <;> by_cases i2 : y ≤ v <;> simp [InSet, i1, i2, hx, hy, hm]

/-- **C88.** Tail formula: for a function with values `0, …, M`, the expectation is the sum, over the levels
`1, …, M`, of the probability of reaching the level. -/
theorem C88_tail (hw : w.Reachable) (hv : MVars w vs) {f : Nat} {F : MFun} (hf : w.Has f F)
    {pv : String → Option (List R)} (hd : IsDist vs pv) {ss : List Int} (hc : Covers vs ss F) {M : Nat}
    (hM : ∀ z ∈ ss, 0 ≤ z ∧ z ≤ M) :
    ∃ (e : R) (T : Nat → R), Expectation w pv ss f e ∧
      (∀ v : Nat, w.prob pv (ss.filter ((v : Int) ≤ ·)) f = some (T v)) ∧ e = ∑ v ∈ Finset.Icc 1 M, T v := by
  refine ⟨_, fun v => _, (expect_msum hw hv hf hd hc _).2 rfl, fun v => prob_msum hw hv hf hd _, ?_⟩
  rw [← msum_finset]
  refine msum_congr (fun _ _ _ _ => rfl) fun a ha => ?_
  obtain ⟨z, hz, e⟩ := hc a (vb_valid ha)
  obtain ⟨h0, h1⟩ := hM z hz
  obtain ⟨n, rfl⟩ := Int.eq_ofNat_of_zero_le h0
  have hn : n ≤ M := by exact_mod_cast h1
  rw [e]
  simp only [mind, e, InSet, intOf, List.mem_filter, hz, true_and, decide_eq_true_eq, Nat.cast_le]
  rw [← Finset.sum_filter, Finset.sum_const, nsmul_one]
  have : (Finset.Icc 1 M).filter (· ≤ n) = Finset.Icc 1 n := by ext k; simp; omega
  rw [this]; simp

end ring

section order
variable {R : Type} [CommRing R] [LinearOrder R] [IsStrictOrderedRing R]

/-- **C88.** A system that is nowhere worse has no smaller expectation. -/
theorem C88_mono (hw : w.Reachable) (hv : MVars w vs) {f g : Nat} {F G : MFun} (hf : w.Has f F) (hg : w.Has g G)
    {pv : String → Option (List R)} (hd : IsDist vs pv) (hp : NonNeg vs pv) {ss ss' : List Int} (hc : Covers vs ss F)
    (hc' : Covers vs ss' G) (hle : ∀ a x y, ValidV vs a → F a = .v (some x) → G a = .v (some y) → x ≤ y) :
    ∃ e e', Expectation w pv ss f e ∧ Expectation w pv ss' g e' ∧ e ≤ e' := by
  refine ⟨_, _, (expect_msum hw hv hf hd hc _).2 rfl, (expect_msum hw hv hg hd hc' _).2 rfl, ?_⟩
  refine msum_le (hp.tableQ hd) fun a ha => ?_
  obtain ⟨x, _, e1⟩ := hc a (vb_valid ha)
  obtain ⟨y, _, e2⟩ := hc' a (vb_valid ha)
  rw [e1, e2]
  exact Int.cast_le.2 (hle a x y (vb_valid ha) e1 e2)

end order

/-! ## A concrete case

`x` is 0, 1, 2 with probabilities 1/2, 1/3, 1/6; `y` is 0, 1 with 1/4, 3/4: expectations 2/3 and 3/4. Handle 2 is
`x + y`, handle 3 `x * y`, handle 4 `min(x, y)`, handle 5 `max(x, y)`. -/

def mexpect : List MCmd :=
  [.defvar "x" 3, .defvar "y" 2, .bin .add 0 1, .bin .mul 0 1, .bin .min 0 1, .bin .max 0 1]

/-- The sum of value times probability over `0, …, 3`, as the client computes it. -/
def clientMean (f : Nat) : Option ℚ :=
  (mrun MWorld.new mexpect).bind fun p => (p.2.prob mtable [1] f).bind fun p1 => (p.2.prob mtable [2] f).bind fun p2 =>
    (p.2.prob mtable [3] f).map fun p3 => p1 + 2 * p2 + 3 * p3

example : clientMean 0 = some (2/3) ∧ clientMean 1 = some (3/4) ∧ clientMean 2 = some (2/3 + 3/4) ∧
    clientMean 3 = some (2/3 * (3/4)) := by
  decide +kernel

example : clientMean 4 = some (3/8) ∧ clientMean 5 = some (2/3 + 3/4 - 3/8) := by
  decide +kernel

example : (mrun MWorld.new mexpect).bind (fun p => p.2.prob mtable [1, 2] 4) = some ((1/3 + 1/6) * (3/4)) ∧
    (mrun MWorld.new mexpect).bind (fun p => p.2.prob mtable [0] 5) = some (1/2 * (1/4)) := by
  decide +kernel

example : Covers [("x", 3), ("y", 2)] [0, 1, 2] (fun a => .v (some (a 0 : Int))) ∧
    Covers [("x", 3), ("y", 2)] [0, 1, 2] (fun a => .v (some (a 1 : Int))) ∧
    ∀ l, ¬ MDepends [("x", 3), ("y", 2)] (fun a => .v (some (a 0 : Int))) l ∨
      ¬ MDepends [("x", 3), ("y", 2)] (fun a => .v (some (a 1 : Int))) l := by
  refine ⟨fun a ha => ⟨_, ?_, rfl⟩, fun a ha => ⟨_, ?_, rfl⟩, fun l => ?_⟩
  · have := ha 0 "x" 3 rfl
    simp; omega
  · have := ha 1 "y" 2 rfl
    simp; omega
  · by_cases h : l = 0
    · right
      rintro ⟨a, b, _, _, hab, hne⟩
      exact hne (by simp only [hab 1 (by omega)])
    · left
      rintro ⟨a, b, _, _, hab, hne⟩
      exact hne (by simp only [hab 0 (by omega)])

end DD.Props
