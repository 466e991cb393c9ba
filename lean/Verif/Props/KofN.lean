import Verif.Props.VarOrder
import Verif.Props.Subfunctions
import Mathlib.Data.Nat.Choose.Sum
import Mathlib.Algebra.BigOperators.Group.Finset.Powerset

/-!
# C84: `prob` as a sum over sets of names, and `k`-out-of-`n` systems
-/

set_option autoImplicit false
set_option linter.unusedSectionVars false
set_option linter.unusedVariables false

namespace DD.Props
open Arena Finset

variable {w : World} {names : List String} {F : BFun} {Φ : (String → Bool) → Bool}

section ring
variable {R : Type} [CommRing R]

/-- A name that cannot matter may be given any probability. -/
theorem prob_indep (hw : w.Reachable) {f : Nat} (hf : w.Denotes f F) (hn : Names w names) (hΦ : Named names F Φ)
    {y : String} (hy : ¬ Matters Φ y) (pv : String → Option R) (ss : List Bool) :
    w.bddProb pv ss f = w.bddProb (setPv pv y 0) ss f := by
  obtain ⟨p1, p0, h1, h0, e⟩ := prob_split hw hf hn y pv ss
  by_cases hm : y ∈ names
  · obtain ⟨ev, k1, k2, k3⟩ := C15_bmeas hw hf hn pv ss
    obtain ⟨q1, q0, g1, g0, ge⟩ := k2 y hm
    rw [h1] at g1; rw [h0] at g0; cases g1; cases g0
    have : ev.get y = none := by
      cases h : ev.get y with
      | none => rfl
      | some u => exact absurd ((label_matters hw hf hn hΦ y).1 ((k3 y).1 (by rw [h]; rfl))) hy
    rw [this] at ge
    have hpq : p1 = p0 := (sub_eq_zero.1 ge.symm)
    rw [e, h0, hpq]
    congr 1; ring
  · rw [C14_prob hw hf hn, C14_prob hw hf hn]
    congr 1
    unfold probSpec
    refine Finset.sum_congr rfl fun a _ => ?_
    congr 1
    refine Finset.prod_congr rfl fun i _ => ?_
    have hg : names.getD i "" ≠ y := by
      intro he
      apply hm
      rw [← he, List.getD_eq_getElem?_getD, List.getElem?_eq_getElem i.2]
      exact List.getElem_mem i.2
    simp only [probs, setPv, if_neg hg]

theorem prob_determined (hw : w.Reachable) {f : Nat} (hf : w.Denotes f F) (hn : Names w names) (hΦ : Named names F Φ)
    {X : Finset String} (hX : ∀ x, Matters Φ x → x ∈ X) {ν : String → Bool} {pv : String → Option R}
    (hν : ∀ x ∈ X, (pv x).getD 0 = if ν x then 1 else 0) (ss : List Bool) :
    w.bddProb pv ss f = some (if Φ (fun x => decide (x ∈ X) && ν x) ∈ ss then 1 else 0) := by
  suffices h : ∀ (L : List String) (pv : String → Option R), (∀ x ∈ X, (pv x).getD 0 = if ν x then 1 else 0) →
      (∀ x, x ∈ names → x ∉ X → x ∉ L → (pv x).getD 0 = 0) →
      w.bddProb pv ss f = some (if Φ (fun x => decide (x ∈ X) && ν x) ∈ ss then 1 else 0) from
    h names pv hν fun x h1 _ h2 => absurd h1 h2
  intro L
  induction L with
  | nil =>
    intro pv h1 h2
    rw [prob_point hw hf hn hΦ (ν := fun x => decide (x ∈ X) && ν x) (fun x hx => ?_)]
    · unfold Bdd.ind
      by_cases h : Φ (fun x => decide (x ∈ X) && ν x) ∈ ss <;> simp [h]
    · by_cases hxX : x ∈ X
      · simp [hxX, h1 x hxX]
      · simp [hxX, h2 x hx hxX]
  | cons y L ih =>
    intro pv h1 h2
    by_cases hy : y ∈ X
    · exact ih pv h1 fun x a b c => h2 x a b (by
        rintro (_ | ⟨_, h⟩)
        · exact b hy
        · exact c h)
    · rw [prob_indep hw hf hn hΦ (fun h => hy (hX y h)) pv ss]
      refine ih _ (fun x hx => ?_) (fun x a b c => ?_)
      · have : x ≠ y := fun e => hy (e ▸ hx)
        simp only [setPv, if_neg this]; exact h1 x hx
      · by_cases e : x = y
        · subst e; simp [setPv]
        · simp only [setPv, if_neg e]
          exact h2 x a b (by simp [e, c])

/-- The probability that exactly the names in `A` are true, among those in `X`. -/
def weight (pv : String → Option R) (X A : Finset String) : R :=
  (∏ x ∈ A, (pv x).getD 0) * ∏ x ∈ X \ A, (1 - (pv x).getD 0)

/-- **C84.** `prob` is the sum over the sets of those names that can matter. -/
theorem C84_prob (hw : w.Reachable) {f : Nat} (hf : w.Denotes f F) (hn : Names w names) (hΦ : Named names F Φ)
    {X : Finset String} (hX : ∀ x, Matters Φ x → x ∈ X) (pv : String → Option R) (ss : List Bool) :
    w.bddProb pv ss f = some (∑ A ∈ X.powerset, if Φ (fun x => decide (x ∈ A)) ∈ ss then weight pv X A else 0) := by
  suffices h : ∀ (Y : Finset String), Y ⊆ X → ∀ (pv : String → Option R) (ν : String → Bool),
      (∀ x ∈ X, x ∉ Y → (pv x).getD 0 = if ν x then 1 else 0) → w.bddProb pv ss f =
        some (∑ A ∈ Y.powerset, if Φ (fun x => decide (x ∈ X) && if x ∈ Y then decide (x ∈ A) else ν x) ∈ ss then
          weight pv Y A else 0) by
    rw [h X (Finset.Subset.refl _) pv (fun _ => false) (fun x h1 h2 => absurd h1 h2)]
    congr 1
    refine Finset.sum_congr rfl fun A hA => ?_
    have : (fun x => decide (x ∈ X) && if x ∈ X then decide (x ∈ A) else false) = fun x => decide (x ∈ A) := by
      funext x
      by_cases hx : x ∈ X
      · simp [hx]
      · have : x ∉ A := fun h => hx (Finset.mem_powerset.1 hA h)
        simp [hx, this]
    rw [this]
  intro Y
  induction Y using Finset.induction_on with
  | empty =>
    intro _ pv ν h
    rw [prob_determined hw hf hn hΦ hX (ν := ν) (fun x hx => h x hx (by simp))]
    simp [weight]
  | @insert y Y hy ih =>
    intro hYX pv ν h
    have hYX' : Y ⊆ X := fun x hx => hYX (Finset.mem_insert_of_mem hx)
    obtain ⟨p1, p0, h1, h0, e⟩ := prob_split hw hf hn y pv ss
    have set : ∀ b : Bool, w.bddProb (setPv pv y (if b then 1 else 0)) ss f =
        some (∑ A ∈ Y.powerset, if Φ (fun x => decide (x ∈ X) && if x ∈ Y then decide (x ∈ A) else
          Function.update ν y b x) ∈ ss then weight pv Y A else 0) := by
      intro b
      rw [ih hYX' _ (Function.update ν y b) (fun x hx hxY => ?_)]
      · congr 1
        refine Finset.sum_congr rfl fun A hA => ?_
        have hw : weight (setPv pv y (if b then 1 else 0)) Y A = weight pv Y A := by
          have ne : ∀ x ∈ Y, x ≠ y := fun x hx e => hy (e ▸ hx)
          unfold weight
          congr 1
          · exact Finset.prod_congr rfl fun x hx => by simp [setPv, ne x (Finset.mem_powerset.1 hA hx)]
          · exact Finset.prod_congr rfl fun x hx => by simp [setPv, ne x (Finset.mem_sdiff.1 hx).1]
        rw [hw]
      · by_cases e : x = y
        · subst e; simp [setPv]
        · rw [Function.update_of_ne e]
          simp only [setPv, if_neg e]
          exact h x hx (by simp [e, hxY])
    have s1 := set true
    have s0 := set false
    simp only [if_true, Bool.false_eq_true, if_false] at s1 s0
    rw [h1] at s1; rw [h0] at s0
    cases s1; cases s0
    rw [e]
    congr 1
    rw [Finset.sum_powerset_insert hy, add_comm, Finset.mul_sum, Finset.mul_sum]
    congr 1
    · refine Finset.sum_congr rfl fun A hA => ?_
      have hyA : y ∉ A := fun h => hy (Finset.mem_powerset.1 hA h)
      have e1 : (fun x => decide (x ∈ X) && if x ∈ Y then decide (x ∈ A) else Function.update ν y false x) =
          fun x => decide (x ∈ X) && if x ∈ insert y Y then decide (x ∈ A) else ν x := by
        funext x
        by_cases e : x = y
        · subst e; simp [hy, hyA]
        · simp [e]
      have e2 : weight pv (insert y Y) A = (1 - (pv y).getD 0) * weight pv Y A := by
        unfold weight
        rw [Finset.insert_sdiff_of_notMem _ hyA, Finset.prod_insert (by simp [hy])]
        ring
      rw [e1, e2]
      split <;> simp
    · refine Finset.sum_congr rfl fun A hA => ?_
      have hyA : y ∉ A := fun h => hy (Finset.mem_powerset.1 hA h)
      have e1 : (fun x => decide (x ∈ X) && if x ∈ Y then decide (x ∈ A) else Function.update ν y true x) =
          fun x => decide (x ∈ X) && if x ∈ insert y Y then decide (x ∈ insert y A) else ν x := by
        funext x
        by_cases e : x = y
        · subst e; simp [hy]
        · simp [e]
      have e2 : weight pv (insert y Y) (insert y A) = (pv y).getD 0 * weight pv Y A := by
        unfold weight
        have : insert y Y \ insert y A = Y \ A := by
          ext x
          simp only [Finset.mem_sdiff, Finset.mem_insert]
          constructor
          · rintro ⟨rfl | h, g⟩
            · simp at g
            · exact ⟨h, fun h' => g (.inr h')⟩
          · rintro ⟨h, g⟩
            exact ⟨.inr h, fun h' => h'.elim (fun e => hy (e ▸ h)) g⟩
        rw [this, Finset.prod_insert hyA]
        ring
      rw [e1, e2]
      split <;> simp

end ring

/-! ## At least `k` of the names in `X` -/

/-- At least `k` of the names in `X` are true. -/
def atLeast (k : Nat) (X : Finset String) : (String → Bool) → Bool := fun ν => decide (k ≤ (X.filter fun x => ν x).card)

theorem mono_atLeast (k : Nat) (X : Finset String) : MonoN (atLeast k X) := by
  intro ν μ h hν
  simp only [atLeast, decide_eq_true_eq] at hν ⊢
  exact hν.trans (Finset.card_le_card fun x hx => by
    obtain ⟨h1, h2⟩ := Finset.mem_filter.1 hx
    exact Finset.mem_filter.2 ⟨h1, h x h2⟩)

theorem matters_atLeast {k : Nat} {X : Finset String} {x : String} (h : Matters (atLeast k X) x) : x ∈ X := by
  obtain ⟨ν, h⟩ := h
  refine Classical.byContradiction fun hx => h ?_
  unfold atLeast
  congr 3
  refine Finset.filter_congr fun y hy => ?_
  have : y ≠ x := fun e => hx (e ▸ hy)
  rw [Function.update_of_ne this, Function.update_of_ne this]

/-- The sets of `k` of the names in `X`. -/
def ksets (k : Nat) (X : Finset String) : Set (Set String) := {S | S ⊆ (X : Set String) ∧ S.ncard = k}

theorem ncard_ksets (k : Nat) (X : Finset String) : (ksets k X).ncard = X.card.choose k := by
  have : ksets k X = (fun A : Finset String => (A : Set String)) '' (X.powersetCard k : Set (Finset String)) := by
    ext S
    simp only [ksets, Set.mem_ofPred_eq, Set.mem_image, Finset.mem_coe, Finset.mem_powersetCard]
    constructor
    · rintro ⟨h1, h2⟩
      have hfin : S.Finite := X.finite_toSet.subset h1
      refine ⟨hfin.toFinset, ⟨fun x hx => ?_, ?_⟩, hfin.coe_toFinset⟩
      · exact h1 (hfin.mem_toFinset.1 hx)
      · rw [← Set.ncard_coe_finset, hfin.coe_toFinset, h2]
    · rintro ⟨A, ⟨h1, h2⟩, rfl⟩
      exact ⟨Finset.coe_subset.2 h1, by rw [Set.ncard_coe_finset, h2]⟩
  rw [this, Set.InjOn.ncard_image (Finset.coe_injective.injOn), Set.ncard_coe_finset, Finset.card_powersetCard]

theorem filter_chi (X : Finset String) (S : Set String) :
    ((X.filter fun x => chi S x = true : Finset String) : Set String) = (X : Set String) ∩ S := by
  classical
  ext x
  rw [Finset.mem_coe, Finset.mem_filter, Set.mem_inter_iff, Finset.mem_coe]
  unfold chi
  rw [decide_eq_true_iff]

theorem atLeast_chi (k : Nat) (X : Finset String) (S : Set String) :
    atLeast k X (chi S) = true ↔ k ≤ ((X : Set String) ∩ S).ncard := by
  unfold atLeast
  rw [decide_eq_true_eq, ← filter_chi, Set.ncard_coe_finset]

theorem minPaths_atLeast (k : Nat) (X : Finset String) : MinPathsN (atLeast k X) = ksets k X := by
  have fin : ∀ S : Set String, ((X : Set String) ∩ S).Finite := fun S => X.finite_toSet.subset Set.inter_subset_left
  ext S
  simp only [MinPathsN, ksets, Set.mem_ofPred_eq, atLeast_chi, ← Bool.not_eq_true]
  constructor
  · rintro ⟨h1, h2⟩
    have sub : S ⊆ (X : Set String) := by
      intro y hy
      refine Classical.byContradiction fun hyX => h2 (S \ {y}) ⟨Set.sdiff_subset, fun h => (h hy).2 rfl⟩ ?_
      have : (X : Set String) ∩ (S \ {y}) = (X : Set String) ∩ S := by
        ext x
        simp only [Set.mem_inter_iff, Set.mem_sdiff, Set.mem_singleton_iff]
        exact ⟨fun h => ⟨h.1, h.2.1⟩, fun h => ⟨h.1, h.2, fun e => hyX (e ▸ h.1)⟩⟩
      rw [this]; exact h1
    have hXS : (X : Set String) ∩ S = S := Set.inter_eq_right.2 sub
    rw [hXS] at h1
    refine ⟨sub, Nat.le_antisymm (Nat.not_lt.1 fun hlt => ?_) h1⟩
    have hfin : S.Finite := X.finite_toSet.subset sub
    obtain ⟨y, hy⟩ : S.Nonempty := by
      rw [← Set.ncard_pos hfin]; omega
    refine h2 (S \ {y}) ⟨Set.sdiff_subset, fun h => (h hy).2 rfl⟩ ?_
    rw [Set.inter_eq_right.2 (Set.sdiff_subset.trans sub), Set.ncard_sdiff_singleton_of_mem hy]
    omega
  · rintro ⟨sub, rfl⟩
    refine ⟨by rw [Set.inter_eq_right.2 sub], fun T hT hle => ?_⟩
    rw [Set.inter_eq_right.2 (hT.1.trans sub)] at hle
    exact absurd (Set.ncard_lt_ncard hT (X.finite_toSet.subset sub)) (by omega)

theorem minCuts_atLeast (k : Nat) (X : Finset String) (hk : k ≤ X.card) :
    MinCutsN (atLeast k X) = MinPathsN (atLeast (X.card - k + 1) X) := by
  have key : ∀ S : Set String, atLeast k X (fun x => !chi S x) = !atLeast (X.card - k + 1) X (chi S) := by
    intro S
    have h : (X.filter fun x => (!chi S x) = true).card + (X.filter fun x => chi S x = true).card = X.card := by
      rw [add_comm, ← Finset.card_filter_add_card_filter_not (s := X) (fun x => chi S x = true)]
      congr 2
      refine Finset.filter_congr fun x _ => ?_
      simp
    unfold atLeast
    rw [← decide_not, decide_eq_decide]
    simp only at h ⊢
    omega
  unfold MinCutsN MinPathsN
  simp only [key]
  simp

/-- **C84.** The minimal path sets of a `k`-out-of-`n` system are the sets of `k` names, `n` choose `k` many; the
minimal cut sets are the sets of `n - k + 1` names. -/
theorem C84_min {v : BssW} (hv : v.Reachable) {f k : Nat} (hf : v.bdd.Denotes f F) (hn : Names v.bdd names)
    {X : Finset String} (hΦ : Named names F (atLeast k X)) (hk : k ≤ X.card) :
    (∃ h v', v.step (.minpath f) = some (.fam (some h), v') ∧ v'.Reachable ∧ v'.zdd.Denotes h (ksets k X) ∧
      v'.zdd.count [true] h = some (X.card.choose k)) ∧
    ∃ h v', v.step (.mincut f) = some (.fam (some h), v') ∧ v'.Reachable ∧
      v'.zdd.Denotes h (ksets (X.card - k + 1) X) ∧
      v'.zdd.count [true] h = some (X.card.choose (X.card - k + 1)) := by
  have key : ∀ {c : BssCmd} {𝓕 : Set (Set String)} {n : Nat}, MinGives v c (MonoN (atLeast k X)) 𝓕 → 𝓕.ncard = n →
      ∃ h v', v.step c = some (.fam (some h), v') ∧ v'.Reachable ∧ v'.zdd.Denotes h 𝓕 ∧
        v'.zdd.count [true] h = some n := by
    rintro c 𝓕 n ⟨o, v', h1, h2, h3, -, -, -⟩ hc
    rcases h3 with ⟨h, -⟩ | ⟨-, rfl, h⟩
    · exact absurd (mono_atLeast k X) h
    · exact ⟨_, v', h1, h2, h, by rw [(C23_bss_count h2 h).2, hc]⟩
  obtain ⟨⟨g1, -⟩, g2, -⟩ := C82_min hv hv hf hf hn hn hΦ hΦ
  refine ⟨key (minPaths_atLeast k X ▸ g1) (ncard_ksets k X), ?_⟩
  rw [minCuts_atLeast k X hk] at g2
  exact key (minPaths_atLeast (X.card - k + 1) X ▸ g2) (ncard_ksets _ X)

/-- **C84.** `kofn` of handles of distinct variables is such a system. -/
theorem C84_kofn (hw : w.Reachable) (hn : Names w names) {k : Nat} {fs : List Nat} {xs : List String} (hnd : xs.Nodup)
    (hx : ∀ x ∈ xs, x ∈ names) (h : DenoteAll w fs (xs.map fun x a => a (names.idxOf x))) :
    ∃ f w' F, w.step (.kofn k fs) = some (.handle f, w') ∧ w'.Reachable ∧ w'.Denotes f F ∧
      Named names F (atLeast k xs.toFinset) := by
  obtain ⟨w', h1, h2, h3, _⟩ := C11_kofn hw k h
  refine ⟨_, w', _, h1, h2, h3, fun a ν ha => ?_⟩
  unfold atLeast
  rw [decide_eq_decide, List.countP_map]
  have : xs.countP ((fun F : BFun => F a) ∘ fun x a => a (names.idxOf x)) = xs.countP (fun x => ν x) := by
    refine List.countP_congr fun x hxs => ?_
    have := ha (names.idxOf x) x (by
      rw [List.getElem?_eq_getElem (List.idxOf_lt_length_iff.2 (hx x hxs)), List.getElem_idxOf])
    simp only [Function.comp, this]
  rw [this, List.countP_eq_length_filter, ← List.toFinset_card_of_nodup (hnd.filter _), List.toFinset_filter]

section ring
variable {R : Type} [CommRing R]

theorem atLeast_mem {k : Nat} {X A : Finset String} (hA : A ⊆ X) :
    atLeast k X (fun x => decide (x ∈ A)) = decide (k ≤ A.card) := by
  unfold atLeast
  rw [decide_eq_decide]
  have : (X.filter fun x => decide (x ∈ A) = true) = A := by
    ext x
    simp only [Finset.mem_filter, decide_eq_true_eq]
    exact ⟨fun h => h.2, fun h => ⟨hA h, h⟩⟩
  rw [this]

/-- **C84.** The probability of a `k`-out-of-`n` system: the sum over the sets of at least `k` names. -/
theorem C84_kofn_prob (hw : w.Reachable) {f k : Nat} (hf : w.Denotes f F) (hn : Names w names) {X : Finset String}
    (hΦ : Named names F (atLeast k X)) (pv : String → Option R) :
    w.bddProb pv [true] f = some (∑ A ∈ X.powerset, if k ≤ A.card then weight pv X A else 0) := by
  rw [C84_prob hw hf hn hΦ (fun x => matters_atLeast) pv]
  congr 1
  refine Finset.sum_congr rfl fun A hA => ?_
  rw [atLeast_mem (Finset.mem_powerset.1 hA)]
  simp

/-- **C84.** With one probability for all components it is the upper tail of the binomial distribution. -/
theorem C84_kofn_binomial (hw : w.Reachable) {f k : Nat} (hf : w.Denotes f F) (hn : Names w names) {X : Finset String}
    (hΦ : Named names F (atLeast k X)) {pv : String → Option R} {p : R} (hp : ∀ x ∈ X, pv x = some p) :
    w.bddProb pv [true] f = some (∑ j ∈ Finset.range (X.card + 1),
      if k ≤ j then (X.card.choose j : R) * p ^ j * (1 - p) ^ (X.card - j) else 0) := by
  rw [C84_kofn_prob hw hf hn hΦ]
  congr 1
  have : ∀ A ∈ X.powerset, (if k ≤ A.card then weight pv X A else 0) =
      (fun j => if k ≤ j then p ^ j * (1 - p) ^ (X.card - j) else 0) A.card := by
    intro A hA
    have hA := Finset.mem_powerset.1 hA
    have e : weight pv X A = p ^ A.card * (1 - p) ^ (X.card - A.card) := by
      unfold weight
      rw [Finset.prod_congr rfl (g := fun _ => p) (fun x hx => by rw [hp x (hA hx)]; rfl), Finset.prod_const,
        Finset.prod_congr rfl (g := fun _ => 1 - p) (fun x hx => by rw [hp x (Finset.mem_sdiff.1 hx).1]; rfl),
        Finset.prod_const, Finset.card_sdiff_of_subset hA]
    simp only [e]
  rw [Finset.sum_congr rfl this,
    Finset.sum_powerset_apply_card (fun j => if k ≤ j then p ^ j * (1 - p) ^ (X.card - j) else (0 : R))]
  refine Finset.sum_congr rfl fun j _ => ?_
  rw [nsmul_eq_mul]
  split
  · ring
  · simp

/-- **C84.** The Birnbaum measure of a component is the probability that exactly `k - 1` of the others work. -/
theorem C84_kofn_bmeas (hw : w.Reachable) {f k : Nat} (hf : w.Denotes f F) (hn : Names w names) {X : Finset String}
    (hΦ : Named names F (atLeast (k + 1) X)) (hk : k + 1 ≤ X.card) (pv : String → Option R) :
    ∃ ev, w.bddBmeas pv [true] f = some ev ∧ (∀ x, (ev.get x).isSome ↔ x ∈ X) ∧
      ∀ x ∈ X, ev.get x = some (∑ A ∈ (X.erase x).powerset, if A.card = k then weight pv (X.erase x) A else 0) := by
  obtain ⟨ev, h1, h2, h3⟩ := C15_bmeas hw hf hn pv [true]
  have mat : ∀ x, Matters (atLeast (k + 1) X) x ↔ x ∈ X := by
    intro x
    refine ⟨matters_atLeast, fun hx => ?_⟩
    obtain ⟨B, hB, hc⟩ := Finset.exists_subset_card_eq (s := X.erase x) (n := k) (by
      rw [Finset.card_erase_of_mem hx]; omega)
    have hxB : x ∉ B := fun h => (Finset.mem_erase.1 (hB h)).1 rfl
    have hBX : B ⊆ X := hB.trans (Finset.erase_subset _ _)
    refine ⟨fun y => decide (y ∈ B), ?_⟩
    have e0 : Function.update (fun y => decide (y ∈ B)) x false = fun y => decide (y ∈ B) := by
      funext y
      by_cases e : y = x
      · subst e; simp [hxB]
      · rw [Function.update_of_ne e]
    have e1 : Function.update (fun y => decide (y ∈ B)) x true = fun y => decide (y ∈ insert x B) := by
      funext y
      by_cases e : y = x
      · subst e; simp
      · rw [Function.update_of_ne e]; simp [e]
    rw [e0, e1, atLeast_mem hBX, atLeast_mem (Finset.insert_subset hx hBX), Finset.card_insert_of_notMem hxB, hc]
    simp
  have some_iff : ∀ x, (ev.get x).isSome ↔ x ∈ X := fun x =>
    (h3 x).trans ((label_matters hw hf hn hΦ x).trans (mat x))
  refine ⟨ev, h1, some_iff, fun x hx => ?_⟩
  obtain ⟨u, hu⟩ := Option.isSome_iff_exists.1 ((some_iff x).2 hx)
  have hxn : x ∈ names := Classical.byContradiction fun h => by
    obtain ⟨ν, hne⟩ := (mat x).2 hx
    exact hne (by rw [hΦ.outside h, hΦ.outside h])
  obtain ⟨p1, p0, e1, e0, e⟩ := h2 x hxn
  rw [C84_kofn_prob hw hf hn hΦ] at e1 e0
  rw [hu] at e ⊢
  simp only [Option.getD_some] at e
  simp only [Option.some.injEq] at e1 e0 ⊢
  rw [e, ← e1, ← e0]
  have hy : x ∉ X.erase x := Finset.notMem_erase x X
  have hXi : X = insert x (X.erase x) := (Finset.insert_erase hx).symm
  have wt : ∀ (c : R) A, A ⊆ X.erase x → weight (setPv pv x c) X A = (1 - c) * weight pv (X.erase x) A ∧
      weight (setPv pv x c) X (insert x A) = c * weight pv (X.erase x) A := by
    intro c A hA
    have hxA : x ∉ A := fun h => hy (hA h)
    have g1 : ∀ B : Finset String, x ∉ B → ∏ y ∈ B, ((setPv pv x c) y).getD 0 = ∏ y ∈ B, (pv y).getD 0 :=
      fun B hB => Finset.prod_congr rfl fun y hy' => by
        have : y ≠ x := fun e => hB (e ▸ hy')
        simp [setPv, this]
    have g2 : ∀ B : Finset String, x ∉ B → ∏ y ∈ B, (1 - ((setPv pv x c) y).getD 0) = ∏ y ∈ B, (1 - (pv y).getD 0) :=
      fun B hB => Finset.prod_congr rfl fun y hy' => by
        have : y ≠ x := fun e => hB (e ▸ hy')
        simp [setPv, this]
    have d1 : X \ A = insert x (X.erase x \ A) := by
      ext y
      simp only [Finset.mem_sdiff, Finset.mem_insert, Finset.mem_erase]
      by_cases e : y = x
      · subst e; simp [hx, hxA]
      · simp [e]
    have d2 : X \ insert x A = X.erase x \ A := by
      ext y
      simp only [Finset.mem_sdiff, Finset.mem_insert, Finset.mem_erase]
      by_cases e : y = x
      · subst e; simp
      · simp [e]
    have nx : x ∉ X.erase x \ A := fun h => hy (Finset.mem_sdiff.1 h).1
    unfold weight
    constructor
    · rw [d1, Finset.prod_insert nx, g1 A hxA, g2 _ nx]
      simp only [setPv, if_true, Option.getD_some]
      ring
    · rw [d2, Finset.prod_insert hxA, g1 A hxA, g2 _ nx]
      simp only [setPv, if_true, Option.getD_some]
      ring
  have split : ∀ c : R, (∑ A ∈ X.powerset, if k + 1 ≤ A.card then weight (setPv pv x c) X A else 0) =
      ∑ A ∈ (X.erase x).powerset, ((if k + 1 ≤ A.card then (1 - c) * weight pv (X.erase x) A else 0) +
        if k ≤ A.card then c * weight pv (X.erase x) A else 0) := by
    intro c
    conv_lhs => rw [show X.powerset = (insert x (X.erase x)).powerset by rw [← hXi]]
    rw [Finset.sum_powerset_insert hy, ← Finset.sum_add_distrib]
    refine Finset.sum_congr rfl fun A hA => ?_
    have hA := Finset.mem_powerset.1 hA
    rw [(wt c A hA).1, (wt c A hA).2, Finset.card_insert_of_notMem (fun h => hy (hA h))]
    simp only [Nat.add_le_add_iff_right]
  rw [split, split, ← Finset.sum_sub_distrib]
  refine Finset.sum_congr rfl fun A _ => ?_
  by_cases a1 : k + 1 ≤ A.card
  · rw [if_pos a1, if_pos a1, if_pos (by omega), if_pos (by omega), if_neg (by omega)]; ring
  · by_cases a2 : k ≤ A.card
    · rw [if_neg a1, if_neg a1, if_pos a2, if_pos a2, if_pos (by omega)]; ring
    · rw [if_neg a1, if_neg a1, if_neg a2, if_neg a2, if_neg (by omega)]; ring

end ring

/-! ## A concrete case: two out of three, each working with probability 9/10 -/

def kofnSys : List BssCmd :=
  [.bdd (.defvar "a"), .bdd (.defvar "u"), .bdd (.defvar "b"), .bdd (.defvar "c"), .bdd (.kofn 2 [3, 0, 2]),
   .minpath 4, .mincut 4]

/-- The three pairs twice, `3` choose `2` each. -/
example : (BssW.new.run kofnSys).map (fun p => [0, 1].map (fun h => (listSets p.2.zdd h 9, p.2.zdd.count [true] h))) =
    some [([["a", "b"], ["a", "c"], ["b", "c"]], some (Nat.choose 3 2)),
      ([["a", "b"], ["a", "c"], ["b", "c"]], some (Nat.choose 3 (3 - 2 + 1)))] := by
  decide +kernel

/-- The binomial tail `3·p²·(1-p) + p³`, and the measure `2·p·(1-p)` of each component but none of `u`. -/
example : (BssW.new.run kofnSys).bind (fun p => p.2.bdd.bddProb (R := ℚ) (fun _ => some (9/10)) [true] 4) =
      some (3 * (9/10)^2 * (1/10) + (9/10)^3) ∧
    (BssW.new.run kofnSys).bind (fun p => (p.2.bdd.bddBmeas (R := ℚ) (fun _ => some (9/10)) [true] 4).map
      (fun e => ["a", "u", "b", "c"].map e.get)) = some [some (18/100), none, some (18/100), some (18/100)] := by
  decide +kernel

/-- The hypotheses hold of it. -/
example : Named ["a", "u", "b", "c"] (fun a => decide (2 ≤ [3, 0, 2].countP a)) (atLeast 2 {"a", "b", "c"}) ∧
    2 ≤ ({"a", "b", "c"} : Finset String).card ∧ ["c", "a", "b"].Nodup ∧
    ∀ x ∈ ["c", "a", "b"], x ∈ ["a", "u", "b", "c"] := by
  refine ⟨fun a ν h => ?_, by decide, by decide, by decide⟩
  have h0 := h 0 "a" rfl
  have h2 := h 2 "b" rfl
  have h3 := h 3 "c" rfl
  unfold atLeast
  rw [decide_eq_decide, Finset.card_filter]
  simp only [List.countP_cons, List.countP_nil, h0, h2, h3]
  rw [Finset.sum_insert (by decide), Finset.sum_insert (by decide), Finset.sum_singleton]
  cases ν "a" <;> cases ν "b" <;> cases ν "c" <;> decide

end DD.Props
