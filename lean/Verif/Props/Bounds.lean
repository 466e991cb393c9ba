import Mathlib.Combinatorics.SetFamily.FourFunctions
import Verif.Props.Modules

/-!
# C91: reliability bounds from the minimal path and cut sets

`BddNode::prob` (/repo/bss/src/bdd.rs:478-491) of a monotone function against the sets that `minpath` and `mincut`
(/repo/bss/src/bss.rs:109-136) list: the bounds of Esary and Proschan, and their rare-event approximations.
-/

set_option autoImplicit false
set_option linter.unusedSectionVars false
set_option linter.unusedVariables false

namespace DD.Props
open Arena Finset

section order
variable {R : Type} [CommRing R] [LinearOrder R] [IsStrictOrderedRing R] {n : Nat} {p : Fin n → R}

/-- The weight of an assignment, and the mean of a function of the assignment. -/
def mu (p : Fin n → R) (a : Fin n → Bool) : R := ∏ i, if a i then p i else 1 - p i
@[inherit_doc mu] def mean (p : Fin n → R) (g : (Fin n → Bool) → R) : R := ∑ a, mu p a * g a

theorem mean_prod (p : Fin n → R) (h : Fin n → Bool → R) :
    mean p (fun a => ∏ i, h i (a i)) = ∏ i, (p i * h i true + (1 - p i) * h i false) := by
  unfold mean mu
  have : ∀ i, p i * h i true + (1 - p i) * h i false = ∑ b : Bool, (if b then p i else 1 - p i) * h i b := by
    intro i; simp
  simp only [this]
  rw [Finset.prod_univ_sum]
  simp only [Fintype.piFinset_univ, Finset.prod_mul_distrib]

theorem mean_one (p : Fin n → R) : mean p (fun _ => 1) = 1 := by
  have := mean_prod p (fun _ _ => 1)
  simpa using this

theorem mean_sub (f g : (Fin n → Bool) → R) : mean p (fun a => f a - g a) = mean p f - mean p g := by
  simp [mean, mul_sub]

theorem mean_add (f g : (Fin n → Bool) → R) : mean p (fun a => f a + g a) = mean p f + mean p g := by
  simp [mean, mul_add, Finset.sum_add_distrib]

variable (hp : ∀ i, 0 ≤ p i ∧ p i ≤ 1)
include hp

theorem mu_nonneg (a : Fin n → Bool) : 0 ≤ mu p a :=
  Finset.prod_nonneg fun i _ => by
    split
    · exact (hp i).1
    · exact sub_nonneg.2 (hp i).2

theorem mean_mono {f g : (Fin n → Bool) → R} (h : ∀ a, f a ≤ g a) : mean p f ≤ mean p g :=
  Finset.sum_le_sum fun a _ => mul_le_mul_of_nonneg_left (h a) (mu_nonneg hp a)

/-- Monotone functions are positively correlated. -/
theorem harris {f g : (Fin n → Bool) → R} (f0 : ∀ a, 0 ≤ f a) (g0 : ∀ a, 0 ≤ g a) (fm : Monotone f) (gm : Monotone g) :
    mean p f * mean p g ≤ mean p (fun a => f a * g a) := by
  have := fkg (μ := mu p) (f := f) (g := g) (fun a => mu_nonneg hp a) f0 g0 fm gm (fun a b => by
    unfold mu
    rw [← Finset.prod_mul_distrib, ← Finset.prod_mul_distrib]
    refine le_of_eq (Finset.prod_congr rfl fun i _ => ?_)
    show _ = (if (a i ⊓ b i) = true then p i else 1 - p i) * (if (a i ⊔ b i) = true then p i else 1 - p i)
    cases a i <;> cases b i <;> simp [mul_comm])
  have h1 : ∑ a, mu p a = 1 := by simpa [mean] using mean_one p
  rw [h1, one_mul] at this
  exact this

theorem harris_anti {f g : (Fin n → Bool) → R} (f1 : ∀ a, f a ≤ 1) (g1 : ∀ a, g a ≤ 1) (fm : Antitone f)
    (gm : Antitone g) : mean p f * mean p g ≤ mean p (fun a => f a * g a) := by
  have := harris hp (f := fun a => 1 - f a) (g := fun a => 1 - g a) (fun a => sub_nonneg.2 (f1 a))
    (fun a => sub_nonneg.2 (g1 a)) (fun a b h => sub_le_sub_left (fm h) 1) (fun a b h => sub_le_sub_left (gm h) 1)
  have e : (fun a => (1 - f a) * (1 - g a)) = fun a => (1 - f a) - (g a - f a * g a) := by funext a; ring
  rw [e] at this
  simp only [mean_sub, mean_one] at this
  nlinarith [this]

theorem harris_list {ι : Type} (L : List ι) (g : ι → (Fin n → Bool) → R) (g0 : ∀ l ∈ L, ∀ a, 0 ≤ g l a ∧ g l a ≤ 1)
    (hm : (∀ l ∈ L, Monotone (g l)) ∨ ∀ l ∈ L, Antitone (g l)) :
    (L.map fun l => mean p (g l)).prod ≤ mean p (fun a => (L.map fun l => g l a).prod) := by
  have bd : ∀ (L : List ι), (∀ l ∈ L, ∀ a, 0 ≤ g l a ∧ g l a ≤ 1) → ∀ a,
      0 ≤ (L.map fun l => g l a).prod ∧ (L.map fun l => g l a).prod ≤ 1 := by
    intro L
    induction L with
    | nil => intro _ a; simp
    | cons l L ih =>
      intro h a
      obtain ⟨i1, i2⟩ := ih (fun l hl => h l (List.mem_cons_of_mem _ hl)) a
      obtain ⟨j1, j2⟩ := h l (List.mem_cons_self ..) a
      simp only [List.map_cons, List.prod_cons]
      exact ⟨mul_nonneg j1 i1, mul_le_one₀ j2 i1 i2⟩
  induction L with
  | nil => simp [mean_one]
  | cons l L ih =>
    have g0' := fun l hl => g0 l (List.mem_cons_of_mem _ hl)
    have gl := g0 l (List.mem_cons_self ..)
    have ih' := ih g0' (hm.imp (fun h l hl => h l (List.mem_cons_of_mem _ hl))
      (fun h l hl => h l (List.mem_cons_of_mem _ hl)))
    have ml : 0 ≤ mean p (g l) := Finset.sum_nonneg fun a _ => mul_nonneg (mu_nonneg hp a) (gl a).1
    simp only [List.map_cons, List.prod_cons]
    refine (mul_le_mul_of_nonneg_left ih' ml).trans ?_
    have mprod : ∀ {a b : Fin n → Bool} (M : List ι), (∀ l ∈ M, ∀ a, 0 ≤ g l a ∧ g l a ≤ 1) →
        (∀ l ∈ M, g l a ≤ g l b) → (M.map fun l => g l a).prod ≤ (M.map fun l => g l b).prod := by
      intro a b M
      induction M with
      | nil => intro _ _; simp
      | cons m M ihM =>
        intro h h'
        simp only [List.map_cons, List.prod_cons]
        exact mul_le_mul (h' m (List.mem_cons_self ..))
          (ihM (fun l hl => h l (List.mem_cons_of_mem _ hl)) (fun l hl => h' l (List.mem_cons_of_mem _ hl)))
          (bd M (fun l hl => h l (List.mem_cons_of_mem _ hl)) a).1 (h m (List.mem_cons_self ..) b).1
    rcases hm with hm | hm
    · exact harris hp (fun a => (gl a).1) (fun a => (bd L g0' a).1) (hm l (List.mem_cons_self ..))
        fun a b hab => mprod L g0' fun m hm' => hm m (List.mem_cons_of_mem _ hm') hab
    · exact harris_anti hp (fun a => (gl a).2) (fun a => (bd L g0' a).2) (hm l (List.mem_cons_self ..))
        fun a b hab => mprod L g0' fun m hm' => hm m (List.mem_cons_of_mem _ hm') hab

end order

section bounds
variable {R : Type} [CommRing R] [LinearOrder R] [IsStrictOrderedRing R] {names : List String} {pv : String → Option R}

/-- The probability that all names in the list have the value `t`, for independent names. -/
def allProb (pv : String → Option R) (t : Bool) (l : List String) : R :=
  (l.map fun x => if t then (pv x).getD 0 else 1 - (pv x).getD 0).prod

/-- 1 if all names in the list have the value `t`, else 0. -/
def allInd (R : Type) [CommRing R] (names : List String) (t : Bool) (l : List String) (a : Fin names.length → Bool) : R :=
  if ∀ x ∈ l, extend a (names.idxOf x) = t then 1 else 0

theorem allInd_prod (nd : names.Nodup) (t : Bool) {l : List String} (hl : ∀ x ∈ l, x ∈ names) (a : Fin names.length → Bool) :
    allInd R names t l a = ∏ i, (if names[i] ∈ l then (if a i = t then 1 else 0) else 1) := by
  unfold allInd
  split
  · rename_i h
    refine (Finset.prod_eq_one fun i _ => ?_).symm
    split
    · rename_i hi
      have := h _ hi
      have e : names.idxOf names[i] = i := nd.idxOf_getElem i i.2
      rw [e] at this
      simp only [extend, i.2, dite_true] at this
      rw [if_pos this]
    · rfl
  · rename_i h
    push Not at h
    obtain ⟨x, hx, hne⟩ := h
    have hlt := List.idxOf_lt_length_of_mem (hl x hx)
    refine (Finset.prod_eq_zero (Finset.mem_univ ⟨names.idxOf x, hlt⟩) ?_).symm
    have e : names[names.idxOf x] = x := List.getElem_idxOf hlt
    simp only [extend, hlt, dite_true] at hne
    simp [e, hx, hne]

theorem prod_names (nd : names.Nodup) {l : List String} (ndl : l.Nodup) (hl : ∀ x ∈ l, x ∈ names) (q : String → R) :
    ∏ i : Fin names.length, (if names[i] ∈ l then q names[i] else 1) = (l.map q).prod := by
  rw [show (∏ i : Fin names.length, (if names[i] ∈ l then q names[i] else 1)) =
    (names.map fun x => if x ∈ l then q x else 1).prod from Fin.prod_univ_fun_getElem names (fun x => if x ∈ l then q x else 1),
    ← List.prod_toFinset _ nd, ← List.prod_toFinset _ ndl, ← Finset.prod_filter]
  refine Finset.prod_congr ?_ fun _ _ => rfl
  ext x
  simp only [Finset.mem_filter, List.mem_toFinset]
  exact ⟨fun h => h.2, fun h => ⟨hl x h, h⟩⟩

/-- The probabilities of the levels. -/
def lev (names : List String) (pv : String → Option R) : Fin names.length → R := fun i => probs names pv i

theorem lev_eq (i : Fin names.length) : lev names pv i = (pv names[i]).getD 0 := by
  simp [lev, probs, List.getD_eq_getElem?_getD]

theorem mean_allInd (nd : names.Nodup) (t : Bool) {l : List String} (ndl : l.Nodup) (hl : ∀ x ∈ l, x ∈ names) :
    mean (lev names pv) (allInd R names t l) = allProb pv t l := by
  rw [show allInd R names t l = fun a => ∏ i, (fun (i : Fin names.length) (b : Bool) =>
      if names[i] ∈ l then (if b = t then (1 : R) else 0) else 1) i (a i) from funext fun a => allInd_prod nd t hl a,
    mean_prod _ (fun (i : Fin names.length) (b : Bool) => if names[i] ∈ l then (if b = t then (1 : R) else 0) else 1),
    allProb, ← prod_names nd ndl hl]
  refine Finset.prod_congr rfl fun i _ => ?_
  rw [lev_eq]
  by_cases h : names[i] ∈ l
  · simp only [if_pos h]; cases t <;> simp
  · simp only [if_neg h]; ring

theorem allInd_mono (t : Bool) (l : List String) :
    (t = true → Monotone (allInd R names t l)) ∧ (t = false → Antitone (allInd R names t l)) := by
  have up : ∀ {a b : Fin names.length → Bool}, a ≤ b → ∀ k, extend a k = true → extend b k = true := by
    intro a b hab k h
    unfold extend at h ⊢
    split at h
    · rename_i hk; rw [dif_pos hk]; exact hab ⟨k, hk⟩ h
    · cases h
  constructor
  · rintro rfl a b hab
    unfold allInd
    by_cases h : ∀ x ∈ l, extend a (names.idxOf x) = true
    · rw [if_pos h, if_pos fun x hx => up hab _ (h x hx)]
    · rw [if_neg h]; split <;> simp
  · rintro rfl a b hab
    unfold allInd
    by_cases h : ∀ x ∈ l, extend b (names.idxOf x) = false
    · rw [if_pos h, if_pos fun x hx => ?_]
      cases e : extend a (names.idxOf x) with
      | false => rfl
      | true => have := up hab _ e; rw [h x hx] at this; cases this
    · rw [if_neg h]; split <;> simp

theorem prod_compl (t : Bool) (os : List (List String)) (a : Fin names.length → Bool) :
    (os.map fun l => 1 - allInd R names t l a).prod =
      1 - if ∃ l ∈ os, ∀ x ∈ l, extend a (names.idxOf x) = t then 1 else 0 := by
  induction os with
  | nil => simp
  | cons l os ih =>
    simp only [List.map_cons, List.prod_cons, ih, List.mem_cons, exists_eq_or_imp]
    unfold allInd
    by_cases h1 : ∀ x ∈ l, extend a (names.idxOf x) = t
    · rw [if_pos h1, if_pos (Or.inl h1)]; simp
    · rw [if_neg h1]
      simp only [h1, false_or, sub_zero, one_mul]

theorem prod_ge (L : List R) (h : ∀ x ∈ L, 0 ≤ x ∧ x ≤ 1) : 1 - L.sum ≤ (L.map fun x => 1 - x).prod ∧
    (L.map fun x => 1 - x).prod ≤ 1 ∧ 0 ≤ (L.map fun x => 1 - x).prod := by
  induction L with
  | nil => simp
  | cons x L ih =>
    obtain ⟨i1, i2, i3⟩ := ih fun y hy => h y (List.mem_cons_of_mem _ hy)
    obtain ⟨x0, x1⟩ := h x (List.mem_cons_self ..)
    simp only [List.sum_cons, List.map_cons, List.prod_cons]
    exact ⟨by nlinarith, by nlinarith, mul_nonneg (by linarith) i3⟩

/-- What the listed sets say of the probability `m` that all names of one of them have the value `t`. -/
structure Bounds (pv : String → Option R) (t : Bool) (os : List (List String)) (m : R) : Prop where
  /-- At least that of each set. -/
  each : ∀ l ∈ os, allProb pv t l ≤ m
  /-- At most as if the sets were independent. -/
  indep : m ≤ 1 - (os.map fun l => 1 - allProb pv t l).prod
  /-- At most the sum. -/
  sum : m ≤ (os.map fun l => allProb pv t l).sum

theorem bounds (nd : names.Nodup) (hp : IsProb names pv) (t : Bool) {os : List (List String)} (hos : ∀ l ∈ os, l.Nodup)
    (hsub : ∀ l ∈ os, ∀ x ∈ l, x ∈ names) :
    Bounds pv t os (mean (lev names pv) fun a => if ∃ l ∈ os, ∀ x ∈ l, extend a (names.idxOf x) = t then 1 else 0) := by
  have hp' : ∀ i, 0 ≤ lev names pv i ∧ lev names pv i ≤ 1 := fun i => by
    rw [lev_eq]; exact hp _ (List.getElem_mem i.2)
  have b01 : ∀ l (a : Fin names.length → Bool), 0 ≤ allInd R names t l a ∧ allInd R names t l a ≤ 1 := by
    intro l a; unfold allInd; split <;> simp
  have me := fun l (hl : l ∈ os) => mean_allInd (pv := pv) nd t (hos l hl) (hsub l hl)
  have ind : _ ≤ _ := harris_list hp' os (fun l a => 1 - allInd R names t l a)
    (fun l _ a => ⟨sub_nonneg.2 (b01 l a).2, by linarith [(b01 l a).1]⟩) (by
      cases t with
      | true => exact .inr fun l _ a b h => sub_le_sub_left ((allInd_mono true l).1 rfl h) 1
      | false => exact .inl fun l _ a b h => sub_le_sub_left ((allInd_mono false l).2 rfl h) 1)
  simp only [prod_compl, mean_sub, mean_one] at ind
  rw [List.map_congr_left (g := fun l => 1 - allProb pv t l) fun l hl => by rw [← me l hl]] at ind
  have i : mean (lev names pv) (fun a => if ∃ l ∈ os, ∀ x ∈ l, extend a (names.idxOf x) = t then 1 else 0) ≤
      1 - (os.map fun l => 1 - allProb pv t l).prod := by linarith
  refine ⟨fun l hl => ?_, i, i.trans ?_⟩
  · rw [← me l hl]
    refine mean_mono hp' fun a => ?_
    unfold allInd
    split
    · rename_i h; rw [if_pos ⟨l, hl, h⟩]
    · split <;> simp
  · have := (prod_ge (os.map fun l => allProb pv t l) fun x hx => by
      obtain ⟨l, hl, rfl⟩ := List.mem_map.1 hx
      rw [← me l hl]
      refine ⟨Finset.sum_nonneg fun a _ => mul_nonneg (mu_nonneg hp' a) (b01 l a).1, ?_⟩
      rw [← mean_one (lev names pv)]
      exact mean_mono hp' fun a => (b01 l a).2).1
    rw [List.map_map] at this
    have e : ((fun x => 1 - x) ∘ fun l => allProb pv t l) = fun l => 1 - allProb pv t l := rfl
    rw [e] at this
    linarith

/-! ## Inclusion and exclusion -/

/-- The formula of Poincaré for the probability that all names of one of the listed sets have the value `t`. -/
def inclExcl (pv : String → Option R) (t : Bool) (os : List (List String)) : R :=
  1 - ∑ T ∈ os.toFinset.powerset, (-1) ^ T.card *
    ∏ x ∈ T.biUnion List.toFinset, if t then (pv x).getD 0 else 1 - (pv x).getD 0

theorem mean_sum {ι : Type} {n : Nat} (p : Fin n → R) (s : Finset ι) (c : ι → R) (g : ι → (Fin n → Bool) → R) :
    mean p (fun a => ∑ i ∈ s, c i * g i a) = ∑ i ∈ s, c i * mean p (g i) := by
  unfold mean
  simp only [Finset.mul_sum]
  rw [Finset.sum_comm]
  exact Finset.sum_congr rfl fun i _ => Finset.sum_congr rfl fun a _ => by ring

theorem allInd_union (t : Bool) (T : Finset (List String)) (a : Fin names.length → Bool) :
    ∏ l ∈ T, allInd R names t l a = allInd R names t (T.biUnion List.toFinset).toList a := by
  unfold allInd
  by_cases h : ∀ l ∈ T, ∀ x ∈ l, extend a (names.idxOf x) = t
  · rw [if_pos, Finset.prod_eq_one fun l hl => if_pos (h l hl)]
    intro x hx
    rw [Finset.mem_toList, Finset.mem_biUnion] at hx
    obtain ⟨l, hl, hx⟩ := hx
    exact h l hl x (List.mem_toFinset.1 hx)
  · rw [if_neg]
    · push Not at h
      obtain ⟨l, hl, x, hx, hne⟩ := h
      exact Finset.prod_eq_zero hl (if_neg fun h => hne (h x hx))
    · intro h'
      refine h fun l hl x hx => h' x ?_
      rw [Finset.mem_toList, Finset.mem_biUnion]
      exact ⟨l, hl, List.mem_toFinset.2 hx⟩

theorem mean_inclExcl (nd : names.Nodup) (t : Bool) {os : List (List String)} (hnd : os.Nodup)
    (hsub : ∀ l ∈ os, ∀ x ∈ l, x ∈ names) :
    mean (lev names pv) (fun a => if ∃ l ∈ os, ∀ x ∈ l, extend a (names.idxOf x) = t then 1 else 0) =
      inclExcl pv t os := by
  have e : ∀ a : Fin names.length → Bool, (if ∃ l ∈ os, ∀ x ∈ l, extend a (names.idxOf x) = t then (1 : R) else 0) =
      1 - ∑ T ∈ os.toFinset.powerset, (-1) ^ T.card * allInd R names t (T.biUnion List.toFinset).toList a := by
    intro a
    have h := prod_compl (R := R) t os a
    rw [← List.prod_toFinset _ hnd] at h
    simp only [sub_eq_add_neg (1 : R) (allInd _ _ _ _ _)] at h
    rw [Finset.prod_one_add] at h
    simp only [Finset.prod_neg, allInd_union] at h
    rw [h]; ring
  simp only [e, mean_sub, mean_one, mean_sum]
  unfold inclExcl
  congr 1
  refine Finset.sum_congr rfl fun T hT => ?_
  rw [mean_allInd nd t (Finset.nodup_toList _) fun x hx => ?_, allProb, Finset.prod_map_toList]
  rw [Finset.mem_toList, Finset.mem_biUnion] at hx
  obtain ⟨l, hl, hx⟩ := hx
  exact hsub l (List.mem_toFinset.1 (Finset.mem_powerset.1 hT hl)) x (List.mem_toFinset.1 hx)

theorem nodup_of_sets {os : List (List String)}
    (h : os.Pairwise (fun l l' => ({x | x ∈ l} : Set String) ≠ {x | x ∈ l'})) : os.Nodup :=
  h.imp fun hne e => hne (by rw [e])

theorem prob_mean {w : World} (hw : w.Reachable) {f : Nat} {F : BFun} (hf : w.Denotes f F) (hn : Names w names)
    (ss : List Bool) : w.bddProb pv ss f =
      some (mean (lev names pv) fun a => if F (extend a) ∈ ss then 1 else 0) := by
  rw [C14_prob hw hf hn]
  congr 1
  unfold probSpec mean mu
  refine Finset.sum_congr rfl fun a _ => ?_
  by_cases h : F (extend a) ∈ ss
  · simp only [if_pos h, mul_one]; rfl
  · simp only [if_neg h, mul_zero]

variable {v : BssW} {f : Nat} {F : BFun}

/-- **C91.** The sets listed after `minpath` bound the probability that a monotone function is true: at least the
probability of each path, at most that of one of them working if they were independent, at most the sum.  The formula
of inclusion and exclusion is exact. -/
theorem C91_paths (hv : v.Reachable) (hf : v.bdd.Denotes f F) (hm : MonoB F) (hn : Names v.bdd names)
    (pv : String → Option R) :
    ∃ v' h st os p, v.step (.minpath f) = some (.fam (some h), v') ∧ v'.zdd.extract [true] h = some st ∧
      Enum.Yields v'.zdd.next st os ∧ v.bdd.bddProb pv [true] f = some p ∧ p = inclExcl pv true os ∧ (IsProb names pv → Bounds pv true os p) := by
  have hb := bss_bdd_reachable hv
  have nd := names_nodup hb hn
  obtain ⟨o, v', h1, hv', h2, _, h4, _⟩ := C17_minpath hv hf hn
  rcases h2 with ⟨h2, _⟩ | ⟨_, rfl, h3⟩
  · exact absurd hm h2
  obtain ⟨st, os, e1, e2, e3, e4, e5, _⟩ := C23_bss_extract hv' h3
  have hos : ∀ l ∈ os, {x | x ∈ l} ∈ MinPaths names F := fun l hl => (e4 _).2 ⟨l, hl, rfl⟩
  have val : (fun a : Fin names.length → Bool => if F (extend a) ∈ [true] then (1 : R) else 0) =
      fun a => if ∃ l ∈ os, ∀ x ∈ l, extend a (names.idxOf x) = true then 1 else 0 := by
    funext a
    congr 1
    apply propext
    rw [show (F (extend a) ∈ [true]) = (F (extend a) = true) by simp,
      minPaths_value nd (dependsBelow_names hb hf hn) hm]
    constructor
    · rintro ⟨P, hP, hx⟩
      obtain ⟨l, hl, rfl⟩ := (e4 P).1 hP
      exact ⟨l, hl, hx⟩
    · rintro ⟨l, hl, hx⟩
      exact ⟨_, hos l hl, hx⟩
  have hsub : ∀ l ∈ os, ∀ x ∈ l, x ∈ names := fun l hl x hx => (hos l hl).1 hx
  refine ⟨v', _, st, os, _, h1, e1, e2, prob_mean hb hf hn _, ?_, fun hp => ?_⟩
  · rw [val]; exact mean_inclExcl nd true (nodup_of_sets e5) hsub
  · rw [val]; exact bounds nd hp true e3 hsub

/-- **C91.** The sets listed after `mincut` bound the probability that a monotone function is false in the same way. -/
theorem C91_cuts (hv : v.Reachable) (hf : v.bdd.Denotes f F) (hm : MonoB F) (hn : Names v.bdd names)
    (pv : String → Option R) :
    ∃ v' h st os q, v.step (.mincut f) = some (.fam (some h), v') ∧ v'.zdd.extract [true] h = some st ∧
      Enum.Yields v'.zdd.next st os ∧ v.bdd.bddProb pv [false] f = some q ∧ q = inclExcl pv false os ∧ (IsProb names pv → Bounds pv false os q) := by
  have hb := bss_bdd_reachable hv
  have nd := names_nodup hb hn
  obtain ⟨o, v', h1, hv', h2, _, h4, _⟩ := C18_mincut hv hf hn
  rcases h2 with ⟨h2, _⟩ | ⟨_, rfl, h3⟩
  · exact absurd hm h2
  obtain ⟨st, os, e1, e2, e3, e4, e5, _⟩ := C23_bss_extract hv' h3
  have hos : ∀ l ∈ os, {x | x ∈ l} ∈ MinCuts names F := fun l hl => (e4 _).2 ⟨l, hl, rfl⟩
  have val : (fun a : Fin names.length → Bool => if F (extend a) ∈ [false] then (1 : R) else 0) =
      fun a => if ∃ l ∈ os, ∀ x ∈ l, extend a (names.idxOf x) = false then 1 else 0 := by
    funext a
    congr 1
    apply propext
    rw [show (F (extend a) ∈ [false]) = ¬ (F (extend a) = true) by simp,
      minCuts_value nd (dependsBelow_names hb hf hn) hm]
    push Not
    constructor
    · rintro ⟨P, hP, hx⟩
      obtain ⟨l, hl, rfl⟩ := (e4 P).1 hP
      exact ⟨l, hl, fun x h => by simpa using hx x h⟩
    · rintro ⟨l, hl, hx⟩
      exact ⟨_, hos l hl, fun x h => by simpa using hx x h⟩
  have hsub : ∀ l ∈ os, ∀ x ∈ l, x ∈ names := fun l hl x hx => (hos l hl).1 hx
  refine ⟨v', _, st, os, _, h1, e1, e2, prob_mean hb hf hn _, ?_, fun hp => ?_⟩
  · rw [val]; exact mean_inclExcl nd false (nodup_of_sets e5) hsub
  · rw [val]; exact bounds nd hp false e3 hsub

end bounds

/-! ## A concrete case: two out of three, each working with probability 9/10 (`kofnSys`) -/

/-- Of the paths: 81/100 each, at most 1 - (19/100)³, and 243/100; of the cuts: 1/100 each, at most 1 - (99/100)³, and
3/100.  The probabilities are 972/1000 and 28/1000. -/
example : (BssW.new.run kofnSys).map (fun p => [0, 1].map (fun h => (listSets p.2.zdd h 9).map
      (allProb (R := ℚ) (fun _ => some (9/10)) (h == 0)))) = some [[81/100, 81/100, 81/100], [1/100, 1/100, 1/100]] ∧
    (BssW.new.run kofnSys).bind (fun p => p.2.bdd.bddProb (R := ℚ) (fun _ => some (9/10)) [true] 4) = some (972/1000) ∧
    (BssW.new.run kofnSys).bind (fun p => p.2.bdd.bddProb (R := ℚ) (fun _ => some (9/10)) [false] 4) = some (28/1000) ∧
    ((81/100 : ℚ) ≤ 972/1000 ∧ (972/1000 : ℚ) ≤ 1 - (19/100)^3 ∧ (28/1000 : ℚ) ≤ 1 - (99/100)^3 ∧
      1 - (99/100 : ℚ)^3 ≤ 3/100) := by
  decide +kernel

/-- Inclusion and exclusion give the probabilities themselves. -/
example : (BssW.new.run kofnSys).map (fun p => [0, 1].map (fun h =>
    inclExcl (R := ℚ) (fun _ => some (9/10)) (h == 0) (listSets p.2.zdd h 9))) = some [972/1000, 28/1000] := by
  decide +kernel

/-- The hypotheses hold of it. -/
example : MonoB (fun a => decide (2 ≤ [3, 0, 2].countP a)) ∧
    IsProb ["a", "u", "b", "c"] (fun _ => some (9/10 : ℚ)) := by
  refine ⟨fun a b h ha => ?_, fun x _ => by norm_num⟩
  simp only [decide_eq_true_eq] at ha ⊢
  exact ha.trans (List.countP_mono_left fun x _ hx => h x hx)

end DD.Props
