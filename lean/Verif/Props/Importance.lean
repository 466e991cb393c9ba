import Verif.Props.Modules

/-!
# C92: what the Birnbaum measures count

`BddNode::bmeas` (/repo/bss/src/bdd.rs:493-499) of a monotone function against its critical sets, and against the sets
of `minpath` and `mincut` (/repo/bss/src/bss.rs:109-136).
-/

set_option autoImplicit false
set_option linter.unusedSectionVars false
set_option linter.unusedVariables false

namespace DD.Props
open Arena Finset

variable {names : List String} {F : BFun} {Φ : (String → Bool) → Bool}

/-! ## A name matters iff it is in a minimal path set iff it is in a minimal cut set -/

theorem path_value (nd : names.Nodup) (hd : DependsBelow names.length F) (hΦ : Named names F Φ) (hm : MonoN Φ)
    (ν : String → Bool) : Φ ν = true ↔ ∃ P ∈ MinPathsN Φ, ∀ x ∈ P, ν x = true := by
  rw [← hΦ _ _ (agrees_atNames names ν), minPaths_value nd hd ((hΦ.mono nd).2 hm), ← hΦ.minPaths]
  have key : ∀ x ∈ names, atNames names ν (names.idxOf x) = ν x := by
    intro x hx
    have hlt := List.idxOf_lt_length_of_mem hx
    simp [atNames, List.getElem?_eq_getElem hlt, List.getElem_idxOf hlt]
  constructor
  · rintro ⟨P, hP, h⟩; exact ⟨P, hP, fun x hx => by rw [← key x (hP.1 hx)]; exact h x hx⟩
  · rintro ⟨P, hP, h⟩; exact ⟨P, hP, fun x hx => by rw [key x (hP.1 hx)]; exact h x hx⟩

theorem matters_path (nd : names.Nodup) (hd : DependsBelow names.length F) (hΦ : Named names F Φ) (hm : MonoN Φ)
    (x : String) : Matters Φ x ↔ ∃ P ∈ MinPathsN Φ, x ∈ P := by
  constructor
  · rintro ⟨ν, hne⟩
    have h1 : Φ (Function.update ν x true) = true := by
      cases h : Φ (Function.update ν x true) with
      | true => rfl
      | false =>
        have h0 : Φ (Function.update ν x false) = true := by
          cases h' : Φ (Function.update ν x false) with
          | true => rfl
          | false => exact absurd (h'.trans h.symm) hne
        have := hm _ (Function.update ν x true) (fun y hy => by
          by_cases e : y = x
          · subst e; simp
          · rw [Function.update_of_ne e] at hy ⊢; exact hy) h0
        rw [h] at this; cases this
    obtain ⟨P, hP, hx⟩ := (path_value nd hd hΦ hm _).1 h1
    refine ⟨P, hP, ?_⟩
    by_contra hn
    refine hne (((path_value nd hd hΦ hm _).2 ⟨P, hP, fun y hy => ?_⟩).trans h1.symm)
    have e : y ≠ x := fun e => hn (e ▸ hy)
    have := hx y hy
    rw [Function.update_of_ne e] at this ⊢
    exact this
  · rintro ⟨P, hP, hx⟩
    refine ⟨chi P, ?_⟩
    have e1 : Function.update (chi P) x true = chi P := by
      funext y
      by_cases e : y = x
      · subst e; simp [chi, hx]
      · rw [Function.update_of_ne e]
    have e0 : Function.update (chi P) x false = chi (P \ {x}) := by
      funext y
      by_cases e : y = x
      · subst e; simp [chi]
      · rw [Function.update_of_ne e]; simp [chi, e]
    have hss : P \ {x} ⊂ P := ⟨Set.sdiff_subset, fun h => (h hx).2 rfl⟩
    rw [e1, e0, hP.1, hP.2 _ hss]
    decide

theorem matters_dualN (x : String) : Matters (dualN Φ) x ↔ Matters Φ x := by
  have key : ∀ (ν : String → Bool) (b : Bool), (fun y => !Function.update ν x b y) =
      Function.update (fun y => !ν y) x (!b) := by
    intro ν b; funext y
    by_cases e : y = x
    · subst e; simp
    · rw [Function.update_of_ne e, Function.update_of_ne e]
  constructor
  · rintro ⟨ν, h⟩
    refine ⟨fun y => !ν y, fun he => h ?_⟩
    unfold dualN
    rw [key, key]
    simp [he]
  · rintro ⟨ν, h⟩
    refine ⟨fun y => !ν y, fun he => h ?_⟩
    unfold dualN at he
    rw [key, key] at he
    simpa using he.symm

theorem matters_cut (nd : names.Nodup) (hd : DependsBelow names.length F) (hΦ : Named names F Φ) (hm : MonoN Φ)
    (x : String) : Matters Φ x ↔ ∃ P ∈ MinCutsN Φ, x ∈ P := by
  rw [minCuts_dualN, ← matters_dualN]
  have hN : Named names (fun a => !F (fun l => !a l)) (dualN Φ) := fun a ν h => by
    show (!F fun l => !a l) = !Φ fun y => !ν y
    rw [hΦ (fun l => !a l) (fun y => !ν y) (fun i v hi => congrArg (!·) (h i v hi))]
  refine matters_path nd (dependsBelow_dual hd) hN ?_ x
  exact (hN.mono nd).1 ((monoB_dual F).2 ((hΦ.mono nd).2 hm))

/-- **C92.** `bmeas` has an entry for exactly the names of the minimal path sets, which are those of the minimal cut
sets. -/
theorem C92_relevant {R : Type} [CommRing R] {w : World} (hw : w.Reachable) {f : Nat} (hf : w.Denotes f F)
    (hn : Names w names) (hΦ : Named names F Φ) (hm : MonoN Φ) (pv : String → Option R) (ss : List Bool) :
    ∃ ev, w.bddBmeas pv ss f = some ev ∧
      ∀ x, ((ev.get x).isSome ↔ ∃ P ∈ MinPathsN Φ, x ∈ P) ∧ ((ev.get x).isSome ↔ ∃ C ∈ MinCutsN Φ, x ∈ C) := by
  obtain ⟨ev, h1, h2, h3⟩ := C15_bmeas hw hf hn pv ss
  have nd := names_nodup hw hn
  have hd := dependsBelow_names hw hf hn
  refine ⟨ev, h1, fun x => ?_⟩
  rw [h3, label_matters hw hf hn hΦ]
  exact ⟨matters_path nd hd hΦ hm x, matters_cut nd hd hΦ hm x⟩

/-! ## Critical sets -/

/-- With exactly the names in `A` true the function is false, and `x` in addition makes it true. -/
def Critical (Φ : (String → Bool) → Bool) (x : String) (A : Finset String) : Prop :=
  Φ (fun y => decide (y ∈ A)) = false ∧ Φ (fun y => decide (y ∈ insert x A)) = true

instance (x : String) (A : Finset String) : Decidable (Critical Φ x A) := by unfold Critical; infer_instance

theorem weight_set {R : Type} [CommRing R] (pv : String → Option R) {X : Finset String} {x : String} (hx : x ∈ X) (c : R)
    {A : Finset String} (hA : A ⊆ X.erase x) : weight (setPv pv x c) X A = (1 - c) * weight pv (X.erase x) A ∧
      weight (setPv pv x c) X (insert x A) = c * weight pv (X.erase x) A := by
  have hy : x ∉ X.erase x := Finset.notMem_erase x X
  have hxA : x ∉ A := fun h => hy (hA h)
  have g1 : ∀ B : Finset String, x ∉ B → ∏ y ∈ B, ((setPv pv x c) y).getD 0 = ∏ y ∈ B, (pv y).getD 0 :=
    fun B hB => Finset.prod_congr rfl fun y hy' => by
      have : y ≠ x := fun e => hB (e ▸ hy')
      simp [setPv, this]
  have g2 : ∀ B : Finset String, x ∉ B → ∏ y ∈ B, (1 - ((setPv pv x c) y).getD 0) = ∏ y ∈ B, (1 - (pv y).getD 0) :=
    fun B hB => Finset.prod_congr rfl fun y hy' => by
      have : y ≠ x := fun e => hB (e ▸ hy')
      simp [setPv, this]
  have d1 : X \ A = insert x (X.erase x \ A) := by
    ext y
    simp only [Finset.mem_sdiff, Finset.mem_insert, Finset.mem_erase]
    by_cases e : y = x
    · subst e; simp [hx, hxA]
    · simp [e]
  have d2 : X \ insert x A = X.erase x \ A := by
    ext y
    simp only [Finset.mem_sdiff, Finset.mem_insert, Finset.mem_erase]
    by_cases e : y = x
    · subst e; simp
    · simp [e]
  have nx : x ∉ X.erase x \ A := fun h => hy (Finset.mem_sdiff.1 h).1
  unfold weight
  constructor
  · rw [d1, Finset.prod_insert nx, g1 A hxA, g2 _ nx]
    simp only [setPv, if_true, Option.getD_some]
    ring
  · rw [d2, Finset.prod_insert hxA, g1 A hxA, g2 _ nx]
    simp only [setPv, if_true, Option.getD_some]
    ring

theorem update_mem {x : String} {A : Finset String} (hx : x ∉ A) :
    Function.update (fun y => decide (y ∈ A)) x false = (fun y => decide (y ∈ A)) ∧
    Function.update (fun y => decide (y ∈ A)) x true = fun y => decide (y ∈ insert x A) := by
  constructor <;> funext y <;> by_cases e : y = x
  · subst e; simp [hx]
  · rw [Function.update_of_ne e]
  · subst e; simp
  · rw [Function.update_of_ne e]; simp [e]

section ring
variable {R : Type} [CommRing R] {w : World} {f : Nat} {X : Finset String}

/-- **C92.** The Birnbaum measure of `x` is the probability that the true ones among the other names are critical for
it. -/
theorem C92_bmeas (hw : w.Reachable) (hf : w.Denotes f F) (hn : Names w names) (hΦ : Named names F Φ) (hm : MonoN Φ)
    (hX : ∀ x, Matters Φ x → x ∈ X) (pv : String → Option R) :
    ∃ ev, w.bddBmeas pv [true] f = some ev ∧ ∀ x ∈ X, (ev.get x).getD 0 =
      ∑ A ∈ (X.erase x).powerset, if Critical Φ x A then weight pv (X.erase x) A else 0 := by
  obtain ⟨ev, h1, h2, h3⟩ := C15_bmeas hw hf hn pv [true]
  refine ⟨ev, h1, fun x hx => ?_⟩
  have hy : x ∉ X.erase x := Finset.notMem_erase x X
  by_cases hmx : Matters Φ x
  · have hxn : x ∈ names := Classical.byContradiction fun h => by
      obtain ⟨ν, hne⟩ := hmx
      exact hne (by rw [hΦ.outside h, hΦ.outside h])
    obtain ⟨p1, p0, e1, e0, e⟩ := h2 x hxn
    rw [C84_prob hw hf hn hΦ hX] at e1 e0
    simp only [Option.some.injEq] at e1 e0
    rw [e, ← e1, ← e0]
    have split : ∀ c : R, (∑ A ∈ X.powerset, if Φ (fun y => decide (y ∈ A)) ∈ [true] then weight (setPv pv x c) X A else 0) =
        ∑ A ∈ (X.erase x).powerset, ((if Φ (fun y => decide (y ∈ A)) ∈ [true] then (1 - c) * weight pv (X.erase x) A else 0) +
          if Φ (fun y => decide (y ∈ insert x A)) ∈ [true] then c * weight pv (X.erase x) A else 0) := by
      intro c
      conv_lhs => rw [show X.powerset = (insert x (X.erase x)).powerset by rw [Finset.insert_erase hx]]
      rw [Finset.sum_powerset_insert hy, ← Finset.sum_add_distrib]
      refine Finset.sum_congr rfl fun A hA => ?_
      have hA := Finset.mem_powerset.1 hA
      rw [(weight_set pv hx c hA).1, (weight_set pv hx c hA).2]
    rw [split, split, ← Finset.sum_sub_distrib]
    refine Finset.sum_congr rfl fun A hA => ?_
    have hxA : x ∉ A := fun h => hy (Finset.mem_powerset.1 hA h)
    have up : Φ (fun y => decide (y ∈ A)) = true → Φ (fun y => decide (y ∈ insert x A)) = true := hm _ _ fun y hy => by
      simp only [decide_eq_true_eq] at hy ⊢; exact Finset.mem_insert_of_mem hy
    have no : ∀ {b : Bool}, ¬ b = true → b ∉ [true] := fun h h' => h (List.mem_singleton.1 h')
    by_cases a0 : Φ (fun y => decide (y ∈ A)) = true
    · have m0 := List.mem_singleton.2 a0
      have m1 := List.mem_singleton.2 (up a0)
      have hc : ¬ Critical Φ x A := fun h => by have := h.1; rw [a0] at this; cases this
      rw [if_pos m0, if_pos m1, if_pos m0, if_pos m1, if_neg hc]; ring
    · by_cases a1 : Φ (fun y => decide (y ∈ insert x A)) = true
      · have m1 := List.mem_singleton.2 a1
        have hc : Critical Φ x A := ⟨by simpa using a0, a1⟩
        rw [if_neg (no a0), if_pos m1, if_neg (no a0), if_pos m1, if_pos hc]; ring
      · have hc : ¬ Critical Φ x A := fun h => a1 h.2
        rw [if_neg (no a0), if_neg (no a1), if_neg (no a0), if_neg (no a1), if_neg hc]; ring
  · have : ev.get x = none := by
      cases h : ev.get x with
      | none => rfl
      | some u => exact absurd ((label_matters hw hf hn hΦ x).1 ((h3 x).1 (by rw [h]; rfl))) hmx
    rw [this]
    refine (Finset.sum_eq_zero fun A hA => if_neg fun hc => hmx ⟨fun y => decide (y ∈ A), ?_⟩).symm
    have hxA : x ∉ A := fun h => hy (Finset.mem_powerset.1 hA h)
    rw [(update_mem hxA).1, (update_mem hxA).2, hc.1, hc.2]
    decide

end ring

/-- **C92.** With all probabilities 1/2 it is the share of the critical sets among all sets of the other names
(structural importance, Banzhaf). -/
theorem C92_structural {w : World} {f : Nat} {X : Finset String} (hw : w.Reachable) (hf : w.Denotes f F)
    (hn : Names w names) (hΦ : Named names F Φ) (hm : MonoN Φ) (hX : ∀ x, Matters Φ x → x ∈ X) :
    ∃ ev, w.bddBmeas (fun _ => some (1 / 2 : ℚ)) [true] f = some ev ∧ ∀ x ∈ X,
      (ev.get x).getD 0 = (((X.erase x).powerset.filter (Critical Φ x)).card : ℚ) / 2 ^ (X.card - 1) := by
  obtain ⟨ev, h1, h2⟩ := C92_bmeas hw hf hn hΦ hm hX (fun _ => some (1 / 2 : ℚ))
  refine ⟨ev, h1, fun x hx => ?_⟩
  rw [h2 x hx, ← Finset.sum_filter, ← Finset.card_erase_of_mem hx]
  rw [Finset.sum_congr rfl (g := fun _ => 1 / 2 ^ (X.erase x).card) fun A hA => ?_]
  · rw [Finset.sum_const, nsmul_eq_mul]; ring
  · have hA := Finset.mem_powerset.1 (Finset.mem_filter.1 hA).1
    unfold weight
    simp only [Option.getD_some]
    rw [Finset.prod_const, Finset.prod_const, Finset.card_sdiff_of_subset hA, show (1 - 1 / 2 : ℚ) = 1 / 2 by norm_num,
      ← pow_add, Nat.add_sub_cancel' (Finset.card_le_card hA), one_div_pow]

/-- **C92.** With probabilities strictly between 0 and 1 every entry is positive. -/
theorem C92_positive {R : Type} [CommRing R] [LinearOrder R] [IsStrictOrderedRing R] {w : World} {f : Nat}
    (hw : w.Reachable) (hf : w.Denotes f F) (hn : Names w names) (hΦ : Named names F Φ) (hm : MonoN Φ)
    {pv : String → Option R} (hp : ∀ x ∈ names, 0 < (pv x).getD 0 ∧ (pv x).getD 0 < 1) :
    ∃ ev, w.bddBmeas pv [true] f = some ev ∧ ∀ x u, ev.get x = some u → 0 < u := by
  have out : ∀ x, Matters Φ x → x ∈ names := fun x hmx => Classical.byContradiction fun h => by
    obtain ⟨ν, hne⟩ := hmx
    exact hne (by rw [hΦ.outside h, hΦ.outside h])
  have hX : ∀ x, Matters Φ x → x ∈ names.toFinset := fun x h => List.mem_toFinset.2 (out x h)
  obtain ⟨ev, h1, h2⟩ := C92_bmeas hw hf hn hΦ hm hX pv
  obtain ⟨ev', k1, _, k3⟩ := C15_bmeas hw hf hn pv [true]
  rw [h1] at k1; cases k1
  refine ⟨ev, h1, fun x u hu => ?_⟩
  have hmx : Matters Φ x := (label_matters hw hf hn hΦ x).1 ((k3 x).1 (by rw [hu]; rfl))
  have hxX := hX x hmx
  have := h2 x hxX
  rw [hu, Option.getD_some] at this
  rw [this]
  have pos : ∀ A ∈ (names.toFinset.erase x).powerset, 0 < weight pv (names.toFinset.erase x) A := by
    intro A hA
    have hA := Finset.mem_powerset.1 hA
    have mem : ∀ y ∈ names.toFinset.erase x, y ∈ names := fun y hy => List.mem_toFinset.1 (Finset.mem_of_mem_erase hy)
    exact mul_pos (Finset.prod_pos fun y hy => (hp y (mem y (hA hy))).1)
      (Finset.prod_pos fun y hy => sub_pos.2 (hp y (mem y (Finset.mem_sdiff.1 hy).1)).2)
  obtain ⟨P, hP, hxP⟩ := (matters_path (names_nodup hw hn) (dependsBelow_names hw hf hn) hΦ hm x).1 hmx
  have L : LooksAt (names.toFinset : Set String) Φ := fun ν μ h => hΦ.looksAt ν μ fun y hy => h y (hX y hy)
  classical
  let A : Finset String := (names.toFinset.erase x).filter (· ∈ P)
  have hA : A ∈ (names.toFinset.erase x).powerset := Finset.mem_powerset.2 (Finset.filter_subset _ _)
  have hsub := L.sub hP
  have c0 : Φ (fun y => decide (y ∈ A)) = false := by
    rw [← hP.2 (P \ {x}) ⟨Set.sdiff_subset, fun h => (h hxP).2 rfl⟩]
    refine L _ _ fun y hy => ?_
    have hy : y ∈ names := List.mem_toFinset.1 hy
    simp only [chi, A, Finset.mem_filter, Finset.mem_erase, List.mem_toFinset, Set.mem_sdiff, Set.mem_singleton_iff]
    exact decide_eq_decide.2 (by tauto)
  have c1 : Φ (fun y => decide (y ∈ insert x A)) = true := by
    rw [← hP.1]
    refine L _ _ fun y hy => ?_
    have hy : y ∈ names := List.mem_toFinset.1 hy
    simp only [chi, A, Finset.mem_insert, Finset.mem_filter, Finset.mem_erase, List.mem_toFinset]
    refine decide_eq_decide.2 ?_
    by_cases e : y = x
    · subst e; simp [hxP]
    · simp [e, hy]
  refine Finset.sum_pos' (fun B hB => ?_) ⟨A, hA, ?_⟩
  · split
    · exact (pos B hB).le
    · exact le_refl _
  · rw [if_pos ⟨c0, c1⟩]; exact pos A hA

/-! ## A concrete case: `a ∧ (b ∨ c)`, with an unused name -/

def impSys : List BssCmd :=
  [.bdd (.defvar "a"), .bdd (.defvar "u"), .bdd (.defvar "b"), .bdd (.defvar "c"), .bdd (.or 2 3), .bdd (.and 0 4),
   .minpath 5, .mincut 5]

/-- `a` is critical for three of the four sets of the others, `b` and `c` for one each. -/
example : (BssW.new.run impSys).bind (fun p => (p.2.bdd.bddBmeas (R := ℚ) (fun _ => some (1/2)) [true] 5).map
      (fun e => ["a", "u", "b", "c"].map e.get)) = some [some (3/4), none, some (1/4), some (1/4)] ∧
    (BssW.new.run impSys).map (fun p => [0, 1].map (fun h => listSets p.2.zdd h 9)) =
      some [[["a", "b"], ["a", "c"]], [["a"], ["b", "c"]]] := by
  decide +kernel

example : (((({"a", "b", "c"} : Finset String).erase "a").powerset.filter
      (Critical (fun ν => ν "a" && (ν "b" || ν "c")) "a")).card,
    ((({"a", "b", "c"} : Finset String).erase "b").powerset.filter
      (Critical (fun ν => ν "a" && (ν "b" || ν "c")) "b")).card) = (3, 1) := by
  decide +kernel

/-- The hypotheses hold of it. -/
example : Named ["a", "u", "b", "c"] (fun a => a 0 && (a 2 || a 3)) (fun ν => ν "a" && (ν "b" || ν "c")) ∧
    MonoN (fun ν => ν "a" && (ν "b" || ν "c")) :=
  ⟨fun a ν h => by simp [h 0 "a" rfl, h 2 "b" rfl, h 3 "c" rfl],
    mono_and (Φ := fun ν => ν "a") (Ψ := fun ν => ν "b" || ν "c") (fun ν μ h => h _)
      (mono_or (Φ := fun ν => ν "b") (Ψ := fun ν => ν "c") (fun ν μ h => h _) (fun ν μ h => h _))⟩

end DD.Props
