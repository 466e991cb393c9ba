import Verif.Props.Bss
import Verif.Props.BddRpn
import Verif.Props.Mss
import Verif.Props.Laws

/-!
# C77: the minimal path sets and the minimal cut sets determine the function

The sets listed by `extract` on the results of `minpath` and `mincut`, written back as an expression and given to
`rpn`, yield a handle equal to the one they came from.  For multi-state functions, `extract_level` decides every
comparison with a level.
-/

set_option autoImplicit false
set_option linter.unusedSectionVars false
set_option linter.unusedVariables false

namespace DD.Props
open Arena Zdd

section bss
variable {w : BssW}

/-- The conjunction of the variables of a set. -/
def conj : List String → Expr
  | [] => .const true
  | x :: xs => .and (.var x) (conj xs)

/-- The disjunction of the variables of a set. -/
def disj : List String → Expr
  | [] => .const false
  | x :: xs => .or (.var x) (disj xs)

/-- Some set is all true. -/
def dnf : List (List String) → Expr
  | [] => .const false
  | s :: ss => .or (conj s) (dnf ss)

/-- Every set has a true element. -/
def cnf : List (List String) → Expr
  | [] => .const true
  | s :: ss => .and (disj s) (cnf ss)

theorem eval_conj (ν : String → Bool) (E : Env) (s : List String) : (conj s).eval ν E = some (s.all ν, E) := by
  induction s with
  | nil => rfl
  | cons x xs ih => simp [conj, Expr.eval, ih]

theorem eval_disj (ν : String → Bool) (E : Env) (s : List String) : (disj s).eval ν E = some (s.any ν, E) := by
  induction s with
  | nil => rfl
  | cons x xs ih => simp [disj, Expr.eval, ih]

theorem eval_dnf (ν : String → Bool) (E : Env) (ss : List (List String)) :
    (dnf ss).eval ν E = some (ss.any (fun s => s.all ν), E) := by
  induction ss with
  | nil => rfl
  | cons x xs ih => simp [dnf, Expr.eval, ih, eval_conj]

theorem eval_cnf (ν : String → Bool) (E : Env) (ss : List (List String)) :
    (cnf ss).eval ν E = some (ss.all (fun s => s.any ν), E) := by
  induction ss with
  | nil => rfl
  | cons x xs ih => simp [cnf, Expr.eval, ih, eval_disj]

theorem vars_conj (s : List String) : (conj s).vars = s := by
  induction s with
  | nil => rfl
  | cons x xs ih => simp [conj, Expr.vars, ih]

theorem vars_disj (s : List String) : (disj s).vars = s := by
  induction s with
  | nil => rfl
  | cons x xs ih => simp [disj, Expr.vars, ih]

theorem vars_dnf (ss : List (List String)) : (dnf ss).vars = ss.flatten := by
  induction ss with
  | nil => rfl
  | cons x xs ih => simp [dnf, Expr.vars, ih, vars_conj]

theorem vars_cnf (ss : List (List String)) : (cnf ss).vars = ss.flatten := by
  induction ss with
  | nil => rfl
  | cons x xs ih => simp [cnf, Expr.vars, ih, vars_disj]

theorem addNames_sub {names : List String} : ∀ {l : List String}, (∀ x ∈ l, x ∈ names) → addNames names l = names := by
  intro l
  induction l with
  | nil => intro _; rfl
  | cons x xs ih =>
    intro h
    simp only [addNames, if_pos (h x List.mem_cons_self)]
    exact ih fun y hy => h y (List.mem_cons_of_mem _ hy)

theorem onlyTrue_agree {names : List String} (nd : names.Nodup) (a : Nat → Bool) {l : Nat} (hl : l < names.length) :
    onlyTrue names {x | x ∈ names ∧ a (names.idxOf x) = true} l = a l := by
  rw [Bool.eq_iff_iff, onlyTrue_true]
  have e : names[l]? = some names[l] := List.getElem?_eq_getElem hl
  have hi : names.idxOf names[l] = l := nd.idxOf_getElem l hl
  constructor
  · rintro ⟨x, h1, _, h2⟩
    rw [e] at h1; cases h1
    rw [hi] at h2; exact h2
  · intro h
    exact ⟨_, e, List.getElem_mem hl, by rw [hi]; exact h⟩

/-- Below a set that makes `F` true there is a minimal one. -/
theorem exists_minPath {names : List String} {F : BFun} :
    ∀ (n : Nat) (S : Set String), S ⊆ {x | x ∈ names} → S.ncard ≤ n → F (onlyTrue names S) = true →
      ∃ P ∈ MinPaths names F, P ⊆ S := by
  have fin : ∀ S : Set String, S ⊆ {x | x ∈ names} → S.Finite := fun S h => (List.finite_toSet names).subset h
  intro n
  induction n with
  | zero =>
    intro S hS hc hF
    have : S = ∅ := (Set.ncard_eq_zero (fin S hS)).1 (by omega)
    subst this
    exact ⟨∅, ⟨hS, hF, fun T hT => absurd (Set.empty_subset T) hT.2⟩, subset_rfl⟩
  | succ n ih =>
    intro S hS hc hF
    by_cases h : ∃ T, T ⊂ S ∧ F (onlyTrue names T) = true
    · obtain ⟨T, hT, hF'⟩ := h
      have := Set.ncard_lt_ncard hT (fin S hS)
      obtain ⟨P, h1, h2⟩ := ih T (hT.1.trans hS) (by omega) hF'
      exact ⟨P, h1, h2.trans hT.1⟩
    · refine ⟨S, ⟨hS, hF, fun T hT => ?_⟩, subset_rfl⟩
      cases hc : F (onlyTrue names T) with
      | false => rfl
      | true => exact absurd ⟨T, hT, hc⟩ h

/-- A monotone function is the disjunction of its minimal path sets. -/
theorem minPaths_value {names : List String} (nd : names.Nodup) {F : BFun} (hd : DependsBelow names.length F)
    (hm : MonoB F) (a : Nat → Bool) :
    F a = true ↔ ∃ P ∈ MinPaths names F, ∀ x ∈ P, a (names.idxOf x) = true := by
  constructor
  · intro h
    rw [hd a _ (fun l hl => (onlyTrue_agree nd a hl).symm)] at h
    obtain ⟨P, h1, h2⟩ := exists_minPath (names := names) _ _ (fun x hx => hx.1) le_rfl h
    exact ⟨P, h1, fun x hx => (h2 hx).2⟩
  · rintro ⟨P, h1, h2⟩
    refine hm _ _ (fun l hl => ?_) h1.2.1
    obtain ⟨x, h3, h4⟩ := onlyTrue_true.1 hl
    have := h2 x h4
    obtain ⟨hlt, rfl⟩ := List.getElem?_eq_some_iff.1 h3
    rwa [nd.idxOf_getElem l hlt] at this

theorem minCuts_dual (names : List String) (F : BFun) :
    MinCuts names F = MinPaths names (fun a => !F (fun l => !a l)) := by
  ext S; simp [MinPaths, MinCuts]

theorem dependsBelow_dual {n : Nat} {F : BFun} (h : DependsBelow n F) :
    DependsBelow n (fun a => !F (fun l => !a l)) := fun a b hab => by
  simp only
  rw [h (fun l => !a l) (fun l => !b l) (fun l hl => by simp only [hab l hl])]

/-- A monotone function is the conjunction, over its minimal cut sets, of "some element is true". -/
theorem minCuts_value {names : List String} (nd : names.Nodup) {F : BFun} (hd : DependsBelow names.length F)
    (hm : MonoB F) (a : Nat → Bool) :
    F a = true ↔ ∀ P ∈ MinCuts names F, ∃ x ∈ P, a (names.idxOf x) = true := by
  have := minPaths_value nd (dependsBelow_dual hd) ((monoB_dual F).2 hm) (fun l => !a l)
  rw [← minCuts_dual] at this
  simp only [Bool.not_not, Bool.not_eq_true'] at this
  constructor
  · intro h P hP
    by_contra hn
    push Not at hn
    have h' := this.2 ⟨P, hP, fun x hx => by simpa using hn x hx⟩
    rw [h] at h'; cases h'
  · intro h
    cases hF : F a with
    | true => rfl
    | false =>
      obtain ⟨P, hP, h1⟩ := this.1 hF
      obtain ⟨x, hx, h2⟩ := h P hP
      rw [h1 x hx] at h2; cases h2

/-- The listed sets, as an expression, give back the handle. -/
theorem rebuild (hw : w.Reachable) {f : Nat} {F : BFun} (hf : w.bdd.Denotes f F) {names : List String}
    (hn : Names w.bdd names) (e : Expr) (G : (String → Bool) → Bool)
    (he : ∀ ν E, e.eval ν E = some (G ν, E)) (hv : ∀ x ∈ e.vars, x ∈ names)
    (hG : ∀ a, F a = G (fun x => a (names.idxOf x))) :
    ∃ w1, w.bdd.step (.rpn e.toks) = some (.handle w.bdd.next, w1) ∧
      w1.step (.eq f w.bdd.next) = some (.bool true, w1) := by
  have hb := bss_bdd_reachable hw
  obtain ⟨H, w1, h1, h2, h3, h4, h5, h6⟩ := C09_rpn hb hn e (fun ν => by rw [he]; rfl)
  obtain ⟨b, k1, k2⟩ := C02_eq h2 (h6 f F hf) h3
  refine ⟨w1, h1, ?_⟩
  have : F = H := by
    funext a
    have nd : names.Nodup := by
      obtain ⟨A, r⟩ := hb.rel
      rw [names_iff r] at hn
      subst hn
      exact r.mok.nodup
    have := h5 a (fun x => a (names.idxOf x)) (by
      rw [addNames_sub hv]
      intro i v hi
      obtain ⟨hlt, rfl⟩ := List.getElem?_eq_some_iff.1 hi
      show a i = a (names.idxOf names[i])
      rw [nd.idxOf_getElem i hlt])
    rw [he] at this
    simp only [Option.map_some, Option.some.injEq] at this
    rw [hG, this]
  rw [k1, k2.2 this]

theorem names_minpath (hw : w.Reachable) {f : Nat} {F : BFun} (hf : w.bdd.Denotes f F) {names : List String}
    (hn : Names w.bdd names) {o : BssOut} {w' : BssW} (hs : w.step (.minpath f) = some (o, w')) :
    Names w'.bdd names := by
  obtain ⟨_, A, R⟩ := hw.rel
  rw [names_iff R.bdd] at hn; subst hn
  obtain ⟨o1, w1, c, k1, k2, k3, k4, k5⟩ := R.minpath (R.bdd.denotes_iff.1 hf)
  rw [show w.step (.minpath f) = w.minpath f from rfl] at hs
  rw [k1] at hs; cases hs
  exact (names_iff k3.bdd _).2 rfl

theorem names_mincut (hw : w.Reachable) {f : Nat} {F : BFun} (hf : w.bdd.Denotes f F) {names : List String}
    (hn : Names w.bdd names) {o : BssOut} {w' : BssW} (hs : w.step (.mincut f) = some (o, w')) :
    Names w'.bdd names := by
  obtain ⟨_, A, R⟩ := hw.rel
  rw [names_iff R.bdd] at hn; subst hn
  obtain ⟨o1, w1, A', k1, k2, k3, k4, k5, k6, k7⟩ := R.mincut (R.bdd.denotes_iff.1 hf)
  rw [show w.step (.mincut f) = w.mincut f from rfl] at hs
  rw [k1] at hs; cases hs
  exact (names_iff k3.bdd _).2 k5.symm

/-- **C77.** `minpath` followed by `extract([true])` lists sets whose disjunctive normal form, given to `rpn`, is a
handle `eq` to the argument of `minpath`, for every monotone function. -/
theorem C77_paths (hw : w.Reachable) {f : Nat} {F : BFun} (hf : w.bdd.Denotes f F) (hm : MonoB F) :
    ∃ w' h st os w1, w.step (.minpath f) = some (.fam (some h), w') ∧
      w'.zdd.extract [true] h = some st ∧ Enum.Yields w'.zdd.next st os ∧
      w'.bdd.step (.rpn (dnf os).toks) = some (.handle w'.bdd.next, w1) ∧
      w1.step (.eq f w'.bdd.next) = some (.bool true, w1) := by
  have hb := bss_bdd_reachable hw
  obtain ⟨names, hn⟩ := names_exists hb
  obtain ⟨o, w', h1, hw', h2, _, h4, _⟩ := C17_minpath hw hf hn
  rcases h2 with ⟨h2, _⟩ | ⟨_, rfl, h3⟩
  · exact absurd hm h2
  obtain ⟨st, os, e1, e2, _, e4, _⟩ := C23_bss_extract hw' h3
  have hos : ∀ l ∈ os, {x | x ∈ l} ∈ MinPaths names F := fun l hl => (e4 _).2 ⟨l, hl, rfl⟩
  obtain ⟨w1, k1, k2⟩ := rebuild hw' (h4 f F hf) (names_minpath hw hf hn h1) (dnf os) _
    (fun ν E => eval_dnf ν E os)
    (fun x hx => by
      rw [vars_dnf, List.mem_flatten] at hx
      obtain ⟨l, hl, hx⟩ := hx
      exact (hos l hl).1 hx)
    (fun a => by
      rw [Bool.eq_iff_iff, minPaths_value (names_nodup hb hn) (dependsBelow_names hb hf hn) hm]
      simp only [List.any_eq_true, List.all_eq_true]
      constructor
      · rintro ⟨P, hP, hx⟩
        obtain ⟨l, hl, rfl⟩ := (e4 P).1 hP
        exact ⟨l, hl, hx⟩
      · rintro ⟨l, hl, hx⟩
        exact ⟨_, hos l hl, hx⟩)
  exact ⟨w', _, st, os, w1, h1, e1, e2, k1, k2⟩

/-- **C77.** Likewise `mincut`, with the conjunctive normal form. -/
theorem C77_cuts (hw : w.Reachable) {f : Nat} {F : BFun} (hf : w.bdd.Denotes f F) (hm : MonoB F) :
    ∃ w' h st os w1, w.step (.mincut f) = some (.fam (some h), w') ∧
      w'.zdd.extract [true] h = some st ∧ Enum.Yields w'.zdd.next st os ∧
      w'.bdd.step (.rpn (cnf os).toks) = some (.handle w'.bdd.next, w1) ∧
      w1.step (.eq f w'.bdd.next) = some (.bool true, w1) := by
  have hb := bss_bdd_reachable hw
  obtain ⟨names, hn⟩ := names_exists hb
  obtain ⟨o, w', h1, hw', h2, _, h4, _⟩ := C18_mincut hw hf hn
  rcases h2 with ⟨h2, _⟩ | ⟨_, rfl, h3⟩
  · exact absurd hm h2
  obtain ⟨st, os, e1, e2, _, e4, _⟩ := C23_bss_extract hw' h3
  have hos : ∀ l ∈ os, {x | x ∈ l} ∈ MinCuts names F := fun l hl => (e4 _).2 ⟨l, hl, rfl⟩
  obtain ⟨w1, k1, k2⟩ := rebuild hw' (h4 f F hf) (names_mincut hw hf hn h1) (cnf os) _
    (fun ν E => eval_cnf ν E os)
    (fun x hx => by
      rw [vars_cnf, List.mem_flatten] at hx
      obtain ⟨l, hl, hx⟩ := hx
      exact (hos l hl).1 hx)
    (fun a => by
      rw [Bool.eq_iff_iff, minCuts_value (names_nodup hb hn) (dependsBelow_names hb hf hn) hm]
      simp only [List.any_eq_true, List.all_eq_true]
      constructor
      · intro h l hl
        exact h _ (hos l hl)
      · intro h P hP
        obtain ⟨l, hl, rfl⟩ := (e4 P).1 hP
        exact h l hl)
  exact ⟨w', _, st, os, w1, h1, e1, e2, k1, k2⟩

/-- A concrete case: 2-out-of-3 (handle 3 of `bssDemo`, with collections forced); `minpath` gives family 5. -/
example : ((BssW.new.run (bssDemo ++ [.minpath 3])).bind (fun p =>
    (p.2.bdd.step (.rpn (dnf (listSets p.2.zdd 5 9)).toks)).bind (fun q =>
      (q.2.step (.eq 3 p.2.bdd.next)).map (fun r => (listSets p.2.zdd 5 9, r.1))))) =
    some ([["x", "y"], ["x", "z"], ["y", "z"]], .bool true) := by
  decide +kernel

end bss

section mss
variable {w : MssW} {vs : List (String × Nat)}

/-- The state vector `o` (a map from names to states) is at most the vector `a`, componentwise. -/
def MapLe (vs : List (String × Nat)) (o : AMap String Nat) (a : Nat → Nat) : Prop :=
  ∀ l x s, vs[l]? = some (x, s) → ∃ k, o.get x = some k ∧ k ≤ a l

/-- The state vector `o` is at least the vector `a`, componentwise. -/
def MapGe (vs : List (String × Nat)) (o : AMap String Nat) (a : Nat → Nat) : Prop :=
  ∀ l x s, vs[l]? = some (x, s) → ∃ k, o.get x = some k ∧ a l ≤ k

theorem forall₂_left {α β : Type} {R : α → β → Prop} {as : List α} {bs : List β} (h : List.Forall₂ R as bs) {a : α}
    (ha : a ∈ as) : ∃ b ∈ bs, R a b := by
  induction h with
  | nil => cases ha
  | cons h1 _ ih =>
    rcases List.mem_cons.1 ha with rfl | ha
    · exact ⟨_, List.mem_cons_self, h1⟩
    · obtain ⟨b, hb, hr⟩ := ih ha
      exact ⟨b, List.mem_cons_of_mem _ hb, hr⟩

theorem forall₂_right {α β : Type} {R : α → β → Prop} {as : List α} {bs : List β} (h : List.Forall₂ R as bs) {b : β}
    (hb : b ∈ bs) : ∃ a ∈ as, R a b := by
  induction h with
  | nil => cases hb
  | cons h1 _ ih =>
    rcases List.mem_cons.1 hb with rfl | hb
    · exact ⟨_, List.mem_cons_self, h1⟩
    · obtain ⟨a, ha, hr⟩ := ih hb
      exact ⟨a, List.mem_cons_of_mem _ ha, hr⟩

/-- **C77 (multi-state).** The value at a state vector is at least `v` exactly when some vector listed by
`extract_level(v)` of the path family is at most it. -/
theorem C77_mss_paths (hw : w.Reachable) {h : Nat} {φ : (Nat → Nat) → Int} (hp : PathFamily w.z h vs φ)
    (hm : MonoS vs φ) (v : Int) :
    ∃ os, w.step (.zmdd (.extractLevel v h)) = some (.zmdd (.vectors os), w) ∧
      ∀ a, IsVec vs a → (v ≤ φ a ↔ ∃ o ∈ os, MapLe vs o a) := by
  obtain ⟨os, h1, as, _, h2, h3⟩ := C55_extract_level_path hw hp v
  refine ⟨os, h1, fun a ha => ⟨fun hv => ?_, ?_⟩⟩
  · obtain ⟨c, hc, hcm⟩ := exists_minIn (A := fun a => IsVec vs a ∧ v ≤ φ a) (fun a h => h.1) _ (Nat.le_refl _)
      ⟨ha, hv⟩
    obtain ⟨o, ho, hmap⟩ := forall₂_left h2 ((h3 c).2 hcm)
    exact ⟨o, ho, fun l x s hl => ⟨c l, (hmap.2 x _).2 ⟨l, s, hl, rfl⟩, hc l⟩⟩
  · rintro ⟨o, ho, hle⟩
    obtain ⟨c, hc, hmap⟩ := forall₂_right h2 ho
    obtain ⟨⟨hcv, hv⟩, _⟩ := (h3 c).1 hc
    refine hv.trans (hm c a hcv ha fun l => ?_)
    by_cases hl : l < vs.length
    · have e : vs[l]? = some (vs[l].1, vs[l].2) := List.getElem?_eq_getElem hl
      obtain ⟨k, hk, hk'⟩ := hle l _ _ e
      have := (hmap.2 vs[l].1 (c l)).2 ⟨l, _, e, rfl⟩
      rw [hk] at this; cases this
      exact hk'
    · rw [hcv.2 l (by omega)]; exact Nat.zero_le _

/-- **C77 (multi-state).** The value at a state vector is at most `v` exactly when some vector listed by
`extract_level(v)` of the cut family is at least it. -/
theorem C77_mss_cuts (hw : w.Reachable) {h : Nat} {φ : (Nat → Nat) → Int} (hp : CutFamily w.z h vs φ)
    (hm : MonoS vs φ) (v : Int) :
    ∃ os, w.step (.zmdd (.extractLevel v h)) = some (.zmdd (.vectors os), w) ∧
      ∀ a, IsVec vs a → (φ a ≤ v ↔ ∃ o ∈ os, MapGe vs o a) := by
  obtain ⟨os, h1, as, _, h2, h3⟩ := C55_extract_level_cut hw hp v
  refine ⟨os, h1, fun a ha => ⟨fun hv => ?_, ?_⟩⟩
  · obtain ⟨c, hc, hcm⟩ := exists_maxIn (A := fun a => IsVec vs a ∧ φ a ≤ v) (fun a h => h.1) ⟨ha, hv⟩
    obtain ⟨o, ho, hmap⟩ := forall₂_left h2 ((h3 c).2 hcm)
    exact ⟨o, ho, fun l x s hl => ⟨c l, (hmap.2 x _).2 ⟨l, s, hl, rfl⟩, hc l⟩⟩
  · rintro ⟨o, ho, hle⟩
    obtain ⟨c, hc, hmap⟩ := forall₂_right h2 ho
    obtain ⟨⟨hcv, hv⟩, _⟩ := (h3 c).1 hc
    refine (hm a c ha hcv fun l => ?_).trans hv
    by_cases hl : l < vs.length
    · have e : vs[l]? = some (vs[l].1, vs[l].2) := List.getElem?_eq_getElem hl
      obtain ⟨k, hk, hk'⟩ := hle l _ _ e
      have := (hmap.2 vs[l].1 (c l)).2 ⟨l, _, e, rfl⟩
      rw [hk] at this; cases this
      exact hk'
    · rw [ha.2 l (by omega)]; exact Nat.zero_le _

/-- Two structure functions with the same path family agree at every state vector. -/
theorem C77_mss_determined {h h' : Nat} {φ ψ : (Nat → Nat) → Int} (hw : w.Reachable) (hp : PathFamily w.z h vs φ)
    (hq : PathFamily w.z h' vs ψ) (hm : MonoS vs φ) (hm' : MonoS vs ψ)
    (he : ∀ a v, FamHas w.z h a v ↔ FamHas w.z h' a v) : ∀ a, IsVec vs a → φ a = ψ a := by
  have key : ∀ {χ ω : (Nat → Nat) → Int}, (∀ a v, MinIn (Stratum vs χ v) a ↔ MinIn (Stratum vs ω v) a) →
      MonoS vs ω → ∀ a, IsVec vs a → χ a ≤ ω a := by
    intro χ ω hk hmo a ha
    obtain ⟨c, hc, hcm⟩ := exists_minIn (A := Stratum vs χ (χ a)) (fun a h => h.1) _ (Nat.le_refl _) ⟨ha, rfl⟩
    obtain ⟨⟨c1, c2⟩, _⟩ := (hk c _).1 hcm
    rw [← c2]; exact hmo c a c1 ha hc
  intro a ha
  refine le_antisymm (key (fun a v => ?_) hm' a ha) (key (fun a v => ?_) hm a ha)
  · rw [← hp.2, ← hq.2]; exact he a v
  · rw [← hp.2, ← hq.2]; exact (he a v).symm

/-- The hypotheses are met by the path and the cut family of a variable of three states. -/
example : ∃ (w : MssW) (h : Nat) (φ : (Nat → Nat) → Int), w.Reachable ∧ PathFamily w.z h [("x", 3)] φ ∧
    MonoS [("x", 3)] φ := by
  obtain ⟨w, hw, hv, hf, hm⟩ := one_var 3 (by omega)
  obtain ⟨o, w', k1, k2, k3, k4⟩ := C43_minpath_partial hw hv (by simp) hf
  cases o with
  | none => exact absurd hm (k3.1 rfl)
  | some h => exact ⟨w', h, _, k2, (k4 h rfl).2, hm⟩

example : ∃ (w : MssW) (h : Nat) (φ : (Nat → Nat) → Int), w.Reachable ∧ CutFamily w.z h [("x", 3)] φ ∧
    MonoS [("x", 3)] φ := by
  obtain ⟨w, hw, hv, hf, hm⟩ := one_var 3 (by omega)
  obtain ⟨o, w', k1, k2, k3, k4⟩ := C44_mincut_partial hw hv (by simp) hf
  cases o with
  | none => exact absurd hm (k3.1 rfl)
  | some h => exact ⟨w', h, _, k2, (k4 h rfl).2, hm⟩

end mss
end DD.Props
