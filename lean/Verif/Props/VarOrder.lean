import Verif.Core.Support
import Verif.Props.BddRpn
import Verif.Props.Laws
import Verif.Props.Bss
import Verif.Props.LawsMss
import Verif.Props.Mss

/-!
# C82: results do not depend on the variable order

Two managers in which the variables were declared in different orders, with different further variables, hold a
handle of the same function of the variables' names: the analyses give the same answers.
-/

set_option autoImplicit false
set_option linter.unusedSectionVars false
set_option linter.unusedVariables false

namespace DD.Props
open Arena Prob

/-! ## BDD -/

/-- `F` is the function `Φ` of the values of the named variables. -/
def Named (names : List String) (F : BFun) (Φ : (String → Bool) → Bool) : Prop :=
  ∀ a ν, Agrees names a ν → F a = Φ ν

/-- The value of `x` can matter. -/
def Matters (Φ : (String → Bool) → Bool) (x : String) : Prop :=
  ∃ ν, Φ (Function.update ν x false) ≠ Φ (Function.update ν x true)

/-- Levels from named values. -/
def atNames (names : List String) (ν : String → Bool) : Nat → Bool := fun l => (names[l]?.map ν).getD false

theorem agrees_atNames (names : List String) (ν : String → Bool) : Agrees names (atNames names ν) ν := by
  intro i v h; simp [atNames, h]

variable {w w' : World} {names names' : List String} {F F' : BFun} {Φ : (String → Bool) → Bool}

theorem Named.eq (h : Named names F Φ) (ν : String → Bool) : F (atNames names ν) = Φ ν := h _ _ (agrees_atNames _ _)

theorem Named.outside (h : Named names F Φ) {x : String} (hx : x ∉ names) (ν : String → Bool) (b : Bool) :
    Φ (Function.update ν x b) = Φ ν := by
  rw [← h.eq ν]
  refine (h _ _ fun i v hv => ?_).symm
  have hne : v ≠ x := fun e => hx (e ▸ List.mem_of_getElem? hv)
  rw [Function.update_of_ne hne]
  exact agrees_atNames names ν i v hv

section ring
variable {R : Type} [CommRing R]

theorem pr_point {p : Nat → R} (g : Bool → R) {a : Nat → Bool} : ∀ (n : Nat) (F : BFun),
    (∀ l, l < n → p l = if a l then 1 else 0) → pr p g n F = g (F (fun l => if l < n then a l else false)) := by
  intro n
  induction n with
  | zero => intro F _; rw [pr_zero]; simp
  | succ n ih =>
    intro F h
    rw [pr_succ, ih _ (fun l hl => h l (by omega)), ih _ (fun l hl => h l (by omega)), h n (by omega)]
    have key : ∀ b, a n = b → F.cof n b (fun l => if l < n then a l else false) =
        F (fun l => if l < n + 1 then a l else false) := by
      intro b hb
      unfold BFun.cof
      congr 1
      funext l
      by_cases e : l = n
      · subst e; simp [hb]
      · by_cases e' : l < n
        · simp [e, e', Nat.lt_succ_of_lt e']
        · simp [e, e', show ¬ l < n + 1 by omega]
    cases hb : a n
    · rw [← key false hb]; simp
    · rw [← key true hb]; simp

/-- `prob` does not read the probability of a name that is not a variable. -/
theorem prob_outside (hw : w.Reachable) {f : Nat} (hf : w.Denotes f F) (hn : Names w names) {x : String}
    (hx : x ∉ names) (pv : String → Option R) (v : R) (ss : List Bool) :
    w.bddProb (setPv pv x v) ss f = w.bddProb pv ss f := by
  rw [prob_pr hw hf hn, prob_pr hw hf hn]
  congr 1
  refine Bdd.bsum_sub_same _ _ _ _ _ fun l hl => ?_
  have hne : names[l] ≠ x := fun e => hx (e ▸ List.getElem_mem hl)
  simp [probs, setPv, List.getD_eq_getElem?_getD, List.getElem?_eq_getElem hl, hne]

theorem prob_split (hw : w.Reachable) {f : Nat} (hf : w.Denotes f F) (hn : Names w names) (x : String)
    (pv : String → Option R) (ss : List Bool) : ∃ p1 p0, w.bddProb (setPv pv x 1) ss f = some p1 ∧
      w.bddProb (setPv pv x 0) ss f = some p0 ∧
      w.bddProb pv ss f = some ((pv x).getD 0 * p1 + (1 - (pv x).getD 0) * p0) := by
  by_cases hx : x ∈ names
  · obtain ⟨p, p1, p0, h, h1, h0, e⟩ := C76_pivot hw hf hn hx pv ss
    exact ⟨p1, p0, h1, h0, by rw [h, e]⟩
  · refine ⟨_, _, (prob_outside hw hf hn hx pv 1 ss).trans (prob_pr hw hf hn pv ss),
      (prob_outside hw hf hn hx pv 0 ss).trans (prob_pr hw hf hn pv ss), ?_⟩
    rw [prob_pr hw hf hn]; congr 1; ring

theorem prob_point (hw : w.Reachable) {f : Nat} (hf : w.Denotes f F) (hn : Names w names) (hΦ : Named names F Φ)
    {pv : String → Option R} {ν : String → Bool} (h : ∀ x ∈ names, (pv x).getD 0 = if ν x then 1 else 0)
    (ss : List Bool) : w.bddProb pv ss f = some (Bdd.ind ss (Φ ν)) := by
  rw [prob_pr hw hf hn, pr_point (a := atNames names ν) (Bdd.ind ss) names.length F]
  · rw [hΦ _ ν fun i v hv => ?_]
    have := (List.getElem?_eq_some_iff.1 hv).1
    simp only [this, if_true]
    exact agrees_atNames names ν i v hv
  · intro l hl
    have := h names[l] (List.getElem_mem hl)
    simpa [probs, atNames, List.getD_eq_getElem?_getD, List.getElem?_eq_getElem hl] using this

/-- **C82.** `prob` is the same. -/
theorem C82_prob (hw : w.Reachable) (hw' : w'.Reachable) {f f' : Nat} (hf : w.Denotes f F) (hf' : w'.Denotes f' F')
    (hn : Names w names) (hn' : Names w' names') (hΦ : Named names F Φ) (hΦ' : Named names' F' Φ)
    (pv : String → Option R) (ss : List Bool) : ∃ p, w.bddProb pv ss f = some p ∧ w'.bddProb pv ss f' = some p := by
  suffices h : ∀ (L : List String) (pv : String → Option R), (∃ ν : String → Bool, ∀ x, x ∈ names ++ names' → x ∉ L →
      (pv x).getD 0 = if ν x then 1 else 0) → w.bddProb pv ss f = w'.bddProb pv ss f' by
    refine ⟨_, prob_pr hw hf hn pv ss, ?_⟩
    rw [← h (names ++ names') pv ⟨fun _ => false, fun x h1 h2 => absurd h1 h2⟩, prob_pr hw hf hn pv ss]
  intro L
  induction L with
  | nil =>
    rintro pv ⟨ν, h⟩
    rw [prob_point hw hf hn hΦ (fun x hx => h x (List.mem_append_left _ hx) (by simp)),
      prob_point hw' hf' hn' hΦ' (fun x hx => h x (List.mem_append_right _ hx) (by simp))]
  | cons y L ih =>
    rintro pv ⟨ν, h⟩
    have set : ∀ b : Bool, w.bddProb (setPv pv y (if b then 1 else 0)) ss f =
        w'.bddProb (setPv pv y (if b then 1 else 0)) ss f' := by
      intro b
      refine ih _ ⟨Function.update ν y b, fun x hx hxL => ?_⟩
      by_cases e : x = y
      · subst e; simp [setPv]
      · rw [Function.update_of_ne e]
        simp only [setPv, if_neg e]
        exact h x hx (by simp [e, hxL])
    obtain ⟨p1, p0, h1, h0, e⟩ := prob_split hw hf hn y pv ss
    obtain ⟨q1, q0, k1, k0, e'⟩ := prob_split hw' hf' hn' y pv ss
    have s1 := set true
    have s0 := set false
    simp only [if_true, Bool.false_eq_true, if_false] at s1 s0
    rw [h1, k1] at s1; rw [h0, k0] at s0
    cases s1; cases s0
    rw [e, e']

end ring

/-- Variables that label a node of the diagram are those that matter. -/
theorem label_matters (hw : w.Reachable) {f : Nat} (hf : w.Denotes f F) (hn : Names w names) (hΦ : Named names F Φ)
    (x : String) : (∃ i j, w.held.get f = some i ∧ Reach w.mgr.bdd.arena i j ∧
      w.mgr.bdd.arena.label? j = some x) ↔ Matters Φ x := by
  obtain ⟨A, R⟩ := hw.rel
  obtain ⟨i, h1, h2⟩ := denotes_get R hf
  rw [names_iff R] at hn
  subst hn
  have wf := R.mok.inv.wf
  have hdr : ∀ {k : Nat} {hd : Header}, w.mgr.bdd.arena.headers[k]? = some hd →
      ∃ s, A.names[k]? = some s ∧ hd = ⟨k, s, 2⟩ := by
    intro k hd hk
    rw [R.mok.hdrs, mkHeaders_get] at hk; exact hk
  constructor
  · rintro ⟨i', j, e0, hr, hl⟩
    rw [h1] at e0; cases e0
    have lj := wf.reach_live hr h2.live
    obtain ⟨nd, hnd⟩ := lj.node
    cases nd with
    | term t => simp [label?, hnd] at hl
    | nt k ch =>
      obtain ⟨hd, hh, _⟩ := wf.nt lj hnd
      obtain ⟨s, hs, rfl⟩ := hdr hh
      have hx : s = x := by
        rw [label?, hnd] at hl; simpa [hh] using hl
      subst hx
      obtain ⟨a, b, t, t', a1, a2, a3, a4, a5, a6⟩ := nt_depends wf R.mok.inj lj hnd hh
      obtain ⟨c, c1, c2, c3⟩ := wf.reach_dir (w.mgr.bdd.arena.rank i) i j (Nat.le_refl _) h2.live hr a a1
      have hrk := rank_nt hnd hh
      have hrj : w.mgr.bdd.arena.rank j ≤ w.mgr.bdd.arena.rank i := wf.reach_rank_le h2.live hr
      have vc' : w.mgr.bdd.arena.ValidA (upd c k (b k)) :=
        wf.valid_upd c1 (List.mem_of_getElem? hh) (a2 _ (List.mem_of_getElem? hh))
      have e1 : Eval w.mgr.bdd.arena c i t := by
        rw [c3 c (fun _ _ _ => rfl)]
        exact (wf.eval_congr_iff lj (fun l hl => c2 l hl)).2 a4
      have e2 : Eval w.mgr.bdd.arena (upd c k (b k)) i t' := by
        rw [c3 _ (fun l g1 g2 => upd_ne _ _ (by simp only at hrk; omega))]
        exact (wf.eval_congr_iff lj (fun l hl => by
          by_cases e : l = k
          · subst e; rw [upd_self]
          · rw [upd_ne _ _ e, c2 l hl, a3 l e])).2 a5
      have read : ∀ d : Nat → Nat, w.mgr.bdd.arena.ValidA d → ∀ u, Eval w.mgr.bdd.arena d i u →
          u = T3.ofBool (F (fun l => d l == 1)) := by
        intro d hd u hu
        refine (Arena.eval_congr_hdr (fun hd' hm => ?_) hu).det (h2.val _)
        have := hd hd' hm
        rw [R.mok.inv.two hd' hm] at this
        unfold bl
        have : d hd'.level = 0 ∨ d hd'.level = 1 := by omega
        rcases this with e | e <;> simp [e]
      have r1 := read _ c1 _ e1
      have r2 := read _ vc' _ e2
      have hne : F (fun l => c l == 1) ≠ F (fun l => upd c k (b k) l == 1) := by
        intro e; rw [e, ← r2] at r1; exact a6 r1
      have ex : ∃ ν : String → Bool, Agrees A.names (fun l => c l == 1) ν := by
        classical
        refine ⟨fun y => if h : ∃ l : Nat, A.names[l]? = some y then c h.choose == 1 else false, fun l y hy => ?_⟩
        have h : ∃ l : Nat, A.names[l]? = some y := ⟨l, hy⟩
        simp only [dif_pos h]
        rw [nodup_getElem?_inj R.mok.nodup h.choose_spec hy]
      obtain ⟨ν, hν⟩ := ex
      have hν' : Agrees A.names (fun l => upd c k (b k) l == 1) (Function.update ν s (b k == 1)) := by
        intro l y hy
        by_cases e : l = k
        · subst e
          rw [hs] at hy; cases hy
          simp [upd_self]
        · have : y ≠ s := fun e' => e (nodup_getElem?_inj R.mok.nodup (e' ▸ hy) hs)
          rw [Function.update_of_ne this]
          simp only [upd_ne _ _ e]
          exact hν l y hy
      rw [hΦ _ _ hν, hΦ _ _ hν'] at hne
      refine ⟨ν, fun he => hne ?_⟩
      have hall : ∀ p q : Bool, Φ (Function.update ν s p) = Φ (Function.update ν s q) := by
        intro p q
        cases p <;> cases q <;> simp [he]
      rw [← hall (ν s) (b k == 1), Function.update_eq_self]
  · rintro ⟨ν, hne⟩
    refine Classical.byContradiction fun hno => hne ?_
    by_cases hx : x ∈ A.names
    · obtain ⟨l, hl⟩ := List.mem_iff_getElem?.1 hx
      have ev := wf.indep (l := l) (w.mgr.bdd.arena.rank i) i (Nat.le_refl _) h2.live (by
        intro j k ch hd g1 g2 g3 g4
        obtain ⟨s, hs, rfl⟩ := hdr g3
        simp only at g4
        subst g4
        rw [hl] at hs; cases hs
        exact hno ⟨i, j, h1, g1, by simp [label?, g2, g3]⟩)
        (bl (atNames A.names (Function.update ν x false))) (bl (atNames A.names (Function.update ν x true)))
        (by
          intro y hy
          unfold bl atNames
          cases hg : A.names[y]? with
          | none => rfl
          | some s =>
            have : s ≠ x := fun e => hy (nodup_getElem?_inj R.mok.nodup (e ▸ hg) hl)
            simp [Function.update_of_ne this])
      have := (ev _).1 (h2.val _)
      rw [← hΦ.eq, ← hΦ.eq]
      exact T3.ofBool_inj (this.det (h2.val _))
    · rw [hΦ.outside hx, hΦ.outside hx]

/-- **C82.** `bmeas` is the same map, also in the names that have an entry: the variables that matter. -/
theorem C82_bmeas {R : Type} [CommRing R] (hw : w.Reachable) (hw' : w'.Reachable) {f f' : Nat} (hf : w.Denotes f F)
    (hf' : w'.Denotes f' F') (hn : Names w names) (hn' : Names w' names') (hΦ : Named names F Φ)
    (hΦ' : Named names' F' Φ) (pv : String → Option R) (ss : List Bool) :
    ∃ ev ev', w.bddBmeas pv ss f = some ev ∧ w'.bddBmeas pv ss f' = some ev' ∧ (∀ x, ev.get x = ev'.get x) ∧
      ∀ x, (ev.get x).isSome ↔ Matters Φ x := by
  obtain ⟨ev, h1, h2, h3⟩ := C15_bmeas hw hf hn pv ss
  obtain ⟨ev', k1, k2, k3⟩ := C15_bmeas hw' hf' hn' pv ss
  have i1 : ∀ x, (ev.get x).isSome ↔ Matters Φ x := fun x => (h3 x).trans (label_matters hw hf hn hΦ x)
  have i2 : ∀ x, (ev'.get x).isSome ↔ Matters Φ x := fun x => (k3 x).trans (label_matters hw' hf' hn' hΦ' x)
  refine ⟨ev, ev', h1, k1, fun x => ?_, i1⟩
  by_cases hx : Matters Φ x
  · have m1 : x ∈ names := Classical.byContradiction fun h => by
      obtain ⟨ν, hne⟩ := hx
      exact hne (by rw [hΦ.outside h, hΦ.outside h])
    have m2 : x ∈ names' := Classical.byContradiction fun h => by
      obtain ⟨ν, hne⟩ := hx
      exact hne (by rw [hΦ'.outside h, hΦ'.outside h])
    obtain ⟨u, hu⟩ := Option.isSome_iff_exists.1 ((i1 x).2 hx)
    obtain ⟨u', hu'⟩ := Option.isSome_iff_exists.1 ((i2 x).2 hx)
    obtain ⟨p1, p0, e1, e0, e⟩ := h2 x m1
    obtain ⟨q1, q0, d1, d0, d⟩ := k2 x m2
    obtain ⟨s1, s2, s3⟩ := C82_prob hw hw' hf hf' hn hn' hΦ hΦ' (setPv pv x 1) ss
    obtain ⟨t1, t2, t3⟩ := C82_prob hw hw' hf hf' hn hn' hΦ hΦ' (setPv pv x 0) ss
    rw [e1] at s2; rw [d1] at s3; rw [e0] at t2; rw [d0] at t3
    cases s2; cases s3; cases t2; cases t3
    rw [hu, hu']
    rw [hu, ← d, hu'] at e
    simpa using e
  · have n1 : ev.get x = none := by
      cases h : ev.get x with
      | none => rfl
      | some u => exact absurd ((i1 x).1 (by rw [h]; rfl)) hx
    have n2 : ev'.get x = none := by
      cases h : ev'.get x with
      | none => rfl
      | some u => exact absurd ((i2 x).1 (by rw [h]; rfl)) hx
    rw [n1, n2]

/-- The truth value at the named values in which the names in `S` are true and all others false. -/
noncomputable def chi (S : Set String) : String → Bool := fun x => @decide (x ∈ S) (Classical.propDecidable _)

theorem agrees_chi (names : List String) (S : Set String) : Agrees names (onlyTrue names S) (chi S) := by
  intro i v h
  have : (∃ x, names[i]? = some x ∧ x ∈ S) ↔ v ∈ S := by simp [h]
  unfold onlyTrue chi
  by_cases e : v ∈ S <;> simp [this, e]

theorem agrees_chi_not (names : List String) (S : Set String) :
    Agrees names (fun l => !onlyTrue names S l) (fun x => !chi S x) := by
  intro i v h
  simp only [agrees_chi names S i v h]

theorem chi_erase (S : Set String) (x : String) : Function.update (chi S) x false = chi (S \ {x}) := by
  classical
  funext y
  by_cases e : y = x
  · subst e; simp [chi]
  · rw [Function.update_of_ne e]; simp [chi, e]

/-- Turning names from false to true never turns `Φ` from true to false. -/
def MonoN (Φ : (String → Bool) → Bool) : Prop :=
  ∀ ν μ : String → Bool, (∀ x, ν x = true → μ x = true) → Φ ν = true → Φ μ = true

/-- The inclusion-minimal sets of names whose truth, with all others false, makes `Φ` true. -/
def MinPathsN (Φ : (String → Bool) → Bool) : Set (Set String) :=
  {S | Φ (chi S) = true ∧ ∀ T, T ⊂ S → Φ (chi T) = false}

/-- The inclusion-minimal sets of names whose falsity, with all others true, makes `Φ` false. -/
def MinCutsN (Φ : (String → Bool) → Bool) : Set (Set String) :=
  {S | Φ (fun x => !chi S x) = false ∧ ∀ T, T ⊂ S → Φ (fun x => !chi T x) = true}

theorem Named.mono (h : Named names F Φ) (hnd : names.Nodup) : MonoB F ↔ MonoN Φ := by
  constructor
  · intro hm ν μ hle hν
    rw [← h.eq] at hν ⊢
    refine hm _ _ (fun l hl => ?_) hν
    unfold atNames at hl ⊢
    cases hg : names[l]? with
    | none => simp [hg] at hl
    | some s => simp only [hg, Option.map_some, Option.getD_some] at hl ⊢; exact hle s hl
  · intro hm a b hle ha
    classical
    have ex : ∀ c : Nat → Bool, Agrees names c
        (fun y => if h : ∃ l : Nat, names[l]? = some y then c h.choose else false) := by
      intro c l y hy
      have h : ∃ l : Nat, names[l]? = some y := ⟨l, hy⟩
      simp only [dif_pos h]
      rw [nodup_getElem?_inj hnd h.choose_spec hy]
    rw [h _ _ (ex a)] at ha
    rw [h _ _ (ex b)]
    refine hm _ _ (fun x hx => ?_) ha
    by_cases e : ∃ l : Nat, names[l]? = some x
    · simp only [dif_pos e] at hx ⊢; exact hle _ hx
    · simp [dif_neg e] at hx

theorem Named.minPaths (h : Named names F Φ) : MinPaths names F = MinPathsN Φ := by
  have key : ∀ S, F (onlyTrue names S) = Φ (chi S) := fun S => h _ _ (agrees_chi names S)
  ext S
  simp only [MinPaths, MinPathsN, key, Set.mem_ofPred_eq]
  refine ⟨fun h => h.2, fun ⟨h1, h2⟩ => ⟨fun x hx => ?_, h1, h2⟩⟩
  refine Classical.byContradiction fun hno => ?_
  have := h2 (S \ {x}) ⟨Set.sdiff_subset, fun hs => (hs hx).2 rfl⟩
  rw [← chi_erase, h.outside hno, h1] at this
  cases this

theorem Named.minCuts (h : Named names F Φ) : MinCuts names F = MinCutsN Φ := by
  have key : ∀ S, F (fun l => !onlyTrue names S l) = Φ (fun x => !chi S x) := fun S => h _ _ (agrees_chi_not names S)
  ext S
  simp only [MinCuts, MinCutsN, key, Set.mem_ofPred_eq]
  refine ⟨fun h => h.2, fun ⟨h1, h2⟩ => ⟨fun x hx => ?_, h1, h2⟩⟩
  refine Classical.byContradiction fun hno => ?_
  have := h2 (S \ {x}) ⟨Set.sdiff_subset, fun hs => (hs hx).2 rfl⟩
  have e : (fun y => !chi (S \ {x}) y) = Function.update (fun y => !chi S y) x true := by
    funext y
    rw [← chi_erase]
    by_cases e : y = x
    · subst e; simp
    · simp [Function.update_of_ne e]
  rw [e, h.outside hno, h1] at this
  cases this

/-- **C82.** `minpath` and `mincut` refuse in both or give the same families in both: those of the function of the
names. -/
theorem C82_min {v v' : BssW} (hv : v.Reachable) (hv' : v'.Reachable) {f f' : Nat} (hf : v.bdd.Denotes f F)
    (hf' : v'.bdd.Denotes f' F') (hn : Names v.bdd names) (hn' : Names v'.bdd names') (hΦ : Named names F Φ)
    (hΦ' : Named names' F' Φ) :
    (MinGives v (.minpath f) (MonoN Φ) (MinPathsN Φ) ∧ MinGives v' (.minpath f') (MonoN Φ) (MinPathsN Φ)) ∧
    (MinGives v (.mincut f) (MonoN Φ) (MinCutsN Φ) ∧ MinGives v' (.mincut f') (MonoN Φ) (MinCutsN Φ)) := by
  have d := names_nodup hv.rel.1 hn
  have d' := names_nodup hv'.rel.1 hn'
  rw [← hΦ.minPaths, ← hΦ.minCuts, ← propext (hΦ.mono d)]
  refine ⟨⟨C17_minpath hv hf hn, ?_⟩, C18_mincut hv hf hn, ?_⟩
  · rw [hΦ.minPaths, ← hΦ'.minPaths, propext (hΦ.mono d), ← propext (hΦ'.mono d')]
    exact C17_minpath hv' hf' hn'
  · rw [hΦ.minCuts, ← hΦ'.minCuts, propext (hΦ.mono d), ← propext (hΦ'.mono d')]
    exact C18_mincut hv' hf' hn'

/-- **C82.** An expression read in two sessions gives handles of the same function of the names, whatever variables
the sessions already had, and in whatever order. -/
theorem C82_rpn (hw : w.Reachable) (hw' : w'.Reachable) (hn : Names w names) (hn' : Names w' names') (e : Expr)
    (saved : ∀ ν, (e.eval ν (fun _ => none)).isSome) :
    ∃ u u' G G' ms ms' Ψ, w.step (.rpn e.toks) = some (.handle w.next, u) ∧
      w'.step (.rpn e.toks) = some (.handle w'.next, u') ∧ u.Reachable ∧ u'.Reachable ∧ u.Denotes w.next G ∧
      u'.Denotes w'.next G' ∧ Names u ms ∧ Names u' ms' ∧ Named ms G Ψ ∧ Named ms' G' Ψ := by
  obtain ⟨G, u, h1, h2, h3, h4, h5, _⟩ := C09_rpn hw hn e saved
  obtain ⟨G', u', k1, k2, k3, k4, k5, _⟩ := C09_rpn hw' hn' e saved
  refine ⟨u, u', G, G', _, _, fun ν => ((e.eval ν (fun _ => none)).map (·.1)).getD false, h1, k1, h2, k2, h3, k3,
    h4, k4, fun a ν ha => ?_, fun a ν ha => ?_⟩
  · simp only [h5 a ν ha, Option.getD_some]
  · simp only [k5 a ν ha, Option.getD_some]

/-- **C82.** So the analyses of an expression do not depend on the session in which it is read. -/
theorem C82_expr {R : Type} [CommRing R] (hw : w.Reachable) (hw' : w'.Reachable) (e : Expr)
    (saved : ∀ ν, (e.eval ν (fun _ => none)).isSome) (pv : String → Option R) (ss : List Bool) :
    ∃ u u' p ev ev', w.step (.rpn e.toks) = some (.handle w.next, u) ∧
      w'.step (.rpn e.toks) = some (.handle w'.next, u') ∧ u.bddProb pv ss w.next = some p ∧
      u'.bddProb pv ss w'.next = some p ∧ u.bddBmeas pv ss w.next = some ev ∧
      u'.bddBmeas pv ss w'.next = some ev' ∧ ∀ x, ev.get x = ev'.get x := by
  obtain ⟨names, hn⟩ := names_exists hw
  obtain ⟨names', hn'⟩ := names_exists hw'
  obtain ⟨u, u', G, G', ms, ms', Ψ, h1, h2, h3, h4, h5, h6, h7, h8, h9, h10⟩ := C82_rpn hw hw' hn hn' e saved
  obtain ⟨p, p1, p2⟩ := C82_prob h3 h4 h5 h6 h7 h8 h9 h10 pv ss
  obtain ⟨ev, ev', e1, e2, e3, _⟩ := C82_bmeas h3 h4 h5 h6 h7 h8 h9 h10 pv ss
  exact ⟨u, u', p, ev, ev', h1, h2, p1, p2, e1, e2, e3⟩

/-! ## MDD -/

/-- `F` is the function `Φ` of the states of the named variables. -/
def NamedM (vs : List (String × Nat)) (F : MFun) (Φ : (String → Nat) → MVal) : Prop :=
  ∀ a ν, At vs a ν → F a = Φ ν

/-- A variable of both lists has the same number of states in both. -/
def SameStates (vs vs' : List (String × Nat)) : Prop := ∀ p ∈ vs, ∀ p' ∈ vs', p.1 = p'.1 → p.2 = p'.2

section mdd
open Mda
variable {R : Type} [CommRing R] {m m' : MWorld} {vs vs' : List (String × Nat)} {H H' : MFun}
  {Ψ : (String → Nat) → MVal}

theorem msum_point {rng : Nat → Nat} {q : Nat → Nat → R} {a : Nat → Nat} : ∀ (n : Nat) (G : (Nat → Nat) → R),
    (∀ l, l < n → a l < rng l ∧ ∀ j, j < rng l → q l j = if j = a l then 1 else 0) →
    msum rng q n G = G (fun l => if l < n then a l else 0) := by
  intro n
  induction n with
  | zero => intro G _; rw [msum_zero]; simp
  | succ n ih =>
    intro G h
    rw [msum_succ, Finset.sum_eq_single (a n)]
    · rw [(h n (by omega)).2 _ (h n (by omega)).1, if_pos rfl, one_mul, ih _ (fun l hl => h l (by omega))]
      congr 1
      funext l
      by_cases e : l = n
      · subst e; simp
      · by_cases e' : l < n
        · simp [Function.update_of_ne e, e', Nat.lt_succ_of_lt e']
        · simp [Function.update_of_ne e, e', show ¬ l < n + 1 by omega]
    · intro j hj hne
      rw [(h n (by omega)).2 _ (Finset.mem_range.1 hj), if_neg hne, zero_mul]
    · intro hno
      exact absurd (Finset.mem_range.2 (h n (by omega)).1) hno

/-- Levels from named states. -/
def atStates (vs : List (String × Nat)) (ν : String → Nat) : Nat → Nat :=
  fun l => if l < vs.length then ν (varName vs l) else 0

theorem atStates_at {ν : String → Nat} (h : ∀ p ∈ vs, ν p.1 < p.2) : At vs (atStates vs ν) ν := by
  have key : ∀ (i : Nat) (x : String) (r : Nat), vs[i]? = some (x, r) → atStates vs ν i = ν x := by
    intro i x r hi
    unfold atStates
    rw [if_pos (List.getElem?_eq_some_iff.1 hi).1, show varName vs i = x from Mda.nameOf_get hi]
  exact ⟨fun i x r hi => by rw [key i x r hi]; exact h _ (List.mem_of_getElem? hi), key⟩

theorem mprob_point (hw : m.Reachable) (hv : MVars m vs) {f : Nat} (hf : m.Has f H) (hΨ : NamedM vs H Ψ)
    {pv : String → Option (List R)} (hd : IsDist vs pv) {ν : String → Nat}
    (h : ∀ p ∈ vs, ν p.1 < p.2 ∧ ∀ fp, pv p.1 = some fp → ∀ j, j < p.2 → fp.getD j 0 = if j = ν p.1 then 1 else 0)
    (ss : List Int) : m.prob pv ss f = some (mind R ss (fun _ => Ψ ν) (fun _ => 0)) := by
  have A := atStates_at fun p hp => (h p hp).1
  rw [prob_msum hw hv hf hd, msum_point (a := atStates vs ν)]
  · have : H (fun l => if l < vs.length then atStates vs ν l else 0) = Ψ ν := by
      refine hΨ _ _ ⟨fun i x r hi => ?_, fun i x r hi => ?_⟩
      all_goals
        have := (List.getElem?_eq_some_iff.1 hi).1
        simp only [this, if_true]
      · exact A.valid i x r hi
      · exact A.agree i x r hi
    simp only [mind, this]
  · intro l hl
    have hp : vs[l]? = some vs[l] := List.getElem?_eq_getElem hl
    have hm := List.mem_of_getElem? hp
    obtain ⟨fp, h1, _⟩ := hd _ hm
    rw [states_get hp]
    refine ⟨A.valid l vs[l].1 vs[l].2 hp, fun j hj => ?_⟩
    rw [tableQ_row hp h1, (h _ hm).2 fp h1 j hj, A.agree l vs[l].1 vs[l].2 hp]

theorem setState_dist' {pv : String → Option (List R)} (hd : IsDist vs pv) {p : String × Nat}
    (hc : ∀ p' ∈ vs, p.1 = p'.1 → p.2 = p'.2) {k : Nat} (hk : k < p.2) : IsDist vs (setState pv p.1 p.2 k) := by
  intro p' hp'
  by_cases e : p'.1 = p.1
  · refine ⟨_, if_pos e, ?_⟩
    rw [← hc p' hp' e.symm]
    exact certain_row hk
  · obtain ⟨fp, h1, h2⟩ := hd p' hp'
    exact ⟨fp, (if_neg e).trans h1, h2⟩

theorem mprob_outside (hw : m.Reachable) (hv : MVars m vs) {f : Nat} (hf : m.Has f H)
    {pv pv' : String → Option (List R)} (hd : IsDist vs pv) (hd' : IsDist vs pv') (h : ∀ p ∈ vs, pv p.1 = pv' p.1)
    (ss : List Int) : m.prob pv ss f = m.prob pv' ss f := by
  rw [prob_msum hw hv hf hd, prob_msum hw hv hf hd']
  congr 1
  refine msum_congr (fun l hl j hj => ?_) (fun _ _ => rfl)
  have hp : vs[l]? = some vs[l] := List.getElem?_eq_getElem hl
  obtain ⟨fp, h1, _⟩ := hd _ (List.mem_of_getElem? hp)
  rw [tableQ_row hp h1, tableQ_row hp ((h _ (List.mem_of_getElem? hp)) ▸ h1)]

theorem mprob_split (hw : m.Reachable) (hv : MVars m vs) {f : Nat} (hf : m.Has f H) {pv : String → Option (List R)}
    (hd : IsDist vs pv) {p : String × Nat} (hc : ∀ p' ∈ vs, p.1 = p'.1 → p.2 = p'.2) {fp : List R}
    (hfp : pv p.1 = some fp) (hr : IsRow p.2 fp) (ss : List Int) :
    ∃ P : Nat → R, (∀ k, k < p.2 → m.prob (setState pv p.1 p.2 k) ss f = some (P k)) ∧
      m.prob pv ss f = some (∑ k ∈ Finset.range p.2, fp.getD k 0 * P k) := by
  by_cases hp : p ∈ vs
  · obtain ⟨r, P, h1, h2, h3⟩ := C81_pivot hw hv hf hd ss hp hfp
    exact ⟨P, h2, by rw [h1, h3]⟩
  · have hno : ∀ p' ∈ vs, p'.1 ≠ p.1 := fun p' hp' e => hp (by
      have := hc p' hp' e.symm
      rwa [show p = p' from Prod.ext e.symm this])
    refine ⟨fun _ => _, fun k hk => (mprob_outside hw hv hf (setState_dist' hd hc hk) hd
      (fun p' hp' => if_neg (hno p' hp')) ss).trans (prob_msum hw hv hf hd ss), ?_⟩
    rw [prob_msum hw hv hf hd ss, ← Finset.sum_mul, ← sum_take fp _ hr.1, hr.2, one_mul]

/-- **C82.** `prob` of a multi-state diagram is the same. -/
theorem C82_mdd_prob (hw : m.Reachable) (hw' : m'.Reachable) (hv : MVars m vs) (hv' : MVars m' vs') {f f' : Nat}
    (hf : m.Has f H) (hf' : m'.Has f' H') (hs : SameStates vs vs') (hΨ : NamedM vs H Ψ) (hΨ' : NamedM vs' H' Ψ)
    {pv : String → Option (List R)} (hd : IsDist vs pv) (hd' : IsDist vs' pv) (ss : List Int) :
    ∃ p, m.prob pv ss f = some p ∧ m'.prob pv ss f' = some p := by
  have nd := vs_nodup hw hv
  have nd' := vs_nodup hw' hv'
  have same : ∀ {us : List (String × Nat)}, (us.map Prod.fst).Nodup → ∀ p ∈ us, ∀ p' ∈ us, p.1 = p'.1 → p.2 = p'.2 := by
    intro us hu p hp p' hp' e
    rw [List.inj_on_of_nodup_map hu hp hp' e]
  have c1 : ∀ p ∈ vs ++ vs', ∀ p' ∈ vs, p.1 = p'.1 → p.2 = p'.2 := by
    intro p hp p' hp' e
    rcases List.mem_append.1 hp with h | h
    · exact same nd p h p' hp' e
    · exact (hs p' hp' p h e.symm).symm
  have c2 : ∀ p ∈ vs ++ vs', ∀ p' ∈ vs', p.1 = p'.1 → p.2 = p'.2 := by
    intro p hp p' hp' e
    rcases List.mem_append.1 hp with h | h
    · exact hs p h p' hp' e
    · exact same nd' p h p' hp' e
  suffices h : ∀ (L : List (String × Nat)), L ⊆ vs ++ vs' → ∀ pv : String → Option (List R), IsDist vs pv →
      IsDist vs' pv → (∃ ν : String → Nat, ∀ p, p ∈ vs ++ vs' → p ∉ L → ν p.1 < p.2 ∧
        ∀ fp, pv p.1 = some fp → ∀ j, j < p.2 → fp.getD j 0 = if j = ν p.1 then 1 else 0) →
      m.prob pv ss f = m'.prob pv ss f' by
    refine ⟨_, prob_msum hw hv hf hd ss, ?_⟩
    rw [← h (vs ++ vs') (fun _ h => h) pv hd hd' ⟨fun _ => 0, fun x h1 h2 => absurd h1 h2⟩, prob_msum hw hv hf hd ss]
  intro L
  induction L with
  | nil =>
    rintro - pv hd hd' ⟨ν, h⟩
    rw [mprob_point hw hv hf hΨ hd (fun x hx => h x (List.mem_append_left _ hx) (by simp)),
      mprob_point hw' hv' hf' hΨ' hd' (fun x hx => h x (List.mem_append_right _ hx) (by simp))]
  | cons y L ih =>
    rintro hL pv hd hd' ⟨ν, h⟩
    have hy := hL List.mem_cons_self
    have row : ∃ fp, pv y.1 = some fp ∧ IsRow y.2 fp := by
      rcases List.mem_append.1 hy with h | h
      · exact hd y h
      · exact hd' y h
    obtain ⟨fp, r1, r2⟩ := row
    obtain ⟨P, h1, h2⟩ := mprob_split hw hv hf hd (c1 y hy) r1 r2 ss
    obtain ⟨Q, k1, k2⟩ := mprob_split hw' hv' hf' hd' (c2 y hy) r1 r2 ss
    rw [h2, k2]
    congr 1
    refine Finset.sum_congr rfl fun k hk => ?_
    have hk := Finset.mem_range.1 hk
    have := ih (fun z hz => hL (List.mem_cons_of_mem _ hz)) (setState pv y.1 y.2 k) (setState_dist' hd (c1 y hy) hk)
      (setState_dist' hd' (c2 y hy) hk) ⟨Function.update ν y.1 k, fun p hp hpL => ?_⟩
    · rw [h1 k hk, k1 k hk] at this
      rw [Option.some.inj this]
    · by_cases e : p.1 = y.1
      · have e2 : p.2 = y.2 := by
          rcases List.mem_append.1 hy with g | g
          · exact c1 p hp y g e
          · exact c2 p hp y g e
        rw [e, e2, Function.update_self]
        refine ⟨hk, fun fp' hfp' j hj => ?_⟩
        rw [setState, if_pos rfl] at hfp'
        cases hfp'
        simp [List.getD_eq_getElem?_getD, hj]
      · rw [Function.update_of_ne e]
        have := h p hp (by
          intro hm
          rcases List.mem_cons.1 hm with e' | e'
          · exact e (by rw [e'])
          · exact hpL e')
        refine ⟨this.1, fun fp' hfp' => this.2 fp' ?_⟩
        rwa [setState, if_neg e] at hfp'

theorem depends_other (hw : m.Reachable) (hw' : m'.Reachable) (hv : MVars m vs) (hv' : MVars m' vs')
    (hs : SameStates vs vs') (hΨ : NamedM vs H Ψ) (hΨ' : NamedM vs' H' Ψ) {l : Nat} {p : String × Nat}
    (hl : vs[l]? = some p) (h : MDepends vs H l) : ∃ l', vs'[l']? = some p ∧ MDepends vs' H' l' := by
  classical
  have nd := vs_nodup hw hv
  have nd' := vs_nodup hw' hv'
  obtain ⟨a, b, va, vb, hab, hne⟩ := h
  have inj : ∀ {us : List (String × Nat)}, (us.map Prod.fst).Nodup → ∀ {i j : Nat} {x y : String × Nat},
      us[i]? = some x → us[j]? = some y → x.1 = y.1 → i = j := by
    intro us hu i j x y hi hj e
    refine nodup_getElem?_inj (x := x.1) hu ?_ ?_
    · simp [hi]
    · simp [hj, e]
  let nu : (Nat → Nat) → String → Nat := fun c y =>
    if h : ∃ i : Nat, ∃ r, vs[i]? = some (y, r) then c h.choose else 0
  have nuAt : ∀ c, ValidV vs c → At vs c (nu c) := by
    intro c hc
    refine ⟨hc, fun i x r hi => ?_⟩
    have h : ∃ i : Nat, ∃ r, vs[i]? = some (x, r) := ⟨i, r, hi⟩
    simp only [nu, dif_pos h]
    obtain ⟨r', hr'⟩ := h.choose_spec
    rw [inj nd hr' hi rfl]
  have nuLt : ∀ c, ValidV vs c → ∀ p' ∈ vs', nu c p'.1 < p'.2 := by
    intro c hc p' hp'
    by_cases h : ∃ i : Nat, ∃ r, vs[i]? = some (p'.1, r)
    · simp only [nu, dif_pos h]
      obtain ⟨r', hr'⟩ := h.choose_spec
      have := hc _ _ _ hr'
      have e := hs _ (List.mem_of_getElem? hr') p' hp' rfl
      simp only at e
      omega
    · simp only [nu, dif_neg h]
      obtain ⟨i, hi⟩ := List.mem_iff_getElem?.1 hp'
      have := vs_pos hw' hv' i (List.getElem?_eq_some_iff.1 hi).1
      rwa [states_get hi] at this
  have Aa := atStates_at (nuLt a va)
  have Ab := atStates_at (nuLt b vb)
  rw [hΨ _ _ (nuAt a va), hΨ _ _ (nuAt b vb), ← hΨ' _ _ Aa, ← hΨ' _ _ Ab] at hne
  have off : ∀ y, y ≠ p.1 → nu a y = nu b y := by
    intro y hy
    by_cases h : ∃ i : Nat, ∃ r, vs[i]? = some (y, r)
    · simp only [nu, dif_pos h]
      obtain ⟨r', hr'⟩ := h.choose_spec
      refine hab _ fun e => hy ?_
      rw [e, hl] at hr'
      cases hr'; rfl
    · simp only [nu, dif_neg h]
  by_cases hm : ∃ l' : Nat, ∃ p', vs'[l']? = some p' ∧ p'.1 = p.1
  · obtain ⟨l', p', h1, h2⟩ := hm
    have : p' = p := Prod.ext h2 (hs p (List.mem_of_getElem? hl) p' (List.mem_of_getElem? h1) h2.symm).symm
    subst this
    refine ⟨l', h1, _, _, Aa.valid, Ab.valid, fun i hi => ?_, hne⟩
    unfold atStates
    split
    · rename_i hlt
      have hg : vs'[i]? = some vs'[i] := List.getElem?_eq_getElem hlt
      refine off _ fun e => hi (inj nd' hg h1 ?_)
      rw [← e]; exact (Mda.nameOf_get hg).symm
    · rfl
  · refine absurd ?_ hne
    congr 1
    funext i
    unfold atStates
    split
    · rename_i hlt
      have hg : vs'[i]? = some vs'[i] := List.getElem?_eq_getElem hlt
      refine off _ fun e => hm ⟨i, _, hg, ?_⟩
      rw [← e]; exact (Mda.nameOf_get hg).symm
    · rfl

/-- **C82.** `bmeas` of a multi-state diagram is the same map. -/
theorem C82_mdd_bmeas (hw : m.Reachable) (hw' : m'.Reachable) (hv : MVars m vs) (hv' : MVars m' vs') {f f' : Nat}
    (hf : m.Has f H) (hf' : m'.Has f' H') (hs : SameStates vs vs') (hΨ : NamedM vs H Ψ) (hΨ' : NamedM vs' H' Ψ)
    {pv : String → Option (List R)} (hd : IsDist vs pv) (hd' : IsDist vs' pv) (ss : List Int) :
    ∃ ev ev', m.bmeas pv ss f = some ev ∧ m'.bmeas pv ss f' = some ev' ∧ ∀ x, ev.get x = ev'.get x := by
  obtain ⟨ev, h1, h2, h3⟩ := C37_bmeas hw hv hf pv ss (hd.table H)
  obtain ⟨ev', k1, k2, k3⟩ := C37_bmeas hw' hv' hf' pv ss (hd'.table H')
  refine ⟨ev, ev', h1, k1, fun x => ?_⟩
  have hs' : SameStates vs' vs := fun p hp p' hp' e => (hs p' hp' p hp e.symm).symm
  cases g : ev.get x with
  | none =>
    cases g' : ev'.get x with
    | none => rfl
    | some v =>
      obtain ⟨l, p, hl, hx, hdep⟩ := (k2 x).1 (by rw [g']; rfl)
      obtain ⟨l', hl', hdep'⟩ := depends_other hw' hw hv' hv hs' hΨ' hΨ hl hdep
      have := (h2 x).2 ⟨l', p, hl', hx, hdep'⟩
      rw [g] at this; cases this
  | some v =>
    obtain ⟨l, p, hl, hx, hdep⟩ := (h2 x).1 (by rw [g]; rfl)
    obtain ⟨l', hl', hdep'⟩ := depends_other hw hw' hv hv' hs hΨ hΨ' hl hdep
    obtain ⟨v', g'⟩ := Option.isSome_iff_exists.1 ((k2 x).2 ⟨l', p, hl', hx, hdep'⟩)
    subst hx
    rw [g']
    have e1 := (h3 l p hl).1 v g
    have e2 := (k3 l' p hl').1 v' g'
    congr 1
    refine List.ext_getElem (e1.trans e2.symm) fun d b1 b2 => ?_
    obtain ⟨r1, r0, a1, a0, a⟩ := (h3 l p hl).2 d (by omega)
    obtain ⟨s1, s0, c1, c0, c⟩ := (k3 l' p hl').2 d (by omega)
    have nd := vs_nodup hw hv
    have nd' := vs_nodup hw' hv'
    have pm := List.mem_of_getElem? hl
    have pm' := List.mem_of_getElem? hl'
    obtain ⟨q1, x1, y1⟩ := C82_mdd_prob hw hw' hv hv' hf hf' hs hΨ hΨ'
      (setState_dist nd hd pm (show d + 1 < p.2 by omega)) (setState_dist nd' hd' pm' (show d + 1 < p.2 by omega)) ss
    obtain ⟨q0, x0, y0⟩ := C82_mdd_prob hw hw' hv hv' hf hf' hs hΨ hΨ'
      (setState_dist nd hd pm (show d < p.2 by omega)) (setState_dist nd' hd' pm' (show d < p.2 by omega)) ss
    rw [a1] at x1; rw [a0] at x0; rw [c1] at y1; rw [c0] at y0
    have i1 := Option.some.inj x1
    have i0 := Option.some.inj x0
    have j1 := Option.some.inj y1
    have j0 := Option.some.inj y0
    rw [g] at a; rw [g'] at c
    simp only [Option.getD_some, List.getD_eq_getElem?_getD, List.getElem?_eq_getElem b1,
      List.getElem?_eq_getElem b2] at a c
    rw [a, c, i1, i0, j1, j0]

end mdd

/-- **C82.** An expression read in two multi-state sessions gives handles of the same function of the names. -/
theorem C82_mdd_rpn {m m' : MWorld} {vs vs' : List (String × Nat)} (hw : m.Reachable) (hw' : m'.Reachable)
    (hv : MVars m vs) (hv' : MVars m' vs') (rng : String → Option Nat) (e : MExpr)
    (hr : ∀ x ∈ e.names, ∃ r, rng x = some r ∧ 0 < r)
    (he : ∀ a ν, At (addVars rng vs e.names) a ν → (e.eval ν (fun _ => none)).isSome)
    (he' : ∀ a ν, At (addVars rng vs' e.names) a ν → (e.eval ν (fun _ => none)).isSome) :
    ∃ u u' G G' Ψ, m.step (.rpn e.toks rng) = some (.handle m.hs.next, u) ∧
      m'.step (.rpn e.toks rng) = some (.handle m'.hs.next, u') ∧ u.Reachable ∧ u'.Reachable ∧
      MVars u (addVars rng vs e.names) ∧ MVars u' (addVars rng vs' e.names) ∧ u.Has m.hs.next G ∧
      u'.Has m'.hs.next G' ∧ NamedM (addVars rng vs e.names) G Ψ ∧ NamedM (addVars rng vs' e.names) G' Ψ := by
  obtain ⟨u, G, h1, h2, h3, h4, h5, _⟩ := C35_rpn hw hv rng e (fun x hx => by
    obtain ⟨r, h1, h2⟩ := hr x hx; exact ⟨r, h1, .inr h2⟩) he
  obtain ⟨u', G', k1, k2, k3, k4, k5, _⟩ := C35_rpn hw' hv' rng e (fun x hx => by
    obtain ⟨r, h1, h2⟩ := hr x hx; exact ⟨r, h1, .inr h2⟩) he'
  refine ⟨u, u', G, G', fun ν => ((e.eval ν (fun _ => none)).map (fun p => p.1.toM)).getD (.b .zero), h1, k1, h2, k2,
    h3, k3, h4, k4, fun a ν ha => ?_, fun a ν ha => ?_⟩
  · simp only [h5 a ν ha, Option.getD_some]
  · simp only [k5 a ν ha, Option.getD_some]

/-! ## Multi-state minimal path and cut vectors -/

section mss

/-- States in the ranges of the variables. -/
def InRange (vs : List (String × Nat)) (ν : String → Nat) : Prop := ∀ p ∈ vs, ν p.1 < p.2

/-- No variable is in a higher state in `μ`. -/
def LeN (vs : List (String × Nat)) (μ ν : String → Nat) : Prop := ∀ p ∈ vs, μ p.1 ≤ ν p.1

/-- More state never lowers the value. -/
def MonoP (vs : List (String × Nat)) (Ψ : (String → Nat) → Int) : Prop :=
  ∀ μ ν, InRange vs μ → InRange vs ν → LeN vs μ ν → Ψ μ ≤ Ψ ν

/-- `ν` is minimal among the states of value `v`. -/
def PathN (vs : List (String × Nat)) (Ψ : (String → Nat) → Int) (v : Int) (ν : String → Nat) : Prop :=
  InRange vs ν ∧ Ψ ν = v ∧ ∀ μ, InRange vs μ → Ψ μ = v → LeN vs μ ν → ∀ p ∈ vs, μ p.1 = ν p.1

/-- `ν` is maximal among the states of value `v`. -/
def CutN (vs : List (String × Nat)) (Ψ : (String → Nat) → Int) (v : Int) (ν : String → Nat) : Prop :=
  InRange vs ν ∧ Ψ ν = v ∧ ∀ μ, InRange vs μ → Ψ μ = v → LeN vs ν μ → ∀ p ∈ vs, μ p.1 = ν p.1

/-- `φ` is the function `Ψ` of the states of the named variables. -/
def NamedS (vs : List (String × Nat)) (φ : (Nat → Nat) → Int) (Ψ : (String → Nat) → Int) : Prop :=
  ∀ a ν, At vs a ν → φ a = Ψ ν

/-- Family handle `h` holds the states `ν` of the variables with the label `v`. -/
def FamNames (w : ZMWorld) (h : Nat) (vs : List (String × Nat)) (ν : String → Nat) (v : Int) : Prop :=
  ∃ a, FamHas w h a v ∧ At vs a ν

variable {vs vs' : List (String × Nat)} {φ : (Nat → Nat) → Int} {Ψ : (String → Nat) → Int}

theorem atStates_vec {ν : String → Nat} (h : InRange vs ν) : IsVec vs (atStates vs ν) :=
  ⟨(atStates_at h).valid, fun l hl => by simp [atStates, Nat.not_lt.2 hl]⟩

theorem vec_names (hnd : (vs.map Prod.fst).Nodup) {a : Nat → Nat} (ha : IsVec vs a) : ∃ ν, At vs a ν := by
  classical
  refine ⟨fun y => if h : ∃ i : Nat, ∃ r, vs[i]? = some (y, r) then a h.choose else 0, ha.1, fun i x r hi => ?_⟩
  have h : ∃ i : Nat, ∃ r, vs[i]? = some (x, r) := ⟨i, r, hi⟩
  simp only [dif_pos h]
  obtain ⟨r', hr'⟩ := h.choose_spec
  have h1 : (vs.map Prod.fst)[i]? = some x := by simp [hi]
  have h2 : (vs.map Prod.fst)[h.choose]? = some x := by simp only [List.getElem?_map, hr']; rfl
  rw [nodup_getElem?_inj hnd h1 h2]

theorem _root_.DD.At.range {a : Nat → Nat} {ν : String → Nat} (h : At vs a ν) : InRange vs ν := by
  intro p hp
  obtain ⟨i, hi⟩ := List.mem_iff_getElem?.1 hp
  rw [← h.agree i p.1 p.2 hi]
  exact h.valid i p.1 p.2 hi

theorem le_iff_leN {a b : Nat → Nat} {μ ν : String → Nat} (ha : At vs a μ) (hb : At vs b ν) (va : IsVec vs a)
    (vb : IsVec vs b) : (∀ l, a l ≤ b l) ↔ LeN vs μ ν := by
  constructor
  · intro h p hp
    obtain ⟨i, hi⟩ := List.mem_iff_getElem?.1 hp
    rw [← ha.agree i p.1 p.2 hi, ← hb.agree i p.1 p.2 hi]; exact h i
  · intro h l
    by_cases hl : l < vs.length
    · have hg : vs[l]? = some vs[l] := List.getElem?_eq_getElem hl
      rw [ha.agree l vs[l].1 vs[l].2 hg, hb.agree l vs[l].1 vs[l].2 hg]
      exact h _ (List.mem_of_getElem? hg)
    · rw [va.2 l (Nat.not_lt.1 hl)]; omega

theorem eq_of_names {a b : Nat → Nat} {μ ν : String → Nat} (ha : At vs a μ) (hb : At vs b ν) (va : IsVec vs a)
    (vb : IsVec vs b) : a = b ↔ ∀ p ∈ vs, μ p.1 = ν p.1 := by
  constructor
  · rintro rfl p hp
    obtain ⟨i, hi⟩ := List.mem_iff_getElem?.1 hp
    rw [← ha.agree i p.1 p.2 hi, ← hb.agree i p.1 p.2 hi]
  · intro h
    funext l
    by_cases hl : l < vs.length
    · have hg : vs[l]? = some vs[l] := List.getElem?_eq_getElem hl
      rw [ha.agree l vs[l].1 vs[l].2 hg, hb.agree l vs[l].1 vs[l].2 hg]
      exact h _ (List.mem_of_getElem? hg)
    · rw [va.2 l (Nat.not_lt.1 hl), vb.2 l (Nat.not_lt.1 hl)]

theorem NamedS.mono (hΨ : NamedS vs φ Ψ) (hnd : (vs.map Prod.fst).Nodup) : MonoS vs φ ↔ MonoP vs Ψ := by
  constructor
  · intro h μ ν hμ hν hle
    have A := atStates_at hμ
    have B := atStates_at hν
    rw [← hΨ _ _ A, ← hΨ _ _ B]
    exact h _ _ (atStates_vec hμ) (atStates_vec hν) ((le_iff_leN A B (atStates_vec hμ) (atStates_vec hν)).2 hle)
  · intro h a b ha hb hle
    obtain ⟨μ, A⟩ := vec_names hnd ha
    obtain ⟨ν, B⟩ := vec_names hnd hb
    rw [hΨ _ _ A, hΨ _ _ B]
    exact h _ _ A.range B.range ((le_iff_leN A B ha hb).1 hle)

theorem NamedS.path (hΨ : NamedS vs φ Ψ) (hnd : (vs.map Prod.fst).Nodup) (ν : String → Nat) (v : Int) :
    (∃ a, MinIn (Stratum vs φ v) a ∧ At vs a ν) ↔ PathN vs Ψ v ν := by
  constructor
  · rintro ⟨a, ⟨⟨h1, h2⟩, h3⟩, A⟩
    refine ⟨A.range, (hΨ _ _ A).symm.trans h2, fun μ hμ e hle => ?_⟩
    have B := atStates_at hμ
    exact (eq_of_names B A (atStates_vec hμ) h1).1
      (h3 _ ⟨atStates_vec hμ, (hΨ _ _ B).trans e⟩ ((le_iff_leN B A (atStates_vec hμ) h1).2 hle))
  · rintro ⟨h1, h2, h3⟩
    have A := atStates_at h1
    refine ⟨_, ⟨⟨atStates_vec h1, (hΨ _ _ A).trans h2⟩, fun b hb hle => ?_⟩, A⟩
    obtain ⟨μ, B⟩ := vec_names hnd hb.1
    exact (eq_of_names B A hb.1 (atStates_vec h1)).2
      (h3 μ B.range ((hΨ _ _ B).symm.trans hb.2) ((le_iff_leN B A hb.1 (atStates_vec h1)).1 hle))

theorem NamedS.cut (hΨ : NamedS vs φ Ψ) (hnd : (vs.map Prod.fst).Nodup) (ν : String → Nat) (v : Int) :
    (∃ a, MaxIn (Stratum vs φ v) a ∧ At vs a ν) ↔ CutN vs Ψ v ν := by
  constructor
  · rintro ⟨a, ⟨⟨h1, h2⟩, h3⟩, A⟩
    refine ⟨A.range, (hΨ _ _ A).symm.trans h2, fun μ hμ e hle => ?_⟩
    have B := atStates_at hμ
    exact (eq_of_names B A (atStates_vec hμ) h1).1
      (h3 _ ⟨atStates_vec hμ, (hΨ _ _ B).trans e⟩ ((le_iff_leN A B h1 (atStates_vec hμ)).2 hle))
  · rintro ⟨h1, h2, h3⟩
    have A := atStates_at h1
    refine ⟨_, ⟨⟨atStates_vec h1, (hΨ _ _ A).trans h2⟩, fun b hb hle => ?_⟩, A⟩
    obtain ⟨μ, B⟩ := vec_names hnd hb.1
    exact (eq_of_names B A hb.1 (atStates_vec h1)).2
      (h3 μ B.range ((hΨ _ _ B).symm.trans hb.2) ((le_iff_leN A B (atStates_vec h1) hb.1).1 hle))

/-- What one session answers, in terms of the names: `None` unless monotone, and otherwise a family whose vectors,
read by name, are those that `A` describes. -/
def SolGives (w : MssW) (c : MssCmd) (vs : List (String × Nat)) (P : Prop) (A : Int → (String → Nat) → Prop) : Prop :=
  ∃ o u, w.step c = some (.fam o, u) ∧ u.Reachable ∧ (o = none ↔ ¬ P) ∧
    ∀ h, o = some h → ∀ ν v, FamNames u.z h vs ν v ↔ A v ν

/-- **C82.** `minpath` and `mincut` of a structure function answer in terms of the function of the names; `MonoP`,
`PathN` and `CutN` do not depend on the order of the variables. -/
theorem C82_mss {w : MssW} (hw : w.Reachable) (hv : MVars w.mdd vs) (h2 : ∀ p ∈ vs, 2 ≤ p.2) {f : Nat}
    (hf : StructureFn w.mdd vs f φ) (hΨ : NamedS vs φ Ψ) (hs : ∀ p, p ∈ vs ↔ p ∈ vs') :
    SolGives w (.minpath f) vs (MonoP vs' Ψ) (PathN vs' Ψ) ∧ SolGives w (.mincut f) vs (MonoP vs' Ψ) (CutN vs' Ψ) := by
  have nd := vs_nodup hw.mdd hv
  have e0 : InRange vs = InRange vs' := by funext ν; simp only [InRange, hs]
  have e1 : LeN vs = LeN vs' := by funext μ ν; simp only [LeN, hs]
  have e2 : MonoP vs Ψ = MonoP vs' Ψ := by simp only [MonoP, e0, e1]
  have e3 : PathN vs Ψ = PathN vs' Ψ := by funext v ν; simp only [PathN, e0, e1, hs]
  have e4 : CutN vs Ψ = CutN vs' Ψ := by funext v ν; simp only [CutN, e0, e1, hs]
  rw [← e2, ← e3, ← e4, ← propext (hΨ.mono nd)]
  obtain ⟨o, u, h1, hr, h3, h4⟩ := C43_minpath_partial hw hv h2 hf
  obtain ⟨o', u', k1, kr, k3, k4⟩ := C44_mincut_partial hw hv h2 hf
  refine ⟨⟨o, u, h1, hr, h3, fun h e ν v => ?_⟩, ⟨o', u', k1, kr, k3, fun h e ν v => ?_⟩⟩
  · rw [← hΨ.path nd]
    simp only [FamNames, (h4 h e).2.2]
  · rw [← hΨ.cut nd]
    simp only [FamNames, (k4 h e).2.2]

end mss

/-! ## Concrete cases

`(x ∧ y) ∨ z` read with the order `x, y, z`, and in a session that already has `z, u, y`; two of three in both
orders; `x + y ≥ 2` with `x` of three states, `y` of two, in both orders. -/

/-- `(x ∧ y) ∨ z`. -/
def ordExpr : Expr := .or (.and (.var "x") (.var "y")) (.var "z")

/-- The sessions. -/
def ordA : List Cmd := [.rpn ordExpr.toks]
def ordB : List Cmd := [.defvar "z", .defvar "u", .defvar "y", .rpn ordExpr.toks]

example : ∀ ν, (ordExpr.eval ν (fun _ => none)).isSome := fun _ => rfl

example : ((World.new.run ordA).bind (fun p => p.2.bddProb lawPv [true] 0)) = some (3/8) ∧
    ((World.new.run ordB).bind (fun p => p.2.bddProb lawPv [true] 3)) = some (3/8) := by
  decide +kernel

example : ((World.new.run ordA).bind (fun p => (p.2.bddBmeas lawPv [true] 0).map (fun e =>
      ["x", "y", "z", "u"].map e.get))) = some [some (1/4), some (3/8), some (5/6), none] ∧
    ((World.new.run ordB).bind (fun p => (p.2.bddBmeas lawPv [true] 3).map (fun e =>
      ["x", "y", "z", "u"].map e.get))) = some [some (1/4), some (3/8), some (5/6), none] := by
  decide +kernel

example : Named ["x", "y", "z"] (fun a => (a 0 && a 1) || a 2) (fun ν => (ν "x" && ν "y") || ν "z") ∧
    Named ["z", "u", "y", "x"] (fun a => (a 3 && a 2) || a 0) (fun ν => (ν "x" && ν "y") || ν "z") ∧
    MonoN (fun ν => (ν "x" && ν "y") || ν "z") ∧ Matters (fun ν => (ν "x" && ν "y") || ν "z") "y" ∧
    ¬ Matters (fun ν => (ν "x" && ν "y") || ν "z") "u" := by
  refine ⟨fun a ν h => ?_, fun a ν h => ?_, fun ν μ h => ?_, ⟨fun s => s == "x", by simp⟩, ?_⟩
  · simp only [h 0 "x" rfl, h 1 "y" rfl, h 2 "z" rfl]
  · simp only [h 3 "x" rfl, h 2 "y" rfl, h 0 "z" rfl]
  · have hx := h "x"
    have hy := h "y"
    have hz := h "z"
    simp only [Bool.or_eq_true, Bool.and_eq_true]
    tauto
  · rintro ⟨ν, h⟩
    exact h (by simp)

/-- Minimal path and cut sets of `(x ∧ y) ∨ z` in both orders (the same families, listed in another order). -/
def ordBssA : List BssCmd := [.bdd (.rpn ordExpr.toks), .minpath 0, .mincut 0]
def ordBssB : List BssCmd :=
  [.bdd (.defvar "z"), .bdd (.defvar "u"), .bdd (.defvar "y"), .bdd (.rpn ordExpr.toks), .minpath 3, .mincut 3]

example : (BssW.new.run ordBssA).map (fun p => [0, 1].map (fun h => listSets p.2.zdd h 9)) = some
      [[["x", "y"], ["z"]], [["x", "z"], ["y", "z"]]] ∧
    (BssW.new.run ordBssB).map (fun p => [0, 1].map (fun h => listSets p.2.zdd h 9)) = some
      [[["z"], ["y", "x"]], [["z", "y"], ["z", "x"]]] := by
  decide +kernel

/-- `x + y ≥ 2` with `y` declared first. -/
def manalysisB : List MCmd :=
  [.rpn [.var "y", .var "x", .bin .add] (fun s => if s = "x" then some 3 else some 2),
   .rpn [.var "x", .var "y", .bin .add, .int 2, .bin .gte] (fun s => if s = "x" then some 3 else some 2)]

example : (mrun MWorld.new manalysis).bind (fun p => p.2.prob mtable [1] 1) = some (5/12) ∧
    (mrun MWorld.new manalysisB).bind (fun p => p.2.prob mtable [1] 1) = some (5/12) ∧
    (mrun MWorld.new manalysis).bind (fun p => (p.2.bmeas mtable [1] 1).map (fun e => ["x", "y"].map e.get)) =
      some [some [3/4, 1/4], some [1/3]] ∧
    (mrun MWorld.new manalysisB).bind (fun p => (p.2.bmeas mtable [1] 1).map (fun e => ["x", "y"].map e.get)) =
      some [some [3/4, 1/4], some [1/3]] := by
  decide +kernel

example : SameStates [("x", 3), ("y", 2)] [("y", 2), ("x", 3)] ∧
    NamedM [("x", 3), ("y", 2)] (fun a => .b (T3.ofBool (decide (2 ≤ a 0 + a 1))))
      (fun ν => .b (T3.ofBool (decide (2 ≤ ν "x" + ν "y")))) ∧
    NamedM [("y", 2), ("x", 3)] (fun a => .b (T3.ofBool (decide (2 ≤ a 1 + a 0))))
      (fun ν => .b (T3.ofBool (decide (2 ≤ ν "x" + ν "y")))) := by
  refine ⟨by unfold SameStates; decide, fun a ν h => ?_, fun a ν h => ?_⟩
  · simp only [h.agree 0 "x" 3 rfl, h.agree 1 "y" 2 rfl]
  · simp only [h.agree 0 "y" 2 rfl, h.agree 1 "x" 3 rfl]

/-- `x + y` with `y` declared first (`sumDemo` declares `x` first). -/
def sumDemoB : List MssCmd :=
  [.mdd (.setThreshold 0), .mdd (.defvar "y" 2), .mdd (.defvar "x" 3), .mdd (.bin .add 0 1), .minpath 2, .mincut 2]

/-- The same vectors as listed for `sumDemo` beside C43. -/
example : ((after sumDemoB).z.step (.extractLevel 2 0)).map (·.1) =
      some (.vectors [⟨[("y", 1), ("x", 1)]⟩, ⟨[("x", 2), ("y", 0)]⟩]) := by
  decide +kernel

example : NamedS [("x", 3), ("y", 2)] (fun a => a 0 + a 1) (fun ν => ν "x" + ν "y") ∧
    NamedS [("y", 2), ("x", 3)] (fun a => a 0 + a 1) (fun ν => ν "x" + ν "y") ∧
    PathN [("x", 3), ("y", 2)] (fun ν => ν "x" + ν "y") 2 (fun s => if s = "x" ∨ s = "y" then 1 else 0) ∧
    ∀ p, p ∈ [("x", 3), ("y", 2)] ↔ p ∈ [("y", 2), ("x", 3)] := by
  refine ⟨fun a ν h => ?_, fun a ν h => ?_, ⟨?_, rfl, fun μ _ e hle => ?_⟩, fun p => ?_⟩
  · simp only [h.agree 0 "x" 3 rfl, h.agree 1 "y" 2 rfl]
  · simp only [h.agree 0 "y" 2 rfl, h.agree 1 "x" 3 rfl, add_comm]
  · simp [InRange]
  · have h1 := hle ("x", 3) (by simp)
    have h2 := hle ("y", 2) (by simp)
    simp only [true_or, or_true, if_true] at h1 h2 e
    intro p hp
    simp only [List.mem_cons, List.not_mem_nil, or_false] at hp
    rcases hp with rfl | rfl <;> simp <;> omega
  · simp only [List.mem_cons, List.not_mem_nil, or_false]; exact or_comm

end DD.Props
