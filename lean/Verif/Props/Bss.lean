import Verif.Bss.BssStep
import Verif.Props.BddSession
import Verif.Props.Zdd

/-!
# Properties of `BssMgr`: C17 (`minpath`), C18 (`mincut`)

Everything is stated over the worlds reachable by calls of `BssMgr` and of its two managers.
-/

set_option autoImplicit false
set_option linter.unusedSectionVars false
set_option linter.unusedVariables false

namespace DD.Props
open Arena Zdd

variable {w : BssW}

/-- The variables in `S` are true, all others false. -/
noncomputable def onlyTrue (names : List String) (S : Set String) : Nat → Bool :=
  fun l => @decide (∃ x, names[l]? = some x ∧ x ∈ S) (Classical.propDecidable _)

/-- The inclusion-minimal sets of variables whose truth, with all others false, makes `F` true. -/
def MinPaths (names : List String) (F : BFun) : Set (Set String) :=
  {S | S ⊆ {x | x ∈ names} ∧ F (onlyTrue names S) = true ∧ ∀ T, T ⊂ S → F (onlyTrue names T) = false}

/-- The inclusion-minimal sets of variables whose falsity, with all others true, makes `F` false. -/
def MinCuts (names : List String) (F : BFun) : Set (Set String) :=
  {S | S ⊆ {x | x ∈ names} ∧ F (fun l => !onlyTrue names S l) = false ∧
    ∀ T, T ⊂ S → F (fun l => !onlyTrue names T l) = true}

theorem bl_one_iff {a : Nat → Bool} {l : Nat} : bl a l = 1 ↔ a l = true := by
  simp only [bl]; cases a l <;> simp

theorem bl_zero_iff {a : Nat → Bool} {l : Nat} : bl a l = 0 ↔ a l = false := by
  simp only [bl]; cases a l <;> simp

theorem onlyTrue_true {names : List String} {S : Set String} {l : Nat} :
    onlyTrue names S l = true ↔ ∃ x, names[l]? = some x ∧ x ∈ S := by
  exact @decide_eq_true_iff _ (Classical.propDecidable _)

theorem labS_onlyTrue {names : List String} {S : Set String} (h : S ⊆ {x | x ∈ names}) :
    labS names (bl (onlyTrue names S)) = S := by
  ext x
  constructor
  · rintro ⟨l, h1, h2⟩
    rw [bl_one_iff, onlyTrue_true] at h2
    obtain ⟨y, h3, h4⟩ := h2
    rw [h1] at h3; cases h3; exact h4
  · intro hx
    obtain ⟨l, hl⟩ := List.mem_iff_getElem?.1 (h hx)
    exact ⟨l, hl, bl_one_iff.2 (onlyTrue_true.2 ⟨x, hl, hx⟩)⟩

theorem onlyTrue_labS {names : List String} (nd : names.Nodup) {b : Nat → Bool} (h : BitA names (bl b)) :
    onlyTrue names (labS names (bl b)) = b := by
  funext l
  rw [Bool.eq_iff_iff, onlyTrue_true]
  constructor
  · rintro ⟨x, h1, k, h2, h3⟩
    have : l = k := (List.getElem?_inj (List.getElem?_eq_some_iff.1 h1).1 nd).1 (h1.trans h2.symm)
    subst this
    exact bl_one_iff.1 h3
  · intro hb
    rcases h l with h1 | ⟨h1, x, hx⟩
    · rw [bl_zero_iff] at h1; rw [h1] at hb; cases hb
    · exact ⟨x, hx, l, hx, h1⟩

theorem labS_sub (names : List String) (a : Nat → Nat) : labS names a ⊆ {x | x ∈ names} := by
  rintro x ⟨l, h, _⟩
  exact List.mem_of_getElem? h

/-- Minimal solutions by level are the minimal sets by name. -/
theorem famOf_minFam {names : List String} (nd : names.Nodup) {F : BFun}
    (hb : ∀ b, MinS F b → BitA names (bl b)) : ZRel.famOf names (minFam F) = MinPaths names F := by
  ext S
  constructor
  · rintro ⟨a, ha, rfl⟩
    rw [minFam, zFam_one] at ha
    obtain ⟨b, rfl, hm⟩ := ha
    have hB := hb b hm
    refine ⟨labS_sub _ _, by rw [onlyTrue_labS nd hB]; exact hm.1, fun T hT => ?_⟩
    cases hc : F (onlyTrue names T) with
    | false => rfl
    | true =>
      have hsub : T ⊆ {x | x ∈ names} := fun x hx => labS_sub _ _ (hT.1 hx)
      have := hm.2 (onlyTrue names T) (fun l hl => by
        obtain ⟨x, h1, h2⟩ := onlyTrue_true.1 hl
        have := onlyTrue_true.2 ⟨x, h1, hT.1 h2⟩
        rw [onlyTrue_labS nd hB] at this; exact this) hc
      exact absurd (by rw [← this, labS_onlyTrue hsub]) hT.2
  · rintro ⟨h1, h2, h3⟩
    refine ⟨bl (onlyTrue names S), ?_, (labS_onlyTrue h1).symm⟩
    rw [minFam, zFam_one]
    refine ⟨_, rfl, h2, fun c hc hF => ?_⟩
    have hB : BitA names (bl c) := by
      intro l
      cases hcl : c l with
      | false => exact .inl (by simp [bl, hcl])
      | true =>
        obtain ⟨x, hx, _⟩ := onlyTrue_true.1 (hc l hcl)
        exact .inr ⟨by simp [bl, hcl], x, hx⟩
    have hle : labS names (bl c) ⊆ S := by
      rintro x ⟨l, k1, k2⟩
      rw [bl_one_iff] at k2
      obtain ⟨y, k3, k4⟩ := onlyTrue_true.1 (hc l k2)
      rw [k1] at k3; cases k3; exact k4
    by_cases he : labS names (bl c) = S
    · rw [← onlyTrue_labS nd hB, he]
    · have := h3 _ ⟨hle, fun h => he (Set.Subset.antisymm hle h)⟩
      rw [onlyTrue_labS nd hB, hF] at this
      cases this

/-- A handle holding the minimal family denotes the sets by name. -/
theorem denotes_minFam {z : ZWorld} {names : List String} (R : ZLab z names) {h : Nat} {F : BFun}
    (hV : z.Has h (minFam F)) : z.Denotes h (MinPaths names F) := by
  rw [← famOf_minFam R.lbl.nodup (fun b hb => R.bits hV (t := .one) (by
    rw [minFam, zFam_one]; exact ⟨b, rfl, hb⟩))]
  exact R.denotes_of hV (zFam_cl _)

/-- The call `c` returns `Some` of a handle for `𝓕` if `P`, `None` otherwise, and keeps all handles of both
managers. -/
def MinGives (w : BssW) (c : BssCmd) (P : Prop) (𝓕 : Set (Set String)) : Prop :=
  ∃ o w', w.step c = some (o, w') ∧ w'.Reachable ∧
    ((¬ P ∧ o = .fam none) ∨
      (P ∧ o = .fam (some w.zdd.hs.next) ∧ w'.zdd.Denotes w.zdd.hs.next 𝓕)) ∧
    w.zdd.hs.held.get w.zdd.hs.next = none ∧
    (∀ h G, w.bdd.Denotes h G → w'.bdd.Denotes h G) ∧ ∀ h 𝓖, w.zdd.Denotes h 𝓖 → w'.zdd.Denotes h 𝓖

/-- **C17.** `minpath` returns `None` exactly when the function is not monotone, and otherwise the family of its
minimal path sets, whatever was done with the two managers before. -/
theorem C17_minpath (hw : w.Reachable) {f : Nat} {F : BFun} (hf : w.bdd.Denotes f F) {names : List String}
    (hn : Names w.bdd names) : MinGives w (.minpath f) (MonoB F) (MinPaths names F) := by
  obtain ⟨_, A, R⟩ := hw.rel
  rw [names_iff R.bdd] at hn; subst hn
  have h1 := R.bdd.denotes_iff.1 hf
  obtain ⟨o, w', c, k1, k2, k3, k4, k5⟩ := R.minpath h1
  refine ⟨o, w', k1, .step (.minpath f) hw trivial k1, ?_, R.zdd.hs.notin, ?_, ?_⟩
  · rcases k2 with ⟨q1, q2, q3⟩ | ⟨q1, q2, q3⟩
    · exact .inl ⟨q1, q2⟩
    · exact .inr ⟨q1, q2, denotes_minFam k3.zdd q3⟩
  · intro h G hG
    exact k3.bdd.denotes_iff.2 (R.bdd.denotes_iff.1 hG)
  · intro h 𝓖 hG
    exact R.zdd.denotes_keep k3.zdd List.prefix_rfl (fun V => k5 h V) hG

/-- The dual is monotone exactly when the function is. -/
theorem monoB_dual (F : BFun) : MonoB (fun a => !F (fun l => !a l)) ↔ MonoB F := by
  have key : ∀ G : BFun, MonoB G → MonoB (fun a => !G (fun l => !a l)) := by
    intro G hG a b hab ha
    simp only [Bool.not_eq_true'] at ha ⊢
    cases hb : G (fun l => !b l) with
    | false => rfl
    | true =>
      rw [hG _ _ (fun l hl => by
        cases hal : a l with
        | false => rfl
        | true => simp [hab l hal] at hl) hb] at ha
      cases ha
  refine ⟨fun h => ?_, key F⟩
  have := key _ h
  simpa using this

/-- **C18.** `mincut` returns `None` exactly when the function is not monotone, and otherwise the family of its
minimal cut sets, whatever was done with the two managers before. -/
theorem C18_mincut (hw : w.Reachable) {f : Nat} {F : BFun} (hf : w.bdd.Denotes f F) {names : List String}
    (hn : Names w.bdd names) : MinGives w (.mincut f) (MonoB F) (MinCuts names F) := by
  obtain ⟨hb, A, R⟩ := hw.rel
  rw [names_iff R.bdd] at hn; subst hn
  have h1 := R.bdd.denotes_iff.1 hf
  obtain ⟨o, w', A', k1, k2, k3, k4, k5, k6, k7⟩ := R.mincut h1
  refine ⟨o, w', k1, .step (.mincut f) hw trivial k1, ?_, R.zdd.hs.notin, ?_, ?_⟩
  · rcases k2 with ⟨q1, q2, q3⟩ | ⟨q1, q2, q3⟩
    · exact .inl ⟨fun h => q1 ((monoB_dual F).2 h), q2⟩
    · refine .inr ⟨(monoB_dual F).1 q1, q2, ?_⟩
      have := denotes_minFam k3.zdd q3
      rw [k5] at this
      have e : MinPaths A.names (fun a => !F (fun l => !a l)) = MinCuts A.names F := by
        ext S; simp [MinPaths, MinCuts]
      rw [e] at this; exact this
  · intro h G hG
    exact k3.bdd.denotes_iff.2 (k6 h G (R.bdd.denotes_iff.1 hG))
  · intro h 𝓖 hG
    exact R.zdd.denotes_keep k3.zdd (by rw [k5]) (fun V => k7 h V) hG

/-- Sanity check of the two specifications: a set whose failure makes a monotone `F` false meets every minimal path
set. -/
theorem C18_cut_meets_paths {names : List String} {F : BFun} (hm : MonoB F) {S : Set String}
    (hcut : F (fun l => !onlyTrue names S l) = false) : ∀ P ∈ MinPaths names F, (P ∩ S).Nonempty := by
  intro P hP
  by_contra hne
  have : F (fun l => !onlyTrue names S l) = true := by
    refine hm _ _ (fun l hl => ?_) hP.2.1
    obtain ⟨x, h1, h2⟩ := onlyTrue_true.1 hl
    cases hs : onlyTrue names S l with
    | false => rfl
    | true =>
      obtain ⟨y, h3, h4⟩ := onlyTrue_true.1 hs
      rw [h1] at h3; cases h3
      exact absurd ⟨x, h2, h4⟩ hne
  rw [hcut] at this; cases this

/-! ## The ZDD handles of a `BssMgr` -/

/-- **C25.** Whatever is called on a `BssMgr` or its two managers, a ZDD handle that is not dropped keeps its
family. -/
theorem C25_bss_step (hw : w.Reachable) {c : BssCmd} {o : BssOut} {w' : BssW} (ho : w.Ordered c)
    (hs : w.step c = some (o, w')) {h : Nat} (hd : c ≠ .zdd (.drop h)) {𝓕 : Set (Set String)}
    (hD : w.zdd.Denotes h 𝓕) : w'.zdd.Denotes h 𝓕 := by
  obtain ⟨hb, A, R⟩ := hw.rel
  cases c with
  | bdd c =>
    simp only [BssW.step, Option.map_eq_some_iff] at hs
    obtain ⟨⟨o1, b1⟩, h1, h2⟩ := hs
    cases h2
    exact hD
  | zdd c =>
    simp only [BssW.step] at hs
    split at hs
    · rename_i hc
      simp only [Option.map_eq_some_iff] at hs
      obtain ⟨⟨o1, z1⟩, h1, h2⟩ := hs
      cases h2
      obtain ⟨_, k2, k3⟩ := R.zdd.of_step (.inl hc) h1
      exact R.zdd.denotes_keep k2 List.prefix_rfl (fun F hF => k3 h F hF (fun e => hd (by rw [e]))) hD
    · cases hs
  | minpath f =>
    have hs' : w.minpath f = some (o, w') := hs
    have : ∃ i, w.bdd.held.get f = some i := by
      cases hg : w.bdd.held.get f with
      | none => simp [BssW.minpath, hg] at hs'
      | some i => exact ⟨i, rfl⟩
    obtain ⟨i, hi⟩ := this
    obtain ⟨F, hF, _⟩ := R.bdd.heldS f i hi
    obtain ⟨o1, w1, k1, _, _, _, _, k2⟩ := C17_minpath hw (R.bdd.denotes_iff.2 hF) ((names_iff R.bdd _).2 rfl)
    rw [hs] at k1; cases k1
    exact k2 h 𝓕 hD
  | mincut f =>
    have hs' : w.mincut f = some (o, w') := hs
    have : ∃ i, w.bdd.held.get f = some i := by
      cases hg : w.bdd.held.get f with
      | none => simp [BssW.mincut, World.step, hg] at hs'
      | some i => exact ⟨i, rfl⟩
    obtain ⟨i, hi⟩ := this
    obtain ⟨F, hF, _⟩ := R.bdd.heldS f i hi
    obtain ⟨o1, w1, k1, _, _, _, _, k2⟩ := C18_mincut hw (R.bdd.denotes_iff.2 hF) ((names_iff R.bdd _).2 rfl)
    rw [hs] at k1; cases k1
    exact k2 h 𝓕 hD
  | clearCache =>
    obtain ⟨o1, b1, A1, h1, _, R1⟩ := R.bdd.step (c := .clearCache) trivial
    obtain ⟨o2, z2, h2, _, R2, k⟩ := R.zdd.step (c := .clearCache) (.inr rfl) (by simp [ZWorld.operands])
    have hs' : (match w.bdd.step .clearCache, w.zdd.step .clearCache with
      | some (_, b), some (_, z) => some (BssOut.unit, BssW.mk b z)
      | _, _ => none) = some (o, w') := hs
    rw [h1, h2] at hs'
    cases hs'
    exact R.zdd.denotes_keep R2 List.prefix_rfl (fun F hF => k h F hF (by simp)) hD

/-- The BDD side of a `BssMgr` is a BDD session, so every theorem about BDD sessions applies to it. -/
theorem bss_bdd_reachable (hw : w.Reachable) : w.bdd.Reachable := hw.rel.1

/-- A set operation on two ZDD handles of a `BssMgr`. -/
def BssGives (w : BssW) (c : ZCmd) (𝓕 : Set (Set String)) : Prop :=
  ∃ w', w.step (.zdd c) = some (.zdd (.handle w.zdd.hs.next), w') ∧ w'.Reachable ∧
    w'.zdd.Denotes w.zdd.hs.next 𝓕 ∧ w'.bdd = w.bdd ∧ ∀ h 𝓖, w.zdd.Denotes h 𝓖 → w'.zdd.Denotes h 𝓖

theorem bss_bin (hw : w.Reachable) {c : ZCmd} {f g : Nat} {𝓕 𝓖 𝓡 : Set (Set String)}
    (hf : w.zdd.Denotes f 𝓕) (hg : w.zdd.Denotes g 𝓖) (hc : ZWorld.operands c = [f, g]) (hd : ∀ h, c ≠ .drop h)
    (hsh : c.shared = true) {P : ZVal → ZVal → ZVal → Prop}
    (hp : ∀ o z', ZLab.Post w.zdd c o z' → ZBin P w.zdd f g o z')
    (key : ∀ (names : List String) (F G V : ZVal), P F G V → F.Cl → G.Cl → (∀ a t, F a t → BitA names a) →
      (∀ a t, G a t → BitA names a) → (∀ a t, V a t → BitA names a) →
      (∀ a, BitA names a → (F a .one ↔ labS names a ∈ 𝓕)) → (∀ a, BitA names a → (G a .one ↔ labS names a ∈ 𝓖)) →
      𝓕 = ZRel.famOf names F → 𝓖 = ZRel.famOf names G → V.Cl ∧ ZRel.famOf names V = 𝓡) :
    BssGives w c 𝓡 := by
  obtain ⟨hb, A, R⟩ := hw.rel
  obtain ⟨o, z', h1, h2, h3, h4⟩ := R.zdd.step (c := c) (.inl hsh)
    (operands_held hc (by simp only [List.mem_cons, List.not_mem_nil, or_false, forall_eq_or_imp, forall_eq]
                          exact ⟨⟨_, hf⟩, _, hg⟩))
  obtain ⟨F, G, V, k1, k2, k3, k4, k5⟩ := hp o z' h2
  obtain ⟨F', f1, f2, f3⟩ := R.zdd.of_denotes hf
  obtain ⟨G', g1, g2, g3⟩ := R.zdd.of_denotes hg
  cases ZRel.has_unique k1 f1
  cases ZRel.has_unique k2 g1
  have fi : ∀ {V : ZVal} {𝓥 : Set (Set String)}, (∀ a t, V a t → BitA A.names a) → 𝓥 = ZRel.famOf A.names V →
      ∀ a, BitA A.names a → (V a .one ↔ labS A.names a ∈ 𝓥) := by
    rintro V 𝓥 hb rfl a ha
    constructor
    · intro h; exact ⟨a, h, rfl⟩
    · rintro ⟨b, h, e⟩
      rw [labS_inj R.zdd.lbl.nodup ha (hb b _ h) e]; exact h
  have fb := fun a t (h : F a t) => R.zdd.bits f1 h
  have gb := fun a t (h : G a t) => R.zdd.bits g1 h
  obtain ⟨l1, l2⟩ := key A.names F G V k5 f2 g2 fb gb (fun a t h => h3.bits k4 h) (fi fb f3) (fi gb g3) f3 g3
  have hst : w.step (.zdd c) = some (.zdd o, { w with zdd := z' }) := by
    simp only [BssW.step, hsh, if_true, h1, Option.map_some]
  subst k3
  refine ⟨_, hst, .step (.zdd c) hw trivial hst, ?_, rfl, fun h 𝓖' hG =>
    R.zdd.denotes_keep h3 List.prefix_rfl (fun V hV => h4 h V hV (hd h)) hG⟩
  rw [← l2]
  exact h3.denotes_of k4 l1

/-- **C20.** `union` on the ZDD handles of a `BssMgr`. -/
theorem C20_bss_union (hw : w.Reachable) {f g : Nat} {𝓕 𝓖 : Set (Set String)} (hf : w.zdd.Denotes f 𝓕)
    (hg : w.zdd.Denotes g 𝓖) : BssGives w (.union f g) (𝓕 ∪ 𝓖) :=
  bss_bin (P := ZSpecUnion) hw hf hg rfl (fun h => by simp) rfl (fun _ _ h => h) (by
    intro names F G V hs fc gc fb gb vb fi gi fe ge
    obtain ⟨vc, hv⟩ := hs fc gc
    refine ⟨vc, Set.ext fun S => famOf_pointwise (c := Or) hv fb gb vb fi gi ?_⟩
    rintro (h | h)
    · rw [fe] at h; obtain ⟨a, ha, rfl⟩ := h; exact ⟨a, fb _ _ ha, rfl⟩
    · rw [ge] at h; obtain ⟨a, ha, rfl⟩ := h; exact ⟨a, gb _ _ ha, rfl⟩)

/-- **C20.** `setdiff` on the ZDD handles of a `BssMgr`. -/
theorem C20_bss_setdiff (hw : w.Reachable) {f g : Nat} {𝓕 𝓖 : Set (Set String)} (hf : w.zdd.Denotes f 𝓕)
    (hg : w.zdd.Denotes g 𝓖) : BssGives w (.setdiff f g) (𝓕 \ 𝓖) :=
  bss_bin (P := ZSpecDiff) hw hf hg rfl (fun h => by simp) rfl (fun _ _ h => h) (by
    intro names F G V hs fc gc fb gb vb fi gi fe ge
    obtain ⟨vc, hv⟩ := hs fc gc
    refine ⟨vc, Set.ext fun S => famOf_pointwise (c := fun p q => p ∧ ¬ q) hv fb gb vb fi gi ?_⟩
    rintro ⟨h, _⟩
    rw [fe] at h; obtain ⟨a, ha, rfl⟩ := h; exact ⟨a, fb _ _ ha, rfl⟩)

/-- **C20.** `product` on the ZDD handles of a `BssMgr`. -/
theorem C20_bss_product (hw : w.Reachable) {f g : Nat} {𝓕 𝓖 : Set (Set String)} (hf : w.zdd.Denotes f 𝓕)
    (hg : w.zdd.Denotes g 𝓖) : BssGives w (.product f g) (join 𝓕 𝓖) :=
  bss_bin (P := ZSpecProd) hw hf hg rfl (fun h => by simp) rfl (fun _ _ h => h) (by
    intro names F G V hs fc gc fb gb vb fi gi fe ge
    obtain ⟨vc, hv⟩ := hs fc gc
    refine ⟨vc, ?_⟩
    rw [fe, ge]
    ext S
    constructor
    · rintro ⟨a, ha, rfl⟩
      obtain ⟨b, d, hb, hd, rfl⟩ := (hv a).1 ha
      exact ⟨_, ⟨b, hb, rfl⟩, _, ⟨d, hd, rfl⟩, labS_sup (fb _ _ hb) (gb _ _ hd)⟩
    · rintro ⟨_, ⟨b, hb, rfl⟩, _, ⟨d, hd, rfl⟩, rfl⟩
      exact ⟨_, (hv _).2 ⟨b, d, hb, hd, rfl⟩, (labS_sup (fb _ _ hb) (gb _ _ hd)).symm⟩)

theorem bss_denotes_node (hw : w.Reachable) {h : Nat} {𝓕 : Set (Set String)} (hD : w.zdd.Denotes h 𝓕) :
    ∃ i names, w.zdd.hs.held.get h = some i ∧ ZLab w.zdd names ∧ w.zdd.mgr.w.eng.arena.Live i ∧
      ∀ S, S ∈ 𝓕 ↔ Mem w.zdd.mgr.w.eng.arena .one i S := by
  obtain ⟨_, A, R⟩ := hw.rel
  obtain ⟨i, hi⟩ := hD.held
  obtain ⟨F, hF, _⟩ := R.zdd.has hi
  refine ⟨i, A.names, hi, R.zdd, hF.live, fun S => ?_⟩
  rw [hD.fam]
  constructor
  · rintro ⟨j, hj, hm⟩; rw [hi] at hj; cases hj; exact hm
  · intro hm; exact ⟨i, hi, hm⟩

/-- **C23.** `count([true])` of a ZDD handle of a `BssMgr`: the number of minimal sets for a result of `minpath`
or `mincut`. -/
theorem C23_bss_count (hw : w.Reachable) {h : Nat} {𝓕 : Set (Set String)} (hD : w.zdd.Denotes h 𝓕) :
    𝓕.Finite ∧ w.zdd.count [true] h = some 𝓕.ncard := by
  obtain ⟨i, names, hi, R, li, hf⟩ := bss_denotes_node hw hD
  obtain ⟨n, os, h1, h2, rfl⟩ := zcount_ok R.ok.inv R.lbl li [true]
  obtain ⟨k1, k2⟩ := ncard_of_lists (lists_of_denotes h2 hf) h2.distinct
  refine ⟨k1, ?_⟩
  unfold ZWorld.count
  rw [hi, k2]; exact h1

/-- **C23.** `extract([true])` of a ZDD handle of a `BssMgr` lists its family, each set once. -/
theorem C23_bss_extract (hw : w.Reachable) {h : Nat} {𝓕 : Set (Set String)} (hD : w.zdd.Denotes h 𝓕) :
    ∃ st os, w.zdd.extract [true] h = some st ∧ Enum.Yields w.zdd.next st os ∧
      (∀ l ∈ os, l.Nodup) ∧ (∀ S, S ∈ 𝓕 ↔ ∃ l ∈ os, S = {x | x ∈ l}) ∧
      os.Pairwise (fun l l' => ({x | x ∈ l} : Set String) ≠ {x | x ∈ l'}) ∧
      w.zdd.pathLen h st = some os.length := by
  obtain ⟨i, names, hi, R, li, hf⟩ := bss_denotes_node hw hD
  obtain ⟨os, h1, h2⟩ := zpath_ok R.ok.inv R.lbl li [true]
  have hm := lists_of_denotes h2 hf
  refine ⟨_, os, by unfold ZWorld.extract; rw [hi], h1, h2.nodup, hm, h2.distinct, ?_⟩
  obtain ⟨_, k⟩ := C23_bss_count hw hD
  show w.zdd.count [true] h = _
  rw [k, (ncard_of_lists hm h2.distinct).2]

/-! ## A concrete session -/

/-- At most `n` results of the enumeration of a handle. -/
def listSets (w : ZWorld) (h : Nat) (n : Nat) : List (List String) :=
  match w.extract [true] h with
  | none => []
  | some st => (go st n).reverse
where
  go (st : ZPath) : Nat → List (List String)
    | 0 => []
    | n + 1 =>
      match w.next st with
      | some (some l, st') => go st' n ++ [l]
      | _ => []

/-- 2-out-of-3 with a collection forced at every wrap on both sides. -/
def bssDemo : List BssCmd :=
  [.zdd (.setThreshold 0), .bdd (.setThreshold 0), .bdd (.defvar "x"), .bdd (.defvar "y"), .bdd (.defvar "z"),
   .bdd (.kofn 2 [0, 1, 2]), .minpath 3, .mincut 3, .bdd (.not 3), .minpath 5, .bdd (.or 0 3), .mincut 6,
   .clearCache, .zdd (.union 0 2), .minpath 6]

example : (BssW.new.run bssDemo).map (·.1) = some
    [.zdd .unit, .bdd .unit, .bdd (.handle 0), .bdd (.handle 1), .bdd (.handle 2), .bdd (.handle 3),
     .fam (some 0), .fam (some 1), .bdd (.handle 5), .fam none, .bdd (.handle 6), .fam (some 2), .unit,
     .zdd (.handle 3), .fam (some 4)] := by
  decide +kernel

/-- The families as listed by the extraction of `ZddNode` (handles 0, 1: 2-out-of-3; 2: cuts of `x ∨ 2-of-3`;
4: its paths). -/
example : (BssW.new.run bssDemo).map (fun p => [0, 1, 2, 4].map (fun h => listSets p.2.zdd h 9)) = some
    [[["x", "y"], ["x", "z"], ["y", "z"]], [["x", "y"], ["x", "z"], ["y", "z"]],
     [["x", "y"], ["x", "z"]], [["x"], ["y", "z"]]] := by
  decide +kernel

end DD.Props
