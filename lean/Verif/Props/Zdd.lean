import Verif.Props.BddSession
import Verif.Bss.ZReads
import Mathlib.Data.Set.Card
import Mathlib.Data.Set.Finite.Lemmas

/-!
# Properties of ZDD sessions: C20, C21, C22, C23, C24, C25 and the ZDD parts of C07, C19, C50, C52

`w.Reads h t S`: starting at handle `h` and taking the 1-edge exactly at the labels in `S` leads to terminal
`t`.  `w.Denotes h 𝓕`: `h` is held, reaches no undetermined terminal, and `𝓕` is the family of the sets
that lead to the terminal 1.
-/

set_option autoImplicit false
set_option linter.unusedSectionVars false
set_option linter.unusedVariables false

namespace DD.Props
open Arena Zdd

variable {w : ZWorld}

/-- The call `c` returns a new handle denoting `𝓕` and keeps all other handles. -/
def ZGives (w : ZWorld) (c : ZCmd) (𝓕 : Set (Set String)) : Prop :=
  ∃ w', w.step c = some (.handle w.hs.next, w') ∧ w'.Reachable ∧ w'.Denotes w.hs.next 𝓕 ∧
    w.hs.held.get w.hs.next = none ∧ ∀ h 𝓖, w.Denotes h 𝓖 → w'.Denotes h 𝓖

theorem denotes_keep {w' : ZWorld} {names names' : List String} (R : ZRel w names) (R' : ZRel w' names')
    (hp : names <+: names') {h : Nat} (hk : ∀ F, w.Has h F → w'.Has h F) {𝓕 : Set (Set String)}
    (hD : w.Denotes h 𝓕) : w'.Denotes h 𝓕 := by
  obtain ⟨V, hV, _⟩ := R.of_denotes hD
  have hV' := hk V hV
  refine ⟨?_, fun S => ?_, fun S hS => ?_⟩
  · obtain ⟨i, hi, _⟩ := hV'; exact ⟨i, hi⟩
  · rw [hD.fam, ZRel.reads_keep R R' hp hV hV' (by decide)]
  · exact hD.det S ((ZRel.reads_keep R R' hp hV hV' (by decide) S).1 hS)

theorem denotes_unique {h : Nat} {𝓕 𝓖 : Set (Set String)} (h1 : w.Denotes h 𝓕) (h2 : w.Denotes h 𝓖) : 𝓕 = 𝓖 := by
  ext S; rw [h1.fam, h2.fam]

theorem operands_held {c : ZCmd} {l : List Nat} (hc : ZWorld.operands c = l)
    (h : ∀ f ∈ l, ∃ 𝓕, w.Denotes f 𝓕) : ∀ f ∈ ZWorld.operands c, ∃ i, w.hs.held.get f = some i := by
  intro f hf
  obtain ⟨𝓕, h1⟩ := h f (hc ▸ hf)
  exact h1.held

theorem next_free {names : List String} (R : ZRel w names) : w.hs.held.get w.hs.next = none := R.hs.notin

/-- Common part of the binary operations. -/
theorem bin_gives (hw : w.Reachable) {c : ZCmd} {f g : Nat} {𝓕 𝓖 : Set (Set String)} (hf : w.Denotes f 𝓕)
    (hg : w.Denotes g 𝓖) (hc : ZWorld.operands c = [f, g]) (hd : ∀ h, c ≠ .drop h)
    {P : ZVal → ZVal → ZVal → Prop}
    (hpost : ∀ names o w' n, ZPost w names c o w' n → n = names ∧ ZBin P w f g o w')
    {Q : Set (Set String) → Prop}
    (hP : ∀ names F G V, names.Nodup → (∀ x n, w.mgr.vars.get x = some n ↔ names[n]? = some x) → P F G V → F.Cl → G.Cl → (∀ a t, F a t → BitA names a) →
      (∀ a t, G a t → BitA names a) → (∀ a t, V a t → BitA names a) →
      (∀ a, BitA names a → (F a .one ↔ labS names a ∈ 𝓕)) → (∀ a, BitA names a → (G a .one ↔ labS names a ∈ 𝓖)) →
      𝓕 = ZRel.famOf names F → 𝓖 = ZRel.famOf names G →
      V.Cl ∧ Q (ZRel.famOf names V)) :
    ∃ 𝓡, ZGives w c 𝓡 ∧ Q 𝓡 := by
  obtain ⟨names, R⟩ := hw.rel
  obtain ⟨o, w', n, h1, h2, R', hp, hk⟩ := R.step (operands_held hc (by
    intro x hx; simp at hx; rcases hx with rfl | rfl
    · exact ⟨_, hf⟩
    · exact ⟨_, hg⟩))
  obtain ⟨rfl, F, G, V, hF, hG, rfl, hV, hs⟩ := hpost _ _ _ _ h2
  obtain ⟨F', hF', fc, fe, fb, fi⟩ := R.of_denotes hf
  obtain ⟨G', hG', gc, ge, gb, gi⟩ := R.of_denotes hg
  cases ZRel.has_unique hF' hF
  cases ZRel.has_unique hG' hG
  obtain ⟨vc, q⟩ := hP n _ _ _ R.mok.nodup R.mok.vars hs fc gc fb gb (fun a t => R'.bits hV) fi gi fe ge
  exact ⟨_, ⟨w', h1, .step c hw h1, R'.denotes_of hV vc, next_free R, fun h 𝓗 hD =>
    denotes_keep R R' hp (fun F hF => hk h F hF (hd h)) hD⟩, q⟩

/-! ## C20 -/

/-- Common part of `union` and `setdiff`. -/
theorem famOf_pointwise {names : List String} {F G V : ZVal} {𝓕 𝓖 : Set (Set String)}
    {c : Prop → Prop → Prop} (hv : ∀ a, V a .one ↔ c (F a .one) (G a .one))
    (fb : ∀ a t, F a t → BitA names a) (gb : ∀ a t, G a t → BitA names a)
    (vb : ∀ a t, V a t → BitA names a)
    (fi : ∀ a, BitA names a → (F a .one ↔ labS names a ∈ 𝓕))
    (gi : ∀ a, BitA names a → (G a .one ↔ labS names a ∈ 𝓖)) {S : Set String}
    (hS : c (S ∈ 𝓕) (S ∈ 𝓖) → ∃ a, BitA names a ∧ S = labS names a) :
    S ∈ ZRel.famOf names V ↔ c (S ∈ 𝓕) (S ∈ 𝓖) := by
  constructor
  · rintro ⟨a, ha, rfl⟩
    rw [← fi a (vb _ _ ha), ← gi a (vb _ _ ha)]
    exact (hv a).1 ha
  · intro h
    obtain ⟨a, ha, rfl⟩ := hS h
    refine ⟨a, (hv a).2 ?_, rfl⟩
    rw [fi a ha, gi a ha]; exact h

/-- **C20.** `union` returns the union of the families. -/
theorem C20_union (hw : w.Reachable) {f g : Nat} {𝓕 𝓖 : Set (Set String)} (hf : w.Denotes f 𝓕)
    (hg : w.Denotes g 𝓖) : ZGives w (.union f g) (𝓕 ∪ 𝓖) := by
  obtain ⟨𝓡, h1, rfl⟩ := bin_gives (c := .union f g) (P := ZSpecUnion) (Q := fun 𝓡 => 𝓡 = 𝓕 ∪ 𝓖) hw hf hg rfl
    (fun h => by simp) (fun names o w' n h => h) (by
      intro names F G V nd _ hs fc gc fb gb vb fi gi fe ge
      obtain ⟨vc, hv⟩ := hs fc gc
      refine ⟨vc, Set.ext fun S => famOf_pointwise (c := Or) hv fb gb vb fi gi ?_⟩
      rintro (h | h)
      · rw [fe] at h; obtain ⟨a, ha, rfl⟩ := h; exact ⟨a, fb _ _ ha, rfl⟩
      · rw [ge] at h; obtain ⟨a, ha, rfl⟩ := h; exact ⟨a, gb _ _ ha, rfl⟩)
  exact h1

/-- **C20.** `setdiff` returns the difference of the families. -/
theorem C20_setdiff (hw : w.Reachable) {f g : Nat} {𝓕 𝓖 : Set (Set String)} (hf : w.Denotes f 𝓕)
    (hg : w.Denotes g 𝓖) : ZGives w (.setdiff f g) (𝓕 \ 𝓖) := by
  obtain ⟨𝓡, h1, rfl⟩ := bin_gives (c := .setdiff f g) (P := ZSpecDiff) (Q := fun 𝓡 => 𝓡 = 𝓕 \ 𝓖) hw hf hg rfl
    (fun h => by simp) (fun names o w' n h => h) (by
      intro names F G V nd _ hs fc gc fb gb vb fi gi fe ge
      obtain ⟨vc, hv⟩ := hs fc gc
      refine ⟨vc, Set.ext fun S => famOf_pointwise (c := fun p q => p ∧ ¬ q) hv fb gb vb fi gi ?_⟩
      rintro ⟨h, _⟩
      rw [fe] at h; obtain ⟨a, ha, rfl⟩ := h; exact ⟨a, fb _ _ ha, rfl⟩)
  exact h1

/-- The join of two families. -/
def join (𝓕 𝓖 : Set (Set String)) : Set (Set String) := {S | ∃ A ∈ 𝓕, ∃ B ∈ 𝓖, S = A ∪ B}

/-- **C20.** `product` returns the join of the families. -/
theorem C20_product (hw : w.Reachable) {f g : Nat} {𝓕 𝓖 : Set (Set String)} (hf : w.Denotes f 𝓕)
    (hg : w.Denotes g 𝓖) : ZGives w (.product f g) (join 𝓕 𝓖) := by
  obtain ⟨𝓡, h1, rfl⟩ := bin_gives (c := .product f g) (P := ZSpecProd) (Q := fun 𝓡 => 𝓡 = join 𝓕 𝓖) hw hf hg rfl
    (fun h => by simp) (fun names o w' n h => h) (by
      intro names F G V nd _ hs fc gc fb gb vb fi gi fe ge
      obtain ⟨vc, hv⟩ := hs fc gc
      refine ⟨vc, ?_⟩
      rw [fe, ge]
      ext S
      constructor
      · rintro ⟨a, ha, rfl⟩
        obtain ⟨b, d, hb, hd, rfl⟩ := (hv a).1 ha
        exact ⟨_, ⟨b, hb, rfl⟩, _, ⟨d, hd, rfl⟩, labS_sup (fb _ _ hb) (gb _ _ hd)⟩
      · rintro ⟨_, ⟨b, hb, rfl⟩, _, ⟨d, hd, rfl⟩, rfl⟩
        exact ⟨_, (hv _).2 ⟨b, d, hb, hd, rfl⟩, (labS_sup (fb _ _ hb) (gb _ _ hd)).symm⟩)
  exact h1

/-! ## C23: construction -/

/-- Common part of the constructors. -/
theorem nullary_gives (hw : w.Reachable) {c : ZCmd} (hc : ZWorld.operands c = []) (hd : ∀ h, c ≠ .drop h)
    {𝓡 : Set (Set String)}
    (hpost : ∀ names o w' n, ZPost w names c o w' n → o = .handle w.hs.next ∧
      ∃ V, w'.Has w.hs.next V ∧ V.Cl ∧ ZRel.famOf n V = 𝓡) : ZGives w c 𝓡 := by
  obtain ⟨names, R⟩ := hw.rel
  obtain ⟨o, w', n, h1, h2, R', hp, hk⟩ := R.step (c := c) (by rw [hc]; intro f hf; cases hf)
  obtain ⟨rfl, V, hV, vc, rfl⟩ := hpost _ _ _ _ h2
  exact ⟨w', h1, .step c hw h1, R'.denotes_of hV vc, next_free R, fun h 𝓗 hD =>
    denotes_keep R R' hp (fun F hF => hk h F hF (hd h)) hD⟩

/-- **C23.** `empty` is the empty family. -/
theorem C23_empty (hw : w.Reachable) : ZGives w .empty ∅ :=
  nullary_gives hw rfl (by simp) (by
    rintro names o w' n ⟨rfl, rfl, hV⟩
    refine ⟨rfl, _, hV, fun a h => h, ?_⟩
    ext S; simp [ZRel.famOf, zEmpty])

/-- **C23.** `base` is the family of the empty set. -/
theorem C23_base (hw : w.Reachable) : ZGives w .base {∅} :=
  nullary_gives hw rfl (by simp) (by
    rintro names o w' n ⟨rfl, rfl, hV⟩
    refine ⟨rfl, _, hV, (fun a h => by cases h.2), ?_⟩
    ext S
    simp only [ZRel.famOf, zBase, and_true, Set.mem_ofPred_eq, exists_eq_left, labS_zero, Set.mem_singleton_iff])

/-- **C23.** `singleton x` is the family of `{x}`. -/
theorem C23_singleton (hw : w.Reachable) (x : String) : ZGives w (.singleton x) {{x}} :=
  nullary_gives hw rfl (by simp) (by
    rintro names o w' n ⟨rfl, rfl, k, hk, hV⟩
    refine ⟨rfl, _, hV, (fun a h => by cases h.2), ?_⟩
    ext S
    simp only [ZRel.famOf, zSingle, and_true, Set.mem_ofPred_eq, exists_eq_left, labS_single hk,
      Set.mem_singleton_iff])

/-- **C23.** `from_sets` is the family of the listed sets. -/
theorem C23_fromSets (hw : w.Reachable) (ss : List (List String)) :
    ZGives w (.fromSets ss) {S | ∃ l ∈ ss, S = {x | x ∈ l}} :=
  nullary_gives hw rfl (by simp) (by
    rintro names o w' n ⟨rfl, rfl, hV⟩
    refine ⟨rfl, _, hV, zFam_cl _, ?_⟩
    have hl : ∀ l ∈ ss, labS (addNames names ss.flatten) (ind (addNames names ss.flatten) l) = lset l :=
      fun l hl => labS_ind (fun x hx => mem_addNames (List.mem_flatten.2 ⟨l, hl, hx⟩))
    ext S
    constructor
    · rintro ⟨a, ha, rfl⟩
      obtain ⟨l, h1, rfl⟩ := (zFam_one _ _).1 ha
      exact ⟨l, h1, hl l h1⟩
    · rintro ⟨l, h1, rfl⟩
      exact ⟨_, (zFam_one _ _).2 ⟨l, h1, rfl⟩, (hl l h1).symm⟩)

/-! ## C23: counting and enumeration -/

theorem ncard_of_lists {os : List (List String)} {𝓕 : Set (Set String)}
    (hm : ∀ S, S ∈ 𝓕 ↔ ∃ l ∈ os, S = lset l) (hd : os.Pairwise (fun l l' => lset l ≠ lset l')) :
    𝓕.Finite ∧ 𝓕.ncard = os.length := by
  classical
  have hn : (os.map lset).Nodup := by
    unfold List.Nodup; rw [List.pairwise_map]; exact hd
  have he : 𝓕 = ((os.map lset).toFinset : Set (Set String)) := by
    ext S
    rw [hm, List.coe_toFinset]
    simp only [List.mem_map, Set.mem_ofPred_eq]
    exact ⟨fun ⟨l, h, e⟩ => ⟨l, h, e.symm⟩, fun ⟨l, h, e⟩ => ⟨l, h, e.symm⟩⟩
  rw [he]
  refine ⟨Finset.finite_toSet _, ?_⟩
  rw [Set.ncard_coe_finset, List.toFinset_card_of_nodup hn, List.length_map]

theorem lists_of_denotes {s : Zdd} {i : Nat} {os : List (List String)} (h : Lists s.arena [true] i os)
    {𝓕 : Set (Set String)} (hf : ∀ S, S ∈ 𝓕 ↔ Mem s.arena .one i S) : ∀ S, S ∈ 𝓕 ↔ ∃ l ∈ os, S = lset l := by
  intro S
  rw [hf, h.mem]
  constructor
  · intro hm; exact ⟨.one, rfl, hm⟩
  · rintro ⟨t, ht, hm⟩
    cases t with
    | one => exact hm
    | zero => cases ht
    | undet => cases ht

theorem denotes_node (hw : w.Reachable) {h : Nat} {𝓕 : Set (Set String)} (hD : w.Denotes h 𝓕) :
    ∃ i names, w.hs.held.get h = some i ∧ ZRel w names ∧ w.mgr.w.eng.arena.Live i ∧
      ∀ S, S ∈ 𝓕 ↔ Mem w.mgr.w.eng.arena .one i S := by
  obtain ⟨names, R⟩ := hw.rel
  obtain ⟨i, hi⟩ := hD.held
  obtain ⟨F, hF, _⟩ := R.has hi
  refine ⟨i, names, hi, R, hF.live, fun S => ?_⟩
  rw [hD.fam]
  constructor
  · rintro ⟨j, hj, hm⟩; rw [hi] at hj; cases hj; exact hm
  · intro hm; exact ⟨i, hi, hm⟩

/-- **C23.** `count([true])` is the number of member sets. -/
theorem C23_count (hw : w.Reachable) {h : Nat} {𝓕 : Set (Set String)} (hD : w.Denotes h 𝓕) :
    𝓕.Finite ∧ w.count [true] h = some 𝓕.ncard := by
  obtain ⟨i, names, hi, R, li, hf⟩ := denotes_node hw hD
  obtain ⟨n, os, h1, h2, rfl⟩ := zcount_ok R.mok.ok.inv R.lbl li [true]
  obtain ⟨k1, k2⟩ := ncard_of_lists (lists_of_denotes h2 hf) h2.distinct
  refine ⟨k1, ?_⟩
  unfold ZWorld.count
  rw [hi, k2]; exact h1

/-- **C23.** `extract([true])` stops after returning each member set exactly once, as a list of distinct
labels; `len` says how many there are. -/
theorem C23_extract (hw : w.Reachable) {h : Nat} {𝓕 : Set (Set String)} (hD : w.Denotes h 𝓕) :
    ∃ st os, w.extract [true] h = some st ∧ Enum.Yields w.next st os ∧
      (∀ l ∈ os, l.Nodup) ∧ (∀ S, S ∈ 𝓕 ↔ ∃ l ∈ os, S = {x | x ∈ l}) ∧
      os.Pairwise (fun l l' => ({x | x ∈ l} : Set String) ≠ {x | x ∈ l'}) ∧
      w.pathLen h st = some os.length := by
  obtain ⟨i, names, hi, R, li, hf⟩ := denotes_node hw hD
  obtain ⟨os, h1, h2⟩ := zpath_ok R.mok.ok.inv R.lbl li [true]
  have hm := lists_of_denotes h2 hf
  refine ⟨_, os, by unfold ZWorld.extract; rw [hi], h1, h2.nodup, hm, h2.distinct, ?_⟩
  obtain ⟨_, k⟩ := C23_count hw hD
  show w.count [true] h = _
  rw [k, (ncard_of_lists hm h2.distinct).2]

/-! ## C24 -/

/-- **C24.** `eq` says exactly whether the two handles read alike (also with undetermined parts). -/
theorem C24_eq_reads (hw : w.Reachable) {f g i j : Nat} (hf : w.hs.held.get f = some i)
    (hg : w.hs.held.get g = some j) : ∃ b, w.step (.eq f g) = some (.bool b, w) ∧
      (b = true ↔ ∀ S, (w.Reads f .one S ↔ w.Reads g .one S) ∧ (w.Reads f .undet S ↔ w.Reads g .undet S)) := by
  obtain ⟨names, R⟩ := hw.rel
  obtain ⟨o, w', n, h1, ⟨rfl, rfl, F, G, b, hF, hG, rfl, hb⟩, _⟩ := R.step (c := .eq f g) (by
    intro x hx; simp [ZWorld.operands] at hx
    rcases hx with rfl | rfl
    · exact ⟨i, hf⟩
    · exact ⟨j, hg⟩)
  exact ⟨b, h1, by rw [hb, R.val_eq_iff hF hG]⟩

/-- **C24.** `eq` says exactly whether the families are equal. -/
theorem C24_eq (hw : w.Reachable) {f g : Nat} {𝓕 𝓖 : Set (Set String)} (hf : w.Denotes f 𝓕)
    (hg : w.Denotes g 𝓖) : ∃ b, w.step (.eq f g) = some (.bool b, w) ∧ (b = true ↔ 𝓕 = 𝓖) := by
  obtain ⟨i, hi⟩ := hf.held
  obtain ⟨j, hj⟩ := hg.held
  obtain ⟨b, h1, h2⟩ := C24_eq_reads hw hi hj
  refine ⟨b, h1, h2.trans ⟨fun h => ?_, ?_⟩⟩
  · ext S; rw [hf.fam, hg.fam]; exact (h S).1
  · rintro rfl S
    exact ⟨(hf.fam S).symm.trans (hg.fam S), iff_of_false (hf.det S) (hg.det S)⟩

/-! ## C25 -/

/-- **C25.** A call keeps what every handle that it does not drop reads. -/
theorem C25_step (hw : w.Reachable) {c : ZCmd} {o : ZOut} {w' : ZWorld} (hs : w.step c = some (o, w'))
    {h i : Nat} (hi : w.hs.held.get h = some i) (hd : c ≠ .drop h) :
    (∃ j, w'.hs.held.get h = some j) ∧
      ∀ t, t ≠ .zero → ∀ S, w'.Reads h t S ↔ w.Reads h t S := by
  obtain ⟨names, R⟩ := hw.rel
  obtain ⟨n, _, R', hp, hk⟩ := R.of_step hs
  obtain ⟨F, _, hF⟩ := R.has hi
  have hF' := hk h F hF hd
  refine ⟨?_, fun t ht S => ZRel.reads_keep R R' hp hF hF' ht S⟩
  obtain ⟨j, hj, _⟩ := hF'
  exact ⟨j, hj⟩

/-- A history of calls with their outputs, each one returning. -/
inductive ZHistory : ZWorld → List ZCmd → List ZOut → ZWorld → Prop
  | nil (w : ZWorld) : ZHistory w [] [] w
  | cons {w w' w'' : ZWorld} {c : ZCmd} {cs : List ZCmd} {o : ZOut} {os : List ZOut} :
      w.step c = some (o, w') → ZHistory w' cs os w'' → ZHistory w (c :: cs) (o :: os) w''

theorem ZHistory.reachable {cs : List ZCmd} {os : List ZOut} {w' : ZWorld} (h : ZHistory w cs os w')
    (hw : w.Reachable) : w'.Reachable := by
  induction h with
  | nil => exact hw
  | cons hs _ ih => exact ih (.step _ hw hs)

/-- **C25.** Over any history, a handle that is not dropped keeps its family (and its undetermined
part). -/
theorem C25_history (hw : w.Reachable) {cs : List ZCmd} {os : List ZOut} {w' : ZWorld}
    (hist : ZHistory w cs os w') {h i : Nat} (hi : w.hs.held.get h = some i) (hd : .drop h ∉ cs) :
    ∀ t, t ≠ .zero → ∀ S, w'.Reads h t S ↔ w.Reads h t S := by
  induction hist generalizing i with
  | nil => intro t _ S; rfl
  | cons hs _ ih =>
    obtain ⟨⟨j, hj⟩, k⟩ := C25_step hw hs hi (fun e => hd (e ▸ List.mem_cons_self))
    intro t ht S
    rw [ih (.step _ hw hs) hj (fun hm => hd (List.mem_cons_of_mem _ hm)) t ht S, k t ht S]

/-- **C25.** The same for handles without undetermined part. -/
theorem C25_denotes (hw : w.Reachable) {cs : List ZCmd} {os : List ZOut} {w' : ZWorld}
    (hist : ZHistory w cs os w') {h : Nat} (hd : .drop h ∉ cs) {𝓕 : Set (Set String)} (hD : w.Denotes h 𝓕) :
    w'.Denotes h 𝓕 := by
  induction hist with
  | nil => exact hD
  | cons hs _ ih =>
    obtain ⟨i, hi⟩ := hD.held
    obtain ⟨k1, k2⟩ := C25_step hw hs hi (fun e => hd (e ▸ List.mem_cons_self))
    refine ih (.step _ hw hs) (fun hm => hd (List.mem_cons_of_mem _ hm)) ⟨k1, fun S => ?_, fun S hS => ?_⟩
    · rw [hD.fam, k2 _ (by decide)]
    · exact hD.det S ((k2 _ (by decide) S).1 hS)

/-- **C25.** A call on held handles never panics. -/
theorem C25_no_panic (hw : w.Reachable) {c : ZCmd}
    (hh : ∀ f ∈ ZWorld.operands c, ∃ i, w.hs.held.get f = some i) :
    ∃ o w', w.step c = some (o, w') ∧ w'.Reachable := by
  obtain ⟨names, R⟩ := hw.rel
  obtain ⟨o, w', _, h1, _⟩ := R.step hh
  exact ⟨o, w', h1, .step c hw h1⟩

theorem zhistory_of_run : ∀ (cs : List ZCmd) (w : ZWorld) (os : List ZOut) (w' : ZWorld),
    w.run cs = some (os, w') → ZHistory w cs os w' := by
  intro cs
  induction cs with
  | nil => intro w os w' h; cases h; exact .nil w
  | cons c cs ih =>
    intro w os w' h
    unfold ZWorld.run at h
    cases hs : w.step c with
    | none => rw [hs] at h; cases h
    | some p =>
      obtain ⟨o, w1⟩ := p
      simp only [hs] at h
      cases hr : w1.run cs with
      | none => simp [hr] at h
      | some q =>
        obtain ⟨os1, w2⟩ := q
        simp only [hr, Option.some.injEq, Prod.mk.injEq] at h
        obtain ⟨rfl, rfl⟩ := h
        exact .cons hs (ih w1 os1 w2 hr)

/-! ## C07, C19, C50, C52 for ZDDs -/

/-- **C07 (ZDD).** The root table counts, for each node, the client's handles on it; nodes without
handles have no entry. -/
theorem C07_zdd_root_counts (hw : w.Reachable) (i : Nat) :
    w.mgr.w.gc.roots.get i =
      if w.hs.held.vals.count i = 0 then none else some (w.hs.held.vals.count i) := by
  obtain ⟨names, R⟩ := hw.rel
  exact R.mok.ok.roots.get i

/-- **C07 (ZDD).** Dropping one handle leaves a node pinned as long as another handle holds it. -/
theorem C07_zdd_drop_keeps_other (hw : w.Reachable) {f g i : Nat} (hne : f ≠ g)
    (hf : w.hs.held.get f = some i) (hg : w.hs.held.get g = some i) {o : ZOut} {w' : ZWorld}
    (hs : w.step (.drop f) = some (o, w')) : ∃ n, w'.mgr.w.gc.roots.get i = some n ∧ 0 < n := by
  have hw' : w'.Reachable := .step (.drop f) hw hs
  have hheld : w'.hs = w.hs.drop f := by
    simp only [ZWorld.step, hf, Option.some.injEq, Prod.mk.injEq] at hs
    rw [← hs.2]
  have : i ∈ w'.hs.held.vals := by
    apply AMap.mem_vals_of_get (i := g)
    rw [hheld, Hs.drop_get hne.symm]; exact hg
  have hc : 0 < w'.hs.held.vals.count i := List.count_pos_iff.2 this
  have := C07_zdd_root_counts hw' i
  rw [if_neg (by omega)] at this
  exact ⟨_, this, hc⟩

/-- **C19 (ZDD).** `size` returns the numbers of distinct reachable non-terminals and terminals, and
twice the first number. -/
theorem C19_zdd_size (hw : w.Reachable) {f i : Nat} (hf : w.hs.held.get f = some i) :
    ∃ nts ts : List Nat, nts.Nodup ∧ ts.Nodup ∧
      (∀ j, j ∈ nts ↔ Reach w.mgr.w.eng.arena i j ∧ ∃ h ch, w.mgr.w.eng.arena.nodes[j]? = some (.nt h ch)) ∧
      (∀ j, j ∈ ts ↔ Reach w.mgr.w.eng.arena i j ∧ ∃ t, w.mgr.w.eng.arena.nodes[j]? = some (.term t)) ∧
      w.size f = some (nts.length, ts.length, 2 * nts.length) := by
  obtain ⟨names, R⟩ := hw.rel
  obtain ⟨F, h2, _⟩ := R.has hf
  obtain ⟨L, k1, k2, k3⟩ := Zdd.zsize_ok R.mok.ok.inv h2.live
  refine ⟨L.filter (w.mgr.w.eng.arena.isNt ·), L.filter (!w.mgr.w.eng.arena.isNt ·), k1.filter _, k1.filter _,
    ?_, ?_, ?_⟩
  · intro j
    rw [List.mem_filter, k2]
    refine and_congr_right fun _ => ?_
    unfold isNt
    cases w.mgr.w.eng.arena.nodes[j]? with
    | none => simp
    | some n => cases n <;> simp
  · intro j
    rw [List.mem_filter, k2]
    refine and_congr_right fun hr => ?_
    obtain ⟨n, hn⟩ := (R.mok.ok.inv.wf.reach_live hr h2.live).node
    unfold isNt
    rw [hn]
    cases n <;> simp
  · unfold ZWorld.size
    rw [hf, ← List.countP_eq_length_filter, ← List.countP_eq_length_filter]
    exact k3

/-- The results of two calls made one after the other are `eq`. -/
def ZSameResult (w : ZWorld) (c c' : ZCmd) : Prop :=
  ∃ w1 w2, w.step c = some (.handle w.hs.next, w1) ∧ w1.step c' = some (.handle w1.hs.next, w2) ∧
    w2.step (.eq w.hs.next w1.hs.next) = some (.bool true, w2)

theorem zsameResult_of {c c' : ZCmd} {𝓕 𝓖 : Set (Set String)} (h : ZGives w c 𝓕)
    (h' : ∀ w1 : ZWorld, w1.Reachable → (∀ h 𝓖, w.Denotes h 𝓖 → w1.Denotes h 𝓖) → ZGives w1 c' 𝓖)
    (e : 𝓕 = 𝓖) : ZSameResult w c c' := by
  obtain ⟨w1, h1, r1, d1, _, k1⟩ := h
  obtain ⟨w2, h2, r2, d2, _, k2⟩ := h' w1 r1 k1
  obtain ⟨b, e1, e2⟩ := C24_eq r2 (k2 _ _ d1) d2
  have : b = true := e2.2 e
  subst this
  exact ⟨w1, w2, h1, h2, e1⟩

theorem join_comm (𝓕 𝓖 : Set (Set String)) : join 𝓕 𝓖 = join 𝓖 𝓕 := by
  ext S
  constructor <;>
  · rintro ⟨A, hA, B, hB, rfl⟩; exact ⟨B, hB, A, hA, Set.union_comm _ _⟩

/-- **C50 (ZDD).** `union` and `product` with swapped operands give `eq` handles. -/
theorem C50_zdd_comm (hw : w.Reachable) {f g : Nat} {𝓕 𝓖 : Set (Set String)} (hf : w.Denotes f 𝓕)
    (hg : w.Denotes g 𝓖) : ZSameResult w (.union f g) (.union g f) ∧
      ZSameResult w (.product f g) (.product g f) :=
  ⟨zsameResult_of (C20_union hw hf hg) (fun w1 r k => C20_union r (k _ _ hg) (k _ _ hf)) (Set.union_comm _ _),
    zsameResult_of (C20_product hw hf hg) (fun w1 r k => C20_product r (k _ _ hg) (k _ _ hf)) (join_comm _ _)⟩

/-- **C52 (ZDD).** No ZDD operation overwrites a node in use. -/
theorem C52_zdd {s : Zdd} (hs : Zdd.Inv s) {f g : Nat} (hf : s.arena.Live f) (hg : s.arena.Live g) :
    (∀ res ∈ [s.union f g, s.intersect f g, s.setdiff f g, s.product f g, s.divide f g],
      ∃ r s', res = some (r, s') ∧ s'.arena.Live r ∧
        ∀ i, s.arena.Live i → s'.arena.Live i ∧ s'.arena.nodes[i]? = s.arena.nodes[i]?) := by
  intro res hres
  simp only [List.mem_cons, List.not_mem_nil, or_false] at hres
  rcases hres with rfl | rfl | rfl | rfl | rfl
  · obtain ⟨r, s', h1, h2, h3, h4, _⟩ := union_ok hs hf hg
    exact ⟨r, s', h1, h4, fun i hi => h3.keep i hi⟩
  · obtain ⟨r, s', h1, h2, h3, h4, _⟩ := intersect_ok hs hf hg
    exact ⟨r, s', h1, h4, fun i hi => h3.keep i hi⟩
  · obtain ⟨r, s', h1, h2, h3, h4, _⟩ := setdiff_ok hs hf hg
    exact ⟨r, s', h1, h4, fun i hi => h3.keep i hi⟩
  · obtain ⟨r, s', h1, h2, h3, h4, _⟩ := product_ok hs hf hg
    exact ⟨r, s', h1, h4, fun i hi => h3.keep i hi⟩
  · obtain ⟨r, s', h1, h2, h3, h4, _⟩ := divide_ok hs hf hg
    exact ⟨r, s', h1, h4, fun i hi => h3.keep i hi⟩

/-! ## C21 -/

/-- The elements of `S` whose variable number is at least `l`. -/
def upFrom (num : String → Option Nat) (l : Nat) (S : Set String) : Set String :=
  {x | x ∈ S ∧ ∃ n, num x = some n ∧ l ≤ n}

/-- Reading `S` from the highest variable down, there is a point from which on `𝓕` has exactly one member
left that agrees with what was read, namely the part read. -/
def Stops (num : String → Option Nat) (𝓕 : Set (Set String)) (S : Set String) : Prop :=
  ∃ l, upFrom num l S ∈ 𝓕 ∧ ∀ A ∈ 𝓕, upFrom num l A = upFrom num l S → A = upFrom num l S

/-- What `intersect` returns for `𝓕` and `𝓖`. -/
def interOf (num : String → Option Nat) (𝓕 𝓖 : Set (Set String)) : Set (Set String) :=
  {S | (S ∈ 𝓖 ∧ Stops num 𝓕 S) ∨ (S ∈ 𝓕 ∧ Stops num 𝓖 S)}

theorem bitA_topL {names : List String} {a : Nat → Nat} (ha : BitA names a) (l : Nat) :
    BitA names (topL l a) := by
  intro x
  unfold topL
  split
  · exact ha x
  · exact .inl rfl

theorem labS_topL {names : List String} {num : String → Option Nat}
    (hn : ∀ x n, num x = some n ↔ names[n]? = some x) (a : Nat → Nat) (l : Nat) :
    labS names (topL l a) = upFrom num l (labS names a) := by
  ext x
  constructor
  · rintro ⟨k, hk, hv⟩
    unfold topL at hv
    split at hv
    · exact ⟨⟨k, hk, hv⟩, k, (hn x k).2 hk, ‹_›⟩
    · omega
  · rintro ⟨⟨k, hk, hv⟩, n, h1, h2⟩
    have := (hn x k).2 hk
    rw [h1] at this
    have e : n = k := Option.some.inj this
    subst e
    exact ⟨n, hk, by unfold topL; rw [if_pos h2]; exact hv⟩

theorem topL_eq {l : Nat} {a b : Nat → Nat} (h : topL l b = topL l a) : ∀ x, l ≤ x → b x = a x := by
  intro x hx
  have := congrFun h x
  unfold topL at this
  rwa [if_pos hx, if_pos hx] at this

/-- A family of sets and the family of the corresponding level assignments. -/
structure LevFam (names : List String) (F : (Nat → Nat) → Prop) (𝓕 : Set (Set String)) : Prop where
  bits : ∀ a, F a → BitA names a
  mem : ∀ a, BitA names a → (F a ↔ labS names a ∈ 𝓕)
  eq : ∀ S ∈ 𝓕, ∃ a, F a ∧ S = labS names a

theorem LevFam.stops {names : List String} {num : String → Option Nat} {F : (Nat → Nat) → Prop}
    {𝓕 : Set (Set String)} (nd : names.Nodup) (hn : ∀ x n, num x = some n ↔ names[n]? = some x)
    (hF : LevFam names F 𝓕) {a : Nat → Nat} (ha : BitA names a) : TA F a ↔ Stops num 𝓕 (labS names a) := by
  constructor
  · rintro ⟨l, h1, h2⟩
    refine ⟨l, ?_, fun A hA hAS => ?_⟩
    · rw [← labS_topL hn]; exact (hF.mem _ (bitA_topL ha l)).1 h1
    · obtain ⟨b, hb, rfl⟩ := hF.eq A hA
      rw [← labS_topL hn, ← labS_topL hn] at hAS
      have := labS_inj nd (bitA_topL (hF.bits b hb) l) (bitA_topL ha l) hAS
      rw [h2 b hb (topL_eq this), labS_topL hn]
  · rintro ⟨l, h1, h2⟩
    refine ⟨l, ?_, fun b hb hab => ?_⟩
    · rw [hF.mem _ (bitA_topL ha l), labS_topL hn]; exact h1
    · refine labS_inj nd (hF.bits b hb) (bitA_topL ha l) ?_
      rw [labS_topL hn]
      refine h2 _ ((hF.mem b (hF.bits b hb)).1 hb) ?_
      rw [← labS_topL hn, ← labS_topL hn, topL_agree hab]

theorem LevFam.inter {names : List String} {num : String → Option Nat} {F G : (Nat → Nat) → Prop}
    {𝓕 𝓖 : Set (Set String)} (nd : names.Nodup) (hn : ∀ x n, num x = some n ↔ names[n]? = some x)
    (hF : LevFam names F 𝓕) (hG : LevFam names G 𝓖) : LevFam names (Inter F G) (interOf num 𝓕 𝓖) where
  bits := by
    rintro a (⟨h, _⟩ | ⟨h, _⟩)
    · exact hG.bits a h
    · exact hF.bits a h
  mem := by
    intro a ha
    exact or_congr (and_congr (hG.mem a ha) (hF.stops nd hn ha)) (and_congr (hF.mem a ha) (hG.stops nd hn ha))
  eq := by
    rintro S (⟨h, h'⟩ | ⟨h, h'⟩)
    · obtain ⟨a, ha, rfl⟩ := hG.eq S h
      exact ⟨a, .inl ⟨ha, (hF.stops nd hn (hG.bits a ha)).2 h'⟩, rfl⟩
    · obtain ⟨a, ha, rfl⟩ := hF.eq S h
      exact ⟨a, .inr ⟨ha, (hG.stops nd hn (hF.bits a ha)).2 h'⟩, rfl⟩

/-- **C21 (what is returned).** `intersect` returns the sets of either family at which reading the other one
stops: an operand that has come down to `{∅}` is left out of account (`w.mgr.vars` numbers the variables by
first use, the highest number on top). -/
theorem C21_intersect_exact (hw : w.Reachable) {f g : Nat} {𝓕 𝓖 : Set (Set String)} (hf : w.Denotes f 𝓕)
    (hg : w.Denotes g 𝓖) : ZGives w (.intersect f g) (interOf w.mgr.vars.get 𝓕 𝓖) := by
  obtain ⟨𝓡, h1, rfl⟩ := bin_gives (c := .intersect f g) (P := ZSpecInter)
    (Q := fun 𝓡 => 𝓡 = interOf w.mgr.vars.get 𝓕 𝓖) hw hf hg rfl (fun h => by simp) (fun names o w' n h => h) (by
      intro names F G V nd hn hs fc gc fb gb vb fi gi fe ge
      obtain ⟨vc, hv⟩ := hs fc gc
      have LF : LevFam names (F · .one) 𝓕 := ⟨fun a => fb a _, fi, fun S hS => by rw [fe] at hS; exact hS⟩
      have LG : LevFam names (G · .one) 𝓖 := ⟨fun a => gb a _, gi, fun S hS => by rw [ge] at hS; exact hS⟩
      have L := LF.inter nd hn LG
      refine ⟨vc, ?_⟩
      ext S
      constructor
      · rintro ⟨a, ha, rfl⟩
        exact (L.mem a (vb _ _ ha)).1 ((hv a).1 ha)
      · intro hS
        obtain ⟨a, ha, rfl⟩ := L.eq S hS
        exact ⟨a, (hv a).2 ha, rfl⟩)
  exact h1

theorem upFrom_subset (num : String → Option Nat) (l : Nat) (S : Set String) : upFrom num l S ⊆ S :=
  fun _ h => h.1

theorem stops_self {num : String → Option Nat} {𝓕 : Set (Set String)} {S : Set String} (hS : S ∈ 𝓕)
    (hn : ∀ A ∈ 𝓕, ∀ x ∈ A, ∃ n, num x = some n) : Stops num 𝓕 S := by
  have e : ∀ A ∈ 𝓕, upFrom num 0 A = A := fun A hA => Set.ext fun x =>
    ⟨fun h => h.1, fun h => ⟨h, (hn A hA x h).imp fun n h => ⟨h, Nat.zero_le _⟩⟩⟩
  refine ⟨0, (e S hS).symm ▸ hS, fun A hA h => ?_⟩
  rw [← h, e A hA]

/-- The elements of a member of a handle's family have numbers. -/
theorem denotes_numbered (hw : w.Reachable) {f : Nat} {𝓕 : Set (Set String)} (hf : w.Denotes f 𝓕) :
    ∀ A ∈ 𝓕, ∀ x ∈ A, ∃ n, w.mgr.vars.get x = some n := by
  obtain ⟨names, R⟩ := hw.rel
  obtain ⟨F, hF, fc, fe, fb, fi⟩ := R.of_denotes hf
  intro A hA x hx
  rw [fe] at hA
  obtain ⟨a, ha, rfl⟩ := hA
  obtain ⟨n, hn, _⟩ := hx
  exact ⟨n, (R.mok.vars x n).2 hn⟩

/-- **C21 (part).** `intersect` contains the intersection and is contained in the union; it is the
intersection when no member of one family is a proper subset of a member of the other.  Missing: the
equation for all operands, which does not hold (`C21_violated`); `C21_intersect_exact` says what is returned. -/
theorem C21_intersect_partial (hw : w.Reachable) {f g : Nat} {𝓕 𝓖 : Set (Set String)} (hf : w.Denotes f 𝓕)
    (hg : w.Denotes g 𝓖) : ∃ 𝓡, ZGives w (.intersect f g) 𝓡 ∧ 𝓕 ∩ 𝓖 ⊆ 𝓡 ∧ 𝓡 ⊆ 𝓕 ∪ 𝓖 ∧
      ((∀ A ∈ 𝓕, ∀ B ∈ 𝓖, A ⊆ B ∨ B ⊆ A → A = B) → 𝓡 = 𝓕 ∩ 𝓖) := by
  have k1 : 𝓕 ∩ 𝓖 ⊆ interOf w.mgr.vars.get 𝓕 𝓖 :=
    fun S hS => .inl ⟨hS.2, stops_self hS.1 (denotes_numbered hw hf)⟩
  refine ⟨_, C21_intersect_exact hw hf hg, k1, ?_, fun hx => Set.Subset.antisymm ?_ k1⟩
  · rintro S (⟨h, _⟩ | ⟨h, _⟩)
    · exact .inr h
    · exact .inl h
  · rintro S (⟨h, l, h1, _⟩ | ⟨h, l, h1, _⟩)
    · have := hx _ h1 _ h (.inl (upFrom_subset _ _ _))
      exact ⟨this ▸ h1, h⟩
    · have := hx _ h _ h1 (.inr (upFrom_subset _ _ _))
      exact ⟨h, this ▸ h1⟩

/-- Reachability of a concrete session, with its outputs. -/
theorem run_reachable {cs : List ZCmd} {os : List ZOut} {w' : ZWorld} (h : ZWorld.new.run cs = some (os, w')) :
    w'.Reachable := (zhistory_of_run _ _ _ _ h).reachable .new

/-- **C21 does not hold**: `{∅} ∩ {{x}}` is returned as `{{x}}`. -/
theorem C21_violated : ∃ (w : ZWorld) (f g : Nat) (𝓕 𝓖 : Set (Set String)), w.Reachable ∧ w.Denotes f 𝓕 ∧
    w.Denotes g 𝓖 ∧ ¬ ZGives w (.intersect f g) (𝓕 ∩ 𝓖) := by
  obtain ⟨w1, s1, r1, d1, _, _⟩ := C23_base ZWorld.Reachable.new
  obtain ⟨w2, s2, r2, d2, _, k2⟩ := C23_singleton r1 "x"
  have n1 : w1.hs.next = 1 := by
    have : (ZWorld.new.step .base).map (fun p => p.2.hs.next) = some 1 := by decide +kernel
    rw [s1] at this; simpa using this
  rw [n1] at d2
  refine ⟨w2, 0, 1, _, _, r2, k2 _ _ d1, d2, ?_⟩
  rintro ⟨w3, s3, r3, d3, _, k3⟩
  obtain ⟨b, e1, e2⟩ := C24_eq r3 (k3 _ _ d2) d3
  have hrun : (ZWorld.new.run [.base, .singleton "x", .intersect 0 1, .eq 1 2]).map (·.1) =
      some [.handle 0, .handle 1, .handle 2, .bool true] := by decide +kernel
  have n2 : w2.hs.next = 2 := by
    have : (ZWorld.new.run [.base, .singleton "x"]).map (fun p => p.2.hs.next) = some 2 := by decide +kernel
    simp only [ZWorld.run, s1, s2, Option.map_some, Option.some.injEq] at this
    exact this
  rw [n2] at e1
  simp only [ZWorld.run, s1, s2, s3, e1, Option.map_some, Option.some.injEq] at hrun
  have hb : b = true := by simp at hrun; exact hrun.2.2.2
  have he := e2.1 hb
  have h1 : ({"x"} : Set String) ∈ ({∅} ∩ {{"x"}} : Set (Set String)) := he ▸ rfl
  have h2 : ({"x"} : Set String) = ∅ := h1.1
  exact absurd (h2 ▸ rfl : "x" ∈ (∅ : Set String)) (fun h => h)

/-! ## C22 -/

/-- The quotient of two families: the largest family whose members are disjoint from those of `𝓖` and
whose join with `𝓖` is within `𝓕`. -/
def quot (𝓕 𝓖 : Set (Set String)) : Set (Set String) := {P | ∀ B ∈ 𝓖, P ∩ B = ∅ ∧ P ∪ B ∈ 𝓕}

theorem quot_largest (𝓕 𝓖 : Set (Set String)) : (∀ P ∈ quot 𝓕 𝓖, ∀ B ∈ 𝓖, P ∩ B = ∅) ∧
    join (quot 𝓕 𝓖) 𝓖 ⊆ 𝓕 ∧
    ∀ 𝓠 : Set (Set String), (∀ P ∈ 𝓠, ∀ B ∈ 𝓖, P ∩ B = ∅) → join 𝓠 𝓖 ⊆ 𝓕 → 𝓠 ⊆ quot 𝓕 𝓖 := by
  refine ⟨fun P hP B hB => (hP B hB).1, ?_, ?_⟩
  · rintro S ⟨P, hP, B, hB, rfl⟩; exact (hP B hB).2
  · intro 𝓠 h1 h2 P hP B hB
    exact ⟨h1 P hP B hB, h2 ⟨P, hP, B, hB, rfl⟩⟩

/-- **C22 (part).** `divide` returns the quotient by `{∅}`, the quotient by `{{x}}` where `x` is the label of the
dividend's top node, and the quotient of a non-empty family by itself.  Missing: other
divisors, for which the result is not the quotient in general (`C22_violated`). -/
theorem C22_divide_partial (hw : w.Reachable) {f g : Nat} {𝓕 𝓖 : Set (Set String)} (hf : w.Denotes f 𝓕)
    (hg : w.Denotes g 𝓖) (hcase : 𝓖 = {∅} ∨
      (∃ x, 𝓖 = {{x}} ∧ w.step (.label f) = some (.str (some x), w)) ∨ (𝓖 = 𝓕 ∧ 𝓕.Nonempty)) :
    ZGives w (.divide f g) (quot 𝓕 𝓖) := by
  obtain ⟨names, R⟩ := hw.rel
  obtain ⟨F, hF, fc, fe, fb, fi⟩ := R.of_denotes hf
  obtain ⟨G, hG, gc, ge, gb, gi⟩ := R.of_denotes hg
  obtain ⟨o, w', n, h1, ⟨rfl, F', G', V, hF', hG', rfl, hV, s1, s2, s3, s4⟩, R', hp, hk⟩ :=
    R.step (c := .divide f g) (operands_held (l := [f, g]) rfl (by
      intro x hx; simp at hx; rcases hx with rfl | rfl
      · exact ⟨_, hf⟩
      · exact ⟨_, hg⟩))
  cases ZRel.has_unique hF' hF
  cases ZRel.has_unique hG' hG
  have eqG : ∀ (H : ZVal), (∀ a t, H a t → BitA n a) → (∀ a, ¬ H a .undet) → (∀ a, ¬ H a .zero) →
      ZRel.famOf n H = 𝓖 → G = H := by
    intro H hb hc hz he
    funext a t
    apply propext
    match t with
    | .zero =>
      obtain ⟨i, _, hi⟩ := hG
      rw [hi.val]
      exact iff_of_false (fun h => h.1 rfl) (hz a)
    | .undet => exact iff_of_false (gc a) (hc a)
    | .one =>
      constructor
      · intro ha
        have := (gi a (gb _ _ ha)).1 ha
        rw [← he] at this
        obtain ⟨b, hb', e⟩ := this
        rw [labS_inj R.mok.nodup (gb _ _ ha) (hb _ _ hb') e]; exact hb'
      · intro ha
        exact (gi a (hb _ _ ha)).2 (he ▸ ⟨a, ha, rfl⟩)
  have hq : V.Cl ∧ ZRel.famOf n V = quot 𝓕 𝓖 := by
    rcases hcase with rfl | ⟨x, rfl, hx⟩ | ⟨rfl, hne⟩
    · have : G = zBase := eqG zBase (by rintro a t ⟨rfl, _⟩ l; exact .inl rfl)
        (fun a h => by cases h.2) (fun a h => by cases h.2) (by
          ext S
          simp only [ZRel.famOf, zBase, and_true, Set.mem_ofPred_eq, exists_eq_left, labS_zero,
            Set.mem_singleton_iff])
      cases s1 this
      refine ⟨fc, ?_⟩
      rw [← fe]
      ext S; simp [quot]
    · -- the top label
      obtain ⟨o2, w2, n2, l1, ⟨rfl, rfl, F', t, hF2, htop, rfl⟩, _⟩ := R.step (c := .label f)
        (operands_held (l := [f]) rfl (by intro x hx; simp at hx; subst hx; exact ⟨_, hf⟩))
      cases ZRel.has_unique hF2 hF
      rw [hx] at l1
      simp only [Option.some.injEq, Prod.mk.injEq, ZOut.str.injEq, and_true] at l1
      cases t with
      | none => cases l1
      | some l =>
        have hl : n2[l]? = some x := l1.symm
        have : G = zSingle l := eqG (zSingle l) (by rintro a t ⟨rfl, _⟩; exact bitA_single hl)
          (fun a h => by cases h.2) (fun a h => by cases h.2) (by
            ext S
            simp only [ZRel.famOf, zSingle, and_true, Set.mem_ofPred_eq, exists_eq_left, labS_single hl,
              Set.mem_singleton_iff])
        obtain ⟨a0, z0, ha0, hal⟩ := htop.2
        have hv := s3 l this htop.1 ⟨a0, z0, ha0, by omega⟩
        refine ⟨fun a ha => fc _ ((hv a _).1 ha).2, ?_⟩
        have notin : ∀ a, BitA n2 a → (a l = 0 ↔ x ∉ labS n2 a) := by
          intro a ha
          constructor
          · rintro h0 ⟨k, hk, hv⟩
            have : k = l :=
              (List.getElem?_inj (List.getElem?_eq_some_iff.1 hk).1 R.mok.nodup).1 (hk.trans hl.symm)
            subst this; omega
          · intro hn
            rcases ha l with h | ⟨h, _⟩
            · exact h
            · exact absurd ⟨l, hl, h⟩ hn
        ext S
        constructor
        · rintro ⟨a, ha, rfl⟩
          obtain ⟨k1, k2⟩ := (hv a _).1 ha
          have ba := R'.bits hV ha
          have hno := (notin a ba).1 k1
          rintro B rfl
          refine ⟨by ext y; simp only [Set.mem_inter_iff, Set.mem_singleton_iff, Set.mem_empty_iff_false, iff_false, not_and]; rintro h rfl; exact hno h, ?_⟩
          rcases labS_upd (a := a) hl with h | h
          · rw [Set.union_singleton, ← h]
            exact (fi _ (fb _ _ k2)).1 k2
          · omega
        · intro hS
          obtain ⟨k1, k2⟩ := hS {x} rfl
          have hxS : x ∉ S := by
            intro h
            have : x ∈ S ∩ {x} := ⟨h, rfl⟩
            rw [k1] at this; exact this
          rw [fe] at k2
          obtain ⟨b, hb, e⟩ := k2
          have bb := fb _ _ hb
          have hbl : b l = 1 := by
            rcases bb l with h | ⟨h, _⟩
            · exact absurd (e ▸ (Set.mem_union_right _ rfl) : x ∈ labS n2 b) ((notin b bb).1 h)
            · exact h
          have b0 : BitA n2 (upd b l 0) := by
            intro k
            by_cases ek : k = l
            · subst ek; exact .inl (by simp [upd])
            · simp only [upd, ek, if_false]; exact bb k
          have eb : upd (upd b l 0) l 1 = b := by
            rw [upd_upd]; exact upd_id hbl
          refine ⟨upd b l 0, (hv _ _).2 ⟨by simp [upd], by rw [eb]; exact hb⟩, ?_⟩
          rcases labS_upd (a := upd b l 0) hl with h | h
          · rw [eb] at h
            have hx0 := (notin _ b0).1 (by simp [upd])
            refine insert_cancel hxS hx0 ?_
            rw [← h, ← e, Set.union_singleton]
          · simp [upd] at h
    · have hFG : F = G := eqG F fb fc (by
        intro a; obtain ⟨i, _, hi⟩ := hF; rw [hi.val]; exact fun h => h.1 rfl) fe.symm |>.symm
      have hne' : F ≠ zEmpty := by
        rintro rfl
        obtain ⟨S, hS⟩ := hne
        rw [fe] at hS
        obtain ⟨a, ha, _⟩ := hS
        exact ha
      have := s4.1 hFG fc hne'
      subst this
      refine ⟨(fun a h => by cases h.2), ?_⟩
      have e0 : ZRel.famOf n zBase = {∅} := by
        ext S
        simp only [ZRel.famOf, zBase, and_true, Set.mem_ofPred_eq, exists_eq_left, labS_zero,
          Set.mem_singleton_iff]
      rw [e0]
      obtain ⟨hfin, _⟩ := C23_count hw hf
      -- finite members
      have hfm : ∀ S ∈ 𝓖, S.Finite := by
        intro S hS
        obtain ⟨st, os, _, _, _, hm, _⟩ := C23_extract hw hf
        obtain ⟨l, _, rfl⟩ := (hm S).1 hS
        exact l.finite_toSet
      ext S
      constructor
      · rintro rfl B hB; exact ⟨Set.empty_inter B, by rw [Set.empty_union]; exact hB⟩
      · intro hS
        obtain ⟨M, hM, hmax⟩ := Set.exists_max_image 𝓖 Set.ncard hfin hne
        obtain ⟨k1, k2⟩ := hS M hM
        have h3 := hmax _ k2
        have hfu := hfm _ k2
        have hSf : S.Finite := hfu.subset Set.subset_union_left
        rw [Set.ncard_union_eq (Set.disjoint_iff_inter_eq_empty.2 k1) hSf (hfm _ hM)] at h3
        exact (Set.ncard_eq_zero hSf).1 (by omega)
  refine ⟨w', h1, .step _ hw h1, ?_, next_free R, fun h 𝓗 hD =>
    denotes_keep R R' hp (fun F hF => hk h F hF (by simp)) hD⟩
  rw [← hq.2]
  exact R'.denotes_of hV hq.1

/-- **C22 does not hold**: with `y` above `x`, `{{x, y}} / {{x}}` is returned as `∅` instead of `{{y}}`. -/
theorem C22_violated : ∃ (w : ZWorld) (f g : Nat) (𝓕 𝓖 : Set (Set String)), w.Reachable ∧ w.Denotes f 𝓕 ∧
    w.Denotes g 𝓖 ∧ 𝓖.Nonempty ∧ ¬ ZGives w (.divide f g) (quot 𝓕 𝓖) := by
  obtain ⟨w1, s1, r1, d1, _, _⟩ := C23_fromSets ZWorld.Reachable.new [["x", "y"]]
  obtain ⟨w2, s2, r2, d2, _, k2⟩ := C23_singleton r1 "x"
  have n1 : w1.hs.next = 1 := by
    have : (ZWorld.new.step (.fromSets [["x", "y"]])).map (fun p => p.2.hs.next) = some 1 := by decide +kernel
    rw [s1] at this; simpa using this
  rw [n1] at d2
  refine ⟨w2, 0, 1, _, _, r2, k2 _ _ d1, d2, ⟨_, rfl⟩, ?_⟩
  rintro ⟨w3, s3, r3, d3, _, k3⟩
  obtain ⟨w4, s4, r4, d4, _, k4⟩ := C23_empty r3
  obtain ⟨b, e1, e2⟩ := C24_eq r4 (k4 _ _ d3) d4
  have hrun : (ZWorld.new.run [.fromSets [["x", "y"]], .singleton "x", .divide 0 1, .empty, .eq 2 3]).map (·.1) =
      some [.handle 0, .handle 1, .handle 2, .handle 3, .bool true] := by decide +kernel
  have n2 : w2.hs.next = 2 ∧ w3.hs.next = 3 := by
    have : (ZWorld.new.run [.fromSets [["x", "y"]], .singleton "x"]).map (fun p => p.2.hs.next) = some 2 ∧
      (ZWorld.new.run [.fromSets [["x", "y"]], .singleton "x", .divide 0 1]).map (fun p => p.2.hs.next) = some 3 := by
      decide +kernel
    simp only [ZWorld.run, s1, s2, s3, Option.map_some, Option.some.injEq] at this
    exact this
  rw [n2.1, n2.2] at e1
  simp only [ZWorld.run, s1, s2, s3, s4, e1, Option.map_some, Option.some.injEq] at hrun
  have hb : b = true := by simp at hrun; exact hrun.2.2.2.2
  have he := e2.1 hb
  have h1 : ({"y"} : Set String) ∈ quot {S | ∃ l ∈ [["x", "y"]], S = {x | x ∈ l}} {{"x"}} := by
    rintro B rfl
    refine ⟨?_, ["x", "y"], by simp, ?_⟩
    · ext z
      simp only [Set.mem_inter_iff, Set.mem_singleton_iff, Set.mem_empty_iff_false, iff_false, not_and]
      rintro rfl; decide
    · ext z; simp [or_comm]
  rw [he] at h1
  exact h1

/-! ## A concrete session -/

/-- Threshold 0 forces a collection at every wrapped result. -/
def zdemo : List ZCmd :=
  [.setThreshold 0, .fromSets [["a", "b"], ["b", "a", "a"], ["c"], []], .singleton "b", .product 0 1,
   .union 0 2, .drop 0, .setdiff 3 2, .fromSets [["c"], []], .eq 4 5, .label 3]

example : (ZWorld.new.run zdemo).map (·.1) = some
    [.unit, .handle 0, .handle 1, .handle 2, .handle 3, .unit, .handle 4, .handle 5, .bool true,
      .str (some "c")] := by
  decide +kernel

/-- The theorems above apply to the first handle: its family has the three listed sets. -/
example : ∃ w : ZWorld, w.Reachable ∧ w.Denotes 0 {S | ∃ l ∈ [["a", "b"], ["b", "a", "a"], ["c"], []], S = {x | x ∈ l}} ∧
    w.count [true] 0 = some 3 ∧ w.size 0 = some (3, 2, 6) := by
  obtain ⟨w, s, r, d, _, _⟩ := C23_fromSets ZWorld.Reachable.new [["a", "b"], ["b", "a", "a"], ["c"], []]
  refine ⟨w, r, d, ?_⟩
  have h : (ZWorld.new.step (.fromSets [["a", "b"], ["b", "a", "a"], ["c"], []])).map
      (fun p => (p.2.count [true] 0, p.2.size 0)) = some (some 3, some (3, 2, 6)) := by decide +kernel
  rw [s] at h
  simpa using h

end DD.Props
