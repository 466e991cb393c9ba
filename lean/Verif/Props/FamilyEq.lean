import Verif.Props.Modules

/-!
# C90: comparing the families of one `BssMgr`

`ZddNode::eq`, `is_zero` and `is_one` (/repo/bss/src/zdd.rs:227-241) on the ZDD handles of a `BssMgr`. Each call of
`minpath` converts with headers of its own (/repo/bss/src/bss.rs:109-127), so `eq` can only be sound.
-/

set_option autoImplicit false
set_option linter.unusedSectionVars false
set_option linter.unusedVariables false

namespace DD.Props
open Arena Zdd

variable {v : BssW} {f g : Nat} {𝓕 𝓖 : Set (Set String)}

/-- **C90.** `eq` answers, changes nothing, and says `true` only of handles of the same family. -/
theorem C90_eq_sound (hv : v.Reachable) (hf : v.zdd.Denotes f 𝓕) (hg : v.zdd.Denotes g 𝓖) :
    ∃ b, v.step (.zdd (.eq f g)) = some (.zdd (.bool b), v) ∧ (b = true → 𝓕 = 𝓖) := by
  obtain ⟨_, A, R⟩ := hv.rel
  obtain ⟨i, hi⟩ := hf.held
  obtain ⟨j, hj⟩ := hg.held
  refine ⟨decide (i = j), by simp only [BssW.step, ZCmd.shared, if_true, ZWorld.step, hi, hj, Option.map_some], ?_⟩
  rw [decide_eq_true_iff]
  rintro rfl
  ext S
  rw [hf.fam, hg.fam]
  unfold ZWorld.Reads
  rw [hi, hj]

/-- **C90.** `is_zero` is `true` exactly of the empty family. -/
theorem C90_is_zero (hv : v.Reachable) (hf : v.zdd.Denotes f 𝓕) :
    ∃ b, v.step (.zdd (.isZero f)) = some (.zdd (.bool b), v) ∧ (b = true ↔ 𝓕 = ∅) := by
  obtain ⟨_, A, R⟩ := hv.rel
  obtain ⟨i, hi⟩ := hf.held
  obtain ⟨F, F1, F2⟩ := R.zdd.has hi
  obtain ⟨F', f1, f2, f3⟩ := R.zdd.of_denotes hf
  cases ZRel.has_unique F2 f1
  obtain ⟨n, hn⟩ := F1.live.node
  refine ⟨decide (n = .term .zero), by
    simp only [BssW.step, ZCmd.shared, if_true, ZWorld.step, hi, node?, hn, Option.map_some], ?_⟩
  rw [decide_eq_true_iff, f3]
  constructor
  · rintro rfl
    have := eq_slot R.zdd.ok.inv F1.live hn
    subst this
    rw [F1.unique (zden_zero R.zdd.ok.inv)]
    ext S; simp [ZRel.famOf, zEmpty]
  · intro h
    by_contra hne
    have hz : i ≠ Zdd.zero := by
      rintro rfl
      exact hne (Option.some.inj (hn.symm.trans (Zdd.fixed R.zdd.ok.inv .zero).2))
    obtain ⟨a, t, ht, hl⟩ := lab_nonempty R.zdd.ok.inv _ i (Nat.le_refl _) F1.live hz
    have hF := (F1.val a t).2 ⟨ht, hl⟩
    cases t with
    | zero => exact ht rfl
    | undet => exact f2 a hF
    | one =>
      have : labS A.names a ∈ ZRel.famOf A.names F := ⟨a, hF, rfl⟩
      rw [h] at this; exact this

/-- **C90.** `is_one` is `true` exactly of the family whose only set is empty. -/
theorem C90_is_one (hv : v.Reachable) (hf : v.zdd.Denotes f 𝓕) :
    ∃ b, v.step (.zdd (.isOne f)) = some (.zdd (.bool b), v) ∧ (b = true ↔ 𝓕 = {∅}) := by
  obtain ⟨_, A, R⟩ := hv.rel
  obtain ⟨i, hi⟩ := hf.held
  obtain ⟨F, F1, F2⟩ := R.zdd.has hi
  obtain ⟨F', f1, f2, f3⟩ := R.zdd.of_denotes hf
  cases ZRel.has_unique F2 f1
  obtain ⟨n, hn⟩ := F1.live.node
  refine ⟨decide (n = .term .one), by
    simp only [BssW.step, ZCmd.shared, if_true, ZWorld.step, hi, node?, hn, Option.map_some], ?_⟩
  have hn' : v.zdd.mgr.w.eng.arena.node? i = some n := by rw [node?, hn]
  have hzero : labS A.names (fun _ => 0) = ∅ := by ext x; simp [labS]
  rw [decide_eq_true_iff, f3]
  constructor
  · rintro rfl
    have := eq_slot R.zdd.ok.inv F1.live hn
    subst this
    rw [F1.unique (zden_one R.zdd.ok.inv)]
    ext S
    constructor
    · rintro ⟨a, ⟨rfl, _⟩, rfl⟩; exact hzero
    · rintro rfl; exact ⟨_, ⟨rfl, rfl⟩, hzero.symm⟩
  · intro h
    obtain ⟨a, ha, _⟩ : (∅ : Set String) ∈ ZRel.famOf A.names F := by rw [h]; rfl
    have hF : ∀ a t, F a t → a = fun _ => 0 := by
      intro a t hat
      have hb := R.zdd.bits F2 hat
      cases t with
      | zero => exact absurd rfl ((F1.val a _).1 hat).1
      | undet => exact absurd hat (f2 a)
      | one =>
        have : labS A.names a ∈ ZRel.famOf A.names F := ⟨a, hat, rfl⟩
        rw [h, Set.mem_singleton_iff, ← hzero] at this
        exact labS_inj R.zdd.lbl.nodup hb (by simp) this
    cases zden_cases R.zdd.ok.inv F1 with
    | term t e1 e2 _ =>
      rw [hn'] at e1
      obtain rfl := Option.some.inj e1
      cases t with
      | one => rfl
      | zero =>
        subst e2
        rw [F1.unique (zden_zero R.zdd.ok.inv)] at ha
        exact ha.elim
      | undet =>
        have := ((lab_term_iff hn').1 ((F1.val _ _).1 ha).2).2
        cases this
    | node h lo hi' hd e1 e2 e3 e4 e5 e6 e7 =>
      obtain ⟨_, b, t, hb, hne⟩ := e5
      rw [hF b t hb] at hne
      exact absurd hne Nat.zero_ne_one

/-- **C90.** Equality can be decided by differences: the two handles have the same family exactly when `is_zero`
is `true` of both set differences. -/
theorem C90_same (hv : v.Reachable) (hf : v.zdd.Denotes f 𝓕) (hg : v.zdd.Denotes g 𝓖) :
    ∃ v₁ v₂ b₁ b₂, v.step (.zdd (.setdiff f g)) = some (.zdd (.handle v.zdd.hs.next), v₁) ∧
      v₁.step (.zdd (.setdiff g f)) = some (.zdd (.handle v₁.zdd.hs.next), v₂) ∧
      v₂.step (.zdd (.isZero v.zdd.hs.next)) = some (.zdd (.bool b₁), v₂) ∧
      v₂.step (.zdd (.isZero v₁.zdd.hs.next)) = some (.zdd (.bool b₂), v₂) ∧
      (b₁ = true ∧ b₂ = true ↔ 𝓕 = 𝓖) := by
  obtain ⟨v₁, s1, r1, d1, _, k1⟩ := C20_bss_setdiff hv hf hg
  obtain ⟨v₂, s2, r2, d2, _, k2⟩ := C20_bss_setdiff r1 (k1 _ _ hg) (k1 _ _ hf)
  obtain ⟨b₁, s3, e1⟩ := C90_is_zero r2 (k2 _ _ d1)
  obtain ⟨b₂, s4, e2⟩ := C90_is_zero r2 d2
  refine ⟨v₁, v₂, b₁, b₂, s1, s2, s3, s4, ?_⟩
  rw [e1, e2, Set.sdiff_eq_empty, Set.sdiff_eq_empty, Set.Subset.antisymm_iff]

/-- Handles 0, 1 and 2: the minimal path sets of `a ∧ b` (twice) and of `a`; 3 and 4 the differences of 0 and 1, 5 that
of 0 and 2, 6 that of 2 and 0. -/
def eqSys : List BssCmd :=
  [.bdd (.defvar "a"), .bdd (.defvar "b"), .bdd (.and 0 1), .minpath 2, .minpath 2, .minpath 0,
   .zdd (.setdiff 0 1), .zdd (.setdiff 1 0), .zdd (.setdiff 0 2), .zdd (.setdiff 2 0), .zdd .base]

/-- **C90.** `eq` is not complete: two calls of `minpath` on one handle list the same sets, and `eq` is `false`. -/
theorem C90_eq_incomplete :
    (BssW.new.run eqSys).map (fun p => ([0, 1].map (fun h => listSets p.2.zdd h 9),
      (p.2.step (.zdd (.eq 0 1))).map (·.1))) = some ([[["a", "b"]], [["a", "b"]]], some (.zdd (.bool false))) := by
  decide +kernel

example : (BssW.new.run eqSys).map (fun p => [3, 4, 5, 6].map (fun h => (p.2.step (.zdd (.isZero h))).map (·.1))) =
    some [some (.zdd (.bool true)), some (.zdd (.bool true)), some (.zdd (.bool false)), some (.zdd (.bool false))] := by
  decide +kernel

example : (BssW.new.run eqSys).map (fun p => [0, 3, 7].map (fun h => (p.2.step (.zdd (.isOne h))).map (·.1))) =
    some [some (.zdd (.bool false)), some (.zdd (.bool false)), some (.zdd (.bool true))] := by
  decide +kernel

end DD.Props
