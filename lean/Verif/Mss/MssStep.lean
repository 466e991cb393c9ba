import Verif.Mss.MssMgr
import Verif.Mss.Step
import Verif.Mss.ZmddStep

/-!
# `minpath` and `mincut`: what they compute, and sessions of `MssMgr`
-/

set_option autoImplicit false
set_option linter.unusedSectionVars false
set_option linter.unusedVariables false

namespace DD
open Arena Zmdd

/-- World invariant. -/
structure MssRel (w : MssW) (vs : List (String × Nat)) : Prop where
  m : MRel w.mdd vs
  z : ZMRel w.z vs

theorem crd_le {top : Bool} {β d d' : Nat → Nat} (h : ∀ l, d l ≤ d' l) :
    if top then ∀ l, crd top β d' l ≤ crd top β d l else ∀ l, crd top β d l ≤ crd top β d' l := by
  cases top with
  | false => exact h
  | true =>
    intro l
    have := h l
    show β l - d' l ≤ β l - d l
    omega

/-- With monotone `φ`, the baseline is the only possible extreme vector of the baseline's value. -/
theorem extreme_zero {top : Bool} {vs : List (String × Nat)} {φ : (Nat → Nat) → Int} {v : Int}
    (hv : φ (crd top (lastV vs) (fun _ => 0)) = v) (hz : ValidV vs (fun _ => 0)) {d : Nat → Nat} :
    Extreme top vs φ v d ↔ d = fun _ => 0 := by
  constructor
  · rintro ⟨_, _, h⟩
    exact (h _ (fun l => Nat.zero_le _) hv).symm
  · rintro rfl
    exact ⟨hz, hv, fun b hb _ => funext fun l => Nat.le_zero.1 (hb l)⟩

/-- What `set_baseline` adds to a `minsol`/`maxsol` family: for Boolean functions the other value, otherwise
nothing. -/
theorem based_extreme {top : Bool} {vs : List (String × Nat)} {φ : (Nat → Nat) → Int} (mono : MonoV vs φ)
    (hz : ValidV vs (fun _ => 0)) {isB : Bool}
    (hB : isB = true → ∀ a, ValidV vs a → φ a = 0 ∨ φ a = 1) {L : ZFam}
    (hL : ∀ d v, L d v ↔ (isB = true → v = if top then 0 else 1) ∧ Extreme top vs φ v d) (d : Nat → Nat) (v : Int) :
    (L d v ∨ (d = (fun _ => 0) ∧ v = φ (crd top (lastV vs) (fun _ => 0)) ∧ ∀ u, ¬ L (fun _ => 0) u)) ↔
      Extreme top vs φ v d := by
  have hb0 : Extreme top vs φ (φ (crd top (lastV vs) (fun _ => 0))) (fun _ => 0) := (extreme_zero rfl hz).2 rfl
  have hval : ∀ {d}, ValidV vs d → ValidV vs (crd top (lastV vs) d) := fun h => crd_validV h
  constructor
  · rintro (h | ⟨rfl, rfl, _⟩)
    · exact ((hL d v).1 h).2
    · exact hb0
  · intro h
    by_cases hc : isB = true → v = if top then 0 else 1
    · exact Or.inl ((hL d v).2 ⟨hc, h⟩)
    · have hb : isB = true := Classical.byContradiction fun e => hc (fun e' => absurd e' e)
      have hne : v ≠ if top then 0 else 1 := fun e => hc (fun _ => e)
      have hv := h.2.1
      have h01 := hB hb _ (hval h.1)
      have h02 := hB hb _ (hval hz)
      have hle := crd_le (top := top) (β := lastV vs) (d := fun _ => 0) (d' := d) (fun l => Nat.zero_le _)
      have h0 : φ (crd top (lastV vs) (fun _ => 0)) = v := by
        cases top with
        | false =>
          have := mono _ _ (hval h.1) hle
          simp only [Bool.false_eq_true, if_false] at hne
          omega
        | true =>
          have := mono _ _ (hval hz) hle
          simp only [if_true] at hne
          omega
      have hd := (extreme_zero h0 hz).1 h
      refine Or.inr ⟨hd, h0.symm, fun u hu => ?_⟩
      obtain ⟨k1, k2⟩ := (hL _ _).1 hu
      have := k2.2.1
      rw [h0] at this
      exact hne (this.trans (k1 hb))

namespace MssRel
variable {w : MssW} {vs : List (String × Nat)}

theorem new : MssRel MssW.new [] := ⟨MRel.new, ZMRel.new⟩

theorem zero (R : MssRel w vs) : ValidV vs (fun _ => 0) := R.m.mok.valid.1 R.m.mok.inv.zero

theorem pos (R : MRel w.mdd vs) : ∀ p ∈ vs, 0 < p.2 := by
  intro p hp
  obtain ⟨i, hi⟩ := List.mem_iff_getElem?.1 hp
  exact (R.mok.valid.1 R.mok.inv.zero) i p.1 p.2 hi

theorem sol (R : MssRel w vs) (h2 : ∀ p ∈ vs, 2 ≤ p.2) (top : Bool) {f : Nat} {F : MFun} (hF : w.mdd.Has f F) :
    ∃ o w', w.sol top f = some (.fam o, w') ∧ w.mdd.sol top f ≠ none ∧ MssRel w' vs ∧
      (∃ q, w.mdd.sol top f = some (q, w'.mdd)) ∧
      (∀ h F, w.mdd.Has h F → w'.mdd.Has h F) ∧ (∀ h z P, w.z.Has h z P → w'.z.Has h z P) ∧
      (∀ h, o = some h → h = w.z.hs.next) ∧
      ∀ φ : (Nat → Nat) → Int, (∀ a, ValidV vs a → (F a).num = some (φ a)) →
        (o = none ↔ ¬ MonoV vs φ) ∧ ∀ h, o = some h → ∃ r, w'.z.Has h ⟨r, top, vs⟩ (fun d v => Extreme top vs φ v d) := by
  obtain ⟨x, hx, hd⟩ := hF
  obtain ⟨o, m, k1, k2, k3, k4, k5, k6⟩ := R.m.sol top hx hd
  have hvo := DD.getVarorder_ok k2.mok h2
  obtain ⟨x', hx', hd'⟩ := k3 f F ⟨x, hx, hd⟩
  have hxx : x' = x := by
    rw [k4, hx] at hx'
    cases hx'; rfl
  subst hxx
  have hev := evalExtreme_ok k2.mok.inv k2.mok.hdrs hd' top
  cases o with
  | none =>
    refine ⟨none, { w with mdd := m }, ?_, by rw [k1]; simp, ⟨k2, R.z⟩, ⟨none, k1⟩, k3, fun _ _ _ h => h,
      fun h e => (by cases e), fun φ hφ => ⟨by simpa using (k6 φ hφ).1, fun h e => (by cases e)⟩⟩
    unfold MssW.sol
    simp only [hx, k1, hvo, hev]
  | some r =>
    obtain ⟨z', r', c1, c2, c3, c4⟩ := R.z.convert k2.mok.inv k2.mok.hdrs (k5 r rfl) top
      ((F (crd top (lastV vs) (fun _ => 0))).num.getD 0)
    refine ⟨some w.z.hs.next, ⟨m, z'⟩, ?_, by rw [k1]; simp, ⟨k2, c2⟩, ⟨some r, k1⟩, k3, c4,
      fun h e => (by cases e; rfl), fun φ hφ => ?_⟩
    · unfold MssW.sol
      simp only [hx, k1, hvo, hev, c1]
    obtain ⟨g1, g2⟩ := k6 φ hφ
    refine ⟨by simpa using g1, fun h e => ?_⟩
    cases e
    have mono : MonoV vs φ := Classical.byContradiction fun hn => by cases g1.2 hn
    refine ⟨r', c3.1, c3.2.live, fun d v => (c3.2.val d v).trans ?_⟩
    have hz := R.zero
    have hb : (F (crd top (lastV vs) (fun _ => 0))).num.getD 0 = φ (crd top (lastV vs) (fun _ => 0)) := by
      rw [hφ _ (crd_validV hz)]; rfl
    rw [hb]
    refine based_extreme mono hz (isB := x'.isBool) ?_ (g2 r rfl) d v
    intro hbl a ha
    have := hφ a ha
    cases x' with
    | value i => cases hbl
    | bool i =>
      obtain ⟨t, ht⟩ := Arena.WF.eval_total R.m.mok.inv.b.wf (R.m.mok.valid.2 ha) hd.live
      have h3 := hd.read (u := .b t) (R.m.mok.valid.2 ha) ht
      rw [← h3] at this
      cases t <;> simp [MVal.num] at this <;> omega

theorem sol_panics (R : MssRel w vs) {x : String} (h1 : (x, 1) ∈ vs) (top : Bool) (f : Nat) : w.sol top f = none := by
  unfold MssW.sol
  cases hx : w.mdd.hs.held.get f with
  | none => rfl
  | some y =>
    obtain ⟨F, hF⟩ := R.m.mok.live (AMap.mem_vals_of_get hx)
    obtain ⟨o, m, k1, k2, _⟩ := R.m.sol top hx hF
    simp only [k1, DD.getVarorder_panics k2.mok h1]

/-- Calls that return keep the invariant. -/
theorem of_step (R : MssRel w vs) {c : MssCmd} (hc : w.Checked c) {o : MssOut} {w' : MssW}
    (h : w.step c = some (o, w')) : ∃ vs', vs <+: vs' ∧ MssRel w' vs' ∧
      (∀ h F, w.mdd.Has h F → c ≠ .mdd (.drop h) → w'.mdd.Has h F) ∧
      (∀ h z P, w.z.Has h z P → c ≠ .zmdd (.drop h) → w'.z.Has h z P) := by
  have two : ∀ {top : Bool} {f : Nat}, w.sol top f = some (o, w') → ∀ p ∈ vs, 2 ≤ p.2 := by
    intro top f h p hp
    refine Nat.not_lt.1 fun hlt => ?_
    have := pos R.m p hp
    obtain ⟨x, s⟩ := p
    obtain rfl : s = 1 := by simp only at *; omega
    rw [R.sol_panics hp] at h
    cases h
  have so : ∀ {top : Bool} {f : Nat}, w.sol top f = some (o, w') → ∃ vs', vs <+: vs' ∧ MssRel w' vs' ∧
      (∀ h F, w.mdd.Has h F → w'.mdd.Has h F) ∧ (∀ h z P, w.z.Has h z P → w'.z.Has h z P) := by
    intro top f h
    have h2 := two h
    have hx : ∃ x, w.mdd.hs.held.get f = some x := by
      cases hx : w.mdd.hs.held.get f with
      | some x => exact ⟨x, rfl⟩
      | none => unfold MssW.sol at h; simp only [hx] at h; cases h
    obtain ⟨x, hx⟩ := hx
    obtain ⟨F, hF⟩ := R.m.mok.live (AMap.mem_vals_of_get hx)
    obtain ⟨q, w1, k1, _, k2, _, k3, k4, _⟩ := R.sol h2 top ⟨x, hx, hF⟩
    rw [h] at k1; cases k1
    exact ⟨vs, List.prefix_rfl, k2, k3, k4⟩
  cases c with
  | mdd c =>
    cases hs : w.mdd.step c with
    | none => simp only [MssW.step, hs, Option.map_none] at h; cases h
    | some q =>
      simp only [MssW.step, hs, Option.map_some, Option.some.injEq, Prod.mk.injEq] at h
      obtain ⟨rfl, rfl⟩ := h
      obtain ⟨vs', k1, k2, k3, k4⟩ := R.m.of_step hc (o := q.1) (w' := q.2) hs
      refine ⟨vs', k3, ⟨k2, R.z.mono k3 k2.mok.nodup ?_⟩, fun h F hF hne => k4 h F hF (fun e => hne (by rw [e])),
        fun h z P hz _ => hz⟩
      exact pos (w := ⟨q.2, w.z⟩) k2
  | zmdd c =>
    cases hs : w.z.step c with
    | none => simp only [MssW.step, hs, Option.map_none] at h; cases h
    | some q =>
      simp only [MssW.step, hs, Option.map_some, Option.some.injEq, Prod.mk.injEq] at h
      obtain ⟨rfl, rfl⟩ := h
      obtain ⟨o', w1, k1, k2, k3, k4⟩ := R.z.step c (ZMRel.operands_of_step hs)
      rw [hs] at k1; cases k1
      exact ⟨vs, List.prefix_rfl, ⟨R.m, k3⟩, fun h F hF _ => hF, fun h z P hz hne => k4 h z P hz (fun e => hne (by rw [e]))⟩
  | minpath f =>
    obtain ⟨vs', k1, k2, k3, k4⟩ := so (top := false) h
    exact ⟨vs', k1, k2, fun h F hF _ => k3 h F hF, fun h z P hz _ => k4 h z P hz⟩
  | mincut f =>
    obtain ⟨vs', k1, k2, k3, k4⟩ := so (top := true) h
    exact ⟨vs', k1, k2, fun h F hF _ => k3 h F hF, fun h z P hz _ => k4 h z P hz⟩
  | clearCache =>
    cases hs : w.mdd.step .clearCache with
    | none => simp only [MssW.step, hs, Option.map_none] at h; cases h
    | some q =>
      simp only [MssW.step, hs, Option.map_some, Option.some.injEq, Prod.mk.injEq] at h
      obtain ⟨rfl, rfl⟩ := h
      obtain ⟨vs', k1, k2, k3, k4⟩ := R.m.of_step (c := .clearCache) trivial (o := q.1) (w' := q.2) hs
      refine ⟨vs', k3, ⟨k2, (R.z.mono k3 k2.mok.nodup ?_).clearCache⟩, fun h F hF hne => k4 h F hF (by simp),
        fun h z P hz _ => hz⟩
      exact pos (w := ⟨q.2, w.z⟩) k2

end MssRel

theorem MssW.Reachable.rel {w : MssW} (h : w.Reachable) : ∃ vs, MssRel w vs := by
  induction h with
  | new => exact ⟨_, MssRel.new⟩
  | step c _ hc hst ih =>
    obtain ⟨n, R⟩ := ih
    obtain ⟨n', _, R', _⟩ := R.of_step hc hst
    exact ⟨n', R'⟩

/-- The MDD side of a session is an MDD session. -/
theorem MssW.Reachable.mdd {w : MssW} (h : w.Reachable) : w.mdd.Reachable := by
  have so : ∀ {w w' : MssW} {top : Bool} {f : Nat} {o : MssOut}, w.mdd.Reachable → w.sol top f = some (o, w') →
      w'.mdd.Reachable := by
    intro w w' top f o hw hs
    unfold MssW.sol at hs
    split at hs
    · rename_i x fake m hx hm
      have hm' : m.Reachable := .sol top f hw hm
      split at hs
      · split at hs
        · cases hs; exact hm'
        · split at hs
          · cases hs
          · cases hs; exact hm'
      · cases hs
    · cases hs
  induction h with
  | new => exact .new
  | @step w w' o c hw hc hst ih =>
    cases c with
    | mdd c =>
      cases hs : w.mdd.step c with
      | none => simp only [MssW.step, hs, Option.map_none] at hst; cases hst
      | some q =>
        simp only [MssW.step, hs, Option.map_some, Option.some.injEq, Prod.mk.injEq] at hst
        obtain ⟨rfl, rfl⟩ := hst
        exact .step (o := q.1) (w' := q.2) c ih hc hs
    | zmdd c =>
      cases hs : w.z.step c with
      | none => simp only [MssW.step, hs, Option.map_none] at hst; cases hst
      | some q =>
        simp only [MssW.step, hs, Option.map_some, Option.some.injEq, Prod.mk.injEq] at hst
        obtain ⟨rfl, rfl⟩ := hst
        exact ih
    | minpath f => exact so ih hst
    | mincut f => exact so ih hst
    | clearCache =>
      cases hs : w.mdd.step .clearCache with
      | none => simp only [MssW.step, hs, Option.map_none] at hst; cases hst
      | some q =>
        simp only [MssW.step, hs, Option.map_some, Option.some.injEq, Prod.mk.injEq] at hst
        obtain ⟨rfl, rfl⟩ := hst
        exact .step (o := q.1) (w' := q.2) .clearCache ih trivial hs

end DD
