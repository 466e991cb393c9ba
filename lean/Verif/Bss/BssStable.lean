import Verif.Bss.ZStable

/-!
# Open iterators in sessions of `BssMgr`
-/

set_option autoImplicit false
set_option linter.unusedSectionVars false
set_option linter.unusedVariables false

namespace DD
open Arena Zdd

/-- The BDD side of an open iterator: the handle is held, and what is under it is as in `m0`. -/
structure BOpen (m0 : Arena T3) (f i : Nat) (v : World) : Prop where
  rel : ∃ B, Rel v B
  held : v.held.get f = some i
  under : Rel.Under m0 v.mgr.bdd.arena i

theorem BOpen.step {m0 : Arena T3} {f i : Nat} {v v' : World} (h : BOpen m0 f i v) {c : Cmd} (ho : v.Ordered c)
    (hc : c ≠ .drop f) {o : Out} (hs : v.step c = some (o, v')) : BOpen m0 f i v' := by
  obtain ⟨B, RB⟩ := h.rel
  obtain ⟨B', _, RB'⟩ := RB.of_step ho hs
  exact ⟨⟨B', RB'⟩, RB.step_held hs h.held hc, RB.under_step h.held h.under ho hs⟩

namespace BssW
variable {w w' : BssW}

/-- `minpath` on the BDD side is `minsol`. -/
theorem minpath_bdd {f : Nat} {o : BssOut} (h : w.minpath f = some (o, w')) :
    ∃ b, w.bdd.step (.minsol f) = some (.bool b, w'.bdd) := by
  unfold minpath at h
  split at h
  · cases h
  · rename_i i hi
    simp only [World.step, hi]
    split at h
    · cases h
    · rename_i b he
      cases h
      exact ⟨_, by rw [he]⟩
    · rename_i r b he
      split at h
      · cases h
      · cases h
        exact ⟨_, by rw [he]⟩

/-- `mincut` on the BDD side. -/
theorem mincut_bdd {f : Nat} {o : BssOut} (h : w.mincut f = some (o, w')) :
    ∃ b1 b2 b, w.bdd.step (.dual f) = some (.handle w.bdd.next, b1) ∧
      b1.step (.minsol w.bdd.next) = some (.bool b, b2) ∧ b2.step (.drop w.bdd.next) = some (.unit, w'.bdd) := by
  unfold mincut at h
  split at h
  · rename_i d b1 he
    have hd : d = w.bdd.next := by
      simp only [World.step] at he
      split at he
      · unfold World.give at he
        split at he
        · cases he
        · cases he; rfl
      · cases he
    subst hd
    split at h
    · cases h
    · rename_i o2 w2 h2
      obtain ⟨b, hb⟩ := minpath_bdd h2
      split at h
      · cases h
      · rename_i o3 b3 h3
        cases h
        refine ⟨b1, _, b, he, hb, ?_⟩
        rw [h3]
        simp only [World.step] at h3
        split at h3
        · cases h3; rfl
        · cases h3
  · cases h

theorem step_bdd {m0 : Arena T3} {f i : Nat} (h : BOpen m0 f i w.bdd) {c : BssCmd} (ho : w.Ordered c)
    (hc : c ≠ .bdd (.drop f)) {o : BssOut} (hs : w.step c = some (o, w')) : BOpen m0 f i w'.bdd := by
  cases c with
  | bdd c =>
    simp only [step, Option.map_eq_some_iff] at hs
    obtain ⟨⟨o1, b1⟩, h1, e⟩ := hs
    cases e
    exact h.step ho (fun e => hc (by rw [e])) h1
  | zdd c =>
    simp only [step] at hs
    split at hs
    · rw [Option.map_eq_some_iff] at hs
      obtain ⟨_, _, e⟩ := hs
      cases e
      exact h
    · cases hs
  | minpath g =>
    obtain ⟨b, hb⟩ := minpath_bdd hs
    exact h.step (c := .minsol g) trivial (by simp) hb
  | mincut g =>
    obtain ⟨b1, b2, b, h1, h2, h3⟩ := mincut_bdd hs
    have hf : f ≠ w.bdd.next := by
      obtain ⟨B, RB⟩ := h.rel
      exact Nat.ne_of_lt (RB.fresh f i h.held)
    have s1 := h.step (c := .dual g) trivial (by simp) h1
    have s2 := s1.step (c := .minsol w.bdd.next) trivial (by simp) h2
    exact s2.step (c := .drop w.bdd.next) trivial (by simpa using hf.symm) h3
  | clearCache =>
    simp only [step] at hs
    split at hs
    · rename_i o1 b o2 z h1 h2
      cases hs
      exact h.step (c := .clearCache) trivial (by simp) h1
    · cases hs

theorem minpath_zdd (hw : w.Reachable) (H : ZHeld w.zdd) {f : Nat} {o : BssOut} (h : w.minpath f = some (o, w')) :
    ZHeld w'.zdd ∧ ∀ g, ZKeeps w.zdd w'.zdd g := by
  obtain ⟨_, A, R⟩ := hw.rel
  unfold minpath at h
  split at h
  · cases h
  · rename_i i hi
    obtain ⟨F, hF, hd⟩ := R.bdd.heldS f i hi
    obtain ⟨x, b, e1, e2, e3, e4, e5⟩ := Bdd.minsol_ok R.bdd.mok.inv R.bdd.mok.inj hd
    rw [e1] at h
    cases x with
    | none =>
      cases h
      exact ⟨H, fun g => .refl _ g⟩
    | some r =>
      obtain ⟨hm, hr⟩ := e5 r rfl
      obtain ⟨q, dst, t1, t2, t3, _, t4⟩ := toZdd_ok (P := fun _ _ => True) e2.wf e2.two (fun _ _ => trivial)
        H.str.ok.inv (fun _ _ => trivial) hr.live
      simp only at h
      split at h
      · cases h
      · rename_i o' z he
        cases h
        exact H.give (H.str.wrap ⟨q, dst, t1, t2, t3, t4.lr⟩) he

theorem mincut_zdd (hw : w.Reachable) (H : ZHeld w.zdd) {f : Nat} {o : BssOut} (h : w.mincut f = some (o, w')) :
    ZHeld w'.zdd ∧ ∀ g, ZKeeps w.zdd w'.zdd g := by
  unfold mincut at h
  split at h
  · rename_i d b1 he
    have hw1 : ({ w with bdd := b1 } : BssW).Reachable :=
      .step (o := .bdd (.handle d)) (.bdd (.dual f)) hw trivial (by simp only [step, he, Option.map_some])
    split at h
    · cases h
    · rename_i o2 w2 h2
      have := minpath_zdd hw1 H h2
      split at h
      · cases h
      · cases h; exact this
  · cases h

/-- A call keeps every ZDD handle it does not drop. -/
theorem step_zdd (hw : w.Reachable) (H : ZHeld w.zdd) {c : BssCmd} {o : BssOut} (hs : w.step c = some (o, w')) :
    ZHeld w'.zdd ∧ ∀ g, c ≠ .zdd (.drop g) → ZKeeps w.zdd w'.zdd g := by
  cases c with
  | bdd c =>
    simp only [step, Option.map_eq_some_iff] at hs
    obtain ⟨_, _, e⟩ := hs
    cases e
    exact ⟨H, fun g _ => .refl _ g⟩
  | zdd c =>
    simp only [step] at hs
    split at hs
    · rw [Option.map_eq_some_iff] at hs
      obtain ⟨⟨o1, z1⟩, h1, e⟩ := hs
      cases e
      obtain ⟨k1, k2⟩ := H.step h1
      exact ⟨k1, fun g hg => k2 g (fun e => hg (by rw [e]))⟩
    · cases hs
  | minpath g =>
    obtain ⟨k1, k2⟩ := minpath_zdd hw H hs
    exact ⟨k1, fun g _ => k2 g⟩
  | mincut g =>
    obtain ⟨k1, k2⟩ := mincut_zdd hw H hs
    exact ⟨k1, fun g _ => k2 g⟩
  | clearCache =>
    simp only [step] at hs
    split at hs
    · rename_i o1 b o2 z h1 h2
      cases hs
      obtain ⟨k1, k2⟩ := H.step h2
      exact ⟨k1, fun g _ => k2 g (by simp)⟩
    · cases hs

theorem Reachable.zheld (hw : w.Reachable) : ZHeld w.zdd := by
  induction hw with
  | new => exact ZWorld.held_new
  | step c hw _ h ih => exact (step_zdd hw ih h).1

/-- A call, without its answer. -/
def after (w : BssW) (c : BssCmd) : Option BssW := (w.step c).map (·.2)

/-- Calls made while an iterator over the BDD handle `f` is open do not change its results. -/
theorem weave_bdd (hw : w.Reachable) {ss : List Bool} {f : Nat} {st : Bdd.PathSt}
    (hx : w.bdd.bddExtract ss f = some st) {os : List (List String)} (hy : Enum.Yields w.bdd.bddNext st os)
    {as : List (Enum.Act BssCmd)}
    (hg : Enum.Goes after (fun w c => w.Ordered c ∧ c ≠ .bdd (.drop f)) w (Enum.calls as) w') :
    ∃ st', Enum.weave after (fun w => w.bdd.bddNext) w st as = some (Enum.answers os (Enum.nexts as), w', st') := by
  obtain ⟨_, A, R⟩ := hw.rel
  unfold World.bddExtract at hx
  split at hx
  · cases hx
  · rename_i i hi
    refine Enum.weave_ok (w0 := w) (J := fun v => BOpen w.bdd.mgr.bdd.arena f i v.bdd)
      (K := Bdd.PathSt.Under w.bdd.mgr.bdd.arena i) ?_ ?_ ?_ ?_ as w st os w'
      ⟨⟨A, R.bdd⟩, hi, fun _ _ => ⟨rfl, rfl⟩⟩ (Bdd.pathNew_under hx) hy hg
    · rintro v c v1 h ⟨h3, h4⟩ h5
      unfold after at h5
      rw [Option.map_eq_some_iff] at h5
      obtain ⟨⟨o, v2⟩, h6, rfl⟩ := h5
      exact step_bdd h h3 h4 h6
    · exact fun v s h hs => Bdd.pathNext_congr hs h.under
    · exact fun s o s' hs h => Bdd.pathNext_under hs h
    · exact fun s s' h => Bdd.pathNext_idle h

/-- Calls made while an iterator over the ZDD handle `f` is open do not change its results. -/
theorem weave_zdd (hw : w.Reachable) {ss : List Bool} {f : Nat} {st : ZPath}
    (hx : w.zdd.extract ss f = some st) {os : List (List String)} (hy : Enum.Yields w.zdd.next st os)
    {as : List (Enum.Act BssCmd)}
    (hg : Enum.Goes after (fun w c => w.Ordered c ∧ c ≠ .zdd (.drop f)) w (Enum.calls as) w') :
    ∃ st', Enum.weave after (fun w => w.zdd.next) w st as = some (Enum.answers os (Enum.nexts as), w', st') := by
  have H := hw.zheld
  unfold ZWorld.extract at hx
  split at hx
  · cases hx
  · rename_i i hi
    cases hx
    have h0 := shape_of_live (H.str.live (AMap.mem_vals_of_get hi))
    refine Enum.weave_ok (w0 := w)
      (J := fun v => v.Reachable ∧ v.zdd.hs.held.get f = some i ∧
        v.zdd.mgr.w.eng.arena.Shape i w.zdd.mgr.w.eng.arena.view)
      (K := ZPath.Under w.zdd.mgr.w.eng.arena i) ?_ ?_ ?_ ?_ as w _ os w'
      ⟨hw, hi, h0⟩ (zpathNew_under _ _ _) hy hg
    · rintro v c v1 ⟨h1, h2, h3⟩ ⟨h3', h4⟩ h5
      unfold after at h5
      rw [Option.map_eq_some_iff] at h5
      obtain ⟨⟨o, v2⟩, h6, rfl⟩ := h5
      obtain ⟨k1, k2⟩ := step_zdd h1 h1.zheld h6
      exact ⟨.step c h1 h3' h6, k2 f h4 i _ h2 h3⟩
    · rintro v s ⟨_, _, h⟩ hs
      exact zpathNext_congr h0 h hs
    · exact fun s o s' hs h => zpathNext_under hs h
    · exact fun s s' h => zpathNext_idle h

end BssW
end DD
