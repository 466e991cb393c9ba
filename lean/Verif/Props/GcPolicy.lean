import Verif.Props.Mss
import Verif.Props.Bss
import Verif.Bss.Pace
import Verif.Mss.Pace
import Verif.Mss.MssStep

/-!
# When the managers collect: C54

`trigger` is the number of used node slots from which on a call that hands out a node ends with a collection, `floor`
the smallest trigger that a collection sets.  `Paced` (Verif/Wrap/Pace.lean) compares the call with the same call made
with collections switched off.
-/

set_option autoImplicit false
set_option linter.unusedSectionVars false
set_option linter.unusedVariables false

namespace DD.Props
open Arena

/-- `m'` is `m` after a collection that keeps what the nodes `roots` need: node contents and headers are as before and
a slot is in use iff it holds one of the fixed terminals or is reachable from a root. -/
def CollectedTo {T : Type} [DecidableEq T] [Fixed T] (m m' : Arena T) (roots : List Nat) : Prop :=
  m'.headers = m.headers ∧ m'.nodes = m.nodes ∧
    ∀ i, (i < m'.nodes.length ∧ i ∉ m'.free) ↔ (i ∈ slots T ∨ ∃ r ∈ roots, Reach m r i)

/-- `BddMgr`: handles and variables keep nodes. -/
def bddView : GcView World where
  trigger w := w.mgr.gc.threshold
  floor w := w.mgr.gc.floor
  used w := w.mgr.bdd.arena.occupied
  setTrigger w t := { w with mgr := { w.mgr with gc := { w.mgr.gc with threshold := t } } }
  purged w w' := w'.held = w.held ∧ w'.next = w.next ∧ w'.mgr.vars = w.mgr.vars ∧
    CollectedTo w.mgr.bdd.arena w'.mgr.bdd.arena (w.held.vals ++ w.mgr.vars.vals)

/-- `ZddMgr`: only handles keep nodes. -/
def zddView : GcView ZWorld where
  trigger w := w.mgr.w.gc.threshold
  floor w := w.mgr.w.gc.floor
  used w := w.mgr.w.eng.arena.occupied
  setTrigger w t := { w with mgr := { w.mgr with w := { w.mgr.w with gc := { w.mgr.w.gc with threshold := t } } } }
  purged w w' := w'.hs = w.hs ∧ w'.mgr.vars = w.mgr.vars ∧
    CollectedTo w.mgr.w.eng.arena w'.mgr.w.eng.arena w.hs.held.vals

/-- `MddMgr`: handles and variables keep nodes, of both forests. -/
def mddView : GcView MWorld where
  trigger w := w.mgr.w.gc.threshold
  floor w := w.mgr.w.gc.floor
  used w := w.mgr.w.eng.mtmdd.arena.occupied + w.mgr.w.eng.mdd.arena.occupied
  setTrigger w t := { w with mgr := { w.mgr with w := { w.mgr.w with gc := { w.mgr.w.gc with threshold := t } } } }
  purged w w' := w'.hs = w.hs ∧ w'.mgr.vars = w.mgr.vars ∧
    (∃ roots, (∀ i, i ∈ roots ↔ MNode.bool i ∈ w.hs.held.vals ++ w.mgr.vars.vals) ∧
      CollectedTo w.mgr.w.eng.mdd.arena w'.mgr.w.eng.mdd.arena roots) ∧
    (∃ roots, (∀ i, i ∈ roots ↔ MNode.value i ∈ w.hs.held.vals ++ w.mgr.vars.vals) ∧
      CollectedTo w.mgr.w.eng.mtmdd.arena w'.mgr.w.eng.mtmdd.arena roots)

/-- The ZDD manager of a `BssMgr`. -/
def bssView : GcView BssW where
  trigger w := w.zdd.mgr.w.gc.threshold
  floor w := w.zdd.mgr.w.gc.floor
  used w := w.zdd.mgr.w.eng.arena.occupied
  setTrigger w t := { w with zdd := zddView.setTrigger w.zdd t }
  purged w w' := w'.bdd = w.bdd ∧ zddView.purged w.zdd w'.zdd

/-- The ZMDD manager of an `MssMgr`. -/
def mssView : GcView MssW where
  trigger w := w.z.mgr.gc.threshold
  floor w := w.z.mgr.gc.floor
  used w := w.z.mgr.eng.arena.occupied
  setTrigger w t := { w with z := { w.z with mgr := { w.z.mgr with gc := { w.z.mgr.gc with threshold := t } } } }
  purged w w' := w'.mdd = w.mdd ∧ w'.z.hs = w.z.hs ∧
    CollectedTo w.z.mgr.eng.arena w'.z.mgr.eng.arena (w.z.hs.held.vals.map ZNd.node)

/-! ## Helpers -/

theorem survives_iff {T : Type} [DecidableEq T] [Fixed T] {m : Arena T} {roots roots' : List Nat}
    (hl : ∀ r ∈ roots', m.Live r) (hr : ∀ r, r ∈ roots ↔ r ∈ roots') {i : Nat} :
    m.Survives roots i ↔ (i ∈ slots T ∨ ∃ r ∈ roots', Reach m r i) := by
  unfold Survives
  constructor
  · rintro (h | ⟨r, h1, _, h2⟩)
    · exact .inl h
    · exact .inr ⟨r, (hr r).1 h1, h2⟩
  · rintro (h | ⟨r, h1, h2⟩)
    · exact .inl h
    · exact .inr ⟨r, (hr r).2 h1, (hl r h1).1, h2⟩

theorem bdd_live {w : World} {A : Abs} (R : Rel w A) :
    w.mgr.bdd.liveNodeCount = w.mgr.bdd.arena.occupied ∧ 0 < w.mgr.bdd.arena.occupied :=
  ⟨R.mok.inv.wf.occupied_eq, R.mok.inv.wf.occupied_pos (i := 0) (by decide)⟩

theorem zdd_live {e : Zdd} (h : Zdd.Inv e) : e.liveNodeCount = e.arena.occupied ∧ 0 < e.arena.occupied :=
  ⟨h.wf.occupied_eq, h.wf.occupied_pos (i := 0) (by decide)⟩

theorem zmdd_live {e : Zmdd} (h : Zmdd.Inv e) : e.liveNodeCount = e.arena.occupied ∧ 0 < e.arena.occupied :=
  ⟨h.wf.occupied_eq, h.wf.occupied_pos (i := 0) (by decide)⟩

theorem zdd_collected {m : Wr Zdd Nat} {L : List Nat} (h : Wr.OK zI m L) {n : Nat} {e : Zdd}
    (hg : zops.gc m.eng m.gc.roots.keys = some (n, e)) : CollectedTo m.eng.arena e.arena L := by
  have hl : ∀ r ∈ L, m.eng.arena.Live r := fun r hr => by obtain ⟨V, hV⟩ := h.live r hr; exact hV.live
  obtain ⟨n', s', h1, h2, h3, h4, h5, _⟩ := Zdd.gc_ok h.inv (roots := m.gc.roots.keys)
    (fun r hr _ => hl r (h.roots.mem_keys.1 hr))
  have hg : m.eng.gc m.gc.roots.keys = some (n, e) := hg
  rw [hg] at h1; cases h1
  exact ⟨h3, h4, fun i => (h5 i).trans (survives_iff hl fun r => h.roots.mem_keys)⟩

/-! ## `BddMgr` -/

/-- A new manager: the trigger is 65536, and so is the floor. -/
theorem C54_new : bddView.trigger World.new = 65536 ∧ bddView.floor World.new = 65536 ∧
    zddView.trigger ZWorld.new = 65536 ∧ zddView.floor ZWorld.new = 65536 ∧
    mddView.trigger MWorld.new = 65536 ∧ mddView.floor MWorld.new = 65536 ∧
    bssView.trigger BssW.new = 65536 ∧ bssView.floor BssW.new = 65536 ∧
    mssView.trigger MssW.new = 65536 ∧ mssView.floor MssW.new = 65536 :=
  ⟨rfl, rfl, rfl, rfl, rfl, rfl, rfl, rfl, rfl, rfl⟩

/-- Calls that return a handle, other than `defvar` and `clone`. -/
theorem C54_bdd {w w' : World} (hw : w.Reachable) {c : Cmd} (ho : w.Ordered c) {h : Nat}
    (hd : ∀ v, c ≠ .defvar v) (hc : ∀ f, c ≠ .clone f) (hs : w.step c = some (.handle h, w')) :
    Paced bddView (fun w => w.step c) w (.handle h) w' := by
  have wr : World.wraps c = true := by
    cases c with
    | defvar v => exact absurd rfl (hd v)
    | clone f => exact absurd rfl (hc f)
    | drop f => simp only [World.step] at hs; split at hs <;> cases hs
    | children f =>
      simp only [World.step] at hs
      split at hs
      · cases hs
      · split at hs <;> cases hs
    | gc l =>
      simp only [World.step] at hs
      split at hs
      · cases hs
      · split at hs <;> cases hs
    | setThreshold n => cases hs
    | clearCache => cases hs
    | eq f g => simp only [World.step] at hs; split at hs <;> cases hs
    | isZero f =>
      simp only [World.step] at hs
      split at hs
      · obtain ⟨n, _, hs⟩ := Option.map_eq_some_iff.1 hs; cases hs
      · cases hs
    | isOne f =>
      simp only [World.step] at hs
      split at hs
      · obtain ⟨n, _, hs⟩ := Option.map_eq_some_iff.1 hs; cases hs
      · cases hs
    | isUndet f =>
      simp only [World.step] at hs
      split at hs
      · obtain ⟨n, _, hs⟩ := Option.map_eq_some_iff.1 hs; cases hs
      · cases hs
    | level f => simp only [World.step] at hs; split at hs <;> cases hs
    | varorder => obtain ⟨n, _, hs⟩ := Option.map_eq_some_iff.1 hs; cases hs
    | minsol f =>
      simp only [World.step] at hs
      split at hs
      · cases hs
      · split at hs <;> cases hs
    | _ => rfl
  obtain ⟨A, R⟩ := hw.rel
  obtain ⟨w0, r, F⟩ := World.step_form wr hs (fun e => (by intro h; cases h))
  have key : ∀ (w : World) (A : Abs) (t : Nat), Rel w A → Rel (bLens.setT w t) A := fun w A t R =>
    ⟨⟨R.mok.inv, R.mok.hdrs, R.mok.nodup, R.mok.varsNodup, R.mok.varsLen, R.mok.vars, R.mok.varsOnly, R.mok.roots,
      R.mok.live⟩, R.nodup, R.next, R.fresh, R.heldN, R.heldS⟩
  refine F.paced (used := bddView.used) (purged := bddView.purged) hs (fun w => ∃ A, Rel w A) ?_ ?_ ?_
    (fun _ _ => rfl) ?_
  · intro t o w'' h
    obtain ⟨A', _, R'⟩ := (key w A t R).of_step (show (bLens.setT w t).Ordered c from by cases c <;> exact ho) h
    exact ⟨A', R'⟩
  · rintro w t ⟨A, R⟩
    exact ⟨A, key (bLens.setT w t) A w.mgr.gc.threshold R⟩
  · rintro w ⟨A, R⟩
    exact bdd_live R
  · rintro w1 n e ⟨A, R⟩ hg
    have hl : ∀ r ∈ w1.held.vals ++ w1.mgr.vars.vals, w1.mgr.bdd.arena.Live r := by
      intro r hr
      rcases List.mem_append.1 hr with hr | hr
      · obtain ⟨G, hG⟩ := R.mok.live r hr; exact hG.live
      · obtain ⟨G, hG⟩ := R.mok.varVals hr; exact hG.live
    obtain ⟨n', s', h1, h2, h3, h4, h5, _⟩ := Bdd.gc_ok R.mok.inv (roots := w1.mgr.gc.roots.keys)
      (fun r hr _ => hl r (R.mok.roots.mem_keys.1 hr))
    have hg : w1.mgr.bdd.gc w1.mgr.gc.roots.keys = some (n, e) := hg
    rw [hg] at h1; cases h1
    exact ⟨rfl, rfl, rfl, h3, h4, fun i => (h5 i).trans (survives_iff hl fun r => R.mok.roots.mem_keys)⟩

/-- All other calls leave trigger and floor alone. -/
theorem C54_bdd_other {w w' : World} {c : Cmd} {o : Out} (hs : w.step c = some (o, w'))
    (hc : (∀ h, o ≠ .handle h) ∨ (∃ v, c = .defvar v) ∨ ∃ f, c = .clone f) (hn : ∀ n, c ≠ .setThreshold n) :
    bddView.trigger w' = bddView.trigger w ∧ bddView.floor w' = bddView.floor w := by
  refine World.step_quiet hs ?_ hn
  rcases hc with hc | ⟨v, rfl⟩ | ⟨f, rfl⟩
  · cases hwr : World.wraps c with
    | false => exact .inl rfl
    | true =>
      right
      by_cases he : ∃ e, o = .err e
      · exact he
      · obtain ⟨w0, r, F⟩ := World.step_form hwr hs (fun e h => he ⟨e, h⟩)
        exact absurd (F.spec hs).1 (hc _)
  · exact .inl rfl
  · exact .inl rfl

/-- `set_gc_threshold` sets both. -/
theorem C54_bdd_set {w : World} {n : Nat} : ∃ w', w.step (.setThreshold n) = some (.unit, w') ∧
    w' = { w with mgr := { w.mgr with gc := { w.mgr.gc with threshold := n, floor := n } } } := ⟨_, rfl, rfl⟩

/-! ## `ZddMgr` -/

/-- Calls that return a handle, other than `from_sets` and `clone`. -/
theorem C54_zdd {w w' : ZWorld} (hw : w.Reachable) {c : ZCmd} {h : Nat} (hf : ∀ ss, c ≠ .fromSets ss)
    (hc : ∀ f, c ≠ .clone f) (hs : w.step c = some (.handle h, w')) :
    Paced zddView (fun w => w.step c) w (.handle h) w' := by
  have wr : ZWorld.wraps c = true := by
    cases c with
    | fromSets v => exact absurd rfl (hf v)
    | clone f => exact absurd rfl (hc f)
    | drop f => simp only [ZWorld.step] at hs; split at hs <;> cases hs
    | children f =>
      simp only [ZWorld.step] at hs
      split at hs
      · cases hs
      · split at hs <;> cases hs
    | setThreshold n => cases hs
    | clearCache => cases hs
    | eq f g => simp only [ZWorld.step] at hs; split at hs <;> cases hs
    | isZero f =>
      simp only [ZWorld.step] at hs
      split at hs
      · obtain ⟨n, _, hs⟩ := Option.map_eq_some_iff.1 hs; cases hs
      · cases hs
    | isOne f =>
      simp only [ZWorld.step] at hs
      split at hs
      · obtain ⟨n, _, hs⟩ := Option.map_eq_some_iff.1 hs; cases hs
      · cases hs
    | header f => simp only [ZWorld.step] at hs; split at hs <;> cases hs
    | level f => simp only [ZWorld.step] at hs; split at hs <;> cases hs
    | label f => simp only [ZWorld.step] at hs; split at hs <;> cases hs
    | _ => rfl
  obtain ⟨names, R⟩ := hw.rel
  obtain ⟨w0, r, F⟩ := ZWorld.step_form wr hs
  have key : ∀ (w : ZWorld) (A : List String) (t : Nat), ZRel w A → ZRel (zLens.setT w t) A := fun w A t R =>
    ⟨⟨⟨R.mok.ok.inv, R.mok.ok.roots, R.mok.ok.live⟩, R.mok.hdrs, R.mok.nodup, R.mok.varsLen, R.mok.vars⟩, R.hs⟩
  refine F.paced (used := zddView.used) (purged := zddView.purged) hs (fun w => ∃ A, ZRel w A) ?_ ?_ ?_
    (fun _ _ => rfl) ?_
  · intro t o w'' h
    obtain ⟨A', _, R', _⟩ := (key w names t R).of_step h
    exact ⟨A', R'⟩
  · rintro w t ⟨A, R⟩
    exact ⟨A, key (zLens.setT w t) A w.mgr.w.gc.threshold R⟩
  · rintro w ⟨A, R⟩
    exact zdd_live R.mok.ok.inv
  · rintro w1 n e ⟨A, R⟩ hg
    exact ⟨rfl, rfl, zdd_collected R.mok.ok hg⟩

/-- `from_sets` makes several handles on the way; in the end there is room below the trigger. -/
theorem C54_zdd_from_sets {w w' : ZWorld} (hw : w.Reachable) {ss : List (List String)} {o : ZOut}
    (hs : w.step (.fromSets ss) = some (o, w')) :
    zddView.floor w' = zddView.floor w ∧ zddView.used w' < zddView.trigger w' := by
  obtain ⟨names, R⟩ := hw.rel
  obtain ⟨_, _, R', _⟩ := R.of_step hs
  obtain ⟨u1, u2⟩ := zdd_live R'.mok.ok.inv
  have hs : w.give (w.mgr.fromSets ss) = some (o, w') := hs
  cases hm : w.mgr.fromSets ss with
  | none => rw [hm] at hs; cases hs
  | some p =>
    rw [hm] at hs
    cases hs
    have := ZddMgr.fromSets_low hm
    refine ⟨this.2, ?_⟩
    have l : p.2.w.eng.liveNodeCount < max p.2.w.gc.threshold 1 := this.1
    show p.2.w.eng.arena.occupied < p.2.w.gc.threshold
    have u1 : p.2.w.eng.liveNodeCount = p.2.w.eng.arena.occupied := u1
    have u2 : 0 < p.2.w.eng.arena.occupied := u2
    omega

/-- All other calls leave trigger and floor alone. -/
theorem C54_zdd_other {w w' : ZWorld} {c : ZCmd} {o : ZOut} (hs : w.step c = some (o, w'))
    (hc : (∀ h, o ≠ .handle h) ∨ ∃ f, c = .clone f) (hn : ∀ n, c ≠ .setThreshold n) :
    zddView.trigger w' = zddView.trigger w ∧ zddView.floor w' = zddView.floor w := by
  have hf : ∀ ss, c ≠ .fromSets ss := by
    rintro ss rfl
    rcases hc with hc | ⟨f, hf⟩
    · have hs : w.give (w.mgr.fromSets ss) = some (o, w') := hs
      cases hm : w.mgr.fromSets ss with
      | none => rw [hm] at hs; cases hs
      | some p => rw [hm] at hs; cases hs; exact hc _ rfl
    · cases hf
  refine ZWorld.step_quiet hs ?_ hf hn
  rcases hc with hc | ⟨f, rfl⟩
  · cases hwr : ZWorld.wraps c with
    | false => rfl
    | true =>
      obtain ⟨w0, r, F⟩ := ZWorld.step_form hwr hs
      exact absurd (F.spec hs).1 (hc _)
  · rfl

/-- `set_gc_threshold` sets both. -/
theorem C54_zdd_set {w : ZWorld} {n : Nat} : ∃ w', w.step (.setThreshold n) = some (.unit, w') ∧
    w' = { w with mgr := { w.mgr with w := { w.mgr.w with gc := { w.mgr.w.gc with threshold := n, floor := n } } } } :=
  ⟨_, rfl, rfl⟩

/-! ## `MddMgr` -/

/-- Calls that return a handle, other than `defvar` and `clone`. -/
theorem C54_mdd {w w' : MWorld} (hw : w.Reachable) {c : MCmd} (ho : w.Checked c) {h : Nat}
    (hd : ∀ v n, c ≠ .defvar v n) (hc : ∀ f, c ≠ .clone f) (hs : w.step c = some (.handle h, w')) :
    Paced mddView (fun w => w.step c) w (.handle h) w' := by
  have wr : MWorld.wraps c = true := by
    cases c with
    | defvar v n => exact absurd rfl (hd v n)
    | clone f => exact absurd rfl (hc f)
    | gc l =>
      simp only [MWorld.step, MWorld.onL] at hs
      repeat' split at hs
      all_goals cases hs
    | setThreshold n => cases hs
    | clearCache => cases hs
    | size => cases hs
    | liveNodeCount => cases hs
    | varorder => simp only [MWorld.step] at hs; split at hs <;> cases hs
    | drop f => simp only [MWorld.step, MWorld.on1] at hs; split at hs <;> cases hs
    | node f => simp only [MWorld.step, MWorld.on1] at hs; split at hs <;> cases hs
    | header f => simp only [MWorld.step, MWorld.on1] at hs; split at hs <;> cases hs
    | level f => simp only [MWorld.step, MWorld.on1] at hs; split at hs <;> cases hs
    | label f => simp only [MWorld.step, MWorld.on1] at hs; split at hs <;> cases hs
    | isBoolean f => simp only [MWorld.step, MWorld.on1] at hs; split at hs <;> cases hs
    | isValue f => simp only [MWorld.step, MWorld.on1] at hs; split at hs <;> cases hs
    | children f =>
      simp only [MWorld.step, MWorld.on1] at hs
      repeat' split at hs
      all_goals cases hs
    | isTerm t f =>
      simp only [MWorld.step, MWorld.on1] at hs
      repeat' split at hs
      all_goals cases hs
    | valueOf f =>
      simp only [MWorld.step, MWorld.on1] at hs
      repeat' split at hs
      all_goals cases hs
    | _ => rfl
  obtain ⟨A, R⟩ := hw.rel
  obtain ⟨w0, r, F⟩ := MWorld.step_form wr hs (fun e => (by intro h; cases h))
  have key : ∀ (w : MWorld) (A : List (String × Nat)) (t : Nat), MRel w A → MRel (mLens.setT w t) A := fun w A t R =>
    ⟨⟨⟨R.mok.ok.inv, R.mok.ok.roots, R.mok.ok.live⟩, R.mok.hdrs, R.mok.nodup, R.mok.varsNodup, R.mok.varsLen, R.mok.vars,
      R.mok.varsOnly⟩, R.hs⟩
  refine F.paced (used := mddView.used) (purged := mddView.purged) hs (fun w => ∃ A, MRel w A) ?_ ?_ ?_
    (fun _ _ => rfl) ?_
  · intro t o w'' h
    obtain ⟨A', _, R', _⟩ := (key w A t R).of_step (show (mLens.setT w t).Checked c from by cases c <;> exact ho) h
    exact ⟨A', R'⟩
  · rintro w t ⟨A, R⟩
    exact ⟨A, key (mLens.setT w t) A w.mgr.w.gc.threshold R⟩
  · rintro w ⟨A, R⟩
    have i := R.mok.ok.inv
    refine ⟨?_, ?_⟩
    · show w.mgr.w.eng.mtmdd.arena.liveNodeCount + w.mgr.w.eng.mdd.arena.liveNodeCount = _
      rw [i.v.wf.occupied_eq, i.b.wf.occupied_eq]
      rfl
    · have := i.b.wf.occupied_pos (i := 0) (by decide)
      show 0 < _ + _
      omega
  · rintro w1 n e ⟨A, R⟩ hg
    have hl : ∀ r ∈ w1.hs.held.vals ++ w1.mgr.vars.vals, w1.mgr.w.eng.MLive r := by
      intro r hr
      obtain ⟨G, hG⟩ := R.mok.ok.live r hr; exact hG.live
    have mk := fun r => R.mok.ok.roots.mem_keys (k := r)
    obtain ⟨n', s', h1, h2, h3, h4, h5, h6, h7, h8, _⟩ := Mtmdd2.gc_ok R.mok.ok.inv (roots := w1.mgr.w.gc.roots.keys)
      (fun r hr _ => hl _ ((mk _).1 hr)) (fun r hr _ => hl _ ((mk _).1 hr))
    have hg : (match w1.mgr.w.eng.gc w1.mgr.w.gc.roots.keys with | none => none | some (n, e') => some (n.1 + n.2, e')) =
      some (n, e) := hg
    rw [h1] at hg; cases hg
    have hb : ∀ i, i ∈ Mtmdd2.broots w1.mgr.w.gc.roots.keys ↔ .bool i ∈ w1.hs.held.vals ++ w1.mgr.vars.vals := by
      intro i
      rw [← mk]
      unfold Mtmdd2.broots
      rw [List.mem_filterMap]
      constructor
      · rintro ⟨x, hx, he⟩
        cases x with
        | bool j => simp at he; subst he; exact hx
        | value j => simp at he
      · intro h; exact ⟨_, h, rfl⟩
    have hv : ∀ i, i ∈ Mtmdd2.vroots w1.mgr.w.gc.roots.keys ↔ .value i ∈ w1.hs.held.vals ++ w1.mgr.vars.vals := by
      intro i
      rw [← mk]
      unfold Mtmdd2.vroots
      rw [List.mem_filterMap]
      constructor
      · rintro ⟨x, hx, he⟩
        cases x with
        | value j => simp at he; subst he; exact hx
        | bool j => simp at he
      · intro h; exact ⟨_, h, rfl⟩
    refine ⟨rfl, rfl, ⟨_, hb, h3, h4, fun i => (h6 i).trans (survives_iff (fun r hr => hl _ ((hb r).1 hr)) fun r => Iff.rfl)⟩,
      ⟨_, hv, ?_, h5, fun i => (h7 i).trans (survives_iff (fun r hr => hl _ ((hv r).1 hr)) fun r => Iff.rfl)⟩⟩
    have i := R.mok.ok.inv
    exact (h2.hdr.symm.trans h3).trans i.hdr

/-- All other calls leave trigger and floor alone. -/
theorem C54_mdd_other {w w' : MWorld} {c : MCmd} {o : MOut} (hs : w.step c = some (o, w'))
    (hc : (∀ h, o ≠ .handle h) ∨ (∃ v n, c = .defvar v n) ∨ ∃ f, c = .clone f) (hn : ∀ n, c ≠ .setThreshold n) :
    mddView.trigger w' = mddView.trigger w ∧ mddView.floor w' = mddView.floor w := by
  refine MWorld.step_quiet hs ?_ hn
  rcases hc with hc | ⟨v, n, rfl⟩ | ⟨f, rfl⟩
  · cases hwr : MWorld.wraps c with
    | false => exact .inl rfl
    | true =>
      right
      by_cases he : ∃ e, o = .err e
      · exact he
      · obtain ⟨w0, r, F⟩ := MWorld.step_form hwr hs (fun e h => he ⟨e, h⟩)
        exact absurd (F.spec hs).1 (hc _)
  · exact .inl rfl
  · exact .inl rfl

/-- `set_gc_threshold` sets both. -/
theorem C54_mdd_set {w : MWorld} {n : Nat} : ∃ w', w.step (.setThreshold n) = some (.unit, w') ∧
    w' = { w with mgr := { w.mgr with w := { w.mgr.w with gc := { w.mgr.w.gc with threshold := n, floor := n } } } } :=
  ⟨_, rfl, rfl⟩

/-! ## The family managers inside `BssMgr` and `MssMgr` -/

/-- ZDD calls that return a handle (other than `clone`), `minpath` and `mincut` with a result. -/
theorem C54_bss {w w' : BssW} (hw : w.Reachable) {c : BssCmd} {o : BssOut} (hs : w.step c = some (o, w'))
    (hc : (∃ z h, c = .zdd z ∧ o = .zdd (.handle h) ∧ ∀ f, z ≠ .clone f) ∨ ∃ h, o = .fam (some h)) :
    Paced bssView (fun w => w.step c) w o w' := by
  obtain ⟨_, A, R⟩ := hw.rel
  have form : ∃ w0 r out, bsLens.Form zops (fun w => w.step c) w w0 r out := by
    rcases hc with ⟨z, h, rfl, rfl, hcl⟩ | ⟨h, rfl⟩
    · have wr : ZWorld.wraps z = true := by
        simp only [BssW.step] at hs
        split at hs
        · rename_i hsh
          obtain ⟨p, h1, h2⟩ := Option.map_eq_some_iff.1 hs
          obtain ⟨o1, z1⟩ := p
          cases h2
          cases hwr : ZWorld.wraps z with
          | true => rfl
          | false =>
            cases z with
            | clone f => exact absurd rfl (hcl f)
            | fromSets ss => cases hsh
            | clearCache => cases h1
            | setThreshold n => cases h1
            | children f =>
              simp only [ZWorld.step] at h1
              repeat' split at h1
              all_goals cases h1
            | isZero f =>
              simp only [ZWorld.step] at h1
              split at h1
              · obtain ⟨n, _, h1⟩ := Option.map_eq_some_iff.1 h1; cases h1
              · cases h1
            | isOne f =>
              simp only [ZWorld.step] at h1
              split at h1
              · obtain ⟨n, _, h1⟩ := Option.map_eq_some_iff.1 h1; cases h1
              · cases h1
            | drop f => simp only [ZWorld.step] at h1; split at h1 <;> cases h1
            | eq f g => simp only [ZWorld.step] at h1; split at h1 <;> cases h1
            | header f => simp only [ZWorld.step] at h1; split at h1 <;> cases h1
            | level f => simp only [ZWorld.step] at h1; split at h1 <;> cases h1
            | label f => simp only [ZWorld.step] at h1; split at h1 <;> cases h1
            | _ => cases hwr
        · cases hs
      obtain ⟨w0, r, F⟩ := BssW.zdd_form wr hs
      exact ⟨w0, r, _, F⟩
    · cases c with
      | bdd c =>
        obtain ⟨p, _, h2⟩ := Option.map_eq_some_iff.1 hs
        cases h2
      | zdd c =>
        simp only [BssW.step] at hs
        split at hs
        · obtain ⟨p, _, h2⟩ := Option.map_eq_some_iff.1 hs
          cases h2
        · cases hs
      | minpath f =>
        obtain ⟨w0, r, F⟩ := BssW.minpath_form hs
        exact ⟨w0, r, _, F⟩
      | mincut f =>
        obtain ⟨w0, r, F⟩ := BssW.mincut_form hs
        exact ⟨w0, r, _, F⟩
      | clearCache =>
        simp only [BssW.step] at hs
        split at hs <;> cases hs
  obtain ⟨w0, r, out, F⟩ := form
  have keyZ : ∀ (w : ZWorld) (A : List String) (t : Nat), ZLab w A → ZLab (zLens.setT w t) A := fun w A t R =>
    ⟨⟨R.ok.inv, R.ok.roots, R.ok.live⟩, R.lbl, R.hs⟩
  have key : ∀ (w : BssW) (A : Abs) (t : Nat), BRel w A → BRel (bsLens.setT w t) A := fun w A t R =>
    ⟨R.bdd, keyZ _ _ t R.zdd⟩
  refine F.paced (used := bssView.used) (purged := bssView.purged) hs (fun w => ∃ A, BRel w A) ?_ ?_ ?_
    (fun _ _ => rfl) ?_
  · intro t o' w'' h
    have R := key w A t R
    generalize bsLens.setT w t = x at R h
    rcases hc with ⟨z, _, rfl, _, _⟩ | ⟨h', rfl⟩
    · simp only [BssW.step] at h
      split at h
      · rename_i hsh
        obtain ⟨p, h1, h2⟩ := Option.map_eq_some_iff.1 h
        obtain ⟨o1, z1⟩ := p
        cases h2
        exact ⟨A, R.bdd, (R.zdd.of_step (.inl hsh) h1).2.1⟩
      · cases h
    · cases c with
      | bdd c =>
        obtain ⟨p, _, h2⟩ := Option.map_eq_some_iff.1 hs
        cases h2
      | zdd c =>
        simp only [BssW.step] at hs
        split at hs
        · obtain ⟨p, _, h2⟩ := Option.map_eq_some_iff.1 hs
          cases h2
        · cases hs
      | clearCache =>
        simp only [BssW.step] at hs
        split at hs <;> cases hs
      | minpath f =>
        have h : x.minpath f = some (o', w'') := h
        cases hg : x.bdd.held.get f with
        | none => simp [BssW.minpath, hg] at h
        | some i =>
          obtain ⟨G, hG, _⟩ := R.bdd.heldS f i hg
          obtain ⟨o1, w1, c, h1, h2, h3, h4, _⟩ := R.minpath hG
          rw [h] at h1; cases h1
          exact ⟨A, h3⟩
      | mincut f =>
        have h : x.mincut f = some (o', w'') := h
        cases hg : x.bdd.held.get f with
        | none => simp [BssW.mincut, World.step, hg] at h
        | some i =>
          obtain ⟨G, hG, _⟩ := R.bdd.heldS f i hg
          obtain ⟨o1, w1, A', h1, h2, h3, h4, _⟩ := R.mincut hG
          rw [h] at h1; cases h1
          exact ⟨A', h3⟩
  · rintro w t ⟨A, R⟩
    exact ⟨A, key (bsLens.setT w t) A w.zdd.mgr.w.gc.threshold R⟩
  · rintro w ⟨A, R⟩
    exact zdd_live R.zdd.ok.inv
  · rintro w1 n e ⟨A, R⟩ hg
    exact ⟨rfl, rfl, rfl, zdd_collected R.zdd.ok hg⟩

/-- ZMDD calls that return a handle (other than `clone`), `minpath` and `mincut` with a result. -/
theorem C54_mss {w w' : MssW} (hw : w.Reachable) {c : MssCmd} {o : MssOut} (hs : w.step c = some (o, w'))
    (hc : (∃ z h, c = .zmdd z ∧ o = .zmdd (.handle h) ∧ ∀ f, z ≠ .clone f) ∨ ∃ h, o = .fam (some h)) :
    Paced mssView (fun w => w.step c) w o w' := by
  obtain ⟨A, R⟩ := hw.rel
  have sols : (∃ h, o = .fam (some h)) → ∃ top f, ∀ x : MssW, x.step c = x.sol top f := by
    rintro ⟨h, rfl⟩
    cases c with
    | mdd c =>
      obtain ⟨p, _, h2⟩ := Option.map_eq_some_iff.1 hs
      cases h2
    | zmdd c =>
      obtain ⟨p, _, h2⟩ := Option.map_eq_some_iff.1 hs
      cases h2
    | clearCache => cases hs
    | minpath f => exact ⟨false, f, fun _ => rfl⟩
    | mincut f => exact ⟨true, f, fun _ => rfl⟩
  have form : ∃ w0 r out, msLens.Form zmOps (fun w => w.step c) w w0 r out := by
    rcases hc with ⟨z, h, rfl, rfl, hcl⟩ | hf
    · have wr : ZMWorld.wraps z = true := by
        obtain ⟨p, h1, h2⟩ := Option.map_eq_some_iff.1 hs
        obtain ⟨o1, z1⟩ := p
        cases h2
        cases z with
        | intersect f g => rfl
        | setdiff f g => rfl
        | clone f => exact absurd rfl (hcl f)
        | size => cases h1
        | labels f =>
          simp only [ZMWorld.step, ZMWorld.on1] at h1
          split at h1
          · cases h1
          · obtain ⟨n, _, h1⟩ := Option.map_eq_some_iff.1 h1; cases h1
        | count ss f =>
          simp only [ZMWorld.step, ZMWorld.on1] at h1
          split at h1
          · cases h1
          · obtain ⟨n, _, h1⟩ := Option.map_eq_some_iff.1 h1; cases h1
        | extractLevel v f =>
          simp only [ZMWorld.step, ZMWorld.on1] at h1
          split at h1
          · cases h1
          · obtain ⟨n, _, h1⟩ := Option.map_eq_some_iff.1 h1; cases h1
        | _ => simp only [ZMWorld.step, ZMWorld.on1] at h1; split at h1 <;> cases h1
      obtain ⟨w0, r, F⟩ := MssW.zmdd_form wr hs
      exact ⟨w0, r, _, F⟩
    · obtain ⟨top, f, e⟩ := sols hf
      obtain ⟨h, rfl⟩ := hf
      obtain ⟨w0, r, F⟩ := MssW.sol_form (top := top) (f := f) (by rw [← e]; exact hs)
      rw [show (fun w : MssW => w.step c) = fun w => w.sol top f from funext e]
      exact ⟨w0, r, _, F⟩
  obtain ⟨w0, r, out, F⟩ := form
  have keyZ : ∀ (w : ZMWorld) (A : List (String × Nat)) (t : Nat), ZMRel w A → ZMRel (zmLens.setT w t) A :=
    fun w A t R => ⟨⟨R.ok.inv, R.ok.roots, R.ok.live⟩, R.hdr, R.hs, R.nodup, R.pos, R.vars⟩
  have key : ∀ (w : MssW) (A : List (String × Nat)) (t : Nat), MssRel w A → MssRel (msLens.setT w t) A := fun w A t R =>
    ⟨R.m, keyZ _ _ t R.z⟩
  have hck : ∀ x : MssW, x.Checked c := by
    intro x
    rcases hc with ⟨z, _, rfl, _, _⟩ | ⟨h', rfl⟩
    · trivial
    · cases c with
      | mdd c =>
        obtain ⟨p, _, h2⟩ := Option.map_eq_some_iff.1 hs
        cases h2
      | _ => trivial
  refine F.paced (used := mssView.used) (purged := mssView.purged) hs (fun w => ∃ A, MssRel w A) ?_ ?_ ?_
    (fun _ _ => rfl) ?_
  · intro t o' w'' h
    obtain ⟨A', _, R', _⟩ := (key w A t R).of_step (hck _) h
    exact ⟨A', R'⟩
  · rintro w t ⟨A, R⟩
    exact ⟨A, key (msLens.setT w t) A w.z.mgr.gc.threshold R⟩
  · rintro w ⟨A, R⟩
    exact zmdd_live R.z.ok.inv
  · rintro w1 n e ⟨A, R⟩ hg
    have hl : ∀ r ∈ w1.z.hs.held.vals.map ZNd.node, w1.z.mgr.eng.arena.Live r :=
      fun r hr => by obtain ⟨V, hV⟩ := R.z.ok.live r hr; exact hV.live
    obtain ⟨n', s', h1, h2, h3, h4, h5, _⟩ := Zmdd.gc_ok R.z.ok.inv (roots := w1.z.mgr.gc.roots.keys)
      (fun r hr _ => hl r (R.z.ok.roots.mem_keys.1 hr))
    have hg : w1.z.mgr.eng.gc w1.z.mgr.gc.roots.keys = some (n, e) := hg
    rw [hg] at h1; cases h1
    exact ⟨rfl, rfl, h3, h4, fun i => (h5 i).trans (survives_iff hl fun r => R.z.ok.roots.mem_keys)⟩

/-! ## Example sessions -/

/-- Slots in use and trigger after each call. -/
def paceTrace {W C O : Type} (V : GcView W) (step : W → C → Option (O × W)) : W → List C → List (Nat × Nat)
  | w, [] => [(V.used w, V.trigger w)]
  | w, c :: cs =>
    (V.used w, V.trigger w) :: match step w c with
      | none => []
      | some (_, w) => paceTrace V step w cs

/-- With the trigger at 7: the exclusive or fills seven slots and makes the manager collect, which frees nothing and
doubles the trigger to 14.  The majority function would go past 14: the manager collects, ten slots remain. -/
example : paceTrace bddView World.step World.new
    [.setThreshold 7, .defvar "x", .defvar "y", .xor 0 1, .drop 2, .defvar "z", .xor 1 3, .drop 4, .or 0 3, .and 0 3,
     .drop 5, .drop 6, .or 1 3, .drop 7, .not 1, .kofn 2 [0, 1, 3], .drop 1] =
    [(3, 65536), (3, 7), (4, 7), (5, 7), (7, 14), (7, 14), (8, 14), (10, 14), (10, 14), (11, 14), (12, 14), (12, 14),
     (12, 14), (13, 14), (13, 14), (13, 14), (10, 20), (10, 20)] := by decide +kernel

end DD.Props
