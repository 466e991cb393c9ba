import Verif.Wrap.Core
import Verif.Core.Gc
import Mathlib.Data.List.Basic
import Mathlib.Data.List.Perm.Subperm

/-!
# When a wrapper collects

Shared by the four managers: a call that hands out a node runs the engine, pins the result and then compares the
number of live nodes with the threshold.
-/

set_option autoImplicit false
set_option linter.unusedSectionVars false
set_option linter.unusedVariables false

namespace DD
open Arena

namespace Arena
variable {T : Type} [DecidableEq T] [Fixed T]

/-- Slots in use, counted one by one. -/
def occupied (m : Arena T) : Nat := ((List.range m.nodes.length).filter fun i => decide (i ∉ m.free)).length

theorem WF.occupied_eq {R : List Nat → Prop} {m : Arena T} (wf : WF R m) : m.liveNodeCount = m.occupied := by
  unfold liveNodeCount occupied
  have h1 := List.length_eq_length_filter_add (l := List.range m.nodes.length) (fun i => decide (i ∉ m.free))
  rw [List.length_range] at h1
  have h2 : ((List.range m.nodes.length).filter fun i => !decide (i ∉ m.free)).length = m.free.length := by
    apply Nat.le_antisymm
    · have nd : ((List.range m.nodes.length).filter fun i => !decide (i ∉ m.free)).Nodup := List.nodup_range.filter _
      refine (nd.subperm fun i hi => ?_).length_le
      have := (List.mem_filter.1 hi).2
      simpa using this
    · refine (wf.free_nodup.subperm fun i hi => ?_).length_le
      refine List.mem_filter.2 ⟨List.mem_range.2 (wf.free_lt i hi), ?_⟩
      simp [hi]
  omega

theorem WF.occupied_pos {R : List Nat → Prop} {m : Arena T} (wf : WF R m) {i : Nat} (h : i ∈ slots T) :
    0 < m.occupied := by
  obtain ⟨⟨h1, h2⟩, _⟩ := wf.slot_live h
  unfold occupied
  refine List.length_pos_iff_exists_mem.2 ⟨i, List.mem_filter.2 ⟨List.mem_range.2 h1, by simpa using h2⟩⟩

end Arena

variable {E K : Type} [DecidableEq K]

namespace Wr

/-- The same manager with another threshold (and the same floor). -/
def setT (m : Wr E K) (t : Nat) : Wr E K := { m with gc := { m.gc with threshold := t } }

/-- The manager after a collection that left the engine `e`. -/
def purge (o : EngOps E K) (m : Wr E K) (e : E) : Wr E K :=
  { eng := e, gc := { m.gc with threshold := max (o.live e * 2) m.gc.floor } }

theorem wrap_off (o : EngOps E K) (m : Wr E K) (r : K) (t : Nat) (h : o.live m.eng < t) :
    (m.setT t).wrap o (some (r, m.eng)) = some (r, (m.pin r).setT t) := by
  have : o.live m.eng < ((m.pin r).setT t).gc.threshold := h
  simp only [wrap, maybeGc]
  rw [if_pos (by exact h)]
  rfl

theorem wrap_on {o : EngOps E K} {m : Wr E K} {r r' : K} {m' : Wr E K} (t : Nat)
    (h : (m.setT t).wrap o (some (r, m.eng)) = some (r', m')) (ht : t ≤ o.live m.eng) :
    ∃ n e, o.gc m.eng (m.pin r).gc.roots.keys = some (n, e) ∧ m' = (m.pin r).purge o e := by
  simp only [wrap, maybeGc] at h
  rw [if_neg (by show ¬ o.live m.eng < t; omega)] at h
  have e0 : o.gc m.eng (m.pin r).gc.roots.keys = o.gc (({ (m.setT t) with eng := m.eng } : Wr E K).pin r).eng
    (({ (m.setT t) with eng := m.eng } : Wr E K).pin r).gc.roots.keys := rfl
  cases hg : o.gc m.eng (m.pin r).gc.roots.keys with
  | none =>
    rw [← e0, hg] at h
    cases h
  | some p =>
    obtain ⟨n, e⟩ := p
    rw [← e0, hg] at h
    cases h
    exact ⟨n, e, rfl, rfl⟩

end Wr

/-- A world that contains a wrapped manager. -/
structure Lens (W E K : Type) where
  mgr : W → Wr E K
  put : W → Wr E K → W
  mgr_put : ∀ w m, mgr (put w m) = m
  put_mgr : ∀ w, put w (mgr w) = w
  put_put : ∀ w m m', put (put w m) m' = put w m'

namespace Lens
variable {W O : Type} (L : Lens W E K)

/-- The same world with another threshold. -/
def setT (w : W) (t : Nat) : W := L.put w ((L.mgr w).setT t)

/-- `run` ends with `wrap`: `w0` is the world before it, with the new handle already given, `r` the result. -/
def Form (o : EngOps E K) (run : W → Option (O × W)) (w w0 : W) (r : K) (out : O) : Prop :=
  (L.mgr w0).gc.floor = (L.mgr w).gc.floor ∧
  ∀ t, run (L.setT w t) =
    match ((L.mgr w0).setT t).wrap o (some (r, (L.mgr w0).eng)) with
    | none => none
    | some (_, m) => some (out, L.put w0 m)

theorem setT_self (w : W) : L.setT w (L.mgr w).gc.threshold = w := by
  have : (L.mgr w).setT (L.mgr w).gc.threshold = L.mgr w := rfl
  rw [setT, this, L.put_mgr]

theorem setT_setT (w : W) (t u : Nat) : L.setT (L.setT w t) u = L.setT w u := by
  simp only [setT, L.mgr_put, L.put_put]
  rfl

variable {L} {o : EngOps E K} {run : W → Option (O × W)} {w w0 w' : W} {r : K} {out out' : O}

theorem Form.spec (F : L.Form o run w w0 r out) (h : run w = some (out', w')) :
    out' = out ∧ ∃ w1, w1 = L.put w0 ((L.mgr w0).pin r) ∧
      (∀ t, o.live (L.mgr w1).eng < t → run (L.setT w t) = some (out, L.setT w1 t)) ∧
      (L.mgr w1).gc.floor = (L.mgr w).gc.floor ∧
      (o.live (L.mgr w1).eng < (L.mgr w).gc.threshold → w' = L.setT w1 (L.mgr w).gc.threshold) ∧
      ((L.mgr w).gc.threshold ≤ o.live (L.mgr w1).eng →
        ∃ n e, o.gc (L.mgr w1).eng (L.mgr w1).gc.roots.keys = some (n, e) ∧
          w' = L.put w1 ((L.mgr w1).purge o e)) := by
  obtain ⟨hf, F⟩ := F
  have h0 := F (L.mgr w).gc.threshold
  rw [L.setT_self, h] at h0
  have off : ∀ t, o.live (L.mgr w0).eng < t →
      run (L.setT w t) = some (out, L.setT (L.put w0 ((L.mgr w0).pin r)) t) := by
    intro t ht
    rw [F t, Wr.wrap_off o _ r t ht]
    simp only [setT, L.mgr_put, L.put_put]
  cases hw : ((L.mgr w0).setT (L.mgr w).gc.threshold).wrap o (some (r, (L.mgr w0).eng)) with
  | none => rw [hw] at h0; cases h0
  | some p =>
    obtain ⟨r', m'⟩ := p
    rw [hw] at h0
    simp only [Option.some.injEq, Prod.mk.injEq] at h0
    obtain ⟨e1, e2⟩ := h0
    refine ⟨e1, _, rfl, ?_, ?_, ?_, ?_⟩
    · rw [L.mgr_put]; exact off
    · rw [L.mgr_put]; exact hf
    · rw [L.mgr_put]
      intro hlt
      have := off _ hlt
      rw [L.setT_self, h] at this
      simp only [Option.some.injEq, Prod.mk.injEq] at this
      exact this.2
    · rw [L.mgr_put]
      intro hle
      obtain ⟨n, e, h1, h2⟩ := Wr.wrap_on _ hw hle
      exact ⟨n, e, h1, by rw [e2, h2, L.put_put]⟩

end Lens
end DD

/-! ## The policy -/

namespace DD

/-- What a client can tell about automatic collections of a manager. -/
structure GcView (W : Type) where
  /-- the number of used slots at which the next collection starts -/
  trigger : W → Nat
  /-- the smallest trigger that a collection sets -/
  floor : W → Nat
  /-- number of used node slots -/
  used : W → Nat
  /-- the same world with another trigger -/
  setTrigger : W → Nat → W
  /-- the second world is the first after a collection of everything that no handle needs -/
  purged : W → W → Prop

/-- The call `run`, made in `w`, returned `o` and left `w'`.  Let `w1` be what it leaves when collections are switched
off (a trigger above the number of used slots).  If `w1` uses fewer slots than the trigger, it is the result;
otherwise the result is `w1` after a collection, with a trigger of twice the slots still used, at least the floor. -/
def Paced {W O : Type} (V : GcView W) (run : W → Option (O × W)) (w : W) (o : O) (w' : W) : Prop :=
  ∃ w1, (∀ t, V.used w1 < t → run (V.setTrigger w t) = some (o, V.setTrigger w1 t)) ∧
    (V.used w1 < V.trigger w → w' = V.setTrigger w1 (V.trigger w)) ∧
    (V.trigger w ≤ V.used w1 → V.purged w1 w' ∧ V.trigger w' = max (2 * V.used w') (V.floor w)) ∧
    V.floor w' = V.floor w ∧ V.used w' < V.trigger w'

variable {E K W O : Type} [DecidableEq K] {L : Lens W E K} {o : EngOps E K} {run : W → Option (O × W)}
  {w w0 w' : W} {r : K} {out out' : O}

/-- The view of a world through a lens. -/
def Lens.view (L : Lens W E K) (used : W → Nat) (purged : W → W → Prop) : GcView W where
  trigger w := (L.mgr w).gc.threshold
  floor w := (L.mgr w).gc.floor
  used := used
  setTrigger := L.setT
  purged := purged

theorem Lens.Form.paced (F : L.Form o run w w0 r out) (h : run w = some (out', w')) (R : W → Prop)
    (hR : ∀ t o w'', run (L.setT w t) = some (o, w'') → R w'') (hRt : ∀ w t, R (L.setT w t) → R w)
    {used : W → Nat} {purged : W → W → Prop} (hu : ∀ w, R w → o.live (L.mgr w).eng = used w ∧ 0 < used w)
    (hut : ∀ w t, used (L.setT w t) = used w)
    (hp : ∀ w1 n e, R w1 → o.gc (L.mgr w1).eng (L.mgr w1).gc.roots.keys = some (n, e) →
      purged w1 (L.put w1 ((L.mgr w1).purge o e))) :
    Paced (L.view used purged) run w out' w' := by
  obtain ⟨rfl, w1, _, h1, h2, h3, h4⟩ := F.spec h
  have R1 : R w1 := hRt _ _ (hR _ _ _ (h1 _ (Nat.lt_succ_self _)))
  have R' : R w' := hR (L.mgr w).gc.threshold out' w' (by rw [L.setT_self]; exact h)
  obtain ⟨u1, u2⟩ := hu _ R1
  obtain ⟨v1, v2⟩ := hu _ R'
  rw [u1] at h1 h3 h4
  refine ⟨w1, h1, h3, fun ht => ?_, ?_, ?_⟩
  · obtain ⟨n, e, g1, g2⟩ := h4 ht
    refine ⟨by rw [g2]; exact hp _ _ _ R1 g1, ?_⟩
    have e1 : (L.mgr w').gc.threshold = max (o.live e * 2) (L.mgr w).gc.floor := by
      rw [g2, L.mgr_put, ← h2]; rfl
    have e2 : o.live e = used w' := by
      rw [← v1, g2, L.mgr_put]; rfl
    show (L.mgr w').gc.threshold = max (2 * used w') (L.mgr w).gc.floor
    rw [e1, e2, Nat.mul_comm]
  · by_cases hlt : used w1 < (L.mgr w).gc.threshold
    · rw [h3 hlt]
      show (L.mgr (L.setT w1 _)).gc.floor = _
      simp only [Lens.setT, L.mgr_put]
      exact h2
    · obtain ⟨n, e, g1, g2⟩ := h4 (by omega)
      rw [g2]
      show (L.mgr (L.put w1 _)).gc.floor = _
      rw [L.mgr_put]
      exact h2
  · show used w' < (L.mgr w').gc.threshold
    by_cases hlt : used w1 < (L.mgr w).gc.threshold
    · rw [h3 hlt, hut]
      simp only [Lens.setT, L.mgr_put]
      exact hlt
    · obtain ⟨n, e, g1, g2⟩ := h4 (by omega)
      have : (L.mgr w').gc.threshold = max (o.live e * 2) (L.mgr w1).gc.floor := by
        rw [g2, L.mgr_put]; rfl
      have e2 : o.live e = used w' := by
        rw [← v1, g2, L.mgr_put]; rfl
      rw [this, e2]
      omega

/-- Form of a call on part of a larger world. -/
theorem Lens.Form.lift {W' O' : Type} (F : L.Form o run w w0 r out) {x : W'} {L' : Lens W' E K} {up : W → W'}
    {f : O → O'} {run' : W' → Option (O' × W')} (h1 : ∀ w, L'.mgr (up w) = L.mgr w)
    (h2 : ∀ w m, L'.put (up w) m = up (L.put w m)) (h3 : up w = x)
    (h4 : ∀ t, run' (up (L.setT w t)) = (run (L.setT w t)).map (fun p => (f p.1, up p.2))) :
    L'.Form o run' x (up w0) r (f out) := by
  subst h3
  refine ⟨by rw [h1, h1]; exact F.1, fun t => ?_⟩
  have : L'.setT (up w) t = up (L.setT w t) := by
    unfold Lens.setT
    rw [h1, h2]
  rw [this, h4, F.2 t, h1]
  cases Wr.wrap o ((L.mgr w0).setT t) (some (r, (L.mgr w0).eng)) with
  | none => rfl
  | some p => simp only [Option.map, h2]

end DD
