import Verif.Bss.KofnWork
import Verif.Bss.DualWork
import Verif.Bss.ZReads
import Verif.Mss.States
import Verif.Props.BddAnalysis
import Verif.Props.MssAnalysis

/-!
# Properties of the work done: C63, C64

The counted versions have the text of the code with counters; C63_same and C64_same say that the counters do not
change the results.
-/

set_option autoImplicit false
set_option linter.unusedSectionVars false
set_option linter.unusedVariables false

namespace DD.Props
open Arena Mtmdd2

/-! ## C63 -/

section
variable {w : World}

/-- **C63.** Leaving out the counters gives `kofn`. -/
theorem C63_same (s : Bdd) (k : Nat) (ids : List Nat) :
    (Bdd.kofnWork s k ids).map (fun p => (p.1, p.2.mgr)) = s.kofn k ids := Bdd.kofnWork_erase s k ids

theorem denoteAll_length : ∀ {fs : List Nat} {Fs : List BFun}, DenoteAll w fs Fs → Fs.length = fs.length
  | [], [], _ => rfl
  | _ :: _, _ :: _, h => by simp [denoteAll_length h.2]
  | [], _ :: _, h => h.elim
  | _ :: _, [], h => h.elim

/-- **C63.** `kofn k` over `n` nodes calls `ite` exactly `k * (n + 1 - k)` times (not at all if `k = 0` or `k > n`)
and itself twice as often, besides the first call. -/
theorem C63_kofn_work (hw : w.Reachable) (k : Nat) {fs : List Nat} {Fs : List BFun} (h : DenoteAll w fs Fs) :
    ∃ ids r s', w.nodes fs = some ids ∧ w.mgr.bdd.kofn k ids = some (r, s') ∧
      Bdd.kofnWork w.mgr.bdd k ids =
        some (r, ⟨s', 2 * (k * (fs.length + 1 - k)) + 1, k * (fs.length + 1 - k)⟩) := by
  obtain ⟨A, R⟩ := hw.rel
  obtain ⟨ids, h1, h2⟩ := R.nodes (funs_of R h)
  obtain ⟨r, s', h3, -⟩ := Bdd.kofn_den R.mok.inv k h2
  have hl : ids.length = fs.length := by
    have := h2.get.1
    rw [this, denoteAll_length h]
  have := Bdd.kofnWork_ok h3
  rw [hl] at this
  exact ⟨ids, r, s', h1, h3, this⟩

/-- **C63.** So the number of calls of `ite` is at most `k * n`. -/
theorem C63_bound (k n : Nat) : k * (n + 1 - k) ≤ k * n := by
  cases k with
  | zero => simp
  | succ k => exact Nat.mul_le_mul_left _ (by omega)

end

/-! ## C64 -/

/-- Each node of the diagram of `i` is computed exactly once; there is one call for the root and one for each
edge of the diagram. -/
structure Once {T : Type} [DecidableEq T] (m : Arena T) (i : Nat) (t : Tally) : Prop where
  nodup : t.nodes.Nodup
  mem : ∀ j, j ∈ t.nodes ↔ Reach m i j
  calls : t.calls = 1 + (t.nodes.map m.outDeg).sum

/-- The counted pass from an empty memo. -/
def passWork {T R : Type} [DecidableEq T] [Fixed T] (m : Arena T) (leaf : T → Option R)
    (comb : Nat → Nat → List (Nat × R) → Option R) (i : Nat) : Option (R × Tally) :=
  (m.memoFoldW leaf comb (m.rank i + 1) i (AMap.empty, Tally.zero)).map fun p => (p.1, p.2.2)

/-- **C64.** Leaving out the tally gives the pass, from any memo. -/
theorem C64_same {T R : Type} [DecidableEq T] [Fixed T] (m : Arena T) (leaf : T → Option R)
    (comb : Nat → Nat → List (Nat × R) → Option R) (fuel i : Nat) (c : AMap Nat R) (t : Tally) :
    (m.memoFoldW leaf comb fuel i (c, t)).map (fun p => (p.1, p.2.1)) = m.memoFold leaf comb fuel i c :=
  memoFoldW_erase m leaf comb fuel i c t

/-- **C64.** Leaving out the tally gives `dual`. -/
theorem C64_dual_same (s : Bdd) (f : Nat) : (s.dualWork f).map (fun p => (p.1, p.2.1)) = s.dual f := by
  have := Bdd.dualW_erase (s.arena.rank f + 1) (s, AMap.empty) Tally.zero f
  unfold Bdd.dualWork Bdd.dual
  rw [← this]
  cases Bdd.dualW (s.arena.rank f + 1) ((s, AMap.empty), Tally.zero) f <;> rfl

theorem passWork_once {T R : Type} [DecidableEq T] [Fixed T] {m : Arena T} {R' : List Nat → Prop} (wf : WF R' m)
    {leaf : T → Option R} {comb : Nat → Nat → List (Nat × R) → Option R} {i : Nat} (li : m.Live i) {r : R}
    (h : (m.memoFold leaf comb (m.rank i + 1) i AMap.empty).map (·.1) = some r) :
    ∃ t, passWork m leaf comb i = some (r, t) ∧ Once m i t := by
  cases e : m.memoFold leaf comb (m.rank i + 1) i AMap.empty with
  | none => rw [e] at h; cases h
  | some p =>
    rw [e] at h
    cases h
    obtain ⟨t, h1, h2, h3, h4⟩ := memoFoldW_fresh wf li e
    exact ⟨t, by simp [passWork, h1], h2, h3, h4⟩

/-- **C64.** "Once" in terms of `size`: as many computations as nodes, one more call than edges. -/
theorem C64_size {T : Type} [DecidableEq T] [Fixed T] {m : Arena T} {R' : List Nat → Prop} (wf : WF R' m) {i : Nat}
    (li : m.Live i) {t : Tally} (h : Once m i t) :
    ∃ nn nv ne, Mda.nodeSize m i = some (nn, nv, ne) ∧ t.nodes.length = nn + nv ∧ t.calls = ne + 1 := by
  obtain ⟨n, v, e, L, h1, h2, h3, h4⟩ := nodeCount_ok wf (m.rank i + 1) i [] li (by omega) ⟨by simp, by simp⟩ (by simp)
  have hp : t.nodes.Perm L := (List.perm_ext_iff_of_nodup h.nodup h2.ok.nodup).2 fun j => by
    rw [h.mem, h3]; simp
  refine ⟨n, v, e, by simp [Mda.nodeSize, h1], ?_, ?_⟩
  · rw [hp.length_eq]
    have k1 := h2.nts
    have k2 := h2.terms
    have k3 : L.length = L.countP (m.isNt ·) + L.countP (!m.isNt ·) := by
      have := List.length_eq_countP_add_countP (m.isNt ·) (l := L)
      simpa using this
    simp only [List.countP_nil, Nat.zero_add] at k1 k2
    rw [k3, k1, k2]
  · rw [h.calls, (hp.map m.outDeg).sum_nat, h2.edges]
    simp; omega

section
variable {w : World}

/-- **C64 (BDD).** `prob` computes each node of the diagram once. -/
theorem C64_bdd_prob {R : Type} [CommRing R] (hw : w.Reachable) {f : Nat} {F : BFun} (hf : w.Denotes f F)
    (pv : String → Option R) (ss : List Bool) :
    ∃ i r t, w.held.get f = some i ∧ w.bddProb pv ss f = some r ∧
      passWork w.mgr.bdd.arena (Bdd.probLeaf ss) (Bdd.probComb w.mgr.bdd.arena pv) i = some (r, t) ∧
      Once w.mgr.bdd.arena i t := by
  obtain ⟨A, r⟩ := hw.rel
  obtain ⟨i, h1, h2⟩ := denotes_get r hf
  have h3 := C14_prob hw hf (names := A.names) ((names_iff r _).2 rfl) pv ss
  have h4 := h3
  unfold World.bddProb at h4
  rw [h1] at h4
  obtain ⟨t, k1, k2⟩ := passWork_once r.mok.inv.wf h2.live h4
  exact ⟨i, _, t, h1, h3, k1, k2⟩

/-- **C64 (BDD).** `bdd_count` computes each node of the diagram once. -/
theorem C64_bdd_count (hw : w.Reachable) {f : Nat} {F : BFun} (hf : w.Denotes f F) (ss : List Bool) :
    ∃ i r t, w.held.get f = some i ∧ w.bddCount ss f = some r ∧
      passWork w.mgr.bdd.arena (Bdd.countLeaf ss) (Bdd.countComb w.mgr.bdd.arena) i = some (r, t) ∧
      Once w.mgr.bdd.arena i t := by
  obtain ⟨A, r⟩ := hw.rel
  obtain ⟨i, h1, h2⟩ := denotes_get r hf
  have h3 := Bdd.count_ok r.mok.inv r.mok.inj h2 ss
  obtain ⟨t, k1, k2⟩ := passWork_once r.mok.inv.wf h2.live h3
  exact ⟨i, _, t, h1, by unfold World.bddCount; rw [h1]; exact h3, k1, k2⟩

/-- **C64 (BDD).** `dual` computes each node of the diagram once. -/
theorem C64_bdd_dual (hw : w.Reachable) {f : Nat} {F : BFun} (hf : w.Denotes f F) :
    ∃ i r s' t, w.held.get f = some i ∧ w.mgr.bdd.dual i = some (r, s') ∧ w.mgr.bdd.dualWork i = some (r, s', t) ∧
      Once w.mgr.bdd.arena i t := by
  obtain ⟨A, R⟩ := hw.rel
  obtain ⟨i, h1, h2⟩ := denotes_get R hf
  obtain ⟨r, s', t, k1, k2, k3, k4, k5⟩ := Bdd.dualWork_ok R.mok.inv h2.live
  exact ⟨i, r, s', t, h1, k2, k1, k3, k4, k5⟩

end

section
variable {w : MWorld} {vs : List (String × Nat)}

/-- **C64 (MDD).** `prob` computes each node of the diagram once, in the forest of the node. -/
theorem C64_mdd_prob {R : Type} [CommRing R] (hw : w.Reachable) {f : Nat} (pv : String → Option (List R)) (ss : List Int)
    {r : R} (h : w.prob pv ss f = some r) :
    (∃ i t, w.hs.held.get f = some (.value i) ∧
      passWork w.mgr.w.eng.mtmdd.arena (Mda.probLeaf (selV ss)) (Mda.probComb w.mgr.w.eng.mtmdd.arena pv) i = some (r, t) ∧
      Once w.mgr.w.eng.mtmdd.arena i t) ∨
    ∃ i t, w.hs.held.get f = some (.bool i) ∧
      passWork w.mgr.w.eng.mdd.arena (Mda.probLeaf (selB ss)) (Mda.probComb w.mgr.w.eng.mdd.arena pv) i = some (r, t) ∧
      Once w.mgr.w.eng.mdd.arena i t := by
  obtain ⟨vs, R⟩ := hw.rel
  unfold MWorld.prob MWorld.query at h
  cases hx : w.hs.held.get f with
  | none => rw [hx] at h; cases h
  | some x =>
    rw [hx] at h
    obtain ⟨F, _, hF⟩ := R.has hx
    obtain ⟨y, hy, hD⟩ := hF
    rw [hx] at hy; cases hy
    cases x with
    | value i =>
      obtain ⟨t, k1, k2⟩ := passWork_once R.mok.inv.v.wf hD.live h
      exact .inl ⟨i, t, rfl, k1, k2⟩
    | bool i =>
      obtain ⟨t, k1, k2⟩ := passWork_once R.mok.inv.b.wf hD.live h
      exact .inr ⟨i, t, rfl, k1, k2⟩

end

/-- **C64 (ZDD).** `count` computes each node of the diagram once. -/
theorem C64_zdd_count {w : ZWorld} (hw : w.Reachable) {h i : Nat} (hi : w.hs.held.get h = some i) (ss : List Bool) :
    ∃ r t, w.count ss h = some r ∧
      passWork w.mgr.w.eng.arena (fun t => some (if Zdd.acc ss t then 1 else 0)) Zdd.zcountComb i = some (r, t) ∧
      Once w.mgr.w.eng.arena i t := by
  obtain ⟨names, R⟩ := hw.rel
  obtain ⟨F, hF, _⟩ := R.has hi
  obtain ⟨n, os, h1, -, -⟩ := Zdd.zcount_ok R.mok.ok.inv R.lbl hF.live ss
  obtain ⟨t, k1, k2⟩ := passWork_once R.mok.ok.inv.wf hF.live h1
  exact ⟨n, t, by unfold ZWorld.count; rw [hi]; exact h1, k1, k2⟩

/-- **C64 (ZMDD).** `count` computes each node of the diagram once. -/
theorem C64_zmdd_count {w : MssW} (hw : w.Reachable) {h : Nat} {z : ZNd} (hz : w.z.hs.held.get h = some z)
    (ss : List Int) :
    ∃ r t, w.step (.zmdd (.count ss h)) = some (.zmdd (.nat r), w) ∧
      passWork w.z.mgr.eng.arena (Zma.countLeaf ss) (fun _ _ rs => some (rs.map (·.2)).sum) z.node = some (r, t) ∧
      Once w.z.mgr.eng.arena z.node t := by
  obtain ⟨vs, R⟩ := hw.rel
  have hl : w.z.mgr.eng.arena.Live z.node := by
    obtain ⟨V, hV⟩ := R.z.ok.live z.node (List.mem_map_of_mem (AMap.mem_vals_of_get hz))
    exact hV.live
  obtain ⟨n, ds, h1, -, -⟩ := Zma.count_ok R.z.ok.inv.wf hl ss
  obtain ⟨t, k1, k2⟩ := passWork_once R.z.ok.inv.wf hl h1
  refine ⟨n, t, ?_, k1, k2⟩
  simp [MssW.step, ZMWorld.step, ZMWorld.on1, hz, h1]

/-! ## Concrete cases

3 out of 5 variables: 9 calls of `ite`, 19 calls of `kofn_rec`; without the memo there are 19 and 39.  The
diagram has 9 non-terminals and 2 terminals; `dual` and `prob` make 19 calls. -/

/-- The session. -/
def fiveCmds : List Cmd := [.defvar "a", .defvar "b", .defvar "c", .defvar "d", .defvar "e", .kofn 3 [0, 1, 2, 3, 4]]

example : (World.new.run fiveCmds).bind (fun p => (p.2.nodes [4, 3, 2, 1, 0]).bind (fun ids =>
    (Bdd.kofnWork p.2.mgr.bdd 3 ids).map (fun q => (q.2.calls, q.2.ites)))) = some (19, 9) := by
  decide +kernel

example : (World.new.run fiveCmds).bind (fun p => p.2.bddSize 5) = some (9, 2, 18) ∧
    (World.new.run fiveCmds).bind (fun p => (p.2.held.get 5).bind (fun i =>
      (p.2.mgr.bdd.dualWork i).map (fun q => (q.2.2.nodes.length, q.2.2.calls)))) = some (11, 19) ∧
    (World.new.run fiveCmds).bind (fun p => (p.2.held.get 5).bind (fun i =>
      (passWork p.2.mgr.bdd.arena (Bdd.probLeaf (R := ℚ) [true]) (Bdd.probComb p.2.mgr.bdd.arena (fun _ => some (1/2))) i).map
        (fun q => (q.1, q.2.nodes.length, q.2.calls)))) = some (1/2, 11, 19) := by
  decide +kernel

end DD.Props
