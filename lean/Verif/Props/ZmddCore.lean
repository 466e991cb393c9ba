import Verif.Zmdd.Reach

/-!
# Properties of the ZMDD forest

C41, C42, the ZMDD part of C52.  A node denotes a partial labelling of state vectors: `Lab m i a (some v)`
says that the vector `a` (level ↦ state, 0 at every level not on the path) is in the family of node `i`
with label `v`.
-/

set_option autoImplicit false

namespace DD.Props
open Arena

/-- The vector `a` is in the family of node `i` with label `v`. -/
def Labelled (s : Zmdd) (i : Nat) (a : Nat → Nat) (v : Int) : Prop := Lab s.arena i a (some v)

/-- Every node in use denotes what it did before. -/
def SameFamilies (s s' : Zmdd) : Prop :=
  ∀ i, s.arena.Live i → s'.arena.Live i ∧ ∀ a v, Labelled s' i a v ↔ Labelled s i a v

/-- A family is a partial labelling: at most one label per vector, vectors within the ranges. -/
theorem C42_labelling {s : Zmdd} (hs : s.Reachable) {i : Nat} (hi : s.arena.Live i) {a : Nat → Nat}
    {v w : Int} (h : Labelled s i a v) :
    (Labelled s i a w → w = v) ∧ (∀ hd ∈ s.arena.headers, a hd.level < hd.edgeNum) := by
  refine ⟨fun h' => ?_, hs.inv.wf.lab_valid h hi⟩
  have := hs.inv.wf.lab_det hi h' h
  simpa using this

/-- **C42.** Two nodes over the same headers (one per level) are identical iff they denote the same
partial labelling. -/
theorem C42_canonical {s : Zmdd} (hs : s.Reachable) (inj : s.arena.LevInj) {i j : Nat}
    (hi : s.arena.Live i) (hj : s.arena.Live j) :
    i = j ↔ ∀ a v, Labelled s i a v ↔ Labelled s j a v := by
  constructor
  · rintro rfl a v; exact Iff.rfl
  · intro h
    refine hs.inv.wf.canonZ (d := none) rfl inj hi hj ?_
    intro a t ht
    cases t with
    | none => exact absurd rfl ht
    | some v => exact h a v

theorem sameFamilies {s s' : Zmdd} (hi : s.Inv) (st : Step s.arena s'.arena) : SameFamilies s s' :=
  fun i h => ⟨(st.keep i h).1, fun _ _ => hi.wf.lab_ext st.toExt h⟩

/-- **C41, intersection.** The members of `intersect(f, g)` are the vectors carrying the same label in
both; the call succeeds, every other node keeps its family. -/
theorem C41_intersect {s : Zmdd} (hs : s.Reachable) {f g : Nat} (lf : s.arena.Live f)
    (lg : s.arena.Live g) :
    ∃ r s', s.intersect f g = some (r, s') ∧ s'.Reachable ∧ s'.arena.Live r ∧ SameFamilies s s' ∧
      ∀ a v, Labelled s' r a v ↔ Labelled s f a v ∧ Labelled s g a v := by
  have hl : ∀ i ∈ (ZmOp.intersect f g).args, s.arena.Live i := by
    simp only [ZmOp.args, List.mem_cons, List.not_mem_nil, or_false]
    rintro x (rfl | rfl) <;> assumption
  obtain ⟨r, s', h1, h2, h3, h4, h5⟩ := Zmdd.op_ok hs.inv _ hl
  exact ⟨r, s', h1, .op _ hs hl h1, h4, sameFamilies hs.inv h3, h5⟩

/-- **C41, difference.** The members of `setdiff(f, g)` are the labelled vectors of `f` that `g` does not
have with that label. -/
theorem C41_setdiff {s : Zmdd} (hs : s.Reachable) {f g : Nat} (lf : s.arena.Live f)
    (lg : s.arena.Live g) :
    ∃ r s', s.setdiff f g = some (r, s') ∧ s'.Reachable ∧ s'.arena.Live r ∧ SameFamilies s s' ∧
      ∀ a v, Labelled s' r a v ↔ Labelled s f a v ∧ ¬ Labelled s g a v := by
  have hl : ∀ i ∈ (ZmOp.setdiff f g).args, s.arena.Live i := by
    simp only [ZmOp.args, List.mem_cons, List.not_mem_nil, or_false]
    rintro x (rfl | rfl) <;> assumption
  obtain ⟨r, s', h1, h2, h3, h4, h5⟩ := Zmdd.op_ok hs.inv _ hl
  exact ⟨r, s', h1, .op _ hs hl h1, h4, sameFamilies hs.inv h3, h5⟩

/-- `set_baseline(f, v)`: the all-zero vector gets label `v` if it had none; nothing else changes. -/
theorem C46_set_baseline {s : Zmdd} (hs : s.Reachable) {f : Nat} (lf : s.arena.Live f) (v : Int) :
    ∃ r s', s.setBaseline f v = some (r, s') ∧ s'.Reachable ∧ s'.arena.Live r ∧ SameFamilies s s' ∧
      (∀ a w, a ≠ (fun _ => 0) → (Labelled s' r a w ↔ Labelled s f a w)) ∧
      (∀ u, Labelled s f (fun _ => 0) u → ∀ w, Labelled s' r (fun _ => 0) w ↔ w = u) ∧
      ((∀ u, ¬ Labelled s f (fun _ => 0) u) → ∀ w, Labelled s' r (fun _ => 0) w ↔ w = v) := by
  have hl : ∀ i ∈ (ZmOp.setBaseline f v).args, s.arena.Live i := by
    simp only [ZmOp.args, List.mem_cons, List.not_mem_nil, or_false]
    rintro x rfl; assumption
  obtain ⟨r, s', h1, h2, h3, h4, h5⟩ := Zmdd.op_ok hs.inv _ hl
  have h5' : ∀ a w, Labelled s' r a w ↔
      (Labelled s f a w ∨ (a = (fun _ => 0) ∧ w = v ∧ ∀ u, ¬ Labelled s f (fun _ => 0) u)) := h5
  refine ⟨r, s', h1, .op _ hs hl h1, h4, sameFamilies hs.inv h3, ?_, ?_, ?_⟩
  · intro a w ha
    rw [h5']
    simp [ha]
  · intro u hu w
    rw [h5']
    constructor
    · rintro (h | ⟨_, _, h⟩)
      · exact (C42_labelling hs lf hu).1 h
      · exact absurd hu (h u)
    · rintro rfl; exact .inl hu
  · intro hno w
    rw [h5']
    constructor
    · rintro (h | ⟨_, h, _⟩)
      · exact absurd h (hno w)
      · exact h
    · rintro rfl; exact .inr ⟨rfl, rfl, hno⟩

/-- Reachable from a root along child edges. -/
inductive ZKept (s : Zmdd) (roots : List Nat) : Nat → Prop
  | root {r : Nat} : r ∈ roots → ZKept s roots r
  | kid {i h c : Nat} {ch : List Nat} : ZKept s roots i → s.arena.nodes[i]? = some (.nt h ch) → c ∈ ch →
      ZKept s roots c

theorem zkept_live {s : Zmdd} (hs : s.Inv) {roots : List Nat} (hr : ∀ r ∈ roots, s.arena.Live r)
    {i : Nat} (h : ZKept s roots i) : s.arena.Live i := by
  induction h with
  | root h => exact hr _ h
  | kid _ hn hc ih =>
    obtain ⟨_, _, _, _, _, _, hk⟩ := hs.wf.nt ih hn
    exact (hk _ hc).1

/-- Collecting the ZMDD forest keeps the family of every node reachable from a root, and operations on
such nodes afterwards still compute from those families. -/
theorem C41_after_gc {s s' : Zmdd} (hs : s.Reachable) {roots : List Nat}
    (hr : ∀ r ∈ roots, s.arena.Live r) {n : Nat} (hg : s.gc roots = some (n, s')) :
    s'.Reachable ∧ (∀ i, ZKept s roots i →
      s'.arena.Live i ∧ ∀ a v, Labelled s' i a v ↔ Labelled s i a v) ∧
    ∀ f g, ZKept s roots f → ZKept s roots g →
      (∃ r t, s'.intersect f g = some (r, t) ∧
        ∀ a v, Labelled t r a v ↔ Labelled s f a v ∧ Labelled s g a v) ∧
      (∃ r t, s'.setdiff f g = some (r, t) ∧
        ∀ a v, Labelled t r a v ↔ Labelled s f a v ∧ ¬ Labelled s g a v) := by
  obtain ⟨n', s1, h1, h2, h3, h4, h5, h6, _⟩ := Zmdd.gc_ok hs.inv (roots := roots)
    (fun r hm _ => hr r hm)
  rw [hg] at h1; cases h1
  have hre : s'.Reachable := .gc roots hs (fun r hm _ => hr r hm) hg
  have keep : ∀ i, ZKept s roots i →
      s'.arena.Live i ∧ ∀ a v, Labelled s' i a v ↔ Labelled s i a v := by
    intro i hi
    have hl : s'.arena.Live i := by
      rw [h5]
      have hlive := zkept_live hs.inv hr hi
      induction hi with
      | root hm => exact .inr ⟨_, hm, hlive.1, .refl _⟩
      | @kid i h c ch hk hn hc ih =>
        have hli := zkept_live hs.inv hr hk
        rcases ih hli with hx | ⟨r, hm, hlt, hp⟩
        · exfalso
          obtain ⟨t, ht⟩ := Fixed.slots_iff (T := Option Int) i |>.1 hx
          obtain ⟨_, hn0⟩ := hs.inv.wf.fixed_live ht
          rw [hn] at hn0; cases hn0
        · exact .inr ⟨r, hm, hlt, hp.step hn hc⟩
    exact ⟨hl, fun a v => (h2.wf.lab_ext h6.toExt hl).symm⟩
  refine ⟨hre, keep, ?_⟩
  intro f g hf hg
  obtain ⟨lf, ef⟩ := keep f hf
  obtain ⟨lg, eg⟩ := keep g hg
  constructor
  · obtain ⟨r, t, k1, _, _, _, k5⟩ := C41_intersect hre lf lg
    exact ⟨r, t, k1, fun a v => by rw [k5, ef, eg]⟩
  · obtain ⟨r, t, k1, _, _, _, k5⟩ := C41_setdiff hre lf lg
    exact ⟨r, t, k1, fun a v => by rw [k5, ef, eg]⟩

/-- **C52.** No ZMDD operation overwrites a node in use. -/
theorem C52_zmdd {s s' : Zmdd} (hs : s.Reachable) (o : ZmOp) (hl : ∀ i ∈ o.args, s.arena.Live i)
    {r : Nat} (h : o.run s = some (r, s')) :
    ∀ i, s.arena.Live i → s'.arena.Live i ∧ s'.arena.nodes[i]? = s.arena.nodes[i]? := by
  obtain ⟨r', s'', h1, _, h3, _⟩ := Zmdd.op_ok hs.inv o hl
  rw [h] at h1; cases h1
  exact fun i hi => h3.keep i hi

/-- **C52.** Nor do `value` and `create_node`. -/
theorem C52_zmdd_make {s s' : Zmdd} (hs : s.Reachable) {r : Nat} :
    (∀ v, s.value v = some (r, s') →
      ∀ i, s.arena.Live i → s'.arena.Live i ∧ s'.arena.nodes[i]? = s.arena.nodes[i]?) ∧
    (∀ h ch hd, s.arena.headers[h]? = some hd → ch.length = hd.edgeNum →
      (∀ c ∈ ch, s.arena.Live c ∧ ∀ l, s.arena.level? c = some l → l < hd.level) →
      s.createNode h ch = some (r, s') →
      ∀ i, s.arena.Live i → s'.arena.Live i ∧ s'.arena.nodes[i]? = s.arena.nodes[i]?) := by
  constructor
  · intro v h
    obtain ⟨r', s'', h1, _, h3, _⟩ := Zmdd.value_raw hs.inv v
    rw [h] at h1; cases h1
    exact fun i hi => h3.keep i hi
  · intro h ch hd hh hl hk he
    obtain ⟨r', s'', h1, _, h3, _⟩ := Zmdd.createNode_ok hs.inv hh hl
      (fun c hc => ⟨(hk c hc).1, Bdd.rank_le_of_level (hk c hc).2⟩)
    rw [he] at h1; cases h1
    exact fun i hi => h3.keep i hi

/-! ## Concrete case -/

/-- Two three-state variables; labels 1 (node 1) and 2 (node 2); node 3 is `{x=1 ↦ 1, x=2 ↦ 2}`,
node 4 `{0 ↦ 1, x=2 ↦ 1}`, node 5 `{(x=1) ↦ 1, (x=2) ↦ 2, (y=1) ↦ 1, (y=1, x=2) ↦ 1}`,
node 6 `{y=1 ↦ 1, (y=1,x=2) ↦ 1, y=2 ↦ 2}`. -/
def demoZM : Option Zmdd :=
  let s := (Zmdd.new.createHeader 0 "x" 3).2
  let s := (s.createHeader 1 "y" 3).2
  (s.value 1).bind fun p =>
  (p.2.value 2).bind fun p =>
  (p.2.createNode 0 [0, 1, 2]).bind fun p =>
  (p.2.createNode 0 [1, 0, 1]).bind fun p =>
  (p.2.createNode 1 [3, 4, 0]).bind fun p =>
  (p.2.createNode 1 [0, 4, 2]).map (·.2)

/-- The operations build the nodes expected: the intersection of nodes 5 and 6 is `y=1 ↦` node 4, node 5
minus node 6 is node 3 again, and the all-zero vector gets label 7 in node 3. -/
example :
    (demoZM.bind fun s => (s.intersect 5 6).map fun p => (p.1, p.2.arena.nodes[p.1]?)) =
      some (7, some (.nt 1 [0, 4, 0])) ∧
    (demoZM.bind fun s => (s.setdiff 5 6).map (·.1)) = some 3 ∧
    (demoZM.bind fun s => (s.setBaseline 3 7).map fun p => (p.1, p.2.arena.nodes[p.1]?)) =
      some (8, some (.nt 0 [7, 1, 2])) ∧
    (demoZM.bind fun s => (s.setBaseline 4 7).map (·.1)) = some 4 := by
  decide +kernel

end DD.Props
