import Verif.Mss.States
import Verif.Props.MssSession

/-!
# Properties of `MssMgr` and its family handles: C07, C41, C43-C47, C49, C55

`vs` lists the variables with their numbers of states, by level.  A state vector gives a state to each level
(`IsVec`).  A structure function is a handle of the MDD manager with a determined value everywhere
(`StructureFn`).  Families of labelled state vectors are handles of the ZMDD manager (`FamHas`).
-/

set_option autoImplicit false
set_option linter.unusedSectionVars false
set_option linter.unusedVariables false

namespace DD.Props
open Arena Zmdd

variable {w : MssW} {vs : List (String × Nat)}

/-- Handle `f` reads as `φ`: its value at every state vector is determined (a Boolean counts as 0 or 1). -/
def StructureFn (w : MWorld) (vs : List (String × Nat)) (f : Nat) (φ : (Nat → Nat) → Int) : Prop :=
  ∃ F, w.Has f F ∧ ∀ a, IsVec vs a → (F a).num = some (φ a)

/-- Family handle `h` holds the state vector `a` with label `v`: the diagram has a path labelled `v` whose
distances from the baseline (state 0; for cut families the last state) are those of `a`. -/
def FamHas (w : ZMWorld) (h : Nat) (a : Nat → Nat) (v : Int) : Prop :=
  ∃ z d, w.hs.held.get h = some z ∧ Lab w.mgr.eng.arena z.node d (some v) ∧ a = stVec z.vars z.reverse d

/-- What `vars` and `is_cut` report for a family handle. -/
def FamKind (w : ZMWorld) (h : Nat) (vs : List (String × Nat)) (cut : Bool) : Prop :=
  w.step (.vars h) = some (.vars vs, w) ∧ w.step (.isCut h) = some (.bool cut, w)

/-- The vectors of value `v`. -/
def Stratum (vs : List (String × Nat)) (φ : (Nat → Nat) → Int) (v : Int) (a : Nat → Nat) : Prop :=
  IsVec vs a ∧ φ a = v

/-- The minimal path vectors of `φ`, each labelled by its value. -/
def PathFamily (w : ZMWorld) (h : Nat) (vs : List (String × Nat)) (φ : (Nat → Nat) → Int) : Prop :=
  FamKind w h vs false ∧ ∀ a v, FamHas w h a v ↔ MinIn (Stratum vs φ v) a

/-- The maximal cut vectors of `φ`, each labelled by its value. -/
def CutFamily (w : ZMWorld) (h : Nat) (vs : List (String × Nat)) (φ : (Nat → Nat) → Int) : Prop :=
  FamKind w h vs true ∧ ∀ a v, FamHas w h a v ↔ MaxIn (Stratum vs φ v) a

/-- The map `o` is the state vector `a`, with an entry for every variable. -/
def IsMap (vs : List (String × Nat)) (a : Nat → Nat) (o : AMap String Nat) : Prop :=
  o.NodupKeys ∧ ∀ x k, o.get x = some k ↔ ∃ l s, vs[l]? = some (x, s) ∧ k = a l

/-- `os` lists exactly the vectors of `A`, each once. -/
def ListsVec (vs : List (String × Nat)) (os : List (AMap String Nat)) (A : (Nat → Nat) → Prop) : Prop :=
  ∃ as : List (Nat → Nat), as.Nodup ∧ List.Forall₂ (IsMap vs) as os ∧ ∀ a, a ∈ as ↔ A a

/-! ## Helpers -/

theorem mssrel (hw : w.Reachable) (hv : MVars w.mdd vs) : MssRel w vs := by
  obtain ⟨vs', R⟩ := hw.rel
  have := mkH_inj (hv.symm.trans R.m.mok.hdrs)
  subst this
  exact R

theorem famHas_iff {h : Nat} {z : ZNd} {P : ZFam} (hz : w.z.Has h z P) {a : Nat → Nat} {v : Int} :
    FamHas w.z h a v ↔ ∃ d, P d v ∧ a = stVec z.vars z.reverse d := by
  constructor
  · rintro ⟨z', d, h1, h2, h3⟩
    rw [hz.1] at h1; cases h1
    exact ⟨d, (hz.2.val d v).1 h2, h3⟩
  · rintro ⟨d, h1, h2⟩
    exact ⟨z, d, hz.1, (hz.2.val d v).2 h1, h2⟩

theorem famKind_iff {w : ZMWorld} {h : Nat} {z : ZNd} (hz : w.hs.held.get h = some z) {vs : List (String × Nat)}
    {cut : Bool} : FamKind w h vs cut ↔ z.vars = vs ∧ z.reverse = cut := by
  unfold FamKind
  simp [ZMWorld.step, ZMWorld.on1, hz]

theorem famKind_held {w : ZMWorld} {h : Nat} {vs : List (String × Nat)} {cut : Bool} (hk : FamKind w h vs cut) :
    ∃ z, w.hs.held.get h = some z ∧ z.vars = vs ∧ z.reverse = cut := by
  cases hz : w.hs.held.get h with
  | none =>
    have := hk.1
    simp [ZMWorld.step, ZMWorld.on1, hz] at this
  | some z => exact ⟨z, rfl, (famKind_iff hz).1 hk⟩

theorem structureFn_den (R : MssRel w vs) {f : Nat} {φ : (Nat → Nat) → Int} (hf : StructureFn w.mdd vs f φ) :
    ∃ F, w.mdd.Has f F ∧ ∀ a, ValidV vs a → (F a).num = some (φ (trunc vs a)) := by
  obtain ⟨F, ⟨x, hx, hd⟩, h⟩ := hf
  refine ⟨F, ⟨x, hx, hd⟩, fun a ha => ?_⟩
  rw [← hd.depends R.m.mok.inv R.m.mok.hdrs ha]
  exact h _ (trunc_vec ha)

/-- The result of `minpath`/`mincut` on a structure function. -/
theorem sol_spec (R : MssRel w vs) (h2 : ∀ p ∈ vs, 2 ≤ p.2) {f : Nat} {φ : (Nat → Nat) → Int}
    (hf : StructureFn w.mdd vs f φ) (top : Bool) :
    ∃ o w', w.sol top f = some (.fam o, w') ∧ (o = none ↔ ¬ MonoS vs φ) ∧
      (∀ h, o = some h → h = w.z.hs.next ∧ FamKind w'.z h vs top ∧ ∀ a v, FamHas w'.z h a v ↔
        if top then MaxIn (Stratum vs φ v) a else MinIn (Stratum vs φ v) a) := by
  obtain ⟨F, hF, hφ⟩ := structureFn_den R hf
  obtain ⟨o, w', k1, _, k2, _, k3, k4, k5, k6⟩ := R.sol h2 top hF
  obtain ⟨g1, g2⟩ := k6 _ hφ
  refine ⟨o, w', k1, g1.trans (not_congr monoS_iff), fun h e => ⟨k5 h e, ?_⟩⟩
  obtain ⟨r, hr⟩ := g2 h e
  refine ⟨(famKind_iff hr.1).2 ⟨rfl, rfl⟩, fun a v => (famHas_iff hr).trans ?_⟩
  cases top with
  | false =>
    simp only [Bool.false_eq_true, if_false]
    constructor
    · rintro ⟨d, h1, rfl⟩
      have := extreme_false.1 h1
      show MinIn _ (stVec vs false d)
      rw [stVec_false this.1.1]
      exact this
    · intro ha
      refine ⟨a, extreme_false.2 ha, ?_⟩
      show a = stVec vs false a
      rw [stVec_false ha.1.1]
  | true =>
    simp only [if_true]
    constructor
    · rintro ⟨d, h1, rfl⟩
      exact (extreme_true.1 h1).2
    · intro ha
      have hv : IsVec vs (stVec vs true a) := stVec_vec ha.1.1
      refine ⟨stVec vs true a, extreme_true.2 ⟨hv, ?_⟩, (stVec_invol ha.1.1).symm⟩
      rw [stVec_invol ha.1.1]
      exact ha

theorem two_states (R : MssRel w vs) {top : Bool} {f : Nat} {q : MssOut × MssW} (h : w.sol top f = some q) :
    ∀ p ∈ vs, 2 ≤ p.2 := by
  intro p hp
  refine Nat.not_lt.1 fun hlt => ?_
  have := MssRel.pos R.m p hp
  obtain ⟨x, s⟩ := p
  obtain rfl : s = 1 := by simp only at *; omega
  rw [R.sol_panics hp] at h
  cases h

/-- Every reachable world has its list of variables. -/
theorem mssvars_exists (hw : w.Reachable) : ∃ vs, MVars w.mdd vs ∧ (vs.map Prod.fst).Nodup ∧ ∀ p ∈ vs, 0 < p.2 :=
  mvars_exists hw.mdd

/-! ## C43, C44 -/

/-- **C43** for variables of at least two states.  `minpath` of a structure function answers `None` iff the
function is not monotone; otherwise it returns a new handle holding exactly the minimal state vectors of every
value, each labelled with its value. -/
theorem C43_minpath_partial (hw : w.Reachable) (hv : MVars w.mdd vs) (h2 : ∀ p ∈ vs, 2 ≤ p.2) {f : Nat}
    {φ : (Nat → Nat) → Int} (hf : StructureFn w.mdd vs f φ) :
    ∃ o w', w.step (.minpath f) = some (.fam o, w') ∧ w'.Reachable ∧ (o = none ↔ ¬ MonoS vs φ) ∧
      ∀ h, o = some h → w.z.hs.held.get h = none ∧ PathFamily w'.z h vs φ := by
  have R := mssrel hw hv
  obtain ⟨o, w', k1, k2, k3⟩ := sol_spec R h2 hf false
  refine ⟨o, w', k1, .step (.minpath f) hw trivial k1, k2, fun h e => ?_⟩
  obtain ⟨rfl, g2, g3⟩ := k3 h e
  exact ⟨R.z.hs.notin, g2, g3⟩

/-- **C44** for variables of at least two states. -/
theorem C44_mincut_partial (hw : w.Reachable) (hv : MVars w.mdd vs) (h2 : ∀ p ∈ vs, 2 ≤ p.2) {f : Nat}
    {φ : (Nat → Nat) → Int} (hf : StructureFn w.mdd vs f φ) :
    ∃ o w', w.step (.mincut f) = some (.fam o, w') ∧ w'.Reachable ∧ (o = none ↔ ¬ MonoS vs φ) ∧
      ∀ h, o = some h → w.z.hs.held.get h = none ∧ CutFamily w'.z h vs φ := by
  have R := mssrel hw hv
  obtain ⟨o, w', k1, k2, k3⟩ := sol_spec R h2 hf true
  refine ⟨o, w', k1, .step (.mincut f) hw trivial k1, k2, fun h e => ?_⟩
  obtain ⟨rfl, g2, g3⟩ := k3 h e
  exact ⟨R.z.hs.notin, g2, g3⟩

/-- **C43, C44** fail for a variable of one state: both calls panic, whatever the function. -/
theorem C43_one_state_panics (hw : w.Reachable) (hv : MVars w.mdd vs) {x : String} (h1 : (x, 1) ∈ vs) (f : Nat) :
    w.step (.minpath f) = none ∧ w.step (.mincut f) = none :=
  ⟨(mssrel hw hv).sol_panics h1 false f, (mssrel hw hv).sol_panics h1 true f⟩

/-- **C43.** Whenever `minpath` of a structure function returns, whatever the ranges, its answer is right. -/
theorem C43_returned (hw : w.Reachable) (hv : MVars w.mdd vs) {f : Nat} {φ : (Nat → Nat) → Int}
    (hf : StructureFn w.mdd vs f φ) {o : MssOut} {w' : MssW} (hs : w.step (.minpath f) = some (o, w')) :
    (o = .fam none ∧ ¬ MonoS vs φ) ∨ ∃ h, o = .fam (some h) ∧ MonoS vs φ ∧ PathFamily w'.z h vs φ := by
  have h2 := two_states (mssrel hw hv) (top := false) hs
  obtain ⟨o', w1, k1, _, k2, k3⟩ := C43_minpath_partial hw hv h2 hf
  rw [hs] at k1; cases k1
  cases o' with
  | none => exact Or.inl ⟨rfl, k2.1 rfl⟩
  | some h => exact Or.inr ⟨h, rfl, Classical.byContradiction fun hn => (by cases k2.2 hn), (k3 h rfl).2⟩

/-- **C44.** Whenever `mincut` of a structure function returns, whatever the ranges, its answer is right. -/
theorem C44_returned (hw : w.Reachable) (hv : MVars w.mdd vs) {f : Nat} {φ : (Nat → Nat) → Int}
    (hf : StructureFn w.mdd vs f φ) {o : MssOut} {w' : MssW} (hs : w.step (.mincut f) = some (o, w')) :
    (o = .fam none ∧ ¬ MonoS vs φ) ∨ ∃ h, o = .fam (some h) ∧ MonoS vs φ ∧ CutFamily w'.z h vs φ := by
  have h2 := two_states (mssrel hw hv) (top := true) hs
  obtain ⟨o', w1, k1, _, k2, k3⟩ := C44_mincut_partial hw hv h2 hf
  rw [hs] at k1; cases k1
  cases o' with
  | none => exact Or.inl ⟨rfl, k2.1 rfl⟩
  | some h => exact Or.inr ⟨h, rfl, Classical.byContradiction fun hn => (by cases k2.2 hn), (k3 h rfl).2⟩

/-- **C43, C44.** A call keeps the contents of every family handle that it does not drop (also across
collections, later variables and later families). -/
theorem C43_kept (hw : w.Reachable) {c : MssCmd} (hc : w.Checked c) {o : MssOut} {w' : MssW}
    (hs : w.step c = some (o, w')) {h : Nat} {z : ZNd} (hz : w.z.hs.held.get h = some z) (hd : c ≠ .zmdd (.drop h)) :
    (∀ a v, FamHas w'.z h a v ↔ FamHas w.z h a v) ∧ ∀ vs cut, FamKind w'.z h vs cut ↔ FamKind w.z h vs cut := by
  obtain ⟨vs, R⟩ := hw.rel
  obtain ⟨vs', _, R', _, keep⟩ := R.of_step hc hs
  obtain ⟨P, hP⟩ := R.z.held hz
  have hP' := keep h z P hP hd
  exact ⟨fun a v => (famHas_iff hP').trans (famHas_iff hP).symm, fun vs cut => by
    rw [famKind_iff hP'.1, famKind_iff hP.1]⟩

/-! ## C46 -/

/-- **C46.** In a result of `minpath` the all-0 vector has the label `φ(0)` and no other; in a result of
`mincut` the vector of last states has the label `φ(last)` and no other. -/
theorem C46_baseline (hw : w.Reachable) (hv : MVars w.mdd vs) {f : Nat} {φ : (Nat → Nat) → Int}
    (hf : StructureFn w.mdd vs f φ) {w' : MssW} {h : Nat} :
    (w.step (.minpath f) = some (.fam (some h), w') →
      ∀ v, FamHas w'.z h (fun _ => 0) v ↔ v = φ (fun _ => 0)) ∧
    (w.step (.mincut f) = some (.fam (some h), w') →
      ∀ v, FamHas w'.z h (lastV vs) v ↔ v = φ (lastV vs)) := by
  have R := mssrel hw hv
  have hz : IsVec vs (fun _ => 0) := ⟨R.zero, fun _ _ => rfl⟩
  have hl : IsVec vs (lastV vs) := by
    have := stVec_vec (rev := true) hz
    rw [stVec_true] at this
    exact this
  constructor
  · intro hs v
    rcases C43_returned hw hv hf hs with ⟨e, _⟩ | ⟨h', e, _, _, k⟩
    · cases e
    · cases e
      rw [k]
      constructor
      · intro hm; exact hm.1.2.symm
      · rintro rfl
        exact ⟨⟨hz, rfl⟩, fun b _ hle => funext fun l => Nat.le_zero.1 (hle l)⟩
  · intro hs v
    rcases C44_returned hw hv hf hs with ⟨e, _⟩ | ⟨h', e, _, _, k⟩
    · cases e
    · cases e
      rw [k]
      constructor
      · intro hm; exact hm.1.2.symm
      · rintro rfl
        exact ⟨⟨hl, rfl⟩, fun b hb hle => funext fun l => Nat.le_antisymm (hb.1.le_last l) (hle l)⟩

/-! ## C41 -/

/-- The state vector at distance `d` from the baseline: the all-0 vector for path families, the vector of last
states for cut families. -/
def atDistance (vars : List (String × Nat)) (cut : Bool) (d : Nat → Nat) : Nat → Nat :=
  fun l => if cut then lastV vars l - d l else d l

theorem atDistance_eq {vars : List (String × Nat)} {d : Nat → Nat} (hd : IsVec vars d) (cut : Bool) :
    atDistance vars cut d = stVec vars cut d := by
  cases cut with
  | false => rw [stVec_false hd]; rfl
  | true => rw [stVec_true]; rfl

theorem famHas_at {w : MssW} {vs : List (String × Nat)} (R : ZMRel w.z vs) {h : Nat} {z : ZNd} {P : ZFam}
    (hz : w.z.Has h z P) {d : Nat → Nat} (hd : IsVec z.vars d) {v : Int} :
    FamHas w.z h (atDistance z.vars z.reverse d) v ↔ P d v := by
  rw [famHas_iff hz, atDistance_eq hd]
  constructor
  · rintro ⟨d', h1, e⟩
    rw [stVec_inj hd (R.member hz h1) e]; exact h1
  · intro h1; exact ⟨d, h1, rfl⟩

/-- **C41 (what is returned).** For any two families `intersect` and `setdiff` return a new handle of the first one's
kind that holds the labelled vectors of the first family whose distances from its baseline belong, in the second
family and counted from that one's baseline, to a vector with the same label, or do not. -/
theorem C41_handles_exact (hw : w.Reachable) {f g : Nat} {vars vars' : List (String × Nat)} {cut cut' : Bool}
    (hf : FamKind w.z f vars cut) (hg : FamKind w.z g vars' cut') :
    (∃ h w', w.step (.zmdd (.intersect f g)) = some (.zmdd (.handle h), w') ∧ FamKind w'.z h vars cut ∧
      (∀ a v, FamHas w'.z h a v → IsVec vars a) ∧
      ∀ d, IsVec vars d → ∀ v, FamHas w'.z h (atDistance vars cut d) v ↔ FamHas w.z f (atDistance vars cut d) v ∧
        IsVec vars' d ∧ FamHas w.z g (atDistance vars' cut' d) v) ∧
    ∃ h w', w.step (.zmdd (.setdiff f g)) = some (.zmdd (.handle h), w') ∧ FamKind w'.z h vars cut ∧
      (∀ a v, FamHas w'.z h a v → IsVec vars a) ∧
      ∀ d, IsVec vars d → ∀ v, FamHas w'.z h (atDistance vars cut d) v ↔ FamHas w.z f (atDistance vars cut d) v ∧
        ¬ (IsVec vars' d ∧ FamHas w.z g (atDistance vars' cut' d) v) := by
  obtain ⟨vs, R⟩ := hw.rel
  obtain ⟨zf, hzf, rfl, rfl⟩ := famKind_held hf
  obtain ⟨zg, hzg, rfl, rfl⟩ := famKind_held hg
  obtain ⟨F, hF⟩ := R.z.held hzf
  obtain ⟨G, hG⟩ := R.z.held hzg
  have hg' : ∀ {d : Nat → Nat} {v : Int}, G d v ↔
      IsVec zg.vars d ∧ FamHas w.z g (atDistance zg.vars zg.reverse d) v := by
    intro d v
    constructor
    · intro h; exact ⟨R.z.member hG h, (famHas_at R.z hG (R.z.member hG h)).2 h⟩
    · rintro ⟨h1, h2⟩; exact (famHas_at R.z hG h1).1 h2
  have key : ∀ {C : Prop → Prop → Prop} {w' : ZMWorld} {r : Nat} {vs' : List (String × Nat)}, ZMRel w' vs' →
      (∀ p q, C p q → p) →
      w'.Has w.z.hs.next { zf with node := r } (fun a v => C (F a v) (G a v)) →
      FamKind w' w.z.hs.next zf.vars zf.reverse ∧ (∀ a v, FamHas w' w.z.hs.next a v → IsVec zf.vars a) ∧
      ∀ d, IsVec zf.vars d → ∀ v, FamHas w' w.z.hs.next (atDistance zf.vars zf.reverse d) v ↔
        C (FamHas w.z f (atDistance zf.vars zf.reverse d) v)
          (IsVec zg.vars d ∧ FamHas w.z g (atDistance zg.vars zg.reverse d) v) := by
    intro C w' r vs' R' hC h3
    refine ⟨(famKind_iff h3.1).2 ⟨rfl, rfl⟩, fun a v ha => ?_, fun d hd v => ?_⟩
    · obtain ⟨d, h4, rfl⟩ := (famHas_iff (w := { w with z := w' }) h3).1 ha
      exact stVec_vec (R.z.member hF (hC _ _ h4))
    · rw [famHas_at (w := { w with z := w' }) R' h3 hd, famHas_at R.z hF hd, hg']
  constructor
  · obtain ⟨w', r, h1, h2, h3, _⟩ := R.z.op2 (C := And) (fun p q h => h.1)
      (fun s f g hs lf lg => Zmdd.intersect_ok hs lf lg) hF hG
    exact ⟨_, { w with z := w' }, by simp only [MssW.step, ZMWorld.step, h1, Option.map_some],
      key h2 (fun _ _ h => h.1) h3⟩
  · obtain ⟨w', r, h1, h2, h3, _⟩ := R.z.op2 (C := fun p q => p ∧ ¬ q) (fun p q h => h.1)
      (fun s f g hs lf lg => Zmdd.setdiff_ok hs lf lg) hF hG
    exact ⟨_, { w with z := w' }, by simp only [MssW.step, ZMWorld.step, h1, Option.map_some],
      key (C := fun p q => p ∧ ¬ q) h2 (fun _ _ h => h.1) h3⟩

theorem famHas_vec (hw : w.Reachable) {f : Nat} {vars : List (String × Nat)} {cut : Bool}
    (hf : FamKind w.z f vars cut) {a : Nat → Nat} {v : Int} (ha : FamHas w.z f a v) : IsVec vars a := by
  obtain ⟨vs, R⟩ := hw.rel
  obtain ⟨zf, hzf, rfl, rfl⟩ := famKind_held hf
  obtain ⟨F, hF⟩ := R.z.held hzf
  obtain ⟨d, h1, rfl⟩ := (famHas_iff hF).1 ha
  exact stVec_vec (R.z.member hF h1)

/-- **C41** for two path families, or two cut families over the same variables: `intersect` and `setdiff` return a
new handle holding exactly the labelled vectors in both, or in the first and not in the second.  Missing: families
of different kinds and cut families over different variables (`C41_violated`; what is returned for these is in
`C41_handles_exact`). -/
theorem C41_handles_partial (hw : w.Reachable) {f g : Nat} {vars vars' : List (String × Nat)} {cut : Bool}
    (hf : FamKind w.z f vars cut) (hg : FamKind w.z g vars' cut) (hv : cut = true → vars = vars') :
    (∃ h w', w.step (.zmdd (.intersect f g)) = some (.zmdd (.handle h), w') ∧ FamKind w'.z h vars cut ∧
      ∀ a v, FamHas w'.z h a v ↔ FamHas w.z f a v ∧ FamHas w.z g a v) ∧
    ∃ h w', w.step (.zmdd (.setdiff f g)) = some (.zmdd (.handle h), w') ∧ FamKind w'.z h vars cut ∧
      ∀ a v, FamHas w'.z h a v ↔ FamHas w.z f a v ∧ ¬ FamHas w.z g a v := by
  have same : ∀ a, IsVec vars a → ∃ d, IsVec vars d ∧ a = atDistance vars cut d ∧ a = atDistance vars' cut d ∧
      (IsVec vars' a → IsVec vars' d) := by
    intro a ha
    refine ⟨stVec vars cut a, stVec_vec ha, ?_, ?_, ?_⟩
    · rw [atDistance_eq (stVec_vec ha), stVec_invol ha]
    · cases cut with
      | false => rw [stVec_false ha]; rfl
      | true =>
        have := hv rfl
        subst this
        rw [atDistance_eq (stVec_vec ha), stVec_invol ha]
    · intro h
      cases cut with
      | false => rw [stVec_false ha]; exact h
      | true =>
        have := hv rfl
        subst this
        exact stVec_vec ha
  obtain ⟨⟨h, w', h1, h2, h3, h4⟩, h', w'', k1, k2, k3, k4⟩ := C41_handles_exact hw hf hg
  refine ⟨⟨h, w', h1, h2, fun a v => ?_⟩, h', w'', k1, k2, fun a v => ?_⟩
  · by_cases ha : IsVec vars a
    · obtain ⟨d, hd, e1, e2, e3⟩ := same a ha
      have := h4 d hd v
      rw [← e1, ← e2] at this
      rw [this]
      exact ⟨fun h => ⟨h.1, h.2.2⟩, fun h => ⟨h.1, e3 (famHas_vec hw hg h.2), h.2⟩⟩
    · exact iff_of_false (fun h => ha (h3 a v h)) (fun h => ha (famHas_vec hw hf h.1))
  · by_cases ha : IsVec vars a
    · obtain ⟨d, hd, e1, e2, e3⟩ := same a ha
      have := k4 d hd v
      rw [← e1, ← e2] at this
      rw [this]
      exact ⟨fun h => ⟨h.1, fun hg' => h.2 ⟨e3 (famHas_vec hw hg hg'), hg'⟩⟩, fun h => ⟨h.1, fun hg' => h.2 hg'.2⟩⟩
    · exact iff_of_false (fun h => ha (k3 a v h)) (fun h => ha (famHas_vec hw hf h.1))

/-! ## C47 -/

/-- **C47.** `labels` lists, in increasing order and once each, exactly the labels that occur. -/
theorem C47_labels (hw : w.Reachable) {h : Nat} {z : ZNd} (hz : w.z.hs.held.get h = some z) :
    ∃ ls, w.step (.zmdd (.labels h)) = some (.zmdd (.labels ls), w) ∧ ls.Pairwise (· < ·) ∧
      ∀ v, v ∈ ls ↔ ∃ a, FamHas w.z h a v := by
  obtain ⟨vs, R⟩ := hw.rel
  obtain ⟨o, w', h1, h2, _⟩ := R.z.step (.labels h) (by
    intro f hf
    simp only [ZMRel.operands, List.mem_singleton] at hf
    subst hf; exact ⟨z, hz⟩)
  obtain ⟨rfl, z', P, ls, hP, rfl, g1, g2⟩ := h2
  refine ⟨ls, by simp only [MssW.step, h1, Option.map_some], g1, fun v => (g2 v).trans ?_⟩
  constructor
  · rintro ⟨d, hd⟩; exact ⟨_, (famHas_iff hP).2 ⟨d, hd, rfl⟩⟩
  · rintro ⟨a, ha⟩
    obtain ⟨d, hd, _⟩ := (famHas_iff hP).1 ha
    exact ⟨d, hd⟩

/-- **C47.** `count(ss)` is the number of vectors whose label is in `ss`. -/
theorem C47_count (hw : w.Reachable) {h : Nat} {z : ZNd} (hz : w.z.hs.held.get h = some z) (ss : List Int) :
    ∃ as : List (Nat → Nat), w.step (.zmdd (.count ss h)) = some (.zmdd (.nat as.length), w) ∧ as.Nodup ∧
      ∀ a, a ∈ as ↔ ∃ v ∈ ss, FamHas w.z h a v := by
  obtain ⟨vs, R⟩ := hw.rel
  obtain ⟨o, w', h1, h2, _⟩ := R.z.step (.count ss h) (by
    intro f hf
    simp only [ZMRel.operands, List.mem_singleton] at hf
    subst hf; exact ⟨z, hz⟩)
  obtain ⟨rfl, z', P, ds, hP, rfl, g1, g2⟩ := h2
  refine ⟨ds.map (stVec z'.vars z'.reverse), ?_, ?_, fun a => ?_⟩
  · rw [List.length_map]
    simp only [MssW.step, h1, Option.map_some]
  · refine g1.map_on fun d hd d' hd' e => ?_
    obtain ⟨_, _, h3⟩ := (g2 d).1 hd
    obtain ⟨_, _, h4⟩ := (g2 d').1 hd'
    exact stVec_inj (R.z.member hP h3) (R.z.member hP h4) e
  · rw [List.mem_map]
    constructor
    · rintro ⟨d, hd, rfl⟩
      obtain ⟨v, hv, h3⟩ := (g2 d).1 hd
      exact ⟨v, hv, (famHas_iff hP).2 ⟨d, h3, rfl⟩⟩
    · rintro ⟨v, hv, ha⟩
      obtain ⟨d, hd, rfl⟩ := (famHas_iff hP).1 ha
      exact ⟨d, (g2 d).2 ⟨v, hv, hd⟩, rfl⟩

/-! ## C49 -/

theorem listsVec_of (R : MssRel w vs) {h : Nat} {z : ZNd} {P : ZFam} (hP : w.z.Has h z P) {ds : List (Nat → Nat)}
    {os : List (AMap String Nat)} (nd : ds.Nodup) (hm : ∀ d ∈ ds, ∃ v, P d v)
    (hr : List.Forall₂ (Zma.Rep z.vars z.reverse) ds os) :
    ListsVec z.vars os (fun a => ∃ d ∈ ds, a = stVec z.vars z.reverse d) := by
  refine ⟨ds.map (stVec z.vars z.reverse), ?_, ?_, fun a => ?_⟩
  · refine nd.map_on fun d hd d' hd' e => ?_
    obtain ⟨_, h3⟩ := hm d hd
    obtain ⟨_, h4⟩ := hm d' hd'
    exact stVec_inj (R.z.member hP h3) (R.z.member hP h4) e
  · rw [List.forall₂_map_left_iff]
    refine hr.imp fun d o ho => ⟨ho.nodup, fun x k => (ho.get x k).trans ?_⟩
    refine exists_congr fun l => exists_congr fun s => and_congr_right fun hl => ?_
    unfold stVec
    simp only [hl]
  · rw [List.mem_map]
    exact ⟨fun ⟨d, h1, h2⟩ => ⟨d, h1, h2.symm⟩, fun ⟨d, h1, h2⟩ => ⟨d, h1, h2.symm⟩⟩

/-- **C49.** `extract(ss)` terminates and yields each vector whose label is in `ss` exactly once, as a map with
an entry for every variable. -/
theorem C49_extract (hw : w.Reachable) {h : Nat} {vars : List (String × Nat)} {cut : Bool}
    (hk : FamKind w.z h vars cut) (ss : List Int) :
    ∃ st os, w.z.extract ss h = some st ∧ Enum.Yields w.z.next st os ∧
      ListsVec vars os (fun a => ∃ v ∈ ss, FamHas w.z h a v) := by
  obtain ⟨vs, R⟩ := hw.rel
  obtain ⟨z, hz, rfl, rfl⟩ := famKind_held hk
  obtain ⟨P, hP⟩ := R.z.held hz
  obtain ⟨st, os, ds, e1, e2, _, f, e4⟩ := Zma.extract_ok R.z.ok.inv.wf R.z.hdr R.z.nodup R.z.pos (R.z.hok hz) ss
  refine ⟨st, os, by simp only [ZMWorld.extract, ZMWorld.on1, hz, e1], e2, ?_⟩
  have hm : ∀ d, d ∈ ds ↔ ∃ v ∈ ss, P d v := fun d => (f.mem d).trans
    (exists_congr fun v => and_congr_right fun _ => hP.2.val d v)
  have := listsVec_of R hP f.nodup (fun d hd => by obtain ⟨v, _, h⟩ := (hm d).1 hd; exact ⟨v, h⟩) e4
  obtain ⟨as, a1, a2, a3⟩ := this
  refine ⟨as, a1, a2, fun a => (a3 a).trans ?_⟩
  constructor
  · rintro ⟨d, hd, rfl⟩
    obtain ⟨v, hv, h3⟩ := (hm d).1 hd
    exact ⟨v, hv, (famHas_iff hP).2 ⟨d, h3, rfl⟩⟩
  · rintro ⟨v, hv, ha⟩
    obtain ⟨d, hd, rfl⟩ := (famHas_iff hP).1 ha
    exact ⟨d, (hm d).2 ⟨v, hv, hd⟩, rfl⟩

/-! ## C45, C55 -/

/-- On which side of the level `v` labels count: above it, for cut families below it. -/
def OnSide (cut : Bool) (v u : Int) : Prop := if cut then u ≤ v else v ≤ u

/-- `extract_level(v)` of any family: the vectors labelled on the right side of `v` that are not dominated by
another such vector. -/
theorem extractLevel_general (hw : w.Reachable) {h : Nat} {vars : List (String × Nat)} {cut : Bool}
    (hk : FamKind w.z h vars cut) (v : Int) :
    ∃ os, w.step (.zmdd (.extractLevel v h)) = some (.zmdd (.vectors os), w) ∧
      ListsVec vars os ((if cut then MaxIn else MinIn) (fun a => ∃ u, OnSide cut v u ∧ FamHas w.z h a u)) := by
  obtain ⟨vs, R⟩ := hw.rel
  obtain ⟨z, hz, rfl, rfl⟩ := famKind_held hk
  obtain ⟨o, w', h1, h2, _⟩ := R.z.step (.extractLevel v h) (by
    intro f hf
    simp only [ZMRel.operands, List.mem_singleton] at hf
    subst hf; exact ⟨z, hz⟩)
  obtain ⟨rfl, z', P, os, ds, hP, rfl, g1, g2, g3⟩ := h2
  obtain rfl : z' = z := by have := hP.1; rw [hz] at this; cases this; rfl
  refine ⟨os, by simp only [MssW.step, h1, Option.map_some], ?_⟩
  have := listsVec_of R hP g1 (fun d hd => by obtain ⟨⟨u, _, hu⟩, _⟩ := (g3 d).1 hd; exact ⟨u, hu⟩) g2
  obtain ⟨as, a1, a2, a3⟩ := this
  refine ⟨as, a1, a2, fun a => (a3 a).trans ?_⟩
  have dom : ∀ {d d' u u'}, P d u → P d' u' → ((∀ l, d' l ≤ d l) ↔
      if z'.reverse then ∀ l, stVec z'.vars z'.reverse d l ≤ stVec z'.vars z'.reverse d' l
      else ∀ l, stVec z'.vars z'.reverse d' l ≤ stVec z'.vars z'.reverse d l) :=
    fun h h' => stVec_le (R.z.member hP h') (R.z.member hP h)
  have inj : ∀ {d d' u u'}, P d u → P d' u' → stVec z'.vars z'.reverse d' = stVec z'.vars z'.reverse d → d' = d :=
    fun h h' e => stVec_inj (R.z.member hP h') (R.z.member hP h) e
  have fh : ∀ {a u}, FamHas w.z h a u ↔ ∃ d, P d u ∧ a = stVec z'.vars z'.reverse d := famHas_iff hP
  have key : ∀ d, d ∈ ds ↔ (∃ u, OnSide z'.reverse v u ∧ P d u) ∧ ∀ d' u, OnSide z'.reverse v u → P d' u →
      (if z'.reverse then ∀ l, stVec z'.vars z'.reverse d l ≤ stVec z'.vars z'.reverse d' l
      else ∀ l, stVec z'.vars z'.reverse d' l ≤ stVec z'.vars z'.reverse d l) → d' = d := by
    intro d
    rw [g3 d]
    refine and_congr_right ?_
    rintro ⟨u, _, hu⟩
    refine forall_congr' fun d' => forall_congr' fun u' => forall_congr' fun _ => forall_congr' fun hu' => ?_
    rw [dom hu hu']
  have main : ∀ a, (∃ d ∈ ds, a = stVec z'.vars z'.reverse d) ↔
      (∃ u, OnSide z'.reverse v u ∧ FamHas w.z h a u) ∧ ∀ b, (∃ u, OnSide z'.reverse v u ∧ FamHas w.z h b u) →
        (if z'.reverse then ∀ l, a l ≤ b l else ∀ l, b l ≤ a l) → b = a := by
    intro a
    constructor
    · rintro ⟨d, hd, rfl⟩
      obtain ⟨⟨u, hs, hu⟩, hmin⟩ := (key d).1 hd
      refine ⟨⟨u, hs, fh.2 ⟨d, hu, rfl⟩⟩, ?_⟩
      rintro b ⟨u', hs', hb⟩ hle
      obtain ⟨d', hd', rfl⟩ := fh.1 hb
      rw [hmin d' u' hs' hd' hle]
    · rintro ⟨⟨u, hs, ha⟩, hmin⟩
      obtain ⟨d, hd, rfl⟩ := fh.1 ha
      refine ⟨d, (key d).2 ⟨⟨u, hs, hd⟩, fun d' u' hs' hd' hle => ?_⟩, rfl⟩
      exact inj hd hd' (hmin _ ⟨u', hs', fh.2 ⟨d', hd', rfl⟩⟩ hle)
  refine (main a).trans ?_
  cases z'.reverse <;> simp [MinIn, MaxIn]

/-- **C55.** `extract_level(v)` of a path family lists exactly the minimal vectors of value at least `v`. -/
theorem C55_extract_level_path (hw : w.Reachable) {h : Nat} {φ : (Nat → Nat) → Int}
    (hp : PathFamily w.z h vs φ) (v : Int) :
    ∃ os, w.step (.zmdd (.extractLevel v h)) = some (.zmdd (.vectors os), w) ∧
      ListsVec vs os (MinIn (fun a => IsVec vs a ∧ v ≤ φ a)) := by
  obtain ⟨os, h1, as, a1, a2, a3⟩ := extractLevel_general hw hp.1 v
  refine ⟨os, h1, as, a1, a2, fun a => (a3 a).trans ?_⟩
  simp only [Bool.false_eq_true, if_false, hp.2, OnSide]
  constructor
  · rintro ⟨⟨u, hu, ha⟩, hmin⟩
    obtain ⟨⟨ha1, rfl⟩, ha2⟩ := ha
    refine ⟨⟨ha1, hu⟩, fun b hb hle => ?_⟩
    obtain ⟨c, hc, hcm⟩ := exists_minIn (A := Stratum vs φ (φ b)) (fun a h => h.1) _ (Nat.le_refl _) ⟨hb.1, rfl⟩
    have := hmin c ⟨φ b, hb.2, hcm⟩ (fun l => Nat.le_trans (hc l) (hle l))
    subst this
    exact funext fun l => Nat.le_antisymm (hle l) (hc l)
  · rintro ⟨⟨ha1, hu⟩, hmin⟩
    refine ⟨⟨φ a, hu, ⟨ha1, rfl⟩, fun b hb hle => hmin b ⟨hb.1, by rw [hb.2]; exact hu⟩ hle⟩, ?_⟩
    rintro b ⟨u, hu', ⟨hb1, rfl⟩, _⟩ hle
    exact hmin b ⟨hb1, hu'⟩ hle

/-- **C55.** `extract_level(v)` of a cut family lists exactly the maximal vectors of value at most `v`. -/
theorem C55_extract_level_cut (hw : w.Reachable) {h : Nat} {φ : (Nat → Nat) → Int}
    (hp : CutFamily w.z h vs φ) (v : Int) :
    ∃ os, w.step (.zmdd (.extractLevel v h)) = some (.zmdd (.vectors os), w) ∧
      ListsVec vs os (MaxIn (fun a => IsVec vs a ∧ φ a ≤ v)) := by
  obtain ⟨os, h1, as, a1, a2, a3⟩ := extractLevel_general hw hp.1 v
  refine ⟨os, h1, as, a1, a2, fun a => (a3 a).trans ?_⟩
  simp only [if_true, hp.2, OnSide]
  constructor
  · rintro ⟨⟨u, hu, ha⟩, hmin⟩
    obtain ⟨⟨ha1, rfl⟩, ha2⟩ := ha
    refine ⟨⟨ha1, hu⟩, fun b hb hle => ?_⟩
    obtain ⟨c, hc, hcm⟩ := exists_maxIn (A := Stratum vs φ (φ b)) (fun a h => h.1) ⟨hb.1, rfl⟩
    have := hmin c ⟨φ b, hb.2, hcm⟩ (fun l => Nat.le_trans (hle l) (hc l))
    subst this
    exact funext fun l => Nat.le_antisymm (hc l) (hle l)
  · rintro ⟨⟨ha1, hu⟩, hmin⟩
    refine ⟨⟨φ a, hu, ⟨ha1, rfl⟩, fun b hb hle => hmin b ⟨hb.1, by rw [hb.2]; exact hu⟩ hle⟩, ?_⟩
    rintro b ⟨u, hu', ⟨hb1, rfl⟩, _⟩ hle
    exact hmin b ⟨hb1, hu'⟩ hle

/-- **C45** at the extreme level.  If no label of a path family exceeds `v`, then `extract_level(v)` lists
exactly the vectors labelled `v`; likewise for a cut family with no label below `v`. -/
theorem C45_extreme_level_partial (hw : w.Reachable) {h : Nat} {φ : (Nat → Nat) → Int} (v : Int) :
    (PathFamily w.z h vs φ → (∀ a u, FamHas w.z h a u → u ≤ v) →
      ∃ os, w.step (.zmdd (.extractLevel v h)) = some (.zmdd (.vectors os), w) ∧
        ListsVec vs os (fun a => FamHas w.z h a v)) ∧
    (CutFamily w.z h vs φ → (∀ a u, FamHas w.z h a u → v ≤ u) →
      ∃ os, w.step (.zmdd (.extractLevel v h)) = some (.zmdd (.vectors os), w) ∧
        ListsVec vs os (fun a => FamHas w.z h a v)) := by
  constructor
  · intro hp hmax
    obtain ⟨os, h1, as, a1, a2, a3⟩ := extractLevel_general hw hp.1 v
    refine ⟨os, h1, as, a1, a2, fun a => (a3 a).trans ?_⟩
    simp only [Bool.false_eq_true, if_false, OnSide]
    constructor
    · rintro ⟨⟨u, hu, ha⟩, _⟩
      have := hmax a u ha
      obtain rfl : u = v := by omega
      exact ha
    · intro ha
      refine ⟨⟨v, Int.le_refl _, ha⟩, ?_⟩
      rintro b ⟨u, hu, hb⟩ hle
      have := hmax b u hb
      obtain rfl : u = v := by omega
      exact ((hp.2 a u).1 ha).2 b ((hp.2 b u).1 hb).1 hle
  · intro hp hmax
    obtain ⟨os, h1, as, a1, a2, a3⟩ := extractLevel_general hw hp.1 v
    refine ⟨os, h1, as, a1, a2, fun a => (a3 a).trans ?_⟩
    simp only [if_true, OnSide]
    constructor
    · rintro ⟨⟨u, hu, ha⟩, _⟩
      have := hmax a u ha
      obtain rfl : u = v := by omega
      exact ha
    · intro ha
      refine ⟨⟨v, Int.le_refl _, ha⟩, ?_⟩
      rintro b ⟨u, hu, hb⟩ hle
      have := hmax b u hb
      obtain rfl : u = v := by omega
      exact ((hp.2 a u).1 ha).2 b ((hp.2 b u).1 hb).1 hle

/-! ## C07 -/

/-- **C07.** The root table of the ZMDD manager counts, for each node, the client's family handles on it; nodes
without handles have no entry. -/
theorem C07_zmdd_root_counts (hw : w.Reachable) (n : Nat) :
    w.z.mgr.gc.roots.get n =
      if (w.z.hs.held.vals.map ZNd.node).count n = 0 then none
      else some ((w.z.hs.held.vals.map ZNd.node).count n) := by
  obtain ⟨vs, R⟩ := hw.rel
  exact R.z.ok.roots.get n

/-- **C07.** Dropping one family handle leaves a node pinned as long as another handle holds it. -/
theorem C07_zmdd_drop_keeps_other (hw : w.Reachable) {f g : Nat} {x y : ZNd} (hne : f ≠ g)
    (hf : w.z.hs.held.get f = some x) (hg : w.z.hs.held.get g = some y) (he : x.node = y.node) {o : MssOut} {w' : MssW}
    (hs : w.step (.zmdd (.drop f)) = some (o, w')) : ∃ n, w'.z.mgr.gc.roots.get x.node = some n ∧ 0 < n := by
  have hw' : w'.Reachable := .step (.zmdd (.drop f)) hw trivial hs
  have hheld : w'.z.hs = w.z.hs.drop f := by
    simp only [MssW.step, ZMWorld.step, ZMWorld.on1, hf, Option.map_some, Option.some.injEq, Prod.mk.injEq] at hs
    rw [← hs.2]
  have : x.node ∈ w'.z.hs.held.vals.map ZNd.node := by
    refine List.mem_map.2 ⟨y, AMap.mem_vals_of_get (i := g) ?_, he.symm⟩
    rw [hheld, Hs.drop_get (Ne.symm hne)]; exact hg
  have hc : 0 < (w'.z.hs.held.vals.map ZNd.node).count x.node := List.count_pos_iff.2 this
  have := C07_zmdd_root_counts hw' x.node
  rw [if_neg (by omega)] at this
  exact ⟨_, this, hc⟩

/-! ## Concrete sessions -/

/-- Calls whose arguments need no check. -/
def NoCreate : MssCmd → Prop
  | .mdd (.createNode _ _) => False
  | _ => True

instance (c : MssCmd) : Decidable (NoCreate c) := by
  cases c with
  | mdd c => cases c <;> unfold NoCreate <;> infer_instance
  | _ => unfold NoCreate; infer_instance

theorem mss_run_reachable : ∀ (cs : List MssCmd) {w : MssW} {os : List MssOut} {w' : MssW}, w.Reachable →
    (∀ c ∈ cs, NoCreate c) → w.run cs = some (os, w') → w'.Reachable := by
  intro cs
  induction cs with
  | nil =>
    intro w os w' hw _ h
    simp only [MssW.run, Option.some.injEq, Prod.mk.injEq] at h
    rw [← h.2]; exact hw
  | cons c cs ih =>
    intro w os w' hw hc h
    unfold MssW.run at h
    split at h
    · cases h
    · rename_i o w1 hs
      split at h
      · cases h
      · rename_i os' w2 hr
        simp only [Option.some.injEq, Prod.mk.injEq] at h
        obtain ⟨_, rfl⟩ := h
        refine ih (.step c hw ?_ hs) (fun c' h' => hc c' (List.mem_cons_of_mem _ h')) hr
        have := hc c List.mem_cons_self
        cases c with
        | mdd c => cases c <;> first | exact this.elim | trivial
        | _ => trivial

/-- The world after a session that does not panic. -/
def after (cs : List MssCmd) : MssW := ((MssW.new.run cs).map (·.2)).getD MssW.new

theorem after_reachable {cs : List MssCmd} (h : ∀ c ∈ cs, NoCreate c) : (after cs).Reachable := by
  unfold after
  cases e : MssW.new.run cs with
  | none => exact .new
  | some q => exact mss_run_reachable cs .new h e

/-- `x + y` over 3 and 2 states, with a collection at every MDD result. -/
def sumDemo : List MssCmd :=
  [.mdd (.setThreshold 0), .mdd (.defvar "x" 3), .mdd (.defvar "y" 2), .mdd (.bin .add 0 1), .minpath 2, .mincut 2]

/-- What the families of `x + y` read as. -/
example : ((after sumDemo).z.step (.labels 0)).map (·.1) = some (.labels [0, 1, 2, 3]) ∧
    ((after sumDemo).z.step (.labels 1)).map (·.1) = some (.labels [0, 1, 2, 3]) ∧
    ((after sumDemo).z.step (.count [2, 3] 0)).map (·.1) = some (.nat 3) ∧
    ((after sumDemo).z.step (.extractLevel 2 0)).map (·.1) =
      some (.vectors [⟨[("x", 2), ("y", 0)]⟩, ⟨[("x", 1), ("y", 1)]⟩]) ∧
    ((after sumDemo).z.step (.extractLevel 1 1)).map (·.1) =
      some (.vectors [⟨[("x", 0), ("y", 1)]⟩, ⟨[("x", 1), ("y", 0)]⟩]) := by
  decide +kernel

/-- Boolean and non-monotone functions: `x < y` has no paths; `x ≥ 2` has labels 0 and 1. -/
example : ((after (sumDemo ++ [.mdd (.bin .lt 0 1)])).sol false 3).map (fun p => match p.1 with
      | .fam none => true | _ => false) = some true ∧
    ((after (sumDemo ++ [.mdd (.value 2), .mdd (.bin .gte 0 3), .minpath 4])).z.step (.labels 2)).map (·.1) =
      some (.labels [0, 1]) ∧
    ((after (sumDemo ++ [.mdd (.value 2), .mdd (.bin .gte 0 3), .minpath 4])).z.step (.extractLevel 1 2)).map (·.1) =
      some (.vectors [⟨[("x", 2), ("y", 0)]⟩]) := by
  decide +kernel

/-- A fresh variable is a structure function. -/
theorem one_var (r : Nat) (hr : 0 < r) : ∃ w : MssW, w.Reachable ∧ MVars w.mdd [("x", r)] ∧
    StructureFn w.mdd [("x", r)] 0 (fun a => a 0) ∧ MonoS [("x", r)] (fun a => a 0) := by
  obtain ⟨m, h1, h2, h3, F, hF, hd⟩ := C53_defvar_new (w := MWorld.new) (vs := []) .new rfl (x := "x") (r := r)
    (by simp) hr
  refine ⟨⟨m, ZMWorld.new⟩, .step (o := .mdd (.handle MWorld.new.hs.next)) (.mdd (.defvar "x" r)) .new trivial ?_, h3, ⟨_, ⟨F, hF, hd⟩, fun a _ => rfl⟩, ?_⟩
  · have h1 : MssW.new.mdd.step (.defvar "x" r) = some (.handle MWorld.new.hs.next, m) := h1
    simp only [MssW.step, h1, Option.map_some]
    rfl
  · intro a b _ _ h
    have := h 0
    show (a 0 : Int) ≤ b 0
    omega

/-- `minpath` and `mincut` of a variable with three states, by the theorems. -/
example : ∃ w : MssW, w.Reachable ∧ ∃ h w', w.step (.minpath 0) = some (.fam (some h), w') ∧
    FamHas w'.z h (fun l => if l = 0 then 2 else 0) 2 := by
  obtain ⟨w, hw, hv, hf, hm⟩ := one_var 3 (by omega)
  obtain ⟨o, w', h1, _, h2, h3⟩ := C43_minpath_partial hw hv (by simp) hf
  cases o with
  | none => exact absurd hm (h2.1 rfl)
  | some h =>
    refine ⟨w, hw, h, w', h1, ((h3 h rfl).2.2 _ _).2 ⟨⟨⟨?_, ?_⟩, rfl⟩, ?_⟩⟩
    · intro l x s hl
      match l, hl with
      | 0, hl => simp at hl; simp [← hl.2]
    · intro l hl
      simp at hl
      simp; omega
    · rintro b ⟨hb, e⟩ hle
      funext l
      have hb2 := hb.2
      match l with
      | 0 => simp at e ⊢; omega
      | l + 1 => simpa using hb2 (l + 1) (by simp)

/-- **C43 and C44 are violated** by a variable with a single state: the function `x` is determined and monotone,
and both calls panic. -/
theorem C43_violated : ∃ w : MssW, w.Reachable ∧ ∃ φ, StructureFn w.mdd [("x", 1)] 0 φ ∧ MonoS [("x", 1)] φ ∧
    w.step (.minpath 0) = none ∧ w.step (.mincut 0) = none := by
  obtain ⟨w, hw, hv, hf, hm⟩ := one_var 1 (by omega)
  exact ⟨w, hw, _, hf, hm, C43_one_state_panics hw hv (x := "x") (by simp) 0⟩

/-- `2·x` over two states of `x`. -/
def twiceDemo : List MssCmd := [.mdd (.defvar "x" 2), .mdd (.value 2), .mdd (.bin .mul 0 1), .minpath 2]

/-- **C45 is false as stated.** The path family of `2·x` has no vector labelled 1, but `extract_level(1)` lists
one (`x = 1`, of value 2). -/
theorem C45_violated : ∃ (w : MssW) (h : Nat) (v : Int) (os : List (AMap String Nat)), w.Reachable ∧
    w.step (.zmdd (.extractLevel v h)) = some (.zmdd (.vectors os), w) ∧
    ¬ ListsVec [("x", 2)] os (fun a => FamHas w.z h a v) := by
  have hw : (after twiceDemo).Reachable := after_reachable (by decide)
  have e1 : ((after twiceDemo).z.step (.labels 0)).map (·.1) = some (.labels [0, 2]) := by decide +kernel
  have e2 : ((after twiceDemo).z.step (.extractLevel 1 0)).map (·.1) = some (.vectors [⟨[("x", 1)]⟩]) := by
    decide +kernel
  have hz : ∃ z, (after twiceDemo).z.hs.held.get 0 = some z := by
    cases h : (after twiceDemo).z.hs.held.get 0 with
    | some z => exact ⟨z, rfl⟩
    | none => simp [ZMWorld.step, ZMWorld.on1, h] at e1
  obtain ⟨z, hz⟩ := hz
  have hk : FamKind (after twiceDemo).z 0 z.vars z.reverse := (famKind_iff hz).2 ⟨rfl, rfl⟩
  obtain ⟨os, h1, _⟩ := extractLevel_general hw hk 1
  obtain ⟨ls, l1, _, l3⟩ := C47_labels hw hz
  have eos : os = [⟨[("x", 1)]⟩] := by
    simp only [MssW.step] at h1
    cases hs : (after twiceDemo).z.step (.extractLevel 1 0) with
    | none => simp [hs] at h1
    | some q =>
      simp only [hs, Option.map_some, Option.some.injEq, Prod.mk.injEq, MssOut.zmdd.injEq] at h1 e2
      rw [e2] at h1
      have := h1.1
      simp only [ZMOut.vectors.injEq] at this
      exact this.symm
  have els : ls = [0, 2] := by
    simp only [MssW.step] at l1
    cases hs : (after twiceDemo).z.step (.labels 0) with
    | none => simp [hs] at l1
    | some q =>
      simp only [hs, Option.map_some, Option.some.injEq, Prod.mk.injEq, MssOut.zmdd.injEq] at l1 e1
      rw [e1] at l1
      have := l1.1
      simp only [ZMOut.labels.injEq] at this
      exact this.symm
  refine ⟨_, 0, 1, os, hw, h1, ?_⟩
  rintro ⟨as, _, a2, a3⟩
  subst eos
  cases a2 with
  | @cons a _ as' _ _ _ =>
    have := (a3 a).1 List.mem_cons_self
    have := (l3 1).2 ⟨a, this⟩
    rw [els] at this
    simp at this

/-- The path and the cut family of `x` over three states. -/
def mixDemo : List MssCmd := [.mdd (.defvar "x" 3), .minpath 0, .mincut 0, .zmdd (.intersect 0 1)]

/-- **C41 is false across kinds.** The path family and the cut family of `x` both hold `x = 0` labelled 0, but their
intersection does not: it compares distances from different baselines. -/
theorem C41_violated : ∃ (w w' : MssW) (f g h : Nat) (a : Nat → Nat) (v : Int), w.Reachable ∧
    w.step (.zmdd (.intersect f g)) = some (.zmdd (.handle h), w') ∧
    FamHas w.z f a v ∧ FamHas w.z g a v ∧ ¬ FamHas w'.z h a v := by
  have hw : (after mixDemo).Reachable := after_reachable (by decide)
  have hw' : (after mixDemo.dropLast).Reachable := after_reachable (by decide)
  have e0 : ((after mixDemo.dropLast).z.step (.intersect 0 1)).map (·.1) = some (.handle 2) := by decide +kernel
  have e1 : (((after mixDemo.dropLast).z.step (.intersect 0 1)).bind (fun p => p.2.step (.labels 2))).map (·.1) =
      some (.labels [1]) := by decide +kernel
  cases hs : (after mixDemo.dropLast).z.step (.intersect 0 1) with
  | none => simp [hs] at e0
  | some q =>
    obtain ⟨o, w1⟩ := q
    simp only [hs, Option.map_some, Option.some.injEq, Option.bind_some] at e0 e1
    subst e0
    have hst : (after mixDemo.dropLast).step (.zmdd (.intersect 0 1)) =
        some (.zmdd (.handle 2), { after mixDemo.dropLast with z := w1 }) := by
      simp only [MssW.step, hs, Option.map_some]
    have hw1 : MssW.Reachable { after mixDemo.dropLast with z := w1 } := .step (.zmdd (.intersect 0 1)) hw' trivial hst
    have hz : ∃ z, w1.hs.held.get 2 = some z := by
      cases h : w1.hs.held.get 2 with
      | some z => exact ⟨z, rfl⟩
      | none => simp [ZMWorld.step, ZMWorld.on1, h] at e1
    obtain ⟨z, hz⟩ := hz
    obtain ⟨ls, l1, _, l3⟩ := C47_labels hw1 hz
    have els : ls = [1] := by
      simp only [MssW.step] at l1
      cases hs : w1.step (.labels 2) with
      | none => simp [hs] at l1
      | some q =>
        simp only [hs, Option.map_some, Option.some.injEq, Prod.mk.injEq, MssOut.zmdd.injEq] at l1 e1
        rw [e1] at l1
        have := l1.1
        simp only [ZMOut.labels.injEq] at this
        exact this.symm
    refine ⟨_, _, 0, 1, 2, fun _ => 0, 0, hw', hst, ?_, ?_, fun hn => ?_⟩
    · refine ⟨⟨4, false, [("x", 3)]⟩, upd (fun _ => 0) 0 0, by decide +kernel,
        .nt (h := 0) (ch := [1, 2, 3]) (hd := ⟨0, "x", 3⟩) (k := 0) (c := 1) (by decide +kernel) (by decide +kernel) rfl
          (.term (by decide +kernel)), ?_⟩
      funext l
      match l with
      | 0 => rfl
      | l + 1 => rfl
    · refine ⟨⟨5, true, [("x", 3)]⟩, upd (fun _ => 0) 0 2, by decide +kernel,
        .nt (h := 1) (ch := [3, 2, 1]) (hd := ⟨0, "x", 3⟩) (k := 2) (c := 1) (by decide +kernel) (by decide +kernel) rfl
          (.term (by decide +kernel)), ?_⟩
      funext l
      match l with
      | 0 => rfl
      | l + 1 => rfl
    · have := (l3 0).2 ⟨_, hn⟩
      rw [els] at this
      simp at this

end DD.Props
