import Verif.Mss.Rpn

/-!
# Properties of MDD sessions (`MddMgr`, `MddNode`): C07, C27, C34, C35, C50, C51, C53

A world is a manager together with the handles the client holds; `MWorld.step` is one public call,
`none` meaning a panic.  `w.Has h F`: handle `h` reads as `F`, a function from assignments (a state
for each level) to Boolean or integer values.
-/

set_option autoImplicit false
set_option linter.unusedSectionVars false
set_option linter.unusedVariables false

namespace DD.Props
open Arena Mtmdd2

variable {w : MWorld} {vs : List (String × Nat)}

/-- The variables of a world, with their numbers of states, by level. -/
def MVars (w : MWorld) (vs : List (String × Nat)) : Prop := w.mgr.w.eng.mdd.arena.headers = mkH vs

theorem mkH_inj {vs vs' : List (String × Nat)} (h : mkH vs = mkH vs') : vs = vs' := by
  refine List.ext_getElem? (fun i => ?_)
  have key : ∀ {u v : List (String × Nat)}, mkH u = mkH v → ∀ p, u[i]? = some p → v[i]? = some p := by
    intro u v h p hp
    have := mkH_get.2 ⟨p, hp, rfl⟩
    rw [h, mkH_get] at this
    obtain ⟨q, hq, e⟩ := this
    simp only [Header.mk.injEq, true_and] at e
    rw [hq]
    congr 1
    exact Prod.ext e.1.symm e.2.symm
  cases h1 : vs[i]? with
  | some p => exact (key h p h1).symm
  | none =>
    cases h2 : vs'[i]? with
    | none => rfl
    | some p => rw [key h.symm p h2] at h1; cases h1

theorem mrel (hw : w.Reachable) (hv : MVars w vs) : MRel w vs := by
  obtain ⟨vs', R⟩ := hw.rel
  have := mkH_inj (hv.symm.trans R.mok.hdrs)
  subst this
  exact R

/-- Every reachable world has its list of variables, with distinct names and at least one state each. -/
theorem mvars_exists (hw : w.Reachable) : ∃ vs, MVars w vs ∧ (vs.map Prod.fst).Nodup ∧ ∀ p ∈ vs, 0 < p.2 := by
  obtain ⟨vs, R⟩ := hw.rel
  refine ⟨vs, R.mok.hdrs, R.mok.nodup, fun p hp => ?_⟩
  obtain ⟨i, hi⟩ := List.mem_iff_getElem?.1 hp
  exact (R.mok.valid.1 R.mok.inv.zero) i p.1 p.2 hi

/-! ## C34 -/

/-- **C34.** Every held handle has a meaning, unique on the assignments within the ranges. -/
theorem C34_denotes (hw : w.Reachable) (hv : MVars w vs) {h : Nat} {x : MNode} (hx : w.hs.held.get h = some x) :
    ∃ F, w.Has h F ∧ ∀ G, w.Has h G → ∀ a, ValidV vs a → G a = F a := by
  have R := mrel hw hv
  obtain ⟨F, _, hF⟩ := R.has hx
  exact ⟨F, hF, fun G hG => R.has_agree hG hF⟩

/-- **C34.** A call keeps the meaning of every handle that it does not drop. -/
theorem C34_step (hw : w.Reachable) {c : MCmd} (hc : w.Checked c) {o : MOut} {w' : MWorld}
    (hs : w.step c = some (o, w')) {h : Nat} (hd : c ≠ .drop h) {F : MFun} (hF : w.Has h F) : w'.Has h F := by
  obtain ⟨vs, R⟩ := hw.rel
  obtain ⟨_, _, _, _, keep⟩ := R.of_step hc hs
  exact keep h F hF hd

/-- A sequence of calls and their answers. -/
inductive MHistory : MWorld → List MCmd → List MOut → MWorld → Prop
  | nil {w : MWorld} : MHistory w [] [] w
  | cons {w w' w'' : MWorld} {c : MCmd} {o : MOut} {cs : List MCmd} {os : List MOut} : w.Checked c →
      w.step c = some (o, w') → MHistory w' cs os w'' → MHistory w (c :: cs) (o :: os) w''

/-- **C34.** Over any history, a handle that is not dropped keeps its meaning. -/
theorem C34_history (hw : w.Reachable) {cs : List MCmd} {os : List MOut} {w' : MWorld}
    (hist : MHistory w cs os w') {h : Nat} (hd : .drop h ∉ cs) {F : MFun} (hF : w.Has h F) : w'.Has h F := by
  induction hist with
  | nil => exact hF
  | cons hc hs _ ih =>
    refine ih (.step _ hw hc hs) (fun hm => hd (List.mem_cons_of_mem _ hm)) ?_
    exact C34_step hw hc hs (fun e => hd (e ▸ List.mem_cons_self)) hF

/-- **C34.** Each call returns and does what its specification `MPost` says (operators act pointwise on
the meanings of the handles), whenever it is not one of the listed misuses (`MWorld.Legal`). -/
theorem C34_effect (hw : w.Reachable) (hv : MVars w vs) {c : MCmd} (hl : w.Legal c)
    (hh : ∀ f ∈ MWorld.operands c, ∃ x, w.hs.held.get f = some x) :
    ∃ o w' vs', w.step c = some (o, w') ∧ MPost w vs c o w' vs' ∧ MVars w' vs' ∧ vs <+: vs' ∧
      (w.Checked c → w'.Reachable) := by
  have R := mrel hw hv
  obtain ⟨o, w', vs', h1, h2, h3, h4, _⟩ := R.step hl hh
  exact ⟨o, w', vs', h1, h2, h3.mok.hdrs, h4, fun hc => .step c hw hc h1⟩

/-- **C34.** A misuse panics: a call that returns was legal. -/
theorem C34_legal (hw : w.Reachable) {c : MCmd} (hc : w.Checked c) {q : MOut × MWorld}
    (hs : w.step c = some q) : w.Legal c := by
  obtain ⟨vs, R⟩ := hw.rel
  exact R.legal_of_step hc hs

/-! ## C27 -/

/-- **C27.** Two handles hold the same node iff they mean the same function: same kind and same value at
every assignment within the ranges. -/
theorem C27_handles (hw : w.Reachable) (hv : MVars w vs) {f g : Nat} {F G : MFun} (hf : w.Has f F)
    (hg : w.Has g G) :
    ∃ x y, w.step (.node f) = some (.node x, w) ∧ w.step (.node g) = some (.node y, w) ∧
      (x = y ↔ ∀ a, ValidV vs a → F a = G a) := by
  have R := mrel hw hv
  obtain ⟨x, x1, x2⟩ := hf
  obtain ⟨y, y1, y2⟩ := hg
  refine ⟨x, y, by simp only [MWorld.step, MWorld.on1, x1], by simp only [MWorld.step, MWorld.on1, y1], ?_⟩
  constructor
  · rintro rfl a ha
    exact x2.agree y2 (R.mok.valid.2 ha)
  · intro h
    exact x2.canon R.mok.inv R.mok.inj y2 (fun a ha => h a (R.mok.valid.1 ha))

/-! ## C07 -/

/-- **C07.** The root table of an `MddMgr` counts, for each node, the client's handles on it plus the
variables' own handles; nodes without handles have no entry. -/
theorem C07_mdd_root_counts (hw : w.Reachable) (x : MNode) :
    w.mgr.w.gc.roots.get x =
      if (w.hs.held.vals ++ w.mgr.vars.vals).count x = 0 then none
      else some ((w.hs.held.vals ++ w.mgr.vars.vals).count x) := by
  obtain ⟨vs, R⟩ := hw.rel
  exact R.mok.ok.roots.get x

/-- **C07.** Dropping one handle leaves a node pinned as long as another handle holds it. -/
theorem C07_mdd_drop_keeps_other (hw : w.Reachable) {f g : Nat} {x : MNode} (hne : f ≠ g)
    (hf : w.hs.held.get f = some x) (hg : w.hs.held.get g = some x) {o : MOut} {w' : MWorld}
    (hs : w.step (.drop f) = some (o, w')) : ∃ n, w'.mgr.w.gc.roots.get x = some n ∧ 0 < n := by
  have hw' : w'.Reachable := .step (.drop f) hw trivial hs
  have hheld : w'.hs = w.hs.drop f := by
    simp only [MWorld.step, MWorld.on1, hf, Option.some.injEq, Prod.mk.injEq] at hs
    rw [← hs.2]
  have : x ∈ w'.hs.held.vals := by
    apply AMap.mem_vals_of_get (i := g)
    rw [hheld, Hs.drop_get (Ne.symm hne)]; exact hg
  have hc : 0 < (w'.hs.held.vals ++ w'.mgr.vars.vals).count x :=
    List.count_pos_iff.2 (List.mem_append_left _ this)
  have := C07_mdd_root_counts hw' x
  rw [if_neg (by omega)] at this
  exact ⟨_, this, hc⟩

/-! ## C53 -/

/-- **C53.** `defvar` of a new name with at least one state appends the variable and returns the
function "state of that variable". -/
theorem C53_defvar_new (hw : w.Reachable) (hv : MVars w vs) {x : String} {r : Nat} (hx : x ∉ vs.map Prod.fst)
    (hr : 0 < r) :
    ∃ w', w.step (.defvar x r) = some (.handle w.hs.next, w') ∧ w'.Reachable ∧ MVars w' (vs ++ [(x, r)]) ∧
      w'.Has w.hs.next (fun a => .v (some (a vs.length))) := by
  have R := mrel hw hv
  obtain ⟨o, w', vs', h1, ⟨rfl, rfl, i, r', h2, h3⟩, h4, _⟩ := R.step (c := .defvar x r) (.inr hr)
    (by intro f hf; simp [MWorld.operands] at hf)
  have e : addVar vs x r = vs ++ [(x, r)] := by unfold addVar; rw [if_neg hx]
  rw [e] at h2 h4
  have hi : i = vs.length := by
    by_cases hlt : i < vs.length
    · rw [List.getElem?_append_left hlt] at h2
      exact absurd (List.mem_map.2 ⟨_, List.mem_of_getElem? h2, rfl⟩) hx
    · have := (List.getElem?_eq_some_iff.1 h2).1
      simp at this; omega
  subst hi
  exact ⟨w', h1, .step (.defvar x r) hw trivial h1, h4.mok.hdrs, h3⟩

/-- **C53.** `defvar` of an existing name, with whatever range, returns the same node as before and
changes no variable. -/
theorem C53_defvar_again (hw : w.Reachable) (hv : MVars w vs) {i : Nat} {x : String} {r0 : Nat}
    (hx : vs[i]? = some (x, r0)) (r : Nat) :
    ∃ w', w.step (.defvar x r) = some (.handle w.hs.next, w') ∧ w'.Reachable ∧ MVars w' vs ∧
      w'.Has w.hs.next (fun a => .v (some (a i))) ∧ w'.hs.held.get w.hs.next = w.mgr.vars.get x := by
  have R := mrel hw hv
  obtain ⟨n, hn, hd⟩ := R.mok.vars i x r0 hx
  obtain ⟨w', k1, k2, k3, k4, k5, k6⟩ := R.give (R.mok.pin hd) hd (fun _ _ _ h => h)
  have h1 : w.step (.defvar x r) = some (.handle w.hs.next, w') := by
    simp only [MWorld.step, MddMgr.defvar, hn]; exact k1
  refine ⟨w', h1, .step (.defvar x r) hw trivial h1, k2.mok.hdrs, k3, ?_⟩
  rw [k6, Hs.give_next, hn]

/-- **C53.** `get_varorder` lists the variables with their ranges by level, provided each has at least
two states.  Missing from the property: variables with one state (`C53_varorder_panics`). -/
theorem C53_varorder_partial (hw : w.Reachable) (hv : MVars w vs) (h2 : ∀ p ∈ vs, 2 ≤ p.2) :
    w.step .varorder = some (.order vs, w) := by
  have R := mrel hw hv
  simp only [MWorld.step, getVarorder_ok R.mok h2]

/-- **C53 is violated** by variables with a single state: `get_varorder` panics, because such a variable
is a terminal node. -/
theorem C53_varorder_panics (hw : w.Reachable) (hv : MVars w vs) {x : String} (h1 : (x, 1) ∈ vs) :
    w.step .varorder = none := by
  have R := mrel hw hv
  simp only [MWorld.step, getVarorder_panics R.mok h1]

/-- The violation occurs. -/
theorem C53_violated : ∃ w : MWorld, w.Reachable ∧ MVars w [("x", 1)] ∧ w.step .varorder = none := by
  obtain ⟨w', h1, h2, h3, _⟩ := C53_defvar_new (w := MWorld.new) (vs := []) .new rfl (x := "x") (r := 1)
    (by simp) (by omega)
  exact ⟨w', h2, h3, C53_varorder_panics h2 h3 (x := "x") (by simp)⟩

/-! ## C51 -/

/-- The call returns a new handle on `V`. -/
def MGives (w : MWorld) (vs : List (String × Nat)) (c : MCmd) (P : (Nat → Nat) → MVal → Prop) : Prop :=
  ∃ w' V, w.step c = some (.handle w.hs.next, w') ∧ w'.Reachable ∧ MVars w' vs ∧ w'.Has w.hs.next V ∧
    (∀ a, ValidV vs a → P a (V a)) ∧ ∀ h F, w.Has h F → w'.Has h F

theorem hasL_held : ∀ {fs : List Nat} {Fs : List MFun}, w.HasL fs Fs → ∀ f ∈ fs, ∃ x, w.hs.held.get f = some x := by
  intro fs
  induction fs with
  | nil => intro Fs _ f hf; cases hf
  | cons g fs ih =>
    intro Fs h f hf
    cases Fs with
    | nil => exact h.elim
    | cons F Fs =>
      rcases List.mem_cons.1 hf with rfl | hf
      · obtain ⟨x, hx, _⟩ := h.1; exact ⟨x, hx⟩
      · exact ih h.2 f hf

theorem mgives (hw : w.Reachable) (hv : MVars w vs) {c : MCmd} (hl : w.Legal c) (hc : w.Checked c)
    (hh : ∀ f ∈ MWorld.operands c, ∃ x, w.hs.held.get f = some x) (hd : ∀ h, c ≠ .drop h)
    {P : (Nat → Nat) → MVal → Prop}
    (hp : ∀ o w' vs', MPost w vs c o w' vs' → vs' = vs ∧ MRet w vs o w' P) : MGives w vs c P := by
  have R := mrel hw hv
  obtain ⟨o, w', vs', h1, h2, h3, _, h5⟩ := R.step hl hh
  obtain ⟨rfl, rfl, V, h6, h7⟩ := hp o w' vs' h2
  exact ⟨w', V, h1, .step c hw hc h1, h3.mok.hdrs, h6, h7, fun h F hF => h5 h F hF (hd h)⟩

theorem foldRel_logic {o : M2Bin} {f : Bool → Bool → Bool} (ho : o.Rel = M2Bin.boolRel f) :
    ∀ (bs : List Bool) {x : Bool} {z : MVal}, foldRel o (.b (T3.ofBool x)) (bs.map (fun b => .b (T3.ofBool b))) z →
      z = .b (T3.ofBool (bs.foldl f x)) := by
  intro bs
  induction bs with
  | nil => intro x z h; exact h
  | cons b bs ih =>
    intro x z h
    obtain ⟨u, h1, h2⟩ := h
    rw [ho] at h1
    obtain ⟨t, rfl, ht⟩ := h1
    rw [ht x b rfl rfl] at h2
    exact ih h2

/-- **C51.** `and` of a list (possibly empty) is the conjunction, wherever its members are determined. -/
theorem C51_and (hw : w.Reachable) (hv : MVars w vs) {fs : List Nat} {Fs : List MFun} (hf : w.HasL fs Fs) :
    MGives w vs (.andL fs) (fun a z => ∀ bs : List Bool, Fs.map (· a) = bs.map (fun b => .b (T3.ofBool b)) →
      z = .b (T3.ofBool (bs.all id))) := by
  refine mgives hw hv (c := .andL fs) trivial trivial (hasL_held hf) (by intro h e; cases e) ?_
  rintro o w' vs' ⟨h1, h2⟩
  refine ⟨h1, (h2 Fs hf).mono (fun a _ z hz bs hb => ?_)⟩
  rw [hb] at hz
  rw [foldRel_logic (o := .and) rfl bs (x := true) hz]
  have : ∀ (bs : List Bool) (x : Bool), bs.foldl (· && ·) x = (x && bs.all id) := by
    intro bs
    induction bs with
    | nil => intro x; simp
    | cons b bs ih => intro x; rw [List.foldl_cons, ih]; simp [Bool.and_assoc]
  rw [this]; rfl

/-- **C51.** `or` of a list (possibly empty) is the disjunction, wherever its members are determined. -/
theorem C51_or (hw : w.Reachable) (hv : MVars w vs) {fs : List Nat} {Fs : List MFun} (hf : w.HasL fs Fs) :
    MGives w vs (.orL fs) (fun a z => ∀ bs : List Bool, Fs.map (· a) = bs.map (fun b => .b (T3.ofBool b)) →
      z = .b (T3.ofBool (bs.any id))) := by
  refine mgives hw hv (c := .orL fs) trivial trivial (hasL_held hf) (by intro h e; cases e) ?_
  rintro o w' vs' ⟨h1, h2⟩
  refine ⟨h1, (h2 Fs hf).mono (fun a _ z hz bs hb => ?_)⟩
  rw [hb] at hz
  rw [foldRel_logic (o := .or) rfl bs (x := false) hz]
  have : ∀ (bs : List Bool) (x : Bool), bs.foldl (· || ·) x = (x || bs.any id) := by
    intro bs
    induction bs with
    | nil => intro x; simp
    | cons b bs ih => intro x; rw [List.foldl_cons, ih]; simp [Bool.or_assoc]
  rw [this]; rfl

/-- `m` is the least of the values (`none`: one of them is undetermined). -/
def IsLeast (m : Option Int) (xs : List (Option Int)) : Prop :=
  match m with
  | none => none ∈ xs
  | some m => some m ∈ xs ∧ ∀ x ∈ xs, ∃ y, x = some y ∧ m ≤ y

/-- `m` is the greatest of the values (`none`: one of them is undetermined). -/
def IsGreatest (m : Option Int) (xs : List (Option Int)) : Prop :=
  match m with
  | none => none ∈ xs
  | some m => some m ∈ xs ∧ ∀ x ∈ xs, ∃ y, x = some y ∧ y ≤ m

theorem foldRel_min : ∀ (xs : List (Option Int)) {x : Option Int} {z : MVal},
    foldRel .min (.v x) (xs.map .v) z → ∃ m, z = .v m ∧ IsLeast m (x :: xs) := by
  intro xs
  induction xs with
  | nil =>
    intro x z h
    refine ⟨x, h, ?_⟩
    cases x with
    | none => exact List.mem_cons_self
    | some x => exact ⟨List.mem_cons_self, by intro y hy; simp at hy; exact ⟨x, hy, Int.le_refl _⟩⟩
  | cons y xs ih =>
    intro x z h
    obtain ⟨u, h1, h2⟩ := h
    have h1 : u = .v (Mtmdd.pt _ x y) := h1
    subst h1
    obtain ⟨m, rfl, hm⟩ := ih h2
    refine ⟨m, rfl, ?_⟩
    cases x with
    | none =>
      cases m with
      | none => exact List.mem_cons_self
      | some m =>
        obtain ⟨q, hq, _⟩ := hm.2 _ List.mem_cons_self
        cases hq
    | some x =>
      cases y with
      | none =>
        cases m with
        | none => exact List.mem_cons_of_mem _ List.mem_cons_self
        | some m =>
          obtain ⟨q, hq, _⟩ := hm.2 _ List.mem_cons_self
          cases hq
      | some y =>
        cases m with
        | none =>
          rcases List.mem_cons.1 (show none ∈ _ from hm) with h | h
          · cases h
          · exact List.mem_cons_of_mem _ (List.mem_cons_of_mem _ h)
        | some m =>
          obtain ⟨hm1, hm2⟩ := hm
          obtain ⟨q, hq, hle⟩ := hm2 _ List.mem_cons_self
          simp only [Mtmdd.pt, Option.some.injEq] at hq
          subst hq
          refine ⟨?_, ?_⟩
          · rcases List.mem_cons.1 hm1 with h | h
            · simp only [Mtmdd.pt, Option.some.injEq] at h
              rcases Int.le_total x y with hxy | hxy
              · rw [Int.min_eq_left hxy] at h; rw [h]; exact List.mem_cons_self
              · rw [Int.min_eq_right hxy] at h; rw [h]; exact List.mem_cons_of_mem _ List.mem_cons_self
            · exact List.mem_cons_of_mem _ (List.mem_cons_of_mem _ h)
          · intro q hq
            rcases List.mem_cons.1 hq with rfl | hq
            · exact ⟨x, rfl, Int.le_trans hle (Int.min_le_left _ _)⟩
            · rcases List.mem_cons.1 hq with rfl | hq
              · exact ⟨y, rfl, Int.le_trans hle (Int.min_le_right _ _)⟩
              · exact hm2 q (List.mem_cons_of_mem _ hq)

theorem foldRel_max : ∀ (xs : List (Option Int)) {x : Option Int} {z : MVal},
    foldRel .max (.v x) (xs.map .v) z → ∃ m, z = .v m ∧ IsGreatest m (x :: xs) := by
  intro xs
  induction xs with
  | nil =>
    intro x z h
    refine ⟨x, h, ?_⟩
    cases x with
    | none => exact List.mem_cons_self
    | some x => exact ⟨List.mem_cons_self, by intro y hy; simp at hy; exact ⟨x, hy, Int.le_refl _⟩⟩
  | cons y xs ih =>
    intro x z h
    obtain ⟨u, h1, h2⟩ := h
    have h1 : u = .v (Mtmdd.pt _ x y) := h1
    subst h1
    obtain ⟨m, rfl, hm⟩ := ih h2
    refine ⟨m, rfl, ?_⟩
    cases x with
    | none =>
      cases m with
      | none => exact List.mem_cons_self
      | some m =>
        obtain ⟨q, hq, _⟩ := hm.2 _ List.mem_cons_self
        cases hq
    | some x =>
      cases y with
      | none =>
        cases m with
        | none => exact List.mem_cons_of_mem _ List.mem_cons_self
        | some m =>
          obtain ⟨q, hq, _⟩ := hm.2 _ List.mem_cons_self
          cases hq
      | some y =>
        cases m with
        | none =>
          rcases List.mem_cons.1 (show none ∈ _ from hm) with h | h
          · cases h
          · exact List.mem_cons_of_mem _ (List.mem_cons_of_mem _ h)
        | some m =>
          obtain ⟨hm1, hm2⟩ := hm
          obtain ⟨q, hq, hle⟩ := hm2 _ List.mem_cons_self
          simp only [Mtmdd.pt, Option.some.injEq] at hq
          subst hq
          refine ⟨?_, ?_⟩
          · rcases List.mem_cons.1 hm1 with h | h
            · simp only [Mtmdd.pt, Option.some.injEq] at h
              rcases Int.le_total x y with hxy | hxy
              · rw [Int.max_eq_right hxy] at h; rw [h]; exact List.mem_cons_of_mem _ List.mem_cons_self
              · rw [Int.max_eq_left hxy] at h; rw [h]; exact List.mem_cons_self
            · exact List.mem_cons_of_mem _ (List.mem_cons_of_mem _ h)
          · intro q hq
            rcases List.mem_cons.1 hq with rfl | hq
            · exact ⟨x, rfl, Int.le_trans (Int.le_max_left _ _) hle⟩
            · rcases List.mem_cons.1 hq with rfl | hq
              · exact ⟨y, rfl, Int.le_trans (Int.le_max_right _ _) hle⟩
              · exact hm2 q (List.mem_cons_of_mem _ hq)

theorem hasL_ne_nil {fs : List Nat} {F : MFun} {Fs : List MFun} (h : w.HasL fs (F :: Fs)) : fs ≠ [] := by
  rintro rfl; exact h

/-- **C51.** `min` of a non-empty list of value functions is the pointwise least value (undetermined where
one of them is). -/
theorem C51_min (hw : w.Reachable) (hv : MVars w vs) {fs : List Nat} {F : MFun} {Fs : List MFun}
    (hf : w.HasL fs (F :: Fs)) :
    MGives w vs (.minL fs) (fun a z => ∀ xs : List (Option Int), (F :: Fs).map (· a) = xs.map .v →
      ∃ m, z = .v m ∧ IsLeast m xs) := by
  refine mgives hw hv (c := .minL fs) (hasL_ne_nil hf) trivial (hasL_held hf) (by intro h e; cases e) ?_
  rintro o w' vs' ⟨h1, h2⟩
  refine ⟨h1, (h2 F Fs hf).mono (fun a _ z hz xs hx => ?_)⟩
  cases xs with
  | nil => cases hx
  | cons x xs =>
    simp only [List.map_cons, List.cons.injEq] at hx
    rw [hx.1, hx.2] at hz
    exact foldRel_min xs hz

/-- **C51.** `max` of a non-empty list of value functions is the pointwise greatest value. -/
theorem C51_max (hw : w.Reachable) (hv : MVars w vs) {fs : List Nat} {F : MFun} {Fs : List MFun}
    (hf : w.HasL fs (F :: Fs)) :
    MGives w vs (.maxL fs) (fun a z => ∀ xs : List (Option Int), (F :: Fs).map (· a) = xs.map .v →
      ∃ m, z = .v m ∧ IsGreatest m xs) := by
  refine mgives hw hv (c := .maxL fs) (hasL_ne_nil hf) trivial (hasL_held hf) (by intro h e; cases e) ?_
  rintro o w' vs' ⟨h1, h2⟩
  refine ⟨h1, (h2 F Fs hf).mono (fun a _ z hz xs hx => ?_)⟩
  cases xs with
  | nil => cases hx
  | cons x xs =>
    simp only [List.map_cons, List.cons.injEq] at hx
    rw [hx.1, hx.2] at hz
    exact foldRel_max xs hz

/-- **C51.** `min` and `max` of an empty list panic. -/
theorem C51_empty (w : MWorld) : w.step (.minL []) = none ∧ w.step (.maxL []) = none := ⟨rfl, rfl⟩

/-! ## C35 -/

/-- **C35.** `rpn` on the postfix form of an expression: if every variable has a declared range (positive
if it is new) and the expression is well-typed and its loads are saved, a handle is returned that reads,
at every assignment, as the value of the expression there.  New variables are appended in order of
appearance. -/
theorem C35_rpn (hw : w.Reachable) (hv : MVars w vs) (rng : String → Option Nat) (e : MExpr)
    (hr : ∀ x ∈ e.names, ∃ r, rng x = some r ∧ (x ∈ vs.map Prod.fst ∨ 0 < r))
    (he : ∀ a ν, At (addVars rng vs e.names) a ν → (e.eval ν (fun _ => none)).isSome) :
    ∃ w' V, w.step (.rpn e.toks rng) = some (.handle w.hs.next, w') ∧ w'.Reachable ∧
      MVars w' (addVars rng vs e.names) ∧ w'.Has w.hs.next V ∧
      (∀ a ν, At (addVars rng vs e.names) a ν →
        (e.eval ν (fun _ => none)).map (fun p => p.1.toM) = some (V a)) ∧
      ∀ h F, w.Has h F → w'.Has h F := by
  have R := mrel hw hv
  obtain ⟨x, m', V, h1, h2, h3, h4, h5⟩ := R.mok.rpn_expr rng e hr he
  obtain ⟨w', k1, k2, k3, k4, _⟩ := R.give h2 h3 h4
  have hs : w.step (.rpn e.toks rng) = some (.handle w.hs.next, w') := by
    simp only [MWorld.step, h1]; exact k1
  refine ⟨w', V, hs, .step (.rpn _ _) hw trivial hs, k2.mok.hdrs, k3, fun a ν ha => ?_, k4⟩
  obtain ⟨v, E, e1, e2⟩ := h5 a ν ha
  rw [e1, e2]; rfl

/-- The hypotheses of `C35_rpn` hold for `x y + 2 >=` over two ternary variables, in any manager: the
handle reads as `2 ≤ x + y`. -/
example (hw : w.Reachable) (hv : MVars w vs) :
    ∃ w' V, w.step (.rpn [.var "x", .var "y", .bin .add, .int 2, .bin .gte] (fun _ => some 3)) =
        some (.handle w.hs.next, w') ∧ w'.Has w.hs.next V ∧
      ∀ a ν, At (addVars (fun _ => some 3) vs ["x", "y"]) a ν →
        V a = .b (T3.ofBool (decide (2 ≤ (ν "x" : Int) + ν "y"))) := by
  obtain ⟨w', V, h1, _, _, h4, h5, _⟩ := C35_rpn hw hv (fun _ => some 3)
    (.bin .gte (.bin .add (.var "x") (.var "y")) (.int 2))
    (fun x _ => ⟨3, rfl, .inr (by omega)⟩) (fun a ν _ => rfl)
  refine ⟨w', V, h1, h4, fun a ν ha => ?_⟩
  have := h5 a ν ha
  simp only [MExpr.eval, sbin, arith, cmp, Option.bind_eq_bind, Option.bind_some, Option.pure_def, Option.map_some,
    Option.some.injEq, RVal.toM] at this
  rw [← this]

/-- **C35.** Fate of any token list: it panics exactly on operator underflow, an unknown variable (or a
new one without states) or a conditional with branches of different kinds; it is `Err` exactly for an
unsaved load, a save on an empty stack or a final stack that does not hold one node; otherwise a handle is
returned. -/
theorem C35_outcome (hw : w.Reachable) (hv : MVars w vs) (ts : List MTok) (rng : String → Option Nat) :
    match mshape rng ts [] (fun _ => none) (vs.map Prod.fst) with
    | .panics => w.step (.rpn ts rng) = none
    | .fails e => ∃ w', w.step (.rpn ts rng) = some (.err e, w') ∧ w'.Reachable ∧ w'.hs = w.hs
    | .returns => ∃ w', w.step (.rpn ts rng) = some (.handle w.hs.next, w') ∧ w'.Reachable := by
  have R := mrel hw hv
  have hsh := mshape_ok (rng := rng) ts _ vs (rpnOk_start R.mok)
  have : mshape rng ts [] (fun _ => none) (vs.map Prod.fst) =
      fateOf (MddMgr.rpnLoop rng { mgr := w.mgr, stack := [], cache := AMap.empty } ts) := by
    rw [hsh]; rfl
  rw [this]
  cases hl : MddMgr.rpnLoop rng { mgr := w.mgr, stack := [], cache := AMap.empty } ts with
  | none =>
    show w.step (.rpn ts rng) = none
    simp only [MWorld.step, MddMgr.rpn, hl]
  | some lo =>
    cases lo with
    | error p =>
      obtain ⟨e, m⟩ := p
      have hs : w.step (.rpn ts rng) = some (.err e, { w with mgr := m }) := by
        simp only [MWorld.step, MddMgr.rpn, hl]
      exact ⟨_, hs, .step (.rpn _ _) hw trivial hs, rfl⟩
    | ok s =>
      have ok := RpnOk.loop ts (rpnOk_start R.mok) hl
      obtain ⟨vs', _, ok, _⟩ := ok
      have bad : (∀ x, s.stack ≠ [x]) → ∃ w', w.step (.rpn ts rng) = some (.err .invalid, w') ∧ w'.Reachable ∧
          w'.hs = w.hs := by
        intro hne
        have hr : w.mgr.rpn rng ts = some (.error .invalid, s.mgr) := by
          simp only [MddMgr.rpn, hl]
          all_goals (split <;> first | rfl | (rename_i x hx; exact absurd hx (hne _)))
        have hs : w.step (.rpn ts rng) = some (.err .invalid, { w with mgr := s.mgr }) := by
          simp only [MWorld.step, hr]
        exact ⟨_, hs, .step (.rpn _ _) hw trivial hs, rfl⟩
      rcases hst : s.stack with _ | ⟨x, _ | ⟨y, st⟩⟩
      · simp only [fateOf, hst]; exact bad (by rw [hst]; intro x hx; cases hx)
      · simp only [fateOf, hst]
        obtain ⟨r, m1, V, b1, _⟩ := ok.mok.wrap (MOk.ret ok.mok.inv (ok.stack x (by rw [hst]; simp)))
        have hs : w.step (.rpn ts rng) = some (.handle w.hs.next, { mgr := m1, hs := w.hs.give r }) := by
          simp only [MWorld.step, MddMgr.rpn, hl, hst, b1]; rfl
        exact ⟨_, hs, .step (.rpn _ _) hw trivial hs⟩
      · simp only [fateOf, hst]; exact bad (by rw [hst]; intro x hx; cases hx)

/-- **C35.** An unknown identifier panics (here as the first token). -/
theorem C35_unknown_panics (hw : w.Reachable) (x : String) (ts : List MTok) (rng : String → Option Nat)
    (hx : rng x = none) : w.step (.rpn (.var x :: ts) rng) = none := by
  obtain ⟨vs, hv, _⟩ := mvars_exists hw
  have := C35_outcome hw hv (.var x :: ts) rng
  simp only [mshape, hx] at this
  exact this

/-- **C35 is violated** for unbalanced expressions: an operator without its operands panics instead of
giving `Err`, in every state. -/
theorem C35_unbalanced_panics (hw : w.Reachable) (o : M2Bin) (v : Int) (ts : List MTok) (rng : String → Option Nat) :
    w.step (.rpn (.int v :: .bin o :: ts) rng) = none := by
  obtain ⟨vs, hv, _⟩ := mvars_exists hw
  exact C35_outcome hw hv (.int v :: .bin o :: ts) rng

/-- **C35.** Unbalanced expressions that leave too many operands are `Err`.  Missing: those with too few
(`C35_unbalanced_panics`). -/
theorem C35_unbalanced_partial (hw : w.Reachable) (v v' : Int) (vs' : List Int) (rng : String → Option Nat) :
    ∃ w', w.step (.rpn (.int v :: .int v' :: vs'.map .int) rng) = some (.err .invalid, w') := by
  obtain ⟨vs, hv, _⟩ := mvars_exists hw
  have := C35_outcome hw hv (.int v :: .int v' :: vs'.map .int) rng
  have e : ∀ (l : List Int) (st : List Bool) (c : String → Option Bool) (ns : List String),
      mshape rng (l.map .int) (false :: false :: st) c ns = .fails .invalid := by
    intro l
    induction l with
    | nil => intro st c ns; rfl
    | cons v l ih => intro st c ns; exact ih _ _ _
  simp only [mshape, e] at this
  obtain ⟨w', h, _⟩ := this
  exact ⟨w', h⟩

/-! ## C50 -/

/-- Operations whose operands may be swapped. -/
def Comm : M2Bin → Bool
  | .and | .or | .xor | .add | .mul | .min | .max => true
  | _ => false

theorem mdd_swap (s : Mdd) (f g : Nat) :
    s.and f g = s.and g f ∧ s.or f g = s.or g f ∧ s.xor f g = s.xor g f := by
  have e1 : Min.min f g = Min.min g f := Nat.min_comm _ _
  have e2 : Max.max f g = Max.max g f := Nat.max_comm _ _
  have e3 : Max.max (s.arena.rank f) (s.arena.rank g) + 1 = Max.max (s.arena.rank g) (s.arena.rank f) + 1 := by omega
  refine ⟨?_, ?_, ?_⟩
  · unfold Mdd.and; rw [e3]; simp only [Mdd.andF, e1, e2]
  · unfold Mdd.or; rw [e3]; simp only [Mdd.orF, e1, e2]
  · unfold Mdd.xor; rw [e3]; simp only [Mdd.xorF, e1, e2]

theorem mtmdd_swap (s : Mtmdd) (op : Nat) (tt : Int → Int → Option (Option Int)) (f g : Nat) :
    s.bin op true tt f g = s.bin op true tt g f := by
  have e1 : Min.min f g = Min.min g f := Nat.min_comm _ _
  have e2 : Max.max f g = Max.max g f := Nat.max_comm _ _
  have e3 : Max.max (s.arena.rank f) (s.arena.rank g) + 1 = Max.max (s.arena.rank g) (s.arena.rank f) + 1 := by omega
  unfold Mtmdd.bin; rw [e3]; simp only [Mtmdd.binF, e1, e2, if_true]

/-- **C50.** A commutative operation called with swapped operands does exactly the same: same node, same
resulting manager.  Also for undetermined operands and operands of different kinds. -/
theorem C50_mdd_swap (o : M2Bin) (ho : Comm o = true) (e : Mtmdd2) (x y : MNode) : o.run e x y = o.run e y x := by
  have hB : ∀ {op : Mdd → Nat → Nat → Option (Nat × Mdd)}, (∀ f g, op e.mdd f g = op e.mdd g f) →
      routeB op e x y = routeB op e y x := by
    intro op h
    cases x <;> cases y <;> first | rfl | (simp only [routeB]; rw [h])
  have hV : ∀ {op : Mtmdd → Nat → Nat → Option (Nat × Mtmdd)}, (∀ f g, op e.mtmdd f g = op e.mtmdd g f) →
      routeV op e x y = routeV op e y x := by
    intro op h
    cases x <;> cases y <;> first | rfl | (simp only [routeV]; rw [h])
  cases o <;> first | (cases ho; done) | skip
  case and => exact hB (fun f g => (mdd_swap e.mdd f g).1)
  case or => exact hB (fun f g => (mdd_swap e.mdd f g).2.1)
  case xor => exact hB (fun f g => (mdd_swap e.mdd f g).2.2)
  case add => exact hV (fun f g => mtmdd_swap e.mtmdd _ _ f g)
  case mul => exact hV (fun f g => mtmdd_swap e.mtmdd _ _ f g)
  case min => exact hV (fun f g => mtmdd_swap e.mtmdd _ _ f g)
  case max => exact hV (fun f g => mtmdd_swap e.mtmdd _ _ f g)

/-- **C50.** The same through handles: either order returns the same answer and leaves the same world. -/
theorem C50_mdd_handles_swap (w : MWorld) (o : M2Bin) (ho : Comm o = true) (f g : Nat) :
    w.step (.bin o f g) = w.step (.bin o g f) := by
  simp only [MWorld.step, MWorld.on1]
  cases hf : w.hs.held.get f <;> cases hg : w.hs.held.get g <;> simp only
  rw [C50_mdd_swap o ho]

/-- Composed expressions over handles. -/
inductive MHExp where
  | hd (f : Nat)
  | const (b : Bool)
  | int (v : Int)
  | not (e : MHExp)
  | bin (o : M2Bin) (e e' : MHExp)
  | ite (c t e : MHExp)

namespace MHExp

/-- Value, given the values of the handles; `none`: ill-typed. -/
def val (v : Nat → RVal) : MHExp → Option RVal
  | .hd f => some (v f)
  | .const b => some (.b b)
  | .int n => some (.i (some n))
  | .not e => do snot (← e.val v)
  | .bin o e e' => do sbin o (← e.val v) (← e'.val v)
  | .ite c t e => do site (← c.val v) (← t.val v) (← e.val v)

/-- Evaluation by calls on the manager, operands first; returns the handle of the result. -/
def run : MHExp → MWorld → Option (Nat × MWorld)
  | .hd f, w => some (f, w)
  | .const b, w => (w.step (.boolean b)).map fun p => (w.hs.next, p.2)
  | .int n, w => (w.step (.value n)).map fun p => (w.hs.next, p.2)
  | .not e, w => do
    let (f, w) ← e.run w
    (w.step (.not f)).map fun p => (w.hs.next, p.2)
  | .bin o e e', w => do
    let (f, w) ← e.run w
    let (g, w) ← e'.run w
    (w.step (.bin o f g)).map fun p => (w.hs.next, p.2)
  | .ite c t e, w => do
    let (f, w) ← c.run w
    let (g, w) ← t.run w
    let (h, w) ← e.run w
    (w.step (.ite f g h)).map fun p => (w.hs.next, p.2)

/-- Handles used. -/
def vars : MHExp → List Nat
  | .hd f => [f]
  | .const _ | .int _ => []
  | .not e => e.vars
  | .bin _ e e' => e.vars ++ e'.vars
  | .ite c t e => c.vars ++ t.vars ++ e.vars

end MHExp

/-- The value of the handles at assignment `a` is `v`. -/
def ReadsAs (D : Nat → MFun) (fs : List Nat) (a : Nat → Nat) (v : Nat → RVal) : Prop :=
  ∀ f ∈ fs, D f a = (v f).toM

theorem mhexp_run (D : Nat → MFun) (V : (Nat → Nat) → Nat → RVal) : ∀ (e : MHExp) (w : MWorld), w.Reachable → MVars w vs →
    (∀ f ∈ e.vars, w.Has f (D f)) → (∀ a, ValidV vs a → ReadsAs D e.vars a (V a)) →
    (∀ a, ValidV vs a → (e.val (V a)).isSome) →
    ∃ r w' F, e.run w = some (r, w') ∧ w'.Reachable ∧ MVars w' vs ∧ w'.Has r F ∧
      (∀ a, ValidV vs a → ∃ z, e.val (V a) = some z ∧ F a = z.toM) ∧ ∀ h G, w.Has h G → w'.Has h G := by
  intro e
  induction e with
  | hd f =>
    intro w hw hv hD hR hS
    exact ⟨f, w, D f, rfl, hw, hv, hD f (by simp [MHExp.vars]),
      fun a ha => ⟨_, rfl, hR a ha f (by simp [MHExp.vars])⟩, fun _ _ h => h⟩
  | const b =>
    intro w hw hv hD hR hS
    obtain ⟨w', F, h1, h2, h3, h4, h5, h6⟩ := mgives hw hv (c := .boolean b) trivial trivial
      (by intro f hf; simp [MWorld.operands] at hf) (by intro h e; cases e)
      (P := fun _ z => z = .b (T3.ofBool b)) (fun o w' vs' h => h)
    exact ⟨_, w', F, by simp only [MHExp.run, h1, Option.map_some], h2, h3, h4, fun a ha => ⟨_, rfl, h5 a ha⟩, h6⟩
  | int n =>
    intro w hw hv hD hR hS
    obtain ⟨w', F, h1, h2, h3, h4, h5, h6⟩ := mgives hw hv (c := .value n) trivial trivial
      (by intro f hf; simp [MWorld.operands] at hf) (by intro h e; cases e)
      (P := fun _ z => z = .v (some n)) (fun o w' vs' h => h)
    exact ⟨_, w', F, by simp only [MHExp.run, h1, Option.map_some], h2, h3, h4, fun a ha => ⟨_, rfl, h5 a ha⟩, h6⟩
  | not e ih =>
    intro w hw hv hD hR hS
    have ev : ∀ a, ValidV vs a → ∃ x z, e.val (V a) = some x ∧ snot x = some z ∧ (MHExp.not e).val (V a) = some z := by
      intro a ha
      obtain ⟨z, hz⟩ := Option.isSome_iff_exists.1 (hS a ha)
      have hz' := hz
      simp only [MHExp.val, bindSome] at hz'
      obtain ⟨x, hx, hxz⟩ := hz'
      exact ⟨x, z, hx, hxz, hz⟩
    obtain ⟨r1, w1, F1, a1, a2, a3, a4, a5, a6⟩ := ih w hw hv hD hR
      (fun a ha => by obtain ⟨x, z, h, _⟩ := ev a ha; rw [h]; rfl)
    obtain ⟨w', F, h1, h2, h3, h4, h5, h6⟩ := mgives a2 a3 (c := .not r1) trivial trivial
      (by intro f hf; simp [MWorld.operands] at hf; subst hf; exact ⟨_, a4.choose_spec.1⟩) (by intro h e; cases e)
      (P := fun a z => notRel (F1 a) z) (fun o w' vs' h => ⟨h.1, h.2 F1 a4⟩)
    refine ⟨_, w', F, ?_, h2, h3, h4, fun a ha => ?_, fun h G hG => h6 h G (a6 h G hG)⟩
    · simp only [MHExp.run, a1, Option.bind_eq_bind, Option.bind_some, h1, Option.map_some]
    · obtain ⟨x, z, e1, e2, e3⟩ := ev a ha
      obtain ⟨x', e4, e5⟩ := a5 a ha
      rw [e1] at e4; cases e4
      have : notRel (F1 a) (F a) := h5 a ha
      rw [e5] at this
      exact ⟨z, e3, snot_rel e2 this⟩
  | bin o e e' ih ih' =>
    intro w hw hv hD hR hS
    have ev : ∀ a, ValidV vs a → ∃ x y z, e.val (V a) = some x ∧ e'.val (V a) = some y ∧ sbin o x y = some z ∧
        (MHExp.bin o e e').val (V a) = some z := by
      intro a ha
      obtain ⟨z, hz⟩ := Option.isSome_iff_exists.1 (hS a ha)
      have hz' := hz
      simp only [MHExp.val, bindSome] at hz'
      obtain ⟨x, hx, y, hy, hxz⟩ := hz'
      exact ⟨x, y, z, hx, hy, hxz, hz⟩
    obtain ⟨r1, w1, F1, a1, a2, a3, a4, a5, a6⟩ := ih w hw hv (fun f hf => hD f (List.mem_append_left _ hf))
      (fun a ha f hf => hR a ha f (List.mem_append_left _ hf))
      (fun a ha => by obtain ⟨x, y, z, h, _⟩ := ev a ha; rw [h]; rfl)
    obtain ⟨r2, w2, F2, b1, b2, b3, b4, b5, b6⟩ := ih' w1 a2 a3 (fun f hf => a6 _ _ (hD f (List.mem_append_right _ hf)))
      (fun a ha f hf => hR a ha f (List.mem_append_right _ hf))
      (fun a ha => by obtain ⟨x, y, z, _, h, _⟩ := ev a ha; rw [h]; rfl)
    have a4' := b6 _ _ a4
    obtain ⟨w', F, h1, h2, h3, h4, h5, h6⟩ := mgives b2 b3 (c := .bin o r1 r2) trivial trivial
      (by intro f hf; simp [MWorld.operands] at hf
          rcases hf with rfl | rfl
          · exact ⟨_, a4'.choose_spec.1⟩
          · exact ⟨_, b4.choose_spec.1⟩) (by intro h e; cases e)
      (P := fun a z => o.Rel (F1 a) (F2 a) z) (fun o w' vs' h => ⟨h.1, h.2 F1 F2 a4' b4⟩)
    refine ⟨_, w', F, ?_, h2, h3, h4, fun a ha => ?_, fun h G hG => h6 h G (b6 h G (a6 h G hG))⟩
    · simp only [MHExp.run, a1, b1, Option.bind_eq_bind, Option.bind_some, h1, Option.map_some]
    · obtain ⟨x, y, z, e1, e2, e3, e4⟩ := ev a ha
      obtain ⟨x', q1, q2⟩ := a5 a ha
      rw [e1] at q1; cases q1
      obtain ⟨y', q3, q4⟩ := b5 a ha
      rw [e2] at q3; cases q3
      have : o.Rel (F1 a) (F2 a) (F a) := h5 a ha
      rw [q2, q4] at this
      exact ⟨z, e4, sbin_rel e3 this⟩
  | ite c t e ihc iht ihe =>
    intro w hw hv hD hR hS
    have ev : ∀ a, ValidV vs a → ∃ x y u z, c.val (V a) = some x ∧ t.val (V a) = some y ∧ e.val (V a) = some u ∧
        site x y u = some z ∧ (MHExp.ite c t e).val (V a) = some z := by
      intro a ha
      obtain ⟨z, hz⟩ := Option.isSome_iff_exists.1 (hS a ha)
      have hz' := hz
      simp only [MHExp.val, bindSome] at hz'
      obtain ⟨x, hx, y, hy, u, hu, hxz⟩ := hz'
      exact ⟨x, y, u, z, hx, hy, hu, hxz, hz⟩
    obtain ⟨r1, w1, F1, a1, a2, a3, a4, a5, a6⟩ := ihc w hw hv
      (fun f hf => hD f (List.mem_append_left _ (List.mem_append_left _ hf)))
      (fun a ha f hf => hR a ha f (List.mem_append_left _ (List.mem_append_left _ hf)))
      (fun a ha => by obtain ⟨x, y, u, z, h, _⟩ := ev a ha; rw [h]; rfl)
    obtain ⟨r2, w2, F2, b1, b2, b3, b4, b5, b6⟩ := iht w1 a2 a3
      (fun f hf => a6 _ _ (hD f (List.mem_append_left _ (List.mem_append_right _ hf))))
      (fun a ha f hf => hR a ha f (List.mem_append_left _ (List.mem_append_right _ hf)))
      (fun a ha => by obtain ⟨x, y, u, z, _, h, _⟩ := ev a ha; rw [h]; rfl)
    obtain ⟨r3, w3, F3, c1, c2, c3, c4, c5, c6⟩ := ihe w2 b2 b3
      (fun f hf => b6 _ _ (a6 _ _ (hD f (List.mem_append_right _ hf))))
      (fun a ha f hf => hR a ha f (List.mem_append_right _ hf))
      (fun a ha => by obtain ⟨x, y, u, z, _, _, h, _⟩ := ev a ha; rw [h]; rfl)
    have a4' := c6 _ _ (b6 _ _ a4)
    have b4' := c6 _ _ b4
    have R3 := mrel c2 c3
    have hz : ValidV vs (fun _ => 0) := R3.mok.valid.1 R3.mok.inv.zero
    have hleg : w3.Legal (.ite r1 r2 r3) := by
      intro x y hx hy
      obtain ⟨p, q, u, z, e1, e2, e3, e4, _⟩ := ev _ hz
      obtain ⟨q', q1, q2⟩ := b5 _ hz
      rw [e2] at q1; cases q1
      obtain ⟨u', q3, q4⟩ := c5 _ hz
      rw [e3] at q3; cases q3
      have k1 := (MRel.has_node hx b4').val _ R3.mok.inv.zero
      have k2 := (MRel.has_node hy c4).val _ R3.mok.inv.zero
      rw [isBool_of_meval k1, isBool_of_meval k2, q2, q4, site_kind e4]
    obtain ⟨w', F, h1, h2, h3, h4, h5, h6⟩ := mgives c2 c3 (c := .ite r1 r2 r3) hleg trivial
      (by intro f hf; simp [MWorld.operands] at hf
          rcases hf with rfl | rfl | rfl
          · exact ⟨_, a4'.choose_spec.1⟩
          · exact ⟨_, b4'.choose_spec.1⟩
          · exact ⟨_, c4.choose_spec.1⟩) (by intro h e; cases e)
      (P := fun a z => iteRel (F1 a) (F2 a) (F3 a) z) (fun o w' vs' h => ⟨h.1, h.2 F1 F2 F3 a4' b4' c4⟩)
    refine ⟨_, w', F, ?_, h2, h3, h4, fun a ha => ?_, fun h G hG => h6 h G (c6 h G (b6 h G (a6 h G hG)))⟩
    · simp only [MHExp.run, a1, b1, c1, Option.bind_eq_bind, Option.bind_some, h1, Option.map_some]
    · obtain ⟨x, y, u, z, e1, e2, e3, e4, e5⟩ := ev a ha
      obtain ⟨x', q1, q2⟩ := a5 a ha
      rw [e1] at q1; cases q1
      obtain ⟨y', q3, q4⟩ := b5 a ha
      rw [e2] at q3; cases q3
      obtain ⟨u', q5, q6⟩ := c5 a ha
      rw [e3] at q5; cases q5
      have : iteRel (F1 a) (F2 a) (F3 a) (F a) := h5 a ha
      rw [q2, q4, q6] at this
      exact ⟨z, e5, site_rel e4 this⟩

/-- **C50.** Any algebraic identity holds up to node equality.  If two expressions over handles have the
same (well-typed) value for the values the handles take at each assignment, then evaluating both by calls,
one after the other, gives handles on the same node.  Integer values may be undetermined; Boolean operands
must be determined.  Commutativity, associativity, idempotence, De Morgan, … are instances. -/
theorem C50_mdd_identities (hw : w.Reachable) (hv : MVars w vs) (e e' : MHExp) (D : Nat → MFun)
    (V : (Nat → Nat) → Nat → RVal) (held : ∀ f ∈ e.vars ++ e'.vars, w.Has f (D f))
    (reads : ∀ a, ValidV vs a → ReadsAs D (e.vars ++ e'.vars) a (V a))
    (ident : ∀ a, ValidV vs a → (e.val (V a)).isSome ∧ e.val (V a) = e'.val (V a)) :
    ∃ r w1 r' w2 x, e.run w = some (r, w1) ∧ e'.run w1 = some (r', w2) ∧
      w2.step (.node r) = some (.node x, w2) ∧ w2.step (.node r') = some (.node x, w2) := by
  obtain ⟨r1, w1, F1, a1, a2, a3, a4, a5, a6⟩ := mhexp_run D V e w hw hv
    (fun f hf => held f (List.mem_append_left _ hf)) (fun a ha f hf => reads a ha f (List.mem_append_left _ hf))
    (fun a ha => (ident a ha).1)
  obtain ⟨r2, w2, F2, b1, b2, b3, b4, b5, b6⟩ := mhexp_run D V e' w1 a2 a3
    (fun f hf => a6 _ _ (held f (List.mem_append_right _ hf)))
    (fun a ha f hf => reads a ha f (List.mem_append_right _ hf))
    (fun a ha => by rw [← (ident a ha).2]; exact (ident a ha).1)
  obtain ⟨x, y, h1, h2, h3⟩ := C27_handles b2 b3 (b6 _ _ a4) b4
  have : x = y := h3.2 (fun a ha => by
    obtain ⟨z, e1, e2⟩ := a5 a ha
    obtain ⟨z', e3, e4⟩ := b5 a ha
    rw [← (ident a ha).2, e1] at e3; cases e3
    rw [e2, e4])
  subst this
  exact ⟨r1, w1, r2, w2, x, a1, b1, h1, h2⟩

/-- Instance: `max (min f g) f = f` for value functions, undetermined nowhere. -/
example (hw : w.Reachable) (hv : MVars w vs) {f g : Nat} {F G : (Nat → Nat) → Int}
    (hf : w.Has f (fun a => .v (some (F a)))) (hg : w.Has g (fun a => .v (some (G a)))) (hne : f ≠ g) :
    ∃ r w1 r' w2 x, (MHExp.bin .max (.bin .min (.hd f) (.hd g)) (.hd f)).run w = some (r, w1) ∧
      (MHExp.hd f).run w1 = some (r', w2) ∧
      w2.step (.node r) = some (.node x, w2) ∧ w2.step (.node r') = some (.node x, w2) := by
  refine C50_mdd_identities hw hv _ _ (fun k => if k = f then fun a => .v (some (F a)) else fun a => .v (some (G a)))
    (fun a k => if k = f then .i (some (F a)) else .i (some (G a))) ?_ ?_ ?_
  · intro k hk
    simp [MHExp.vars] at hk
    rcases hk with rfl | rfl | rfl
    · simpa using hf
    · simpa [Ne.symm hne] using hg
    · simpa using hf
  · intro a _ k _
    by_cases hk : k = f <;> simp [hk, RVal.toM]
  · intro a _
    simp only [MHExp.val, if_true, if_neg (Ne.symm hne), Option.bind_eq_bind, Option.bind_some, sbin, arith]
    refine ⟨rfl, ?_⟩
    congr 3
    omega

/-! ## A concrete session

Variables `x` (3 states) and `y` (2 states) are handles 0 and 1; the threshold 0 forces a collection at
every wrapped result. -/

/-- Running a list of calls. -/
def mrun : MWorld → List MCmd → Option (List MOut × MWorld)
  | w, [] => some ([], w)
  | w, c :: cs => do
    let (o, w) ← w.step c
    let (os, w) ← mrun w cs
    return (o :: os, w)

/-- The session. -/
def mdemo : List MCmd :=
  [.defvar "x" 3, .defvar "y" 2, .setThreshold 0, .bin .add 0 1, .bin .gt 2 1, .drop 2, .clearCache,
   .bin .add 1 0, .minL [0, 1, 4], .rpn [.var "x", .var "y", .bin .add, .int 2, .bin .gte] (fun _ => some 9),
   .isBoolean 3, .gc [], .level 5, .varorder, .children 6, .defvar "x" 7, .label 9,
   .rpn [.load "q"] (fun _ => none)]

example : (mrun MWorld.new mdemo).map (·.1) = some
    [.handle 0, .handle 1, .unit, .handle 2, .handle 3, .unit, .unit, .handle 4, .handle 5, .handle 6,
     .bool true, .pair (0, 3), .nat (some 1), .order [("x", 3), ("y", 2)], .handles (some [7, 8]),
     .handle 9, .str (some "x"), .err (.noCached "q")] := by
  decide +kernel

end DD.Props
