import Verif.Bss.ReachW
import Verif.Props.BddCore

/-!
# Properties of BDD sessions: C01, C02, C03, C06, C07, C08, C11, C16, C50

A world is a manager together with the handles the client holds; `World.step` is one public call,
`none` meaning a panic.  `w.Denotes h F`: handle `h` reads as the Boolean function `F`.
-/

set_option autoImplicit false
set_option linter.unusedSectionVars false
set_option linter.unusedVariables false

namespace DD.Props
open Arena

variable {w : World}

/-- Every held handle denotes exactly one Boolean function. -/
theorem denotes_exists (hw : w.Reachable) {h i : Nat} (hi : w.held.get h = some i) :
    ∃ F, w.Denotes h F ∧ ∀ G, w.Denotes h G → G = F := by
  obtain ⟨A, R⟩ := hw.rel
  obtain ⟨F, h1, h2⟩ := R.heldS h i hi
  refine ⟨F, R.denotes_iff.2 h1, fun G hG => ?_⟩
  have := R.denotes_iff.1 hG
  rw [h1] at this; cases this; rfl

/-- The call `c` returns a new handle for `F` and keeps all other handles. -/
def Gives (w : World) (c : Cmd) (F : BFun) : Prop :=
  ∃ w', w.step c = some (.handle w.next, w') ∧ w'.Reachable ∧ w'.Denotes w.next F ∧
    w.held.get w.next = none ∧ ∀ h G, w.Denotes h G → w'.Denotes h G

theorem gives_of {A : Abs} (c : Cmd) (R : Rel w A) (hw : w.Reachable) (hl : A.Legal c)
    (ho : w.Ordered c) {F : BFun} {names : List String}
    (hp : ∀ o A', A.Post c o A' → o = .handle A.next ∧ A' = { A with names := names }.give F) :
    Gives w c F := by
  obtain ⟨o, w', A', h1, h2, h3⟩ := R.step hl
  obtain ⟨rfl, rfl⟩ := hp o A' h2
  rw [R.next] at h1
  refine ⟨w', h1, .step c hw ho h1, ?_, R.notin, ?_⟩
  · refine h3.denotes_iff.2 ?_
    show (if w.next = A.next then some F else _) = some F
    rw [if_pos R.next.symm]
  · intro h G hG
    have hA := R.denotes_iff.1 hG
    refine h3.denotes_iff.2 ?_
    show (if h = A.next then some F else A.held h) = some G
    have : h ≠ A.next := by
      obtain ⟨i, hi, _⟩ := hG
      have := R.fresh h i hi
      rw [R.next]; omega
    rw [if_neg this]; exact hA

/-! ## C01 -/

/-- **C01 (handles).** `not`. -/
theorem C01_not (hw : w.Reachable) {f : Nat} {F : BFun} (hf : w.Denotes f F) :
    Gives w (.not f) (fun a => !F a) := by
  obtain ⟨A, R⟩ := hw.rel
  have h1 := R.denotes_iff.1 hf
  refine gives_of (.not f) R hw (by show (A.held f).isSome; rw [h1]; rfl) trivial (names := A.names) ?_
  rintro o A' ⟨F', k1, k2, k3⟩
  rw [h1] at k1; cases k1
  exact ⟨k2, k3⟩

/-- **C01 (handles).** `and`. -/
theorem C01_and (hw : w.Reachable) {f g : Nat} {F G : BFun} (hf : w.Denotes f F)
    (hg : w.Denotes g G) : Gives w (.and f g) (fun a => F a && G a) := by
  obtain ⟨A, R⟩ := hw.rel
  have h1 := R.denotes_iff.1 hf
  have h2 := R.denotes_iff.1 hg
  refine gives_of (.and f g) R hw (by show (A.held f).isSome ∧ (A.held g).isSome; rw [h1, h2]; exact ⟨rfl, rfl⟩)
    trivial (names := A.names) ?_
  rintro o A' ⟨F', G', k1, k1', k2, k3⟩
  rw [h1] at k1; cases k1; rw [h2] at k1'; cases k1'
  exact ⟨k2, k3⟩

/-- **C01 (handles).** `or`. -/
theorem C01_or (hw : w.Reachable) {f g : Nat} {F G : BFun} (hf : w.Denotes f F)
    (hg : w.Denotes g G) : Gives w (.or f g) (fun a => F a || G a) := by
  obtain ⟨A, R⟩ := hw.rel
  have h1 := R.denotes_iff.1 hf
  have h2 := R.denotes_iff.1 hg
  refine gives_of (.or f g) R hw (by show (A.held f).isSome ∧ (A.held g).isSome; rw [h1, h2]; exact ⟨rfl, rfl⟩)
    trivial (names := A.names) ?_
  rintro o A' ⟨F', G', k1, k1', k2, k3⟩
  rw [h1] at k1; cases k1; rw [h2] at k1'; cases k1'
  exact ⟨k2, k3⟩

/-- **C01 (handles).** `xor`. -/
theorem C01_xor (hw : w.Reachable) {f g : Nat} {F G : BFun} (hf : w.Denotes f F)
    (hg : w.Denotes g G) : Gives w (.xor f g) (fun a => F a ^^ G a) := by
  obtain ⟨A, R⟩ := hw.rel
  have h1 := R.denotes_iff.1 hf
  have h2 := R.denotes_iff.1 hg
  refine gives_of (.xor f g) R hw (by show (A.held f).isSome ∧ (A.held g).isSome; rw [h1, h2]; exact ⟨rfl, rfl⟩)
    trivial (names := A.names) ?_
  rintro o A' ⟨F', G', k1, k1', k2, k3⟩
  rw [h1] at k1; cases k1; rw [h2] at k1'; cases k1'
  exact ⟨k2, k3⟩

/-- **C01 (handles).** `ite`. -/
theorem C01_ite (hw : w.Reachable) {f g h : Nat} {F G H : BFun} (hf : w.Denotes f F)
    (hg : w.Denotes g G) (hh : w.Denotes h H) :
    Gives w (.ite f g h) (fun a => if F a then G a else H a) := by
  obtain ⟨A, R⟩ := hw.rel
  have h1 := R.denotes_iff.1 hf
  have h2 := R.denotes_iff.1 hg
  have h3 := R.denotes_iff.1 hh
  refine gives_of (.ite f g h) R hw (by
    show (A.held f).isSome ∧ (A.held g).isSome ∧ (A.held h).isSome
    rw [h1, h2, h3]; exact ⟨rfl, rfl, rfl⟩) trivial (names := A.names) ?_
  rintro o A' ⟨F', G', H', k1, k1', k1'', k2, k3⟩
  rw [h1] at k1; cases k1; rw [h2] at k1'; cases k1'; rw [h3] at k1''; cases k1''
  exact ⟨k2, k3⟩

/-- **C01 (handles).** Constants. -/
theorem C01_const (hw : w.Reachable) (b : Bool) : Gives w (.const b) (fun _ => b) := by
  obtain ⟨A, R⟩ := hw.rel
  exact gives_of (.const b) R hw trivial trivial (names := A.names) (fun o A' h => h)

/-- **C01 (handles).** `create_node h f g` is "if variable `h` then `g` else `f`". -/
theorem C01_createNode (hw : w.Reachable) {h f g : Nat} {F G : BFun} (hf : w.Denotes f F)
    (hg : w.Denotes g G) (hlt : h < w.mgr.bdd.arena.headers.length) (dF : DependsBelow h F)
    (dG : DependsBelow h G) : Gives w (.createNode h f g) (fun a => if a h then G a else F a) := by
  obtain ⟨A, R⟩ := hw.rel
  have h1 := R.denotes_iff.1 hf
  have h2 := R.denotes_iff.1 hg
  refine gives_of (.createNode h f g) R hw ⟨?_, F, G, h1, h2, dF, dG⟩ ⟨hlt, ?_⟩ (names := A.names) ?_
  · rw [R.mok.hdrs] at hlt; simpa [mkHeaders] using hlt
  · intro K hK
    rcases hK with hK | hK
    · have := R.denotes_iff.1 hK
      rw [h1] at this; cases this; exact dF
    · have := R.denotes_iff.1 hK
      rw [h2] at this; cases this; exact dG
  · rintro o A' ⟨F', G', k1, k1', k2, k3⟩
    rw [h1] at k1; cases k1; rw [h2] at k1'; cases k1'
    exact ⟨k2, k3⟩

/-! ## C02 -/

/-- **C02 (handles).** `eq` answers whether the two handles denote the same function. -/
theorem C02_eq (hw : w.Reachable) {f g : Nat} {F G : BFun} (hf : w.Denotes f F)
    (hg : w.Denotes g G) : ∃ b, w.step (.eq f g) = some (.bool b, w) ∧ (b = true ↔ F = G) := by
  obtain ⟨A, R⟩ := hw.rel
  have h1 := R.denotes_iff.1 hf
  have h2 := R.denotes_iff.1 hg
  obtain ⟨i, e1, e2⟩ := R.get h1
  obtain ⟨j, k1, k2⟩ := R.get h2
  refine ⟨decide (i = j), by simp only [World.step, e1, k1], ?_⟩
  rw [decide_eq_true_iff]
  constructor
  · rintro rfl; exact e2.fun_eq k2
  · rintro rfl; exact Bdd.canon R.mok.inv R.mok.inj e2 k2

/-- **C02.** `is_zero` / `is_one` / `is_undet` answer whether the function is constantly false / true /
undetermined (never). -/
theorem C02_constants (hw : w.Reachable) {f : Nat} {F : BFun} (hf : w.Denotes f F) :
    (∃ b, w.step (.isZero f) = some (.bool b, w) ∧ (b = true ↔ ∀ a, F a = false)) ∧
    (∃ b, w.step (.isOne f) = some (.bool b, w) ∧ (b = true ↔ ∀ a, F a = true)) ∧
    w.step (.isUndet f) = some (.bool false, w) := by
  obtain ⟨A, R⟩ := hw.rel
  have h1 := R.denotes_iff.1 hf
  have hs : (A.held f).isSome := by rw [h1]; rfl
  obtain ⟨i, e1, e2⟩ := R.get h1
  have hn : ∃ n, w.mgr.bdd.arena.node? i = some n := e2.live.node
  obtain ⟨n, hn⟩ := hn
  refine ⟨?_, ?_, ?_⟩
  · obtain ⟨o, w', A', k1, ⟨F', b, k2, k3, k4, _⟩, _⟩ := R.step (c := .isZero f) hs
    rw [h1] at k2; cases k2; subst k3
    have : w' = w := by
      simp only [World.step, e1, hn, Option.map_some, Option.some.injEq, Prod.mk.injEq] at k1
      exact k1.2.symm
    subst this
    exact ⟨b, k1, k4⟩
  · obtain ⟨o, w', A', k1, ⟨F', b, k2, k3, k4, _⟩, _⟩ := R.step (c := .isOne f) hs
    rw [h1] at k2; cases k2; subst k3
    have : w' = w := by
      simp only [World.step, e1, hn, Option.map_some, Option.some.injEq, Prod.mk.injEq] at k1
      exact k1.2.symm
    subst this
    exact ⟨b, k1, k4⟩
  · obtain ⟨o, w', A', k1, ⟨k3, _⟩, _⟩ := R.step (c := .isUndet f) hs
    subst k3
    have : w' = w := by
      simp only [World.step, e1, hn, Option.map_some, Option.some.injEq, Prod.mk.injEq] at k1
      exact k1.2.symm
    subst this
    exact k1

/-- **C02.** `get_level` returns the level of the highest variable the function depends on. -/
theorem C02_level (hw : w.Reachable) {f : Nat} {F : BFun} (hf : w.Denotes f F) :
    ∃ t, w.step (.level f) = some (.level t, w) ∧ IsTop F t := by
  obtain ⟨A, R⟩ := hw.rel
  have h1 := R.denotes_iff.1 hf
  have hs : (A.held f).isSome := by rw [h1]; rfl
  obtain ⟨i, e1, e2⟩ := R.get h1
  obtain ⟨o, w', A', k1, ⟨F', t, k2, k3, k4, _⟩, _⟩ := R.step (c := .level f) hs
  rw [h1] at k2; cases k2; subst k4
  have : w' = w := by
    simp only [World.step, e1, Option.some.injEq, Prod.mk.injEq] at k1
    exact k1.2.symm
  subst this
  exact ⟨t, k1, k3⟩

/-! ## C03 -/

/-- **C03.** A call keeps the function of every handle that it does not drop. -/
theorem C03_step (hw : w.Reachable) {c : Cmd} (ho : w.Ordered c) {o : Out} {w' : World}
    (hs : w.step c = some (o, w')) {h : Nat} (hd : c ≠ .drop h) {F : BFun} (hF : w.Denotes h F) :
    w'.Denotes h F := by
  obtain ⟨A, R⟩ := hw.rel
  obtain ⟨A', hp, R'⟩ := R.of_step ho hs
  have hA := R.denotes_iff.1 hF
  have hlt : h ≠ A.next ∧ h ≠ A.next + 1 := by
    obtain ⟨i, hi, _⟩ := hF
    have := R.fresh h i hi
    rw [R.next]; omega
  refine R'.denotes_iff.2 ?_
  have give : ∀ (B : Abs) (G : BFun), B.next = A.next → B.held h = some F →
      (B.give G).held h = some F := by
    intro B G h1 h2
    show (if h = B.next then some G else B.held h) = some F
    rw [h1, if_neg hlt.1]; exact h2
  cases c <;> simp only [Abs.Post] at hp
  case const => rw [hp.2]; exact give _ _ rfl hA
  case defvar => rw [hp.2]; exact give _ _ rfl hA
  case not => obtain ⟨_, _, _, rfl⟩ := hp; exact give _ _ rfl hA
  case dual => obtain ⟨_, _, _, rfl⟩ := hp; exact give _ _ rfl hA
  case clone => obtain ⟨_, _, _, rfl⟩ := hp; exact give _ _ rfl hA
  case and => obtain ⟨_, _, _, _, _, rfl⟩ := hp; exact give _ _ rfl hA
  case or => obtain ⟨_, _, _, _, _, rfl⟩ := hp; exact give _ _ rfl hA
  case xor => obtain ⟨_, _, _, _, _, rfl⟩ := hp; exact give _ _ rfl hA
  case createNode => obtain ⟨_, _, _, _, _, rfl⟩ := hp; exact give _ _ rfl hA
  case ite => obtain ⟨_, _, _, _, _, _, _, rfl⟩ := hp; exact give _ _ rfl hA
  case andList => obtain ⟨_, _, _, rfl⟩ := hp; exact give _ _ rfl hA
  case orList => obtain ⟨_, _, _, rfl⟩ := hp; exact give _ _ rfl hA
  case kofn => obtain ⟨_, _, _, rfl⟩ := hp; exact give _ _ rfl hA
  case rpn =>
    obtain ⟨r, ns, _, h2⟩ := hp
    cases r with
    | ok G => rw [h2.2]; exact give _ _ rfl hA
    | error e => rw [h2.2]; exact hA
  case drop f =>
    rw [hp.2]
    have : h ≠ f := fun e => hd (e ▸ rfl)
    show (if h = f then none else A.held h) = some F
    rw [if_neg this]; exact hA
  case children =>
    obtain ⟨_, t, _, _, h3⟩ := hp
    cases t with
    | none => rw [h3.2]; exact hA
    | some l =>
      rw [h3.2]
      show (if h = A.next + 1 then _ else (A.give _).held h) = some F
      rw [if_neg hlt.2]
      exact give _ _ rfl hA
  case gc => rw [hp.2]; exact hA
  case setThreshold => rw [hp.2]; exact hA
  case clearCache => rw [hp.2]; exact hA
  case isUndet => rw [hp.2]; exact hA
  case varorder => rw [hp.2]; exact hA
  case eq => obtain ⟨_, _, _, _, _, _, _, rfl⟩ := hp; exact hA
  case isZero => obtain ⟨_, _, _, _, _, rfl⟩ := hp; exact hA
  case isOne => obtain ⟨_, _, _, _, _, rfl⟩ := hp; exact hA
  case level => obtain ⟨_, _, _, _, _, rfl⟩ := hp; exact hA
  case minsol => obtain ⟨_, _, _, _, _, rfl⟩ := hp; exact hA

/-- A history of calls with their outputs, each one returning. -/
inductive History : World → List Cmd → List Out → World → Prop
  | nil (w : World) : History w [] [] w
  | cons {w w' w'' : World} {c : Cmd} {cs : List Cmd} {o : Out} {os : List Out} : w.Ordered c →
      w.step c = some (o, w') → History w' cs os w'' → History w (c :: cs) (o :: os) w''

theorem History.reachable {cs : List Cmd} {os : List Out} {w' : World} (h : History w cs os w')
    (hw : w.Reachable) : w'.Reachable := by
  induction h with
  | nil => exact hw
  | cons ho hs _ ih => exact ih (.step _ hw ho hs)

/-- **C03.** Over any history, a handle that is not dropped keeps its function. -/
theorem C03_history (hw : w.Reachable) {cs : List Cmd} {os : List Out} {w' : World}
    (hist : History w cs os w') {h : Nat} (hd : .drop h ∉ cs) {F : BFun} (hF : w.Denotes h F) :
    w'.Denotes h F := by
  induction hist with
  | nil => exact hF
  | cons ho hs _ ih =>
    refine ih (.step _ hw ho hs) (fun hm => hd (List.mem_cons_of_mem _ hm)) ?_
    exact C03_step hw ho hs (fun e => hd (e ▸ List.mem_cons_self)) hF

/-- **C03.** A call on held handles never panics (`rpn`: see C10). -/
theorem C03_no_panic (hw : w.Reachable) {c : Cmd} (ho : w.Ordered c)
    (hh : ∀ f ∈ World.operands c, ∃ i, w.held.get f = some i) (hr : ∀ ts, c ≠ .rpn ts) :
    ∃ o w', w.step c = some (o, w') ∧ w'.Reachable := by
  obtain ⟨A, R⟩ := hw.rel
  obtain ⟨o, w', A', h1, _, _⟩ := R.step (R.legal_of ho hh (fun ts e => absurd e (hr ts)))
  exact ⟨o, w', h1, .step c hw ho h1⟩

/-! ## C06 -/

/-- Calls that only affect memory management. -/
def Maint : Cmd → Bool
  | .gc _ | .setThreshold _ | .clearCache => true
  | _ => false

/-- Answers to the calls that are not memory management. -/
def answers : List Cmd → List Out → List Out
  | c :: cs, o :: os => if Maint c then answers cs os else o :: answers cs os
  | _, _ => []

theorem hist_abs : ∀ {w : World} {A : Abs} {cs : List Cmd} {os : List Out} {w' : World},
    History w cs os w' → Rel w A → ∃ A', Rel w' A' ∧ A.Runs (cs.filter (!Maint ·)) (answers cs os) A' := by
  intro w A cs os w' h
  induction h generalizing A with
  | nil => intro R; exact ⟨A, R, .nil A⟩
  | @cons w w1 w2 c cs o os ho hs _ ih =>
    intro R
    have hl := R.legal_of_step ho hs
    obtain ⟨A1, hp, R1⟩ := R.of_step ho hs
    obtain ⟨A2, R2, hr⟩ := ih R1
    refine ⟨A2, R2, ?_⟩
    cases hm : Maint c with
    | true =>
      have : A1 = A := by
        cases c <;> simp [Maint] at hm <;> simp only [Abs.Post] at hp <;> exact hp.2
      subst this
      simp only [answers, hm, if_true, List.filter_cons, Bool.not_true]
      exact hr
    | false =>
      simp only [answers, hm, List.filter_cons, Bool.not_false, if_true]
      exact .cons hl hp hr

/-- **C06.** Two sessions that make the same calls apart from collections, cache clears and
threshold settings (at any points, with any values) return the same answers, and the handles
denote the same functions. -/
theorem C06_gc_unobservable {cs cs' : List Cmd} {os os' : List Out} {w w' : World}
    (h : History World.new cs os w) (h' : History World.new cs' os' w')
    (same : cs.filter (!Maint ·) = cs'.filter (!Maint ·)) :
    answers cs os = answers cs' os' ∧ ∀ f F, w.Denotes f F ↔ w'.Denotes f F := by
  obtain ⟨A, R, hr⟩ := hist_abs h Rel.new
  obtain ⟨A', R', hr'⟩ := hist_abs h' Rel.new
  rw [← same] at hr'
  obtain ⟨h1, rfl⟩ := hr.det hr'
  exact ⟨h1, fun f F => by rw [R.denotes_iff, R'.denotes_iff]⟩

/-! ## C07 -/

/-- **C07.** The root table counts, for each node, the client's handles on it plus the variables'
own handles; nodes without handles have no entry. -/
theorem C07_root_counts (hw : w.Reachable) (i : Nat) :
    w.mgr.gc.roots.get i =
      if (w.held.vals ++ w.mgr.vars.vals).count i = 0 then none
      else some ((w.held.vals ++ w.mgr.vars.vals).count i) := by
  obtain ⟨A, R⟩ := hw.rel
  exact R.mok.roots.get i

/-- **C07.** Dropping one handle leaves a node pinned as long as another handle holds it. -/
theorem C07_drop_keeps_other (hw : w.Reachable) {f g i : Nat} (hne : f ≠ g)
    (hf : w.held.get f = some i) (hg : w.held.get g = some i) {o : Out} {w' : World}
    (hs : w.step (.drop f) = some (o, w')) : ∃ n, w'.mgr.gc.roots.get i = some n ∧ 0 < n := by
  have hw' : w'.Reachable := .step (.drop f) hw trivial hs
  have hheld : w'.held = w.held.remove f := by
    simp only [World.step, hf, Option.some.injEq, Prod.mk.injEq] at hs
    rw [← hs.2]
  have : i ∈ w'.held.vals := by
    apply AMap.mem_vals_of_get (i := g)
    rw [hheld, AMap.get_remove, if_neg hne]; exact hg
  have hc : 0 < (w'.held.vals ++ w'.mgr.vars.vals).count i :=
    List.count_pos_iff.2 (List.mem_append_left _ this)
  have := C07_root_counts hw' i
  rw [if_neg (by omega)] at this
  exact ⟨_, this, hc⟩

/-! ## C08 -/

/-- The variables in the order of their definition. -/
def Names (w : World) (names : List String) : Prop := w.step .varorder = some (.strs names, w)

theorem names_iff {A : Abs} (R : Rel w A) (names : List String) : Names w names ↔ names = A.names := by
  unfold Names
  simp only [World.step, Rel.getVarorder R.mok, Option.map_some]
  constructor
  · intro h; cases h; rfl
  · rintro rfl; rfl

/-- **C08.** `get_varorder` never panics and lists distinct names. -/
theorem C08_varorder (hw : w.Reachable) : ∃ names, Names w names ∧ names.Nodup := by
  obtain ⟨A, R⟩ := hw.rel
  exact ⟨A.names, (names_iff R _).2 rfl, R.mok.nodup⟩

/-- **C08.** `defvar` of a new name appends it to the order and denotes the projection to a variable
whose level is the number of variables so far. -/
theorem C08_defvar_new (hw : w.Reachable) {names : List String} (hn : Names w names) {v : String}
    (hv : v ∉ names) : Gives w (.defvar v) (fun a => a names.length) ∧
      ∀ o w', w.step (.defvar v) = some (o, w') → Names w' (names ++ [v]) := by
  obtain ⟨A, R⟩ := hw.rel
  rw [names_iff R] at hn
  subst hn
  have hadd : addName A.names v = A.names ++ [v] := by simp [addName, hv]
  have hproj : proj (A.names ++ [v]) v = fun a => a A.names.length := by
    unfold proj; rw [idxOf_snoc _ hv]
  constructor
  · refine gives_of (.defvar v) R hw trivial trivial (names := A.names ++ [v]) ?_
    rintro o A' ⟨k1, k2⟩
    rw [hadd, hproj] at k2
    exact ⟨k1, k2⟩
  · intro o w' hs
    obtain ⟨A', ⟨_, k2⟩, R'⟩ := R.of_step (c := .defvar v) trivial hs
    rw [names_iff R', k2, hadd]
    rfl

/-- **C08.** `defvar` of a known name returns a handle for the same variable and defines nothing. -/
theorem C08_defvar_again (hw : w.Reachable) {names : List String} (hn : Names w names) {i : Nat}
    {v : String} (hv : names[i]? = some v) : Gives w (.defvar v) (fun a => a i) ∧
      ∀ o w', w.step (.defvar v) = some (o, w') → Names w' names := by
  obtain ⟨A, R⟩ := hw.rel
  rw [names_iff R] at hn
  subst hn
  have hm : v ∈ A.names := List.mem_of_getElem? hv
  have hadd : addName A.names v = A.names := by simp [addName, hm]
  have hproj : proj A.names v = fun a => a i := by
    unfold proj
    have h1 := getElem?_idxOf' A.names hm
    obtain ⟨l1, e1⟩ := List.getElem?_eq_some_iff.1 h1
    obtain ⟨l2, e2⟩ := List.getElem?_eq_some_iff.1 hv
    have : A.names.idxOf v = i := by
      have hp := List.pairwise_iff_getElem.1 R.mok.nodup
      rcases Nat.lt_trichotomy (A.names.idxOf v) i with h | h | h
      · exact absurd (e1.trans e2.symm) (hp _ _ l1 l2 h)
      · exact h
      · exact absurd (e2.trans e1.symm) (hp _ _ l2 l1 h)
    rw [this]
  constructor
  · refine gives_of (.defvar v) R hw trivial trivial (names := A.names) ?_
    rintro o A' ⟨k1, k2⟩
    rw [hadd, hproj] at k2
    exact ⟨k1, k2⟩
  · intro o w' hs
    obtain ⟨A', ⟨_, k2⟩, R'⟩ := R.of_step (c := .defvar v) trivial hs
    rw [names_iff R', k2, hadd]
    rfl

/-- **C08.** Calls other than `defvar` and `rpn` define no variables. -/
theorem C08_others (hw : w.Reachable) {names : List String} (hn : Names w names) {c : Cmd}
    (h1 : ∀ v, c ≠ .defvar v) (h2 : ∀ ts, c ≠ .rpn ts) (ho : w.Ordered c) {o : Out} {w' : World}
    (hs : w.step c = some (o, w')) : Names w' names := by
  obtain ⟨A, R⟩ := hw.rel
  rw [names_iff R] at hn
  subst hn
  obtain ⟨A', hp, R'⟩ := R.of_step ho hs
  rw [names_iff R']
  cases c <;> simp only [Abs.Post] at hp
  case defvar v => exact absurd rfl (h1 v)
  case rpn ts => exact absurd rfl (h2 ts)
  case const => rw [hp.2]; rfl
  case not => obtain ⟨_, _, _, rfl⟩ := hp; rfl
  case dual => obtain ⟨_, _, _, rfl⟩ := hp; rfl
  case clone => obtain ⟨_, _, _, rfl⟩ := hp; rfl
  case and => obtain ⟨_, _, _, _, _, rfl⟩ := hp; rfl
  case or => obtain ⟨_, _, _, _, _, rfl⟩ := hp; rfl
  case xor => obtain ⟨_, _, _, _, _, rfl⟩ := hp; rfl
  case createNode => obtain ⟨_, _, _, _, _, rfl⟩ := hp; rfl
  case ite => obtain ⟨_, _, _, _, _, _, _, rfl⟩ := hp; rfl
  case andList => obtain ⟨_, _, _, rfl⟩ := hp; rfl
  case orList => obtain ⟨_, _, _, rfl⟩ := hp; rfl
  case kofn => obtain ⟨_, _, _, rfl⟩ := hp; rfl
  case drop f => rw [hp.2]
  case children =>
    obtain ⟨_, t, _, _, h3⟩ := hp
    cases t with
    | none => rw [h3.2]
    | some l => rw [h3.2]; rfl
  case gc => rw [hp.2]
  case setThreshold => rw [hp.2]
  case clearCache => rw [hp.2]
  case isUndet => rw [hp.2]
  case varorder => rw [hp.2]
  case eq => obtain ⟨_, _, _, _, _, _, _, rfl⟩ := hp; rfl
  case isZero => obtain ⟨_, _, _, _, _, rfl⟩ := hp; rfl
  case isOne => obtain ⟨_, _, _, _, _, rfl⟩ := hp; rfl
  case level => obtain ⟨_, _, _, _, _, rfl⟩ := hp; rfl
  case minsol => obtain ⟨_, _, _, _, _, rfl⟩ := hp; rfl

/-! ## C11 -/

/-- The listed handles denote the listed functions. -/
def DenoteAll (w : World) : List Nat → List BFun → Prop
  | [], [] => True
  | f :: fs, F :: Fs => w.Denotes f F ∧ DenoteAll w fs Fs
  | _, _ => False

theorem funs_of {A : Abs} (R : Rel w A) : ∀ {fs : List Nat} {Fs : List BFun}, DenoteAll w fs Fs →
    A.funs fs = some Fs := by
  intro fs
  induction fs with
  | nil => intro Fs h; cases Fs with
    | nil => rfl
    | cons => exact h.elim
  | cons f fs ih =>
    intro Fs h
    cases Fs with
    | nil => exact h.elim
    | cons F Fs =>
      simp only [Abs.funs, R.denotes_iff.1 h.1, ih h.2]

/-- **C11.** `and` of a list. -/
theorem C11_and (hw : w.Reachable) {fs : List Nat} {Fs : List BFun} (h : DenoteAll w fs Fs) :
    Gives w (.andList fs) (fun a => Fs.all (fun F => F a)) := by
  obtain ⟨A, R⟩ := hw.rel
  have h1 := funs_of R h
  refine gives_of (.andList fs) R hw (by show (A.funs fs).isSome; rw [h1]; rfl) trivial (names := A.names) ?_
  rintro o A' ⟨Fs', k1, k2, k3⟩
  rw [h1] at k1; cases k1
  exact ⟨k2, k3⟩

/-- **C11.** `or` of a list. -/
theorem C11_or (hw : w.Reachable) {fs : List Nat} {Fs : List BFun} (h : DenoteAll w fs Fs) :
    Gives w (.orList fs) (fun a => Fs.any (fun F => F a)) := by
  obtain ⟨A, R⟩ := hw.rel
  have h1 := funs_of R h
  refine gives_of (.orList fs) R hw (by show (A.funs fs).isSome; rw [h1]; rfl) trivial (names := A.names) ?_
  rintro o A' ⟨Fs', k1, k2, k3⟩
  rw [h1] at k1; cases k1
  exact ⟨k2, k3⟩

/-- **C11.** `kofn k` is true iff at least `k` of the listed nodes are true (repetitions counted),
for every `k`. -/
theorem C11_kofn (hw : w.Reachable) (k : Nat) {fs : List Nat} {Fs : List BFun}
    (h : DenoteAll w fs Fs) :
    Gives w (.kofn k fs) (fun a => decide (k ≤ Fs.countP (fun F => F a))) := by
  obtain ⟨A, R⟩ := hw.rel
  have h1 := funs_of R h
  refine gives_of (.kofn k fs) R hw (by show (A.funs fs).isSome; rw [h1]; rfl) trivial (names := A.names) ?_
  rintro o A' ⟨Fs', k1, k2, k3⟩
  rw [h1] at k1; cases k1
  exact ⟨k2, k3⟩

/-! ## C16 -/

/-- **C16.** `dual`. -/
theorem C16_dual (hw : w.Reachable) {f : Nat} {F : BFun} (hf : w.Denotes f F) :
    Gives w (.dual f) (fun a => !F (fun l => !a l)) := by
  obtain ⟨A, R⟩ := hw.rel
  have h1 := R.denotes_iff.1 hf
  refine gives_of (.dual f) R hw (by show (A.held f).isSome; rw [h1]; rfl) trivial (names := A.names) ?_
  rintro o A' ⟨F', k1, k2, k3⟩
  rw [h1] at k1; cases k1
  exact ⟨k2, k3⟩

/-- **C16.** Dualising twice returns a handle that is `eq` to the original. -/
theorem C16_dual_dual (hw : w.Reachable) {f : Nat} {F : BFun} (hf : w.Denotes f F) :
    ∃ w1 w2, w.step (.dual f) = some (.handle w.next, w1) ∧
      w1.step (.dual w.next) = some (.handle w1.next, w2) ∧
      w2.step (.eq f w1.next) = some (.bool true, w2) := by
  obtain ⟨w1, h1, r1, d1, _, k1⟩ := C16_dual hw hf
  obtain ⟨w2, h2, r2, d2, _, k2⟩ := C16_dual r1 d1
  obtain ⟨b, e1, e2⟩ := C02_eq r2 (k2 _ _ (k1 _ _ hf)) d2
  have : b = true := e2.2 (by funext a; simp)
  subst this
  exact ⟨w1, w2, h1, h2, e1⟩

/-! ## C50 -/

/-- The results of two calls made one after the other are `eq`. -/
def SameResult (w : World) (c c' : Cmd) : Prop :=
  ∃ w1 w2, w.step c = some (.handle w.next, w1) ∧ w1.step c' = some (.handle w1.next, w2) ∧
    w2.step (.eq w.next w1.next) = some (.bool true, w2)

theorem sameResult_of {c c' : Cmd} {F G : BFun} (h : Gives w c F)
    (h' : ∀ w1 : World, w1.Reachable → (∀ h G, w.Denotes h G → w1.Denotes h G) → Gives w1 c' G)
    (e : ∀ a, F a = G a) : SameResult w c c' := by
  obtain ⟨w1, h1, r1, d1, _, k1⟩ := h
  obtain ⟨w2, h2, r2, d2, _, k2⟩ := h' w1 r1 k1
  obtain ⟨b, e1, e2⟩ := C02_eq r2 (k2 _ _ d1) d2
  have : b = true := e2.2 (funext e)
  subst this
  exact ⟨w1, w2, h1, h2, e1⟩

/-- **C50.** `and`, `or`, `xor` with swapped operands give `eq` handles. -/
theorem C50_comm (hw : w.Reachable) {f g : Nat} {F G : BFun} (hf : w.Denotes f F)
    (hg : w.Denotes g G) : SameResult w (.and f g) (.and g f) ∧
      SameResult w (.or f g) (.or g f) ∧ SameResult w (.xor f g) (.xor g f) :=
  ⟨sameResult_of (C01_and hw hf hg) (fun w1 r k => C01_and r (k _ _ hg) (k _ _ hf))
      (fun a => Bool.and_comm _ _),
    sameResult_of (C01_or hw hf hg) (fun w1 r k => C01_or r (k _ _ hg) (k _ _ hf))
      (fun a => Bool.or_comm _ _),
    sameResult_of (C01_xor hw hf hg) (fun w1 r k => C01_xor r (k _ _ hg) (k _ _ hf))
      (fun a => Bool.xor_comm _ _)⟩

/-- **C50.** Idempotence: `and f f`, `or f f` are `eq` to `f`; `xor f f` is zero. -/
theorem C50_idem (hw : w.Reachable) {f : Nat} {F : BFun} (hf : w.Denotes f F) :
    SameResult w (.and f f) (.clone f) ∧ SameResult w (.or f f) (.clone f) ∧
      SameResult w (.xor f f) (.const false) := by
  have clone : ∀ w1 : World, w1.Reachable → (∀ h G, w.Denotes h G → w1.Denotes h G) →
      Gives w1 (.clone f) F := by
    intro w1 r k
    obtain ⟨A, R⟩ := r.rel
    have h1 := R.denotes_iff.1 (k _ _ hf)
    refine gives_of (.clone f) R r (by show (A.held f).isSome; rw [h1]; rfl) trivial (names := A.names) ?_
    rintro o A' ⟨F', k1, k2, k3⟩
    rw [h1] at k1; cases k1
    exact ⟨k2, k3⟩
  exact ⟨sameResult_of (C01_and hw hf hf) clone (fun a => Bool.and_self _),
    sameResult_of (C01_or hw hf hf) clone (fun a => Bool.or_self _),
    sameResult_of (C01_xor hw hf hf) (fun w1 r _ => C01_const r false) (fun a => by simp)⟩

/-- A composed expression over handles. -/
inductive HExp where
  | h (f : Nat)
  | not (e : HExp)
  | and (e e' : HExp)
  | or (e e' : HExp)
  | xor (e e' : HExp)
  | ite (e e' e'' : HExp)

/-- Evaluate by the corresponding calls, left to right; the result is a handle number. -/
def HExp.run (w : World) : HExp → Option (Nat × World)
  | .h f => some (f, w)
  | .not e =>
    match e.run w with
    | none => none
    | some (i, w) =>
      match w.step (.not i) with
      | some (.handle r, w) => some (r, w)
      | _ => none
  | .and e e' =>
    match e.run w with
    | none => none
    | some (i, w) =>
      match e'.run w with
      | none => none
      | some (j, w) =>
        match w.step (.and i j) with
        | some (.handle r, w) => some (r, w)
        | _ => none
  | .or e e' =>
    match e.run w with
    | none => none
    | some (i, w) =>
      match e'.run w with
      | none => none
      | some (j, w) =>
        match w.step (.or i j) with
        | some (.handle r, w) => some (r, w)
        | _ => none
  | .xor e e' =>
    match e.run w with
    | none => none
    | some (i, w) =>
      match e'.run w with
      | none => none
      | some (j, w) =>
        match w.step (.xor i j) with
        | some (.handle r, w) => some (r, w)
        | _ => none
  | .ite e e' e'' =>
    match e.run w with
    | none => none
    | some (i, w) =>
      match e'.run w with
      | none => none
      | some (j, w) =>
        match e''.run w with
        | none => none
        | some (k, w) =>
          match w.step (.ite i j k) with
          | some (.handle r, w) => some (r, w)
          | _ => none

/-- Truth value of an expression from those of the handles. -/
def HExp.val (v : Nat → Bool) : HExp → Bool
  | .h f => v f
  | .not e => !e.val v
  | .and e e' => e.val v && e'.val v
  | .or e e' => e.val v || e'.val v
  | .xor e e' => e.val v ^^ e'.val v
  | .ite e e' e'' => if e.val v then e'.val v else e''.val v

/-- Handles mentioned. -/
def HExp.vars : HExp → List Nat
  | .h f => [f]
  | .not e => e.vars
  | .and e e' | .or e e' | .xor e e' => e.vars ++ e'.vars
  | .ite e e' e'' => e.vars ++ e'.vars ++ e''.vars

theorem hexp_run (D : Nat → BFun) : ∀ (e : HExp) (w : World), w.Reachable →
    (∀ f ∈ e.vars, w.Denotes f (D f)) → ∃ r w', e.run w = some (r, w') ∧ w'.Reachable ∧
      w'.Denotes r (fun a => e.val (fun f => D f a)) ∧ ∀ h G, w.Denotes h G → w'.Denotes h G := by
  intro e
  induction e with
  | h f =>
    intro w hw hd
    exact ⟨f, w, rfl, hw, hd f (by simp [HExp.vars]), fun _ _ h => h⟩
  | not e ih =>
    intro w hw hd
    obtain ⟨r, w1, h1, h2, h3, h4⟩ := ih w hw hd
    obtain ⟨w2, k1, k2, k3, _, k4⟩ := C01_not h2 h3
    exact ⟨_, w2, by simp only [HExp.run, h1, k1], k2, k3, fun h G hG => k4 _ _ (h4 _ _ hG)⟩
  | and e e' ih ih' =>
    intro w hw hd
    obtain ⟨r, w1, h1, h2, h3, h4⟩ := ih w hw (fun f hf => hd f (by simp [HExp.vars, hf]))
    obtain ⟨r', w2, g1, g2, g3, g4⟩ := ih' w1 h2
      (fun f hf => h4 _ _ (hd f (by simp [HExp.vars, hf])))
    obtain ⟨w3, k1, k2, k3, _, k4⟩ := C01_and g2 (g4 _ _ h3) g3
    exact ⟨_, w3, by simp only [HExp.run, h1, g1, k1], k2, k3,
      fun h G hG => k4 _ _ (g4 _ _ (h4 _ _ hG))⟩
  | or e e' ih ih' =>
    intro w hw hd
    obtain ⟨r, w1, h1, h2, h3, h4⟩ := ih w hw (fun f hf => hd f (by simp [HExp.vars, hf]))
    obtain ⟨r', w2, g1, g2, g3, g4⟩ := ih' w1 h2
      (fun f hf => h4 _ _ (hd f (by simp [HExp.vars, hf])))
    obtain ⟨w3, k1, k2, k3, _, k4⟩ := C01_or g2 (g4 _ _ h3) g3
    exact ⟨_, w3, by simp only [HExp.run, h1, g1, k1], k2, k3,
      fun h G hG => k4 _ _ (g4 _ _ (h4 _ _ hG))⟩
  | xor e e' ih ih' =>
    intro w hw hd
    obtain ⟨r, w1, h1, h2, h3, h4⟩ := ih w hw (fun f hf => hd f (by simp [HExp.vars, hf]))
    obtain ⟨r', w2, g1, g2, g3, g4⟩ := ih' w1 h2
      (fun f hf => h4 _ _ (hd f (by simp [HExp.vars, hf])))
    obtain ⟨w3, k1, k2, k3, _, k4⟩ := C01_xor g2 (g4 _ _ h3) g3
    exact ⟨_, w3, by simp only [HExp.run, h1, g1, k1], k2, k3,
      fun h G hG => k4 _ _ (g4 _ _ (h4 _ _ hG))⟩
  | ite e e' e'' ih ih' ih'' =>
    intro w hw hd
    obtain ⟨r, w1, h1, h2, h3, h4⟩ := ih w hw (fun f hf => hd f (by simp [HExp.vars, hf]))
    obtain ⟨r', w2, g1, g2, g3, g4⟩ := ih' w1 h2
      (fun f hf => h4 _ _ (hd f (by simp [HExp.vars, hf])))
    obtain ⟨r'', w3, f1, f2, f3, f4⟩ := ih'' w2 g2
      (fun f hf => g4 _ _ (h4 _ _ (hd f (by simp [HExp.vars, hf]))))
    obtain ⟨w4, k1, k2, k3, _, k4⟩ := C01_ite f2 (f4 _ _ (g4 _ _ h3)) (f4 _ _ g3) f3
    exact ⟨_, w4, by simp only [HExp.run, h1, g1, f1, k1], k2, k3,
      fun h G hG => k4 _ _ (f4 _ _ (g4 _ _ (h4 _ _ hG)))⟩

/-- **C50.** Any Boolean identity holds up to `eq`: if two expressions over handles agree for all
truth values of the handles, then evaluating them (by any calls, in sequence) gives `eq` handles.
Commutativity, associativity, De Morgan, double negation, … are instances. -/
theorem C50_identities (hw : w.Reachable) (e e' : HExp)
    (held : ∀ f ∈ e.vars ++ e'.vars, ∃ i, w.held.get f = some i)
    (ident : ∀ v, e.val v = e'.val v) :
    ∃ r w1 r' w2, e.run w = some (r, w1) ∧ e'.run w1 = some (r', w2) ∧
      w2.step (.eq r r') = some (.bool true, w2) := by
  classical
  have hD : ∃ D : Nat → BFun, ∀ f ∈ e.vars ++ e'.vars, w.Denotes f (D f) := by
    refine ⟨fun f => if h : ∃ F, w.Denotes f F then h.choose else fun _ => false, ?_⟩
    intro f hf
    obtain ⟨i, hi⟩ := held f hf
    obtain ⟨F, hF, _⟩ := denotes_exists hw hi
    have hex : ∃ F, w.Denotes f F := ⟨F, hF⟩
    simp only [hex, dite_true]
    exact hex.choose_spec
  obtain ⟨D, hD⟩ := hD
  obtain ⟨r, w1, h1, h2, h3, h4⟩ := hexp_run D e w hw (fun f hf => hD f (List.mem_append_left _ hf))
  obtain ⟨r', w2, g1, g2, g3, g4⟩ := hexp_run D e' w1 h2
    (fun f hf => h4 _ _ (hD f (List.mem_append_right _ hf)))
  obtain ⟨b, e1, e2⟩ := C02_eq g2 (g4 _ _ h3) g3
  have : b = true := e2.2 (funext fun a => ident _)
  subst this
  exact ⟨r, w1, r', w2, h1, g1, e1⟩

/-- De Morgan as an instance. -/
example (hw : w.Reachable) {f g i j : Nat} (hf : w.held.get f = some i) (hg : w.held.get g = some j) :
    ∃ r w1 r' w2, (HExp.not (.and (.h f) (.h g))).run w = some (r, w1) ∧
      (HExp.or (.not (.h f)) (.not (.h g))).run w1 = some (r', w2) ∧
      w2.step (.eq r r') = some (.bool true, w2) :=
  C50_identities hw _ _ (by
    intro x hx
    simp [HExp.vars] at hx
    rcases hx with rfl | rfl | rfl | rfl <;> first | exact ⟨_, hf⟩ | exact ⟨_, hg⟩)
    (fun v => by simp [HExp.val, Bool.not_and])

/-! ## A concrete session

Threshold 0 forces a collection at every wrapped result; handles 0, 1 are `x`, `y`. -/

/-- The session. -/
def demoCmds : List Cmd :=
  [.defvar "x", .defvar "y", .setThreshold 0, .and 0 1, .or 0 1, .not 2, .drop 2, .dual 4,
   .kofn 2 [0, 1, 1], .rpn [.var "x", .var "y", .and], .eq 7 6, .eq 7 5, .gc [], .level 7,
   .children 7, .varorder]

/-- All calls return, and these are the answers. -/
example : (World.new.run demoCmds).map (·.1) = some
    [.handle 0, .handle 1, .unit, .handle 2, .handle 3, .handle 4, .unit, .handle 5,
     .handle 6, .handle 7, .bool false, .bool false, .unit, .level (some 1),
     .pair (some (8, 9)), .strs ["x", "y"]] := by
  decide +kernel

theorem ordered_of_noCreate {c : Cmd} (h : ∀ a b d, c ≠ .createNode a b d) (w : World) :
    w.Ordered c := by
  cases c <;> first | trivial | exact absurd rfl (h _ _ _)

/-- Such sessions are histories, so the worlds they reach meet the hypotheses above. -/
theorem history_of_run : ∀ (cs : List Cmd) (w : World) (os : List Out) (w' : World),
    (∀ c ∈ cs, ∀ a b d, c ≠ .createNode a b d) → w.run cs = some (os, w') → History w cs os w' := by
  intro cs
  induction cs with
  | nil => intro w os w' _ h; cases h; exact .nil w
  | cons c cs ih =>
    intro w os w' hc h
    unfold World.run at h
    cases hs : w.step c with
    | none => rw [hs] at h; cases h
    | some p =>
      obtain ⟨o, w1⟩ := p
      simp only [hs] at h
      cases hr : w1.run cs with
      | none => simp [hr] at h
      | some q =>
        obtain ⟨os1, w2⟩ := q
        simp only [hr, Option.some.injEq, Prod.mk.injEq] at h
        obtain ⟨rfl, rfl⟩ := h
        exact .cons (ordered_of_noCreate (hc c List.mem_cons_self) w) hs
          (ih w1 os1 w2 (fun c' hc' => hc c' (List.mem_cons_of_mem _ hc')) hr)

example : ∃ os w, History World.new demoCmds os w ∧ w.Reachable ∧ (∃ F, w.Denotes 3 F) := by
  have h : (World.new.run demoCmds).isSome ∧
      (World.new.run demoCmds).bind (fun p => p.2.held.get 3) = some 6 := by decide +kernel
  obtain ⟨⟨os, w⟩, hr⟩ := Option.isSome_iff_exists.1 h.1
  have hh := history_of_run _ _ _ _ (by simp [demoCmds]) hr
  have hw := hh.reachable .new
  have h2 := h.2
  rw [hr] at h2
  obtain ⟨F, hF, _⟩ := denotes_exists hw (show w.held.get 3 = some 6 from h2)
  exact ⟨os, w, hh, hw, F, hF⟩

end DD.Props
