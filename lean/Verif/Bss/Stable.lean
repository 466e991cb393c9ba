import Verif.Bss.ReachW
import Verif.Bss.Queries
import Verif.Core.Weave

/-!
# Calls do not touch the nodes under a held handle

A call may create nodes and may collect; nodes that are reachable from a handle that stays held keep their slot
and their content.
-/

set_option autoImplicit false
set_option linter.unusedSectionVars false
set_option linter.unusedVariables false

namespace DD
open Arena Bdd

/-- `m'` keeps the content and level of every node of `m` that denotes a function. -/
def SameNodes (m m' : Arena T3) : Prop :=
  ∀ j F, Den m j F → m'.nodes[j]? = m.nodes[j]? ∧ m'.level? j = m.level? j

/-- Meaning determines content: a node that keeps its function keeps its content, if all others do, too. -/
theorem sameNodes_of_keep {s s' : Bdd} (hs : Inv s) (hs' : Inv s') {ns ns' : List String}
    (hh : s.arena.headers = mkHeaders ns) (hh' : s'.arena.headers = mkHeaders ns')
    (keep : ∀ i F, Den s.arena i F → Den s'.arena i F) : SameNodes s.arena s'.arena := by
  intro j F hd
  have hd' := keep j F hd
  cases den_cases hs (levInj_of hh) hd with
  | const b e1 _ e3 =>
    cases den_cases hs' (levInj_of hh') hd' with
    | const b' f1 _ f3 =>
      have : b = b' := (e3 (fun _ => false)).symm.trans (f3 _)
      subst this
      exact ⟨f1.trans e1.symm, by rw [level?_term e1, level?_term f1]⟩
    | node h lo hi hd f1 f2 f3 f4 f5 f6 =>
      obtain ⟨_, a, ha⟩ := f6
      exact absurd ((e3 _).trans (e3 _).symm) ha
  | node h lo hi hd e1 e2 e3 e4 e5 e6 =>
    cases den_cases hs' (levInj_of hh') hd' with
    | const b' f1 _ f3 =>
      obtain ⟨_, a, ha⟩ := e6
      exact absurd ((f3 _).trans (f3 _).symm) ha
    | node h' lo' hi' hd' f1 f2 f3 f4 f5 f6 =>
      have hl : hd.level = hd'.level := by simpa using IsTop.unique e6 f6
      rw [hh, mkHeaders_get] at e2
      rw [hh', mkHeaders_get] at f2
      obtain ⟨s1, _, rfl⟩ := e2
      obtain ⟨s2, _, rfl⟩ := f2
      simp only at hl
      subst hl
      have k1 := canon hs' (levInj_of hh') (keep _ _ e4) f4
      have k2 := canon hs' (levInj_of hh') (keep _ _ e5) f5
      subst k1; subst k2
      exact ⟨f1.trans e1.symm, f3.trans e3.symm⟩

theorem SameNodes.refl (m : Arena T3) : SameNodes m m := fun _ _ _ => ⟨rfl, rfl⟩

theorem SameNodes.of_eq {m m1 m2 : Arena T3} (h : SameNodes m m1) (h1 : m2.nodes = m1.nodes)
    (h2 : m2.headers = m1.headers) : SameNodes m m2 := by
  intro j F hd
  obtain ⟨k1, k2⟩ := h j F hd
  refine ⟨by rw [h1]; exact k1, ?_⟩
  rw [← k2]
  simp only [level?, h1, h2]

theorem SameNodes.of_ext {s : Bdd} (hs : Inv s) {m : Arena T3} (h : Ext s.arena m) : SameNodes s.arena m := by
  intro j F hd
  have e := (h.keep j hd.live).2
  refine ⟨e, ?_⟩
  obtain ⟨n, hn⟩ := hd.live.node
  have hn' : m.nodes[j]? = some n := e.trans hn
  cases n with
  | term t => rw [level?_term hn, level?_term hn']
  | nt hh ch =>
    obtain ⟨hdr, h1, h2⟩ := hs.wf.nt hd.live hn
    rw [level?_nt hn h1, level?_nt hn' (h.hdr _ _ h1)]

namespace MOK
variable {m m' : BddMgr} {names : List String} {L : List Nat}

theorem gc_nodes (h : MOK m names L) {roots : List Nat}
    (hr : ∀ r ∈ roots, r < m.bdd.arena.nodes.length → m.bdd.arena.Live r) {n : Nat} {b : Bdd}
    (hg : m.bdd.gc roots = some (n, b)) :
    b.arena.nodes = m.bdd.arena.nodes ∧ b.arena.headers = m.bdd.arena.headers := by
  obtain ⟨n', b', h1, h2, h3, h4, _⟩ := gc_ok h.inv hr
  rw [hg] at h1; cases h1
  exact ⟨h4, h3⟩

theorem maybeGc_nodes (h : MOK m names L) (hg : m.maybeGc = some m') :
    m'.bdd.arena.nodes = m.bdd.arena.nodes ∧ m'.bdd.arena.headers = m.bdd.arena.headers := by
  unfold BddMgr.maybeGc at hg
  split at hg
  · cases hg; exact ⟨rfl, rfl⟩
  · split at hg
    · cases hg
    · rename_i n b he
      cases hg
      exact h.gc_nodes (fun r hr _ => h.roots_live hr) he

theorem wrap_same (h : MOK m names L) {res : Option (Nat × Bdd)} {F : BFun} (hr : BOk m.bdd F res) {r : Nat}
    (hw : m.wrap res = some (r, m')) : SameNodes m.bdd.arena m'.bdd.arena := by
  obtain ⟨r', b, rfl, hb, st, hd⟩ := hr
  have mok := (h.eng hb st).pin hd
  unfold BddMgr.wrap at hw
  simp only at hw
  split at hw
  · cases hw
  · rename_i m1 he
    cases hw
    obtain ⟨e1, e2⟩ := mok.maybeGc_nodes he
    exact (SameNodes.of_ext h.inv st.toExt).of_eq e1 e2

theorem same_of_keep {names' : List String} {L' : List Nat} (h : MOK m names L) (h' : MOK m' names' L')
    (k : Keep m m') : SameNodes m.bdd.arena m'.bdd.arena :=
  sameNodes_of_keep h.inv h'.inv h.hdrs h'.hdrs k

theorem rpn_same (h : MOK m names L) (ts : List Tok) {x : Except RpnErr Nat} (hr : m.rpn ts = some (x, m')) :
    SameNodes m.bdd.arena m'.bdd.arena := by
  have := rpnLoop (L := L) ts (s := ⟨m, [], AMap.empty⟩) (t := ⟨names, [], fun _ => none⟩)
    ⟨h, .nil, fun _ _ => rfl, by intro id i hi; cases hi⟩
  unfold BddMgr.rpn at hr
  cases hl : arpnLoop ⟨names, [], fun _ => none⟩ ts with
  | none => rw [hl] at this; have this : _ = none := this; simp only [this] at hr; cases hr
  | some q =>
    rw [hl] at this
    cases q with
    | error p =>
      obtain ⟨e, ns⟩ := p
      obtain ⟨m1, q1, q2, q3⟩ := this
      simp only [q1] at hr
      cases hr
      exact h.same_of_keep q2 q3
    | ok t =>
      obtain ⟨s', q1, q2, q3⟩ := this
      simp only [q1] at hr
      obtain ⟨mgr, stack, cache⟩ := s'
      obtain ⟨names', astack, acache⟩ := t
      have hst := q2.stack
      have hsame := h.same_of_keep q2.mok q3
      simp only at hst hr hsame
      cases hst with
      | nil => cases hr; exact hsame
      | cons h1 hst =>
        cases hst with
        | cons h2 hst => cases hr; exact hsame
        | nil =>
          simp only at hr
          split at hr
          · cases hr
          · rename_i r m1 he
            cases hr
            have := q2.mok.wrap_same (.ret q2.mok.inv h1) he
            intro j F hd
            obtain ⟨k1, k2⟩ := hsame j F hd
            obtain ⟨k3, k4⟩ := this j F (q3 j F hd)
            exact ⟨k3.trans k1, k4.trans k2⟩

end MOK

namespace Rel
variable {w w' : World} {A : Abs}

theorem give_same {r : Option (Nat × BddMgr)} {o : Out} (h : w.give r = some (o, w'))
    (hs : ∀ i m, r = some (i, m) → SameNodes w.mgr.bdd.arena m.bdd.arena) :
    SameNodes w.mgr.bdd.arena w'.mgr.bdd.arena := by
  unfold World.give at h
  split at h
  · cases h
  · cases h; exact hs _ _ rfl

theorem wrapped_same (R : Rel w A) {res : Option (Nat × Bdd)} {F : BFun} (hr : BOk w.mgr.bdd F res) {o : Out}
    (h : w.give (w.mgr.wrap res) = some (o, w')) : SameNodes w.mgr.bdd.arena w'.mgr.bdd.arena :=
  give_same h fun i m e => R.mok.wrap_same hr e

/-- No call touches a node that denotes a function. -/
theorem step_same (R : Rel w A) {c : Cmd} (hl : A.Legal c) {o : Out} (h : w.step c = some (o, w')) :
    SameNodes w.mgr.bdd.arena w'.mgr.bdd.arena := by
  cases c with
  | const b =>
    have : BOk w.mgr.bdd (fun _ => b) (some (if b then Bdd.one else Bdd.zero, w.mgr.bdd)) :=
      .ret R.mok.inv (by have := Den_const R.mok.inv b; cases b <;> exact this)
    exact R.wrapped_same this h
  | defvar v =>
    obtain ⟨r, m', h1, h2, h3, h4⟩ := R.mok.defvar v
    refine give_same h fun i m e => ?_
    rw [h1] at e; cases e
    exact R.mok.same_of_keep h2 h4
  | not f =>
    obtain ⟨F, i, h1, h2, h3⟩ := R.getS hl
    simp only [World.step, h2] at h
    exact R.wrapped_same (not_den R.mok.inv h3) h
  | and f g =>
    obtain ⟨F, i, h1, h2, h3⟩ := R.getS hl.1
    obtain ⟨G, j, k1, k2, k3⟩ := R.getS hl.2
    simp only [World.step, h2, k2] at h
    exact R.wrapped_same (and_den R.mok.inv h3 k3) h
  | or f g =>
    obtain ⟨F, i, h1, h2, h3⟩ := R.getS hl.1
    obtain ⟨G, j, k1, k2, k3⟩ := R.getS hl.2
    simp only [World.step, h2, k2] at h
    exact R.wrapped_same (or_den R.mok.inv h3 k3) h
  | xor f g =>
    obtain ⟨F, i, h1, h2, h3⟩ := R.getS hl.1
    obtain ⟨G, j, k1, k2, k3⟩ := R.getS hl.2
    simp only [World.step, h2, k2] at h
    exact R.wrapped_same (xor_den R.mok.inv h3 k3) h
  | ite f g x =>
    obtain ⟨F, i, h1, h2, h3⟩ := R.getS hl.1
    obtain ⟨G, j, k1, k2, k3⟩ := R.getS hl.2.1
    obtain ⟨H, k, l1, l2, l3⟩ := R.getS hl.2.2
    simp only [World.step, h2, k2, l2] at h
    exact R.wrapped_same (ite_den R.mok.inv h3 k3 l3) h
  | dual f =>
    obtain ⟨F, i, h1, h2, h3⟩ := R.getS hl
    simp only [World.step, h2] at h
    exact R.wrapped_same (dual_den R.mok.inv h3) h
  | createNode x f g =>
    obtain ⟨hlt, F, G, hF, hG, dF, dG⟩ := hl
    obtain ⟨i, h2, h3⟩ := R.get hF
    obtain ⟨j, k2, k3⟩ := R.get hG
    have hn : A.names[x]? = some A.names[x] := List.getElem?_eq_getElem hlt
    have hh : w.mgr.bdd.arena.headers[x]? = some ⟨x, A.names[x], 2⟩ := by
      rw [R.mok.hdrs, mkHeaders_get]; exact ⟨_, hn, rfl⟩
    have r1 := rank_le_of_indep R.mok.inv R.mok.inj h3 dF
    have r2 := rank_le_of_indep R.mok.inv R.mok.inj k3 dG
    simp only [World.step, h2, k2] at h
    exact R.wrapped_same (createNode_den R.mok.inv hh h3 r1 k3 r2) h
  | andList fs =>
    obtain ⟨Fs, hFs⟩ := Option.isSome_iff_exists.1 hl
    obtain ⟨is, h1, h2⟩ := R.nodes hFs
    simp only [World.step, h1] at h
    exact R.wrapped_same (andList_den R.mok.inv h2) h
  | orList fs =>
    obtain ⟨Fs, hFs⟩ := Option.isSome_iff_exists.1 hl
    obtain ⟨is, h1, h2⟩ := R.nodes hFs
    simp only [World.step, h1] at h
    exact R.wrapped_same (orList_den R.mok.inv h2) h
  | kofn k fs =>
    obtain ⟨Fs, hFs⟩ := Option.isSome_iff_exists.1 hl
    obtain ⟨is, h1, h2⟩ := R.nodes hFs
    simp only [World.step, h1] at h
    exact R.wrapped_same (kofn_den R.mok.inv k h2) h
  | rpn ts =>
    simp only [World.step] at h
    split at h
    · cases h
    · rename_i e m he
      cases h
      exact R.mok.rpn_same ts he
    · rename_i i m he
      refine give_same h fun i m e => ?_
      cases e
      exact R.mok.rpn_same ts he
  | clone f =>
    obtain ⟨F, i, h1, h2, h3⟩ := R.getS hl
    simp only [World.step, h2] at h
    exact give_same h fun i m e => by cases e; exact SameNodes.refl _
  | drop f =>
    obtain ⟨F, i, h1, h2, h3⟩ := R.getS hl
    simp only [World.step, h2] at h
    cases h
    exact SameNodes.refl _
  | children f =>
    obtain ⟨F, i, h1, h2, h3⟩ := R.getS hl
    simp only [World.step, h2] at h
    split at h <;> cases h <;> exact SameNodes.refl _
  | gc keep =>
    obtain ⟨Fs, hFs⟩ := Option.isSome_iff_exists.1 hl
    obtain ⟨is, h1, h2⟩ := R.nodes hFs
    have hmem : ∀ {is : List Nat} {Fs : List BFun}, DenL w.mgr.bdd.arena is Fs →
        ∀ r ∈ is, w.mgr.bdd.arena.Live r := by
      intro is Fs h
      induction h with
      | nil => intro r hr; cases hr
      | cons h1 _ ih =>
        intro r hr
        rcases List.mem_cons.1 hr with rfl | hr
        · exact h1.live
        · exact ih r hr
    simp only [World.step, h1, BddMgr.collect] at h
    split at h
    · cases h
    · rename_i m he
      cases h
      split at he
      · cases he
      · rename_i n b he'
        cases he
        obtain ⟨e1, e2⟩ := R.mok.gc_nodes (by
          intro r hr _
          rcases List.mem_append.1 hr with hr | hr
          · exact R.mok.roots_live hr
          · exact hmem h2 r hr) he'
        exact (SameNodes.refl _).of_eq e1 e2
  | minsol f =>
    obtain ⟨F, i, h1, h2, h3⟩ := R.getS hl
    obtain ⟨x, b, e1, e2, e3, e4, e5⟩ := minsol_ok R.mok.inv R.mok.inj h3
    simp only [World.step, h2, e1] at h
    cases h
    exact SameNodes.of_ext R.mok.inv e3.toExt
  | setThreshold n => cases h; exact SameNodes.refl _
  | clearCache => cases h; exact SameNodes.refl _
  | eq f g =>
    simp only [World.step] at h
    split at h <;> cases h <;> exact SameNodes.refl _
  | isZero f =>
    obtain ⟨F, i, h1, h2, h3⟩ := R.getS hl
    simp only [World.step, h2, Option.map_eq_some_iff] at h
    obtain ⟨_, _, e⟩ := h
    cases e
    exact SameNodes.refl _
  | isOne f =>
    obtain ⟨F, i, h1, h2, h3⟩ := R.getS hl
    simp only [World.step, h2, Option.map_eq_some_iff] at h
    obtain ⟨_, _, e⟩ := h
    cases e
    exact SameNodes.refl _
  | isUndet f =>
    obtain ⟨F, i, h1, h2, h3⟩ := R.getS hl
    simp only [World.step, h2, Option.map_eq_some_iff] at h
    obtain ⟨_, _, e⟩ := h
    cases e
    exact SameNodes.refl _
  | level f =>
    simp only [World.step] at h
    split at h <;> cases h <;> exact SameNodes.refl _
  | varorder =>
    simp only [World.step] at h
    cases hn : w.mgr.getVarorder <;> rw [hn] at h <;> cases h <;> exact SameNodes.refl _

/-! ### Handles stay held -/

theorem give_get {r : Option (Nat × BddMgr)} {o : Out} (h : w.give r = some (o, w')) {f i : Nat}
    (hf : f < w.next) (hi : w.held.get f = some i) : w'.held.get f = some i := by
  unfold World.give at h
  split at h
  · cases h
  · cases h
    show (w.held.insert w.next _).get f = _
    rw [AMap.get_insert_ne _ _ (by omega)]
    exact hi

/-- A handle that is not dropped keeps its node. -/
theorem step_held (R : Rel w A) {c : Cmd} {o : Out} (h : w.step c = some (o, w')) {f i : Nat}
    (hi : w.held.get f = some i) (hc : c ≠ .drop f) : w'.held.get f = some i := by
  have hf := R.fresh f i hi
  cases c with
  | drop g =>
    simp only [World.step] at h
    split at h
    · cases h
      show (w.held.remove g).get f = _
      rw [AMap.get_remove, if_neg (by rintro rfl; exact hc rfl)]
      exact hi
    · cases h
  | children g =>
    simp only [World.step] at h
    split at h
    · cases h
    · split at h
      · cases h
        show ((w.held.insert w.next _).insert (w.next + 1) _).get f = _
        rw [AMap.get_insert_ne _ _ (by omega), AMap.get_insert_ne _ _ (by omega)]
        exact hi
      · cases h
      · cases h; exact hi
  | isZero g | isOne g | isUndet g =>
    simp only [World.step] at h
    split at h
    · rw [Option.map_eq_some_iff] at h
      obtain ⟨_, _, e⟩ := h
      cases e; exact hi
    · cases h
  | varorder =>
    simp only [World.step, Option.map_eq_some_iff] at h
    obtain ⟨_, _, e⟩ := h
    cases e; exact hi
  | const | defvar => exact give_get h hf hi
  | not | and | or | xor | ite | dual | createNode | andList | orList | kofn | clone =>
    simp only [World.step] at h
    split at h
    · exact give_get h hf hi
    · cases h
  | rpn ts =>
    simp only [World.step] at h
    split at h
    · cases h
    · cases h; exact hi
    · exact give_get h hf hi
  | gc keep =>
    simp only [World.step] at h
    split at h
    · cases h
    · split at h
      · cases h
      · cases h; exact hi
  | minsol g =>
    simp only [World.step] at h
    split at h
    · cases h
    · split at h
      · cases h
      · cases h; exact hi
  | setThreshold n => cases h; exact hi
  | clearCache => cases h; exact hi
  | eq | level =>
    simp only [World.step] at h
    split at h
    · cases h; exact hi
    · cases h

/-! ### Nodes under a handle -/

/-- `m` has the same nodes under `i` as `m0`. -/
def Under (m0 m : Arena T3) (i : Nat) : Prop :=
  ∀ j, Reach m0 i j → m.nodes[j]? = m0.nodes[j]? ∧ m.level? j = m0.level? j

theorem under_den (R : Rel w A) {m0 : Arena T3} {i : Nat} {F : BFun} (hd : Den w.mgr.bdd.arena i F)
    (hu : Under m0 w.mgr.bdd.arena i) {j : Nat} (hr : Reach m0 i j) : ∃ G, Den w.mgr.bdd.arena j G := by
  induction hr with
  | refl => exact ⟨F, hd⟩
  | @step j h ch c hr hn hc ih =>
    obtain ⟨G, hG⟩ := ih
    have hn' : w.mgr.bdd.arena.node? j = some (.nt h ch) := ((hu _ hr).1).trans hn
    cases den_cases R.mok.inv R.mok.inj hG with
    | const b e1 => rw [hn'] at e1; cases e1
    | node hh lo hi hdr e1 e2 e3 e4 e5 e6 =>
      rw [hn'] at e1
      cases e1
      simp only [List.mem_cons, List.not_mem_nil, or_false] at hc
      rcases hc with rfl | rfl
      · exact ⟨_, e4⟩
      · exact ⟨_, e5⟩

theorem under_step (R : Rel w A) {m0 : Arena T3} {f i : Nat} (hi : w.held.get f = some i)
    (hu : Under m0 w.mgr.bdd.arena i) {c : Cmd} (ho : w.Ordered c) {o : Out} (h : w.step c = some (o, w')) :
    Under m0 w'.mgr.bdd.arena i := by
  intro j hr
  obtain ⟨F, _, hd⟩ := R.heldS f i hi
  obtain ⟨G, hG⟩ := R.under_den hd hu hr
  obtain ⟨k1, k2⟩ := R.step_same (R.legal_of_step ho h) h j G hG
  obtain ⟨k3, k4⟩ := hu j hr
  exact ⟨k1.trans k3, k2.trans k4⟩

end Rel

/-! ### The iterator reads only nodes under its handle -/

namespace Bdd

/-- All nodes on the stack are under `i`. -/
def PathSt.Under (m : Arena T3) (i : Nat) (st : PathSt) : Prop :=
  ∀ l j, StackValue.node l j ∈ st.stack → Reach m i j

theorem expand_under {m : Arena T3} {i : Nat} {st st' : PathSt} {l : Option Nat} {lo hi : Nat}
    {rest : List StackValue} (h1 : Reach m i lo) (h2 : Reach m i hi)
    (h3 : ∀ l j, StackValue.node l j ∈ rest → Reach m i j) (h : expand st l lo hi rest = some st') :
    st'.Under m i := by
  unfold expand at h
  split at h
  · cases h
  · split at h
    · cases h
    · cases h
      intro l j hj
      simp only [List.mem_cons, reduceCtorEq, false_or, StackValue.node.injEq] at hj
      rcases hj with ⟨_, rfl⟩ | ⟨_, rfl⟩ | hj
      · exact h1
      · exact h2
      · exact h3 l j hj

theorem pathStep_under {m : Arena T3} {i : Nat} {st st' : PathSt} {o : Option (List String)} (hs : st.Under m i)
    (h : pathStep m st = some (some (o, st'))) : st'.Under m i := by
  unfold pathStep at h
  split at h
  · cases h
  · rename_i v rest hst
    rw [Option.map_eq_some_iff] at h
    obtain ⟨p, hp, e⟩ := h
    cases e
    have hrest : ∀ l j, StackValue.node l j ∈ rest → Reach m i j := fun l j hj =>
      hs l j (by rw [hst]; exact List.mem_cons_of_mem _ hj)
    cases v with
    | push x => cases hp; exact hrest
    | pop => cases hp; exact hrest
    | node l k =>
      have hk : Reach m i k := hs l k (by rw [hst]; exact List.mem_cons_self)
      simp only [pathTurn] at hp
      split at hp
      · cases hp
      · rename_i hh ch hn
        split at hp
        · split at hp
          · rename_i lo hi _
            rw [Option.map_eq_some_iff] at hp
            obtain ⟨s1, h1, e⟩ := hp
            cases e
            exact expand_under (.step hk hn (by simp)) (.step hk hn (by simp)) hrest h1
          · cases hp
        · rw [Option.map_eq_some_iff] at hp
          obtain ⟨s1, h1, e⟩ := hp
          cases e
          exact expand_under hk hk hrest h1
      · cases hp; exact hrest
      · split at hp
        · split at hp
          · cases hp; exact hrest
          · cases hp; exact hrest
        · rw [Option.map_eq_some_iff] at hp
          obtain ⟨s1, h1, e⟩ := hp
          cases e
          exact expand_under hk hk hrest h1

theorem pathStep_congr {m m' : Arena T3} {i : Nat} {st : PathSt} (hs : st.Under m i) (hu : Rel.Under m m' i) :
    pathStep m' st = pathStep m st := by
  unfold pathStep
  split
  · rfl
  · rename_i v rest hst
    cases v with
    | push x => rfl
    | pop => rfl
    | node l k =>
      obtain ⟨h1, h2⟩ := hu k (hs l k (by rw [hst]; exact List.mem_cons_self))
      simp only [pathTurn, h1, h2]

theorem pathNext_congr {m m' : Arena T3} {i : Nat} {st : PathSt} (hs : st.Under m i) (hu : Rel.Under m m' i) :
    pathNext m' st = pathNext m st :=
  Enum.nextF_congr (K := PathSt.Under m i) (fun s hs => pathStep_congr hs hu)
    (fun s o s' hs h => pathStep_under hs h) _ st hs

theorem pathNext_under {m : Arena T3} {i : Nat} {st st' : PathSt} {o : Option (List String)} (hs : st.Under m i)
    (h : pathNext m st = some (o, st')) : st'.Under m i :=
  Enum.nextF_keep (K := PathSt.Under m i) (fun s o s' hs h => pathStep_under hs h) _ st o st' hs h

theorem pathNext_idle {m : Arena T3} {st st' : PathSt} (h : pathNext m st = some (none, st')) :
    pathNext m st' = some (none, st') :=
  Enum.nextF_done (Enum.nextF_idle _ _ _ h) _

theorem pathNew_under {m : Arena T3} {i : Nat} {ss : List Bool} {st : PathSt} (h : pathNew m i ss = some st) :
    st.Under m i := by
  unfold pathNew at h
  split at h
  · cases h
  · cases h
    intro l j hj
    simp only [List.mem_cons, List.not_mem_nil, or_false, StackValue.node.injEq] at hj
    rw [hj.2]
    exact .refl _

end Bdd

namespace World

/-- A call, without its answer. -/
def after (w : World) (c : Cmd) : Option World := (w.step c).map (·.2)

/-- Calls made while an iterator over handle `f` is open do not change its results. -/
theorem weave_path {w w' : World} {A : Abs} (R : Rel w A) {ss : List Bool} {f : Nat} {st : Bdd.PathSt}
    (hx : w.bddExtract ss f = some st) {os : List (List String)} (hy : Enum.Yields w.bddNext st os)
    {as : List (Enum.Act Cmd)}
    (hg : Enum.Goes after (fun w c => w.Ordered c ∧ c ≠ .drop f) w (Enum.calls as) w') :
    ∃ st', Enum.weave after bddNext w st as = some (Enum.answers os (Enum.nexts as), w', st') := by
  unfold bddExtract at hx
  split at hx
  · cases hx
  · rename_i i hi
    refine Enum.weave_ok (w0 := w)
      (J := fun v => (∃ B, Rel v B) ∧ v.held.get f = some i ∧ Rel.Under w.mgr.bdd.arena v.mgr.bdd.arena i)
      (K := Bdd.PathSt.Under w.mgr.bdd.arena i) ?_ ?_ ?_ ?_ as w st os w'
      ⟨⟨A, R⟩, hi, fun _ _ => ⟨rfl, rfl⟩⟩ (Bdd.pathNew_under hx) hy hg
    · rintro v c v1 ⟨⟨B, RB⟩, h1, h2⟩ ⟨h3, h4⟩ h5
      unfold after at h5
      rw [Option.map_eq_some_iff] at h5
      obtain ⟨⟨o, v2⟩, h6, rfl⟩ := h5
      obtain ⟨B', _, RB'⟩ := RB.of_step h3 h6
      exact ⟨⟨B', RB'⟩, RB.step_held h6 h1 h4, RB.under_step h1 h2 h3 h6⟩
    · rintro v s ⟨_, _, h⟩ hs
      exact Bdd.pathNext_congr hs h
    · exact fun s o s' hs h => Bdd.pathNext_under hs h
    · exact fun s s' h => Bdd.pathNext_idle h

end World
end DD
