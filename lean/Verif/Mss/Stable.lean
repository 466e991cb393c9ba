import Verif.Mss.Step
import Verif.Mss.CountOk
import Verif.Core.Shape
import Verif.Core.Weave

/-!
# Nodes of MDD handles are left alone; open iterators
-/

set_option autoImplicit false
set_option linter.unusedSectionVars false
set_option linter.unusedVariables false

namespace DD
open Arena Mtmdd2

theorem Arena.gcA_slots {T : Type} [DecidableEq T] [Fixed T] {m m' : Arena T} {roots : List Nat} {l : List Bool}
    (h : m.gcA roots = some (l, m')) : m'.nodes = m.nodes ∧ m'.headers = m.headers := by
  unfold gcA at h
  split at h
  · cases h
  · rw [Option.map_eq_some_iff] at h
    obtain ⟨m1, h1, e⟩ := h
    cases e
    unfold sweep at h1
    split at h1 <;> cases h1
    exact ⟨rfl, rfl⟩

/-- Nodes and headers are created, then perhaps a collection follows. -/
def Arena.Grow {T : Type} [DecidableEq T] [Fixed T] (m m' : Arena T) : Prop :=
  ∃ m1, Ext m m1 ∧ m'.nodes = m1.nodes ∧ m'.headers = m1.headers

theorem Arena.Grow.shape {T : Type} [DecidableEq T] [Fixed T] {R : List Nat → Prop} {m m' : Arena T} (g : Grow m m')
    (wf : WF R m) {i : Nat} {X : Nat → Look T} (h : m.Shape i X) (hl : m'.Live i) : m'.Shape i X := by
  obtain ⟨m1, e, h1, h2⟩ := g
  exact (h.ext wf e).purge hl h1 h2

/-- The same for both forests. -/
def Grow2 (e e' : Mtmdd2) : Prop :=
  e.mdd.arena.Grow e'.mdd.arena ∧ e.mtmdd.arena.Grow e'.mtmdd.arena

theorem Grow2.of_ext {e e' : Mtmdd2} (h : Ext2 e e') : Grow2 e e' :=
  ⟨⟨_, h.1, rfl, rfl⟩, ⟨_, h.2, rfl, rfl⟩⟩

theorem Grow2.refl (e : Mtmdd2) : Grow2 e e := .of_ext (Ext2.refl e)

/-- A collection of both forests leaves the slots alone. -/
theorem mgc_slots {e e' : Mtmdd2} {roots : List MNode} {n : Nat × Nat} (h : e.gc roots = some (n, e')) :
    (e'.mdd.arena.nodes = e.mdd.arena.nodes ∧ e'.mdd.arena.headers = e.mdd.arena.headers) ∧
    e'.mtmdd.arena.nodes = e.mtmdd.arena.nodes ∧ e'.mtmdd.arena.headers = e.mtmdd.arena.headers := by
  unfold Mtmdd2.gc at h
  split at h
  · cases h
  · rename_i nv v hv
    split at h
    · cases h
    · rename_i nb b hb
      cases h
      constructor
      · unfold Mdd.gc at hb
        split at hb
        · cases hb
        · rename_i hg
          split at hb <;> cases hb
          exact gcA_slots hg
      · unfold Mtmdd.gc at hv
        split at hv
        · cases hv
        · rename_i hg
          split at hv <;> cases hv
          exact gcA_slots hg

theorem Grow2.gc {e e1 e' : Mtmdd2} (h : Ext2 e e1) {roots : List MNode} {n : Nat × Nat}
    (hg : e1.gc roots = some (n, e')) : Grow2 e e' := by
  obtain ⟨⟨h1, h2⟩, h3, h4⟩ := mgc_slots hg
  exact ⟨⟨_, h.1, h1, h2⟩, ⟨_, h.2, h3, h4⟩⟩

theorem wrap_grow {m m' : MddMgr} {r x : MNode} {e : Mtmdd2} {e0 : Mtmdd2} (h : Ext2 e0 e)
    (hw : m.wrap (some (x, e)) = some (r, m')) : Grow2 e0 m'.w.eng := by
  unfold MddMgr.wrap Wr.wrap at hw
  simp only at hw
  split at hw
  · cases hw
  · rename_i r1 w1 hw1
    cases hw
    split at hw1
    · cases hw1
    · rename_i w2 hm
      cases hw1
      unfold Wr.maybeGc at hm
      split at hm
      · cases hm; exact .of_ext h
      · split at hm
        · cases hm
        · rename_i n e' hg
          cases hm
          simp only [mops] at hg
          split at hg
          · cases hg
          · rename_i hg'
            cases hg
            exact .gc h hg'

namespace MRel
variable {w w' : MWorld} {vs : List (String × Nat)}

/-- What a call leaves alone: the slots of held nodes, and which handle points where. -/
def Leaves (w w' : MWorld) (c : MCmd) : Prop :=
  Grow2 w.mgr.w.eng w'.mgr.w.eng ∧
    ∀ f x, w.hs.held.get f = some x → c ≠ .drop f → w'.hs.held.get f = some x

theorem leaves_give (R : MRel w vs) {c : MCmd} {r : Option (MNode × MddMgr)} {o : MOut}
    (h : w.give r = some (o, w')) (hs : ∀ i m, r = some (i, m) → Grow2 w.mgr.w.eng m.w.eng) : Leaves w w' c := by
  unfold MWorld.give at h
  split at h
  · cases h
  · cases h
    exact ⟨hs _ _ rfl, fun f x hx _ => R.hs.give_old _ hx⟩

theorem leaves_op (R : MRel w vs) {c : MCmd} {res : Option (MNode × Mtmdd2)} {Φ : (Nat → Nat) → MVal → Prop}
    (hr : MOk w.mgr.w.eng Φ res) {o : MOut} (h : w.give (w.mgr.wrap res) = some (o, w')) : Leaves w w' c := by
  obtain ⟨r, e, rfl, _, st, _⟩ := hr
  exact R.leaves_give h fun i m hm => wrap_grow st.ext2 hm

theorem leaves_refl (c : MCmd) : Leaves w w c := ⟨.refl _, fun _ _ h _ => h⟩

theorem leaves_giveAll (R : MRel w vs) (c : MCmd) : ∀ (xs : List MNode), (∀ x ∈ xs, w.mgr.w.eng.MLive x) →
    Leaves w (w.giveAll xs).2 c := by
  intro xs
  induction xs generalizing w with
  | nil => intro _; exact leaves_refl c
  | cons x xs ih =>
    intro hl
    obtain ⟨F, hF⟩ := MDen.of_live R.mok.inv (hl x List.mem_cons_self)
    obtain ⟨w1, k1, k2, k3, k4, k5, k6⟩ := R.give (R.mok.pin hF) hF (fun _ _ _ h => h)
    have hw1 : w1 = { mgr := w.mgr.pin x, hs := w.hs.give x } := by
      obtain ⟨m, s⟩ := w1; simp only at k5 k6; rw [k5, k6]
    subst hw1
    obtain ⟨g, k⟩ := ih k2 (fun y hy => hl y (List.mem_cons_of_mem _ hy))
    exact ⟨g, fun f y hy hc => k f y (R.hs.give_old _ hy) hc⟩

/-- No call touches the slots under a held node, or moves a handle. -/
theorem leaves (R : MRel w vs) {c : MCmd} (hc : w.Checked c) {o : MOut} (h : w.step c = some (o, w')) :
    Leaves w w' c := by
  have hi := R.mok.inv
  have hleg := R.legal_of_step hc h
  cases c with
  | boolean b => exact R.leaves_op (constB_m hi (T3.ofBool b)) (by cases b <;> exact h)
  | value v => exact R.leaves_op (value_m hi v) h
  | undetBoolean => exact R.leaves_op (constB_m hi .zero) h
  | undetValue => exact R.leaves_op (undetV_m hi) h
  | createNode h' fs =>
    obtain ⟨xs, hxs, h⟩ := onL_some h
    obtain ⟨hd, k, h1, h2, h3⟩ := hleg
    have hlen : xs.length = fs.length := Hs.nodes_length hxs
    have hk : ∀ c ∈ xs, c.isBool = k ∧ w.mgr.w.eng.MLive c ∧
        ∀ l, w.mgr.w.eng.mlevel c = some l → l < hd.level := by
      intro c hc
      obtain ⟨f, hf, hg⟩ := Hs.nodes_from hxs c hc
      obtain ⟨x, x1, x2, x3⟩ := h3 f hf
      rw [hg] at x1; cases x1
      exact ⟨x2, R.nodes_live hxs c hc, x3⟩
    exact R.leaves_op (createNode_m hi h1 (by rw [hlen]; exact h2) hk).1 h
  | defvar x r =>
    refine R.leaves_give h fun i m hm => ?_
    obtain ⟨n, m', i, h1, _, _, _, _, _, h7⟩ := R.mok.defvar x (defvar_legal R.mok hm)
    rw [hm] at h1; cases h1
    exact .of_ext h7
  | varorder => simp only [MWorld.step] at h; split at h <;> cases h; exact leaves_refl _
  | rpn ts vars =>
    simp only [MWorld.step, MddMgr.rpn] at h
    cases hl : MddMgr.rpnLoop vars { mgr := w.mgr, stack := [], cache := AMap.empty } ts with
    | none => simp only [hl] at h; cases h
    | some lo =>
      have hk := RpnOk.loop ts (rpnOk_start R.mok) hl
      simp only [hl] at h
      cases lo with
      | error p =>
        obtain ⟨e, m1⟩ := p
        obtain ⟨vs', a1, a2, a3⟩ := hk
        cases h
        exact ⟨.of_ext a3, fun _ _ h _ => h⟩
      | ok s =>
        obtain ⟨vs', a1, a2, a3⟩ := hk
        have a3 : Ext2 w.mgr.w.eng s.mgr.w.eng := a3
        simp only at h
        by_cases hx : ∃ x, s.stack = [x]
        · obtain ⟨x, hx⟩ := hx
          simp only [hx] at h
          cases hw : s.mgr.wrap (some (x, s.mgr.w.eng)) with
          | none => simp only [hw] at h; cases h
          | some q =>
            simp only [hw] at h
            exact R.leaves_give h fun i m hm => by cases hm; exact wrap_grow a3 hw
        · split at h
          · cases h
          · rename_i e m he
            cases h
            split at he
            · split at he <;> cases he
            · cases he; exact ⟨.of_ext a3, fun _ _ h _ => h⟩
          · rename_i x m he
            split at he
            · rename_i x hst; exact absurd ⟨x, hst⟩ hx
            · cases he
  | andL fs =>
    obtain ⟨xs, hxs, h⟩ := onL_some h
    exact R.leaves_op (foldOp_ok .and xs hi (mlive_undetB hi .one) (R.nodes_live hxs)) h
  | orL fs =>
    obtain ⟨xs, hxs, h⟩ := onL_some h
    exact R.leaves_op (foldOp_ok .or xs hi (mlive_undetB hi .zero) (R.nodes_live hxs)) h
  | minL fs =>
    obtain ⟨xs, hxs, h⟩ := onL_some h
    have hlx := R.nodes_live hxs
    cases xs with
    | nil => cases h
    | cons x xs =>
      exact R.leaves_op (foldOp_ok .min xs hi (hlx x List.mem_cons_self)
        (fun y hy => hlx y (List.mem_cons_of_mem _ hy))) h
  | maxL fs =>
    obtain ⟨xs, hxs, h⟩ := onL_some h
    have hlx := R.nodes_live hxs
    cases xs with
    | nil => cases h
    | cons x xs =>
      exact R.leaves_op (foldOp_ok .max xs hi (hlx x List.mem_cons_self)
        (fun y hy => hlx y (List.mem_cons_of_mem _ hy))) h
  | clearCache => cases h; exact ⟨.of_ext (Ext2.refl _), fun _ _ h _ => h⟩
  | setThreshold n => cases h; exact ⟨.refl _, fun _ _ h _ => h⟩
  | gc keep =>
    obtain ⟨xs, hxs, h⟩ := onL_some h
    split at h
    · cases h
    · rename_i n m hm
      cases h
      unfold MddMgr.collect at hm
      split at hm
      · cases hm
      · rename_i hg
        cases hm
        exact ⟨.gc (Ext2.refl _) hg, fun _ _ h _ => h⟩
  | not f =>
    obtain ⟨x, hx, h⟩ := on1_some h
    obtain ⟨F, hF, _⟩ := R.has hx
    exact R.leaves_op (not_m hi hF.live) h
  | bin p f g =>
    obtain ⟨x, hx, h⟩ := on1_some h
    obtain ⟨y, hy, h⟩ := on1_some h
    obtain ⟨F, hF, _⟩ := R.has hx
    obtain ⟨G, hG, _⟩ := R.has hy
    exact R.leaves_op (bin_ok hi p hF.live hG.live) h
  | ite f g k =>
    obtain ⟨x, hx, h⟩ := on1_some h
    obtain ⟨y, hy, h⟩ := on1_some h
    obtain ⟨z, hz, h⟩ := on1_some h
    obtain ⟨F, hF, _⟩ := R.has hx
    obtain ⟨G, hG, _⟩ := R.has hy
    obtain ⟨H, hH, _⟩ := R.has hz
    exact R.leaves_op (ite_m hi hF.live hG.live hH.live (hleg y z hy hz)) h
  | clone f =>
    obtain ⟨x, hx, h⟩ := on1_some h
    exact R.leaves_give h fun i m e => by cases e; exact .refl _
  | drop f =>
    obtain ⟨x, hx, h⟩ := on1_some h
    cases h
    refine ⟨.refl _, fun g y hy hne => ?_⟩
    show (w.hs.drop f).held.get g = _
    rw [Hs.drop_get (fun e => hne (by rw [e]))]; exact hy
  | children f =>
    obtain ⟨x, hx, h⟩ := on1_some h
    obtain ⟨F, F1, F2⟩ := R.has hx
    cases mden_cases hi R.mok.hdrs R.mok.inj F1 with
    | bterm t _ _ _ _ e5 => simp only [e5] at h; cases h; exact leaves_refl _
    | vterm t _ _ _ _ e5 => simp only [e5] at h; cases h; exact leaves_refl _
    | node l p ch e0 _ _ _ e5 _ _ e8 e9 e10 =>
      simp only [e5] at h
      cases h
      refine R.leaves_giveAll _ ch fun y hy => ?_
      obtain ⟨j, hj⟩ := List.mem_iff_getElem?.1 hy
      exact (e10 j y hj).2.live
  | node f => obtain ⟨x, hx, h⟩ := on1_some h; cases h; exact leaves_refl _
  | header f => obtain ⟨x, hx, h⟩ := on1_some h; cases h; exact leaves_refl _
  | level f => obtain ⟨x, hx, h⟩ := on1_some h; cases h; exact leaves_refl _
  | label f => obtain ⟨x, hx, h⟩ := on1_some h; cases h; exact leaves_refl _
  | isBoolean f => obtain ⟨x, hx, h⟩ := on1_some h; cases h; exact leaves_refl _
  | isValue f => obtain ⟨x, hx, h⟩ := on1_some h; cases h; exact leaves_refl _
  | isTerm t f =>
    obtain ⟨x, hx, h⟩ := on1_some h
    split at h <;> cases h
    exact leaves_refl _
  | valueOf f =>
    obtain ⟨x, hx, h⟩ := on1_some h
    split at h <;> cases h
    exact leaves_refl _
  | size => cases h; exact leaves_refl _
  | liveNodeCount => cases h; exact leaves_refl _

/-- `minsol` and `maxsol` only create nodes. -/
theorem leaves_sol (R : MRel w vs) {top : Bool} {f : Nat} {o : Option MNode} (h : w.sol top f = some (o, w')) :
    Grow2 w.mgr.w.eng w'.mgr.w.eng ∧ w'.hs = w.hs := by
  unfold MWorld.sol at h
  split at h
  · cases h
  · rename_i x hx
    obtain ⟨F, hF⟩ := R.mok.live (AMap.mem_vals_of_get hx)
    obtain ⟨o', e, h1, h2, h3, h4, h5⟩ := solT_ok R.mok.inv R.mok.hdrs hF top
    rw [h1] at h
    cases h
    exact ⟨.of_ext h3.ext2, rfl⟩

end MRel

/-! ## The iterator -/

namespace Mda
variable {T : Type} [DecidableEq T] [Fixed T] {m m' : Arena T} {i : Nat} {s : Sel T}

/-- All nodes on the stack are at or under `i`. -/
def PathSt.Under (m : Arena T) (i : Nat) (st : PathSt) : Prop :=
  ∀ lv j, StackValue.node lv j ∈ st.stack → Reach m i j

theorem mem_branches {x : String} {lv l : Option Nat} {j : Nat} : ∀ (cs : List Nat) (k : Nat),
    StackValue.node l j ∈ branches x lv k cs → j ∈ cs := by
  intro cs
  induction cs with
  | nil => intro k h; cases h
  | cons c cs ih =>
    intro k h
    simp only [branches, List.mem_cons, StackValue.node.injEq, reduceCtorEq, false_or] at h
    rcases h with h | h
    · rw [h.2]; exact List.mem_cons_self
    · exact List.mem_cons_of_mem _ (ih (k + 1) h)

theorem pathStep_under (st : PathSt) (o : Option (AMap String Nat)) (st' : PathSt) (hu : st.Under m i)
    (h : pathStep m s st = some (some (o, st'))) : st'.Under m i := by
  unfold pathStep at h
  split at h
  · cases h
  · rename_i v rest hst
    have hrest : ∀ lv j, StackValue.node lv j ∈ rest → Reach m i j := fun lv j hj =>
      hu lv j (by rw [hst]; exact List.mem_cons_of_mem _ hj)
    have app : ∀ {x : String} {lv : Option Nat} {cs : List Nat}, (∀ c ∈ cs, Reach m i c) →
        ∀ l j, StackValue.node l j ∈ branches x lv 0 cs ++ rest → Reach m i j := by
      intro x lv cs hc l j hj
      rcases List.mem_append.1 hj with hj | hj
      · exact hc j (mem_branches cs 0 hj)
      · exact hrest l j hj
    rw [Option.map_eq_some_iff] at h
    obtain ⟨q, h, e⟩ := h
    cases e
    cases v with
    | push x j => simp only [pathTurn] at h; cases h; exact hrest
    | pop x => simp only [pathTurn] at h; cases h; exact hrest
    | node lv j =>
      have hj : Reach m i j := hu lv j (by rw [hst]; exact List.mem_cons_self)
      have rep : ∀ {e : Nat}, ∀ c ∈ List.replicate e j, Reach m i c := by
        intro e c hc
        rw [(List.mem_replicate.1 hc).2]; exact hj
      simp only [pathTurn] at h
      split at h
      · cases h
      · rename_i hh ch hn
        split at h
        · split at h
          · cases h
          · split at h
            · cases h; exact app rep
            · cases h
        · split at h
          · cases h
          · split at h
            · cases h
            · cases h; exact app fun c hc => .step hj hn hc
      · split at h
        · cases h; exact hrest
        · split at h
          · split at h
            · cases h
            · split at h
              · cases h; exact app rep
              · cases h
          · split at h <;> (cases h; exact hrest)

theorem pathStep_congr {X : Nat → Look T} (h : m.Shape i X) (h' : m'.Shape i X) (st : PathSt) (hu : st.Under m i) :
    pathStep m' s st = pathStep m s st := by
  unfold pathStep
  split
  · rfl
  · rename_i v rest hst
    congr 1
    cases v with
    | push x j => rfl
    | pop x => rfl
    | node lv j =>
      obtain ⟨e1, e2, _⟩ := h.same h' (hu lv j (by rw [hst]; exact List.mem_cons_self))
      have e3 : above m' lv j = above m lv j := by unfold above; rw [e2]
      simp only [pathTurn, e1, e3]

/-- `next` reads nothing but what is under the node. -/
theorem pathNext_congr {X : Nat → Look T} (h : m.Shape i X) (h' : m'.Shape i X) {st : PathSt} (hu : st.Under m i) :
    pathNext m' s st = pathNext m s st :=
  Enum.nextF_congr_enough (turn := pathStep m s) (turn' := pathStep m' s) (K := PathSt.Under m i)
    (μ := fun st' => turns (maxDeg m st) st'.stack) (μ' := fun st' => turns (maxDeg m' st) st'.stack)
    (J := fun st' => maxDeg m st' = maxDeg m st) (J' := fun st' => maxDeg m' st' = maxDeg m' st)
    (fun st1 o st2 hb hs => turns_decr _ st1 o st2 hb hs) (fun st1 o st2 hb hs => turns_decr _ st1 o st2 hb hs)
    (fun st1 hk => pathStep_congr h h' st1 hk) (fun st1 o st2 hk hs => pathStep_under st1 o st2 hk hs) hu rfl rfl

theorem pathNext_under {st st' : PathSt} {o : Option (AMap String Nat)} (hu : st.Under m i)
    (h : pathNext m s st = some (o, st')) : st'.Under m i :=
  Enum.nextF_keep (fun s1 o1 s2 hk hs => pathStep_under s1 o1 s2 hk hs) _ st o st' hu h

theorem pathNext_idle {st st' : PathSt} (h : pathNext m s st = some (none, st')) :
    pathNext m s st' = some (none, st') :=
  Enum.nextF_done (Enum.nextF_idle _ st st' h) _

theorem pathNew_under {nh : Nat} {st : PathSt} (h : pathNew m nh i = some st) : st.Under m i := by
  unfold pathNew at h
  split at h
  · split at h
    · cases h
    · cases h
      intro lv j hj
      simp only [List.mem_singleton, StackValue.node.injEq] at hj
      rw [hj.2]; exact .refl _
  · cases h

end Mda

/-- What is under a tagged node looks as in `e0`. -/
def Mtmdd2.LooksAs (e0 e : Mtmdd2) : MNode → Prop
  | .value i => e.mtmdd.arena.Shape i e0.mtmdd.arena.view
  | .bool i => e.mdd.arena.Shape i e0.mdd.arena.view

theorem Mtmdd2.looksAs_self {e : Mtmdd2} {x : MNode} (h : e.MLive x) : e.LooksAs e x := by
  cases x <;> exact shape_of_live h

theorem Grow2.looks {e0 e e' : Mtmdd2} (g : Grow2 e e') (hi : Inv e) {x : MNode} (h : e0.LooksAs e x)
    (hl : e'.MLive x) : e0.LooksAs e' x := by
  cases x with
  | value i => exact g.2.shape hi.v.wf h hl
  | bool i => exact g.1.shape hi.b.wf h hl

namespace MWorld
variable {w w' : MWorld}

/-- A call, without its result. -/
def after (w : MWorld) (c : MCmd) : Option MWorld := (w.step c).map (·.2)

/-- Handle `f` still points to `x`, and what is under `x` looks as in `e0`. -/
def Open (e0 : Mtmdd2) (f : Nat) (x : MNode) (w : MWorld) : Prop :=
  (∃ vs, MRel w vs) ∧ w.hs.held.get f = some x ∧ e0.LooksAs w.mgr.w.eng x

theorem Open.of_grow {e0 : Mtmdd2} {f : Nat} {x : MNode} (h : w.Open e0 f x) {vs : List (String × Nat)} (R' : MRel w' vs)
    (g : Grow2 w.mgr.w.eng w'.mgr.w.eng) (hx : w'.hs.held.get f = some x) : w'.Open e0 f x := by
  obtain ⟨⟨vs0, R⟩, h1, h2⟩ := h
  obtain ⟨F, hF⟩ := R'.mok.live (AMap.mem_vals_of_get hx)
  exact ⟨⟨vs, R'⟩, hx, g.looks R.mok.inv h2 hF.live⟩

theorem Open.step {e0 : Mtmdd2} {f : Nat} {x : MNode} (h : w.Open e0 f x) {c : MCmd} (hc : w.Checked c)
    (hne : c ≠ .drop f) {o : MOut} (hs : w.step c = some (o, w')) : w'.Open e0 f x := by
  obtain ⟨vs0, R⟩ := h.1
  obtain ⟨vs, _, R', _⟩ := R.of_step hc hs
  obtain ⟨g, k⟩ := R.leaves hc hs
  exact h.of_grow R' g (k f x h.2.1 hne)

theorem Open.sol {e0 : Mtmdd2} {f : Nat} {x : MNode} (h : w.Open e0 f x) {top : Bool} {f' : Nat} {o : Option MNode}
    (hs : w.sol top f' = some (o, w')) : w'.Open e0 f x := by
  obtain ⟨vs0, R⟩ := h.1
  obtain ⟨g, k⟩ := R.leaves_sol hs
  have hs' := hs
  unfold MWorld.sol at hs'
  split at hs'
  · cases hs'
  · rename_i y hy
    obtain ⟨F, hF⟩ := R.mok.live (AMap.mem_vals_of_get hy)
    obtain ⟨o', w1, h1, R', _⟩ := R.sol top hy hF
    rw [hs] at h1; cases h1
    exact h.of_grow R' g (by rw [k]; exact h.2.1)

/-- The stack of an iterator over `x`. -/
def PathUnder (e : Mtmdd2) (x : MNode) (st : Mda.PathSt) : Prop :=
  match x with
  | .value i => st.Under e.mtmdd.arena i
  | .bool i => st.Under e.mdd.arena i

theorem Open.next_eq {w0 : MWorld} {f : Nat} {x : MNode} (h0 : w0.hs.held.get f = some x)
    (l0 : w0.mgr.w.eng.MLive x) (h : w.Open w0.mgr.w.eng f x) {ss : List Int} {st : Mda.PathSt}
    (hu : PathUnder w0.mgr.w.eng x st) : w.next ss f st = w0.next ss f st := by
  unfold MWorld.next MWorld.query
  rw [h0, h.2.1]
  have hs := looksAs_self l0
  cases x with
  | value i => exact Mda.pathNext_congr hs h.2.2 hu
  | bool i => exact Mda.pathNext_congr hs h.2.2 hu

theorem next_under {f : Nat} {x : MNode} (h0 : w.hs.held.get f = some x) {ss : List Int} {st st' : Mda.PathSt}
    {o : Option (AMap String Nat)} (hu : PathUnder w.mgr.w.eng x st) (h : w.next ss f st = some (o, st')) :
    PathUnder w.mgr.w.eng x st' := by
  unfold MWorld.next MWorld.query at h
  rw [h0] at h
  cases x with
  | value i => exact Mda.pathNext_under hu h
  | bool i => exact Mda.pathNext_under hu h

theorem next_idle {f : Nat} {ss : List Int} {st st' : Mda.PathSt} (h : w.next ss f st = some (none, st')) :
    w.next ss f st' = some (none, st') := by
  unfold MWorld.next MWorld.query at h ⊢
  split at h
  · cases h
  · exact Mda.pathNext_idle h
  · exact Mda.pathNext_idle h

theorem extract_under {f : Nat} {st : Mda.PathSt} (h : w.extract f = some st) :
    ∃ x, w.hs.held.get f = some x ∧ PathUnder w.mgr.w.eng x st := by
  unfold MWorld.extract MWorld.query at h
  split at h
  · cases h
  · rename_i i hi; exact ⟨_, hi, Mda.pathNew_under h⟩
  · rename_i i hi; exact ⟨_, hi, Mda.pathNew_under h⟩

/-- The results of an open iterator do not depend on what is called between them; `call` is any kind of call that
leaves the handle and the nodes under it alone. -/
theorem weave_gen {V C : Type} {call : V → C → Option V} {ok : V → C → Prop} {pr : V → MWorld} {v0 v' : V}
    {vs : List (String × Nat)} (R : MRel (pr v0) vs) {f : Nat} {st : Mda.PathSt} {ss : List Int}
    (hx : (pr v0).extract f = some st) {os : List (AMap String Nat)} (hy : Enum.Yields ((pr v0).next ss f) st os)
    {P : V → Prop} (hP : P v0)
    (hstep : ∀ v c v1 x, P v → (pr v).Open (pr v0).mgr.w.eng f x → ok v c → call v c = some v1 →
      P v1 ∧ (pr v1).Open (pr v0).mgr.w.eng f x)
    {as : List (Enum.Act C)} (hg : Enum.Goes call ok v0 (Enum.calls as) v') :
    ∃ st', Enum.weave call (fun v => (pr v).next ss f) v0 st as =
      some (Enum.answers os (Enum.nexts as), v', st') := by
  obtain ⟨x, h0, hu⟩ := extract_under hx
  obtain ⟨F, hF⟩ := R.mok.live (AMap.mem_vals_of_get h0)
  exact Enum.weave_ok (next := fun v => (pr v).next ss f) (w0 := v0) (J := fun v => P v ∧ (pr v).Open (pr v0).mgr.w.eng f x)
    (K := PathUnder (pr v0).mgr.w.eng x)
    (fun v c v1 h hk hc => hstep v c v1 x h.1 h.2 hk hc)
    (fun v s h hk => h.2.next_eq h0 hF.live hk)
    (fun s o s' hk hn => next_under h0 hk hn)
    (fun s s' hn => next_idle hn) as v0 st os v' ⟨hP, ⟨vs, R⟩, h0, looksAs_self hF.live⟩ hu hy hg

theorem weave_path {vs : List (String × Nat)} (R : MRel w vs) {f : Nat} {st : Mda.PathSt} {ss : List Int}
    (hx : w.extract f = some st) {os : List (AMap String Nat)} (hy : Enum.Yields (w.next ss f) st os)
    {as : List (Enum.Act MCmd)}
    (hg : Enum.Goes after (fun w c => w.Checked c ∧ c ≠ .drop f) w (Enum.calls as) w') :
    ∃ st', Enum.weave after (fun w => w.next ss f) w st as =
      some (Enum.answers os (Enum.nexts as), w', st') := by
  refine weave_gen (pr := id) (P := fun _ => True) R hx hy trivial ?_ hg
  rintro v c v1 x _ h ⟨h1, h2⟩ h3
  unfold after at h3
  rw [Option.map_eq_some_iff] at h3
  obtain ⟨⟨o, v2⟩, h3, e⟩ := h3
  cases e
  exact ⟨trivial, h.step h1 h2 h3⟩

end MWorld
end DD
