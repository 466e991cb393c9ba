import Verif.Mss.Session
import Verif.Mss.SolMdd

/-!
# MDD sessions: one step
-/

set_option autoImplicit false
set_option linter.unusedSectionVars false
set_option linter.unusedVariables false

namespace DD
open Arena Mtmdd2

/-- World invariant. -/
structure MRel (w : MWorld) (vs : List (String × Nat)) : Prop where
  mok : MMOK w.mgr vs w.hs.held.vals
  hs : w.hs.Ok

namespace MWorld

/-- Handle `h` is held and means `F` (on assignments within the variables' ranges). -/
def Has (w : MWorld) (h : Nat) (F : MFun) : Prop :=
  ∃ x, w.hs.held.get h = some x ∧ MDen w.mgr.w.eng x F

/-- Handles with their meanings. -/
def HasL (w : MWorld) : List Nat → List MFun → Prop
  | [], [] => True
  | h :: hs, F :: Fs => w.Has h F ∧ HasL w hs Fs
  | _, _ => False

/-- Calls that must not panic. -/
def Legal (w : MWorld) : MCmd → Prop
  | .createNode h fs => w.CreateOk h fs
  | .defvar x r => (w.mgr.vars.get x).isSome ∨ 0 < r
  | .varorder => ∀ hd ∈ w.mgr.w.eng.mdd.arena.headers, 2 ≤ hd.edgeNum
  | .rpn ts vars => (w.mgr.rpn vars ts).isSome
  | .minL fs => fs ≠ []
  | .maxL fs => fs ≠ []
  | .ite _ g h => ∀ x y, w.hs.held.get g = some x → w.hs.held.get h = some y → x.isBool = y.isBool
  | _ => True

end MWorld

/-- A new handle whose meaning is, at each assignment, related to the operands' meanings. -/
def MRet (w : MWorld) (vs : List (String × Nat)) (o : MOut) (w' : MWorld) (Φ : (Nat → Nat) → MVal → Prop) : Prop :=
  o = .handle w.hs.next ∧ ∃ V, w'.Has w.hs.next V ∧ ∀ a, ValidV vs a → Φ a (V a)

/-- What a call returns and does; `vs`, `vs'` are the variables before and after. -/
def MPost (w : MWorld) (vs : List (String × Nat)) : MCmd → MOut → MWorld → List (String × Nat) → Prop
  | .boolean b, o, w', vs' => vs' = vs ∧ MRet w vs o w' (fun _ z => z = .b (T3.ofBool b))
  | .value v, o, w', vs' => vs' = vs ∧ MRet w vs o w' (fun _ z => z = .v (some v))
  | .undetBoolean, o, w', vs' => vs' = vs ∧ MRet w vs o w' (fun _ z => z = .b .zero)
  | .undetValue, o, w', vs' => vs' = vs ∧ MRet w vs o w' (fun _ z => z = .v none)
  | .createNode h fs, o, w', vs' => vs' = vs ∧ ∀ Fs, w.HasL fs Fs →
      MRet w vs o w' (fun a z => ∃ F, Fs[a h]? = some F ∧ z = F a)
  | .defvar x r, o, w', vs' => vs' = addVar vs x r ∧ o = .handle w.hs.next ∧
      ∃ (i r' : Nat), vs'[i]? = some (x, r') ∧ w'.Has w.hs.next (fun a => .v (some (a i)))
  | .varorder, o, w', vs' => vs' = vs ∧ w' = w ∧ o = .order vs
  | .rpn _ _, o, w', vs' => vs <+: vs' ∧ ((∃ e, o = .err e ∧ w'.hs = w.hs) ∨ MRet w vs o w' (fun _ _ => True))
  | .andL fs, o, w', vs' => vs' = vs ∧ ∀ Fs, w.HasL fs Fs →
      MRet w vs o w' (fun a z => foldRel .and (.b .one) (Fs.map (· a)) z)
  | .orL fs, o, w', vs' => vs' = vs ∧ ∀ Fs, w.HasL fs Fs →
      MRet w vs o w' (fun a z => foldRel .or (.b .zero) (Fs.map (· a)) z)
  | .minL fs, o, w', vs' => vs' = vs ∧ ∀ F Fs, w.HasL fs (F :: Fs) →
      MRet w vs o w' (fun a z => foldRel .min (F a) (Fs.map (· a)) z)
  | .maxL fs, o, w', vs' => vs' = vs ∧ ∀ F Fs, w.HasL fs (F :: Fs) →
      MRet w vs o w' (fun a z => foldRel .max (F a) (Fs.map (· a)) z)
  | .clearCache, o, w', vs' => vs' = vs ∧ o = .unit ∧ w'.hs = w.hs
  | .setThreshold _, o, w', vs' => vs' = vs ∧ o = .unit ∧ w'.hs = w.hs
  | .gc _, o, w', vs' => vs' = vs ∧ w'.hs = w.hs ∧ ∃ n, o = .pair n
  | .not f, o, w', vs' => vs' = vs ∧ ∀ F, w.Has f F → MRet w vs o w' (fun a z => notRel (F a) z)
  | .bin p f g, o, w', vs' => vs' = vs ∧ ∀ F G, w.Has f F → w.Has g G →
      MRet w vs o w' (fun a z => p.Rel (F a) (G a) z)
  | .ite f g h, o, w', vs' => vs' = vs ∧ ∀ F G H, w.Has f F → w.Has g G → w.Has h H →
      MRet w vs o w' (fun a z => iteRel (F a) (G a) (H a) z)
  | .clone f, o, w', vs' => vs' = vs ∧ ∀ F, w.Has f F → MRet w vs o w' (fun a z => z = F a)
  | .drop f, o, w', vs' => vs' = vs ∧ o = .unit ∧ w'.hs = w.hs.drop f
  | .children f, o, w', vs' => vs' = vs ∧ ∀ F, w.Has f F →
      (MTop vs F none ∧ o = .handles none ∧ w' = w) ∨
      ∃ (l : Nat) (p : String × Nat), vs[l]? = some p ∧ MTop vs F (some l) ∧
        o = .handles (some ((List.range p.2).map (w.hs.next + ·))) ∧
        ∀ j, j < p.2 → w'.Has (w.hs.next + j) (fun a => F (upd a l j))
  | .node f, o, w', vs' => vs' = vs ∧ w' = w ∧ ∃ x, o = .node x ∧ w.hs.held.get f = some x
  | .header f, o, w', vs' => vs' = vs ∧ w' = w ∧ ∀ F, w.Has f F → ∃ t, o = .nat t ∧ MTop vs F t
  | .level f, o, w', vs' => vs' = vs ∧ w' = w ∧ ∀ F, w.Has f F → ∃ t, o = .nat t ∧ MTop vs F t
  | .label f, o, w', vs' => vs' = vs ∧ w' = w ∧ ∀ F, w.Has f F → ∃ t, MTop vs F t ∧
      o = .str (t.bind fun l => vs[l]?.map Prod.fst)
  | .isBoolean f, o, w', vs' => vs' = vs ∧ w' = w ∧ ∀ F, w.Has f F → ∃ b, o = .bool b ∧
      ∀ a, ValidV vs a → (F a).isBool = b
  | .isValue f, o, w', vs' => vs' = vs ∧ w' = w ∧ ∀ F, w.Has f F → ∃ b, o = .bool b ∧
      ∀ a, ValidV vs a → (F a).isBool = !b
  | .isTerm t f, o, w', vs' => vs' = vs ∧ w' = w ∧ ∀ F, w.Has f F → ∃ b, o = .bool b ∧
      (b = true ↔ ∀ a, ValidV vs a → F a = .b t)
  | .valueOf f, o, w', vs' => vs' = vs ∧ w' = w ∧ ∀ F, w.Has f F → ∃ v, o = .int v ∧
      ∀ n, (v = some n ↔ ∀ a, ValidV vs a → F a = .v (some n))
  | .size, o, w', vs' => vs' = vs ∧ w' = w ∧ o = .quad w.mgr.w.eng.size
  | .liveNodeCount, o, w', vs' => vs' = vs ∧ w' = w ∧ o = .nat (some w.mgr.w.eng.liveNodeCount)

namespace MRel
variable {w : MWorld} {vs : List (String × Nat)}

theorem has (R : MRel w vs) {h : Nat} {x : MNode} (hx : w.hs.held.get h = some x) :
    ∃ F, MDen w.mgr.w.eng x F ∧ w.Has h F := by
  obtain ⟨F, hF⟩ := R.mok.live (AMap.mem_vals_of_get hx)
  exact ⟨F, hF, x, hx, hF⟩

theorem has_node {h : Nat} {x : MNode} (hx : w.hs.held.get h = some x) {F : MFun} (hF : w.Has h F) :
    MDen w.mgr.w.eng x F := by
  obtain ⟨y, h1, h2⟩ := hF
  rw [hx] at h1; cases h1
  exact h2

theorem has_agree (R : MRel w vs) {h : Nat} {F G : MFun} (h1 : w.Has h F) (h2 : w.Has h G) :
    ∀ a, ValidV vs a → F a = G a := by
  obtain ⟨x, a1, a2⟩ := h1
  have := has_node a1 h2
  exact fun a ha => a2.agree this (R.mok.valid.2 ha)

theorem hasL_eval {fs : List Nat} {xs : List MNode} {Fs : List MFun} (hn : w.hs.nodes fs = some xs)
    (h : w.HasL fs Fs) {a : Nat → Nat} (ha : w.mgr.w.eng.ValidA a) :
    MEvalL w.mgr.w.eng a xs (Fs.map (· a)) := by
  induction fs generalizing xs Fs with
  | nil =>
    cases Fs with
    | nil =>
      simp only [Hs.nodes, Option.some.injEq] at hn
      subst hn
      trivial
    | cons => exact h.elim
  | cons f fs ih =>
    cases Fs with
    | nil => exact h.elim
    | cons F Fs =>
      simp only [Hs.nodes] at hn
      split at hn
      · rename_i x xs' hx hxs
        cases hn
        exact ⟨(has_node hx h.1).val a ha, ih hxs h.2⟩
      · cases hn

theorem hasL_get {fs : List Nat} {xs : List MNode} {Fs : List MFun} (hn : w.hs.nodes fs = some xs)
    (h : w.HasL fs Fs) (j : Nat) (x : MNode) (hx : xs[j]? = some x) :
    ∃ F, Fs[j]? = some F ∧ MDen w.mgr.w.eng x F := by
  induction fs generalizing xs Fs j with
  | nil =>
    simp only [Hs.nodes, Option.some.injEq] at hn
    subst hn
    cases hx
  | cons f fs ih =>
    cases Fs with
    | nil => exact h.elim
    | cons F Fs =>
      simp only [Hs.nodes] at hn
      split at hn
      · rename_i y ys hy hys
        cases hn
        cases j with
        | zero => simp at hx; subst hx; exact ⟨F, rfl, has_node hy h.1⟩
        | succ j => simpa using ih hys h.2 j (by simpa using hx)
      · cases hn

/-- A call that creates a handle. -/
theorem give (R : MRel w vs) {m : MddMgr} {r : MNode} {V : MFun} {vs' : List (String × Nat)}
    (h : MMOK m vs' (r :: w.hs.held.vals)) (hd : MDen m.w.eng r V)
    (keep : mI.KeepL w.hs.held.vals w.mgr.w.eng m.w.eng) :
    ∃ w', w.give (some (r, m)) = some (.handle w.hs.next, w') ∧ MRel w' vs' ∧
      w'.Has w.hs.next V ∧ (∀ h F, w.Has h F → w'.Has h F) ∧ w'.mgr = m ∧ w'.hs = w.hs.give r := by
  refine ⟨{ mgr := m, hs := w.hs.give r }, rfl, ⟨?_, R.hs.give r⟩, ⟨r, Hs.give_next r, hd⟩, ?_, rfl, rfl⟩
  · show MMOK m vs' (w.hs.give r).held.vals
    rw [R.hs.vals_give]; exact h
  · rintro n F ⟨i, h1, h2⟩
    exact ⟨i, R.hs.give_old r h1, keep i (AMap.mem_vals_of_get h1) F h2⟩

/-- An engine operation behind a handle. -/
theorem op (R : MRel w vs) {res : Option (MNode × Mtmdd2)} {Φ : (Nat → Nat) → MVal → Prop}
    (hr : MOk w.mgr.w.eng Φ res) :
    ∃ o w', w.give (w.mgr.wrap res) = some (o, w') ∧ MRet w vs o w' Φ ∧ MRel w' vs ∧
      ∀ h F, w.Has h F → w'.Has h F := by
  obtain ⟨r, m', V, h1, h2, h3, h4, h5⟩ := R.mok.wrap hr
  obtain ⟨w', k1, k2, k3, k4, _⟩ := R.give h2 h3 h5
  exact ⟨_, w', by rw [h1]; exact k1, ⟨rfl, V, k3, h4⟩, k2, k4⟩

theorem nodes_live (R : MRel w vs) {fs : List Nat} {xs : List MNode} (hn : w.hs.nodes fs = some xs) :
    ∀ x ∈ xs, w.mgr.w.eng.MLive x := by
  intro x hx
  obtain ⟨F, hF⟩ := R.mok.live (Hs.nodes_mem hn x hx)
  exact hF.live

theorem giveAll (R : MRel w vs) : ∀ (xs : List MNode), (∀ x ∈ xs, w.mgr.w.eng.MLive x) →
    ∃ w', w.giveAll xs = ((List.range xs.length).map (w.hs.next + ·), w') ∧ MRel w' vs ∧
      w'.mgr.w.eng = w.mgr.w.eng ∧ (∀ h F, w.Has h F → w'.Has h F) ∧
      ∀ j x F, xs[j]? = some x → MDen w.mgr.w.eng x F → w'.Has (w.hs.next + j) F := by
  intro xs
  induction xs generalizing w with
  | nil => intro _; exact ⟨w, rfl, R, rfl, fun _ _ h => h, by intro j x F hx; cases hx⟩
  | cons x xs ih =>
    intro hl
    obtain ⟨F, hF⟩ := MDen.of_live R.mok.inv (hl x List.mem_cons_self)
    obtain ⟨w1, k1, k2, k3, k4, k5, k6⟩ := R.give (R.mok.pin hF) hF (fun _ _ _ h => h)
    have hw1 : w1 = { mgr := w.mgr.pin x, hs := w.hs.give x } := by
      obtain ⟨m, s⟩ := w1; simp only at k5 k6; rw [k5, k6]
    subst hw1
    obtain ⟨w', a1, a2, a3, a4, a5⟩ := ih k2 (fun y hy => hl y (List.mem_cons_of_mem _ hy))
    have hnx : (w.hs.give x).next = w.hs.next + 1 := rfl
    refine ⟨w', ?_, a2, a3, fun h F hF => a4 h F (k4 h F hF), ?_⟩
    · simp only [MWorld.giveAll, a1, hnx, List.length_cons, List.range_succ_eq_map, List.map_cons,
        List.map_map, Nat.add_zero, Prod.mk.injEq, List.cons.injEq, and_true, true_and]
      refine List.map_congr_left (fun j _ => ?_)
      simp only [Function.comp]
      omega
    · intro j y G hy hG
      cases j with
      | zero =>
        simp at hy; subst hy
        exact a4 _ G ⟨x, Hs.give_next x, hG⟩
      | succ j =>
        have := a5 j y G (by simpa using hy) hG
        rw [show w.hs.next + (j + 1) = (w.hs.give x).next + j by rw [hnx]; omega]
        exact this


/-- Reads. -/
theorem get1 {f : Nat} (hl : ∃ x, w.hs.held.get f = some x) {k : MNode → Option (MOut × MWorld)} :
    ∃ x, w.hs.held.get f = some x ∧ w.on1 f k = k x := by
  obtain ⟨x, hx⟩ := hl
  exact ⟨x, hx, by simp only [MWorld.on1, hx]⟩

theorem getL {fs : List Nat} (hl : ∀ f ∈ fs, ∃ x, w.hs.held.get f = some x)
    {k : List MNode → Option (MOut × MWorld)} : ∃ xs, w.hs.nodes fs = some xs ∧ w.onL fs k = k xs := by
  have : (w.hs.nodes fs).isSome := by
    rw [Hs.nodes_isSome]
    intro f hf
    exact hl f hf
  obtain ⟨xs, hxs⟩ := Option.isSome_iff_exists.1 this
  exact ⟨xs, hxs, by simp only [MWorld.onL, hxs]⟩

/-- What one call establishes. -/
def Done (w : MWorld) (vs : List (String × Nat)) (c : MCmd) : Prop :=
  ∃ o w' vs', w.step c = some (o, w') ∧ MPost w vs c o w' vs' ∧ MRel w' vs' ∧
    vs <+: vs' ∧ ∀ h F, w.Has h F → c ≠ .drop h → w'.Has h F

/-- From an engine operation to `Done`. -/
theorem doneOp (R : MRel w vs) {c : MCmd} {res : Option (MNode × Mtmdd2)} {Φ : (Nat → Nat) → MVal → Prop}
    (hr : MOk w.mgr.w.eng Φ res) (hs : w.step c = w.give (w.mgr.wrap res))
    (hp : ∀ o w', MRet w vs o w' Φ → MPost w vs c o w' vs) : Done w vs c := by
  obtain ⟨o, w', h1, h2, h3, h4⟩ := R.op hr
  exact ⟨o, w', vs, hs.trans h1, hp o w' h2, h3, List.prefix_rfl, fun h F hF _ => h4 h F hF⟩

theorem _root_.DD.MRet.mono {o : MOut} {w' : MWorld} {Φ Ψ : (Nat → Nat) → MVal → Prop} (h : MRet w vs o w' Φ)
    (hi : ∀ a, ValidV vs a → ∀ z, Φ a z → Ψ a z) : MRet w vs o w' Ψ := by
  obtain ⟨h1, V, h2, h3⟩ := h
  exact ⟨h1, V, h2, fun a ha => hi a ha _ (h3 a ha)⟩

/-- From a read to `Done`. -/
theorem doneRead (R : MRel w vs) {c : MCmd} {o : MOut} (hs : w.step c = some (o, w))
    (hp : MPost w vs c o w vs) : Done w vs c :=
  ⟨o, w, vs, hs, hp, R, List.prefix_rfl, fun _ _ h _ => h⟩

/-- The main step: a legal call on held handles returns, with the stated effect. -/
theorem step (R : MRel w vs) {c : MCmd} (hleg : w.Legal c)
    (hl : ∀ f ∈ MWorld.operands c, ∃ x, w.hs.held.get f = some x) : Done w vs c := by
  have hi := R.mok.inv
  have hv : ∀ {a}, ValidV vs a → w.mgr.w.eng.ValidA a := fun ha => R.mok.valid.2 ha
  cases c with
  | boolean b =>
    refine R.doneOp (constB_m hi (T3.ofBool b)) (by cases b <;> rfl) (fun o w' h => ⟨rfl, h⟩)
  | value v => exact R.doneOp (value_m hi v) rfl (fun o w' h => ⟨rfl, h⟩)
  | undetBoolean => exact R.doneOp (constB_m hi .zero) rfl (fun o w' h => ⟨rfl, h⟩)
  | undetValue => exact R.doneOp (undetV_m hi) rfl (fun o w' h => ⟨rfl, h⟩)
  | createNode h fs =>
    obtain ⟨xs, hxs, he⟩ := getL (w := w) (fs := fs) hl (k := fun xs => w.give (w.mgr.createNode h xs))
    obtain ⟨hd, k, h1, h2, h3⟩ := hleg
    have hlen : xs.length = fs.length := Hs.nodes_length hxs
    have hlev : hd.level = h := by
      rw [R.mok.hdrs, mkH_get] at h1
      obtain ⟨p, _, rfl⟩ := h1
      rfl
    have hk : ∀ c ∈ xs, c.isBool = k ∧ w.mgr.w.eng.MLive c ∧
        ∀ l, w.mgr.w.eng.mlevel c = some l → l < hd.level := by
      intro c hc
      obtain ⟨f, hf, hg⟩ := Hs.nodes_from hxs c hc
      obtain ⟨x, x1, x2, x3⟩ := h3 f hf
      rw [hg] at x1; cases x1
      exact ⟨x2, R.nodes_live hxs c hc, x3⟩
    refine R.doneOp (createNode_m hi h1 (by rw [hlen]; exact h2) hk).1 he (fun o w' hr => ⟨rfl, fun Fs hFs => hr.mono ?_⟩)
    rintro a ha z ⟨c, hc, hz⟩
    rw [hlev] at hc
    obtain ⟨F, hF, hd⟩ := hasL_get hxs hFs _ c hc
    exact ⟨F, hF, hd.read (hv ha) hz⟩
  | defvar x r =>
    have hr : x ∈ vs.map Prod.fst ∨ 0 < r := by
      rcases hleg with h | h
      · left
        obtain ⟨n, hn⟩ := Option.isSome_iff_exists.1 h
        exact R.mok.varsOnly x n hn
      · exact .inr h
    obtain ⟨n, m', i, h1, h2, ⟨r', h3⟩, h4, h5, _, _⟩ := R.mok.defvar x hr
    obtain ⟨w', k1, k2, k3, k4, _⟩ := R.give h2 h4 (fun k _ F hF => h5 k F hF)
    exact ⟨_, w', _, by simp only [MWorld.step, h1]; exact k1, ⟨rfl, rfl, i, r', h3, k3⟩, k2,
      addVar_prefix _ _ _, fun h F hF _ => k4 h F hF⟩
  | varorder =>
    have := getVarorder_ok R.mok (fun p hp => by
      obtain ⟨i, hi⟩ := List.mem_iff_getElem?.1 hp
      have := hleg ⟨i, p.1, p.2⟩ (by rw [R.mok.hdrs]; exact List.mem_of_getElem? (mkH_get.2 ⟨p, hi, rfl⟩))
      exact this)
    exact R.doneRead (o := .order vs) (by simp only [MWorld.step, this]) ⟨rfl, rfl, rfl⟩
  | rpn ts vars =>
    obtain ⟨⟨out, m'⟩, hr⟩ := Option.isSome_iff_exists.1 hleg
    obtain ⟨vs', h1, h2, h3⟩ := R.mok.rpn hr
    cases out with
    | error e =>
      refine ⟨.err e, { w with mgr := m' }, vs', by simp only [MWorld.step, hr], ⟨h1, .inl ⟨e, rfl, rfl⟩⟩,
        ⟨h3, R.hs⟩, h1, ?_⟩
      rintro h F ⟨x, x1, x2⟩ _
      exact ⟨x, x1, h2 x (AMap.mem_vals_of_get x1) F x2⟩
    | ok x =>
      obtain ⟨h3, V, h4⟩ := h3
      obtain ⟨w', k1, k2, k3, k4, _⟩ := R.give h3 h4 h2
      exact ⟨_, w', vs', by simp only [MWorld.step, hr]; exact k1,
        ⟨h1, .inr ⟨rfl, V, k3, fun _ _ => trivial⟩⟩, k2, h1, fun h F hF _ => k4 h F hF⟩
  | andL fs =>
    obtain ⟨xs, hxs, he⟩ := getL (w := w) (fs := fs) hl (k := fun xs => w.give (w.mgr.andL xs))
    refine R.doneOp (foldOp_ok .and xs hi (mlive_undetB hi .one) (R.nodes_live hxs)) he
      (fun o w' hr => ⟨rfl, fun Fs hFs => hr.mono ?_⟩)
    intro a ha z hz
    exact hz _ _ ((meval_constB hi .one).2 rfl) (hasL_eval hxs hFs (hv ha))
  | orL fs =>
    obtain ⟨xs, hxs, he⟩ := getL (w := w) (fs := fs) hl (k := fun xs => w.give (w.mgr.orL xs))
    refine R.doneOp (foldOp_ok .or xs hi (mlive_undetB hi .zero) (R.nodes_live hxs)) he
      (fun o w' hr => ⟨rfl, fun Fs hFs => hr.mono ?_⟩)
    intro a ha z hz
    exact hz _ _ ((meval_constB hi .zero).2 rfl) (hasL_eval hxs hFs (hv ha))
  | minL fs =>
    obtain ⟨xs, hxs, he⟩ := getL (w := w) (fs := fs) hl (k := fun xs => w.give (w.mgr.minL xs))
    have hlen : xs.length = fs.length := Hs.nodes_length hxs
    cases xs with
    | nil => exact absurd (List.length_eq_zero_iff.1 hlen.symm) hleg
    | cons x xs =>
      have hlx := R.nodes_live hxs
      refine R.doneOp (foldOp_ok .min xs hi (hlx x List.mem_cons_self)
        (fun y hy => hlx y (List.mem_cons_of_mem _ hy))) he (fun o w' hr => ⟨rfl, fun F Fs hFs => hr.mono ?_⟩)
      intro a ha z hz
      have := hasL_eval hxs hFs (hv ha)
      exact hz _ _ this.1 this.2
  | maxL fs =>
    obtain ⟨xs, hxs, he⟩ := getL (w := w) (fs := fs) hl (k := fun xs => w.give (w.mgr.maxL xs))
    have hlen : xs.length = fs.length := Hs.nodes_length hxs
    cases xs with
    | nil => exact absurd (List.length_eq_zero_iff.1 hlen.symm) hleg
    | cons x xs =>
      have hlx := R.nodes_live hxs
      refine R.doneOp (foldOp_ok .max xs hi (hlx x List.mem_cons_self)
        (fun y hy => hlx y (List.mem_cons_of_mem _ hy))) he (fun o w' hr => ⟨rfl, fun F Fs hFs => hr.mono ?_⟩)
      intro a ha z hz
      have := hasL_eval hxs hFs (hv ha)
      exact hz _ _ this.1 this.2
  | clearCache =>
    have kp : ∀ x F, MDen w.mgr.w.eng x F → MDen w.mgr.w.eng.clearCache x F := fun x F hF =>
      hF.ext hi (Ext2.refl _)
    refine ⟨.unit, _, vs, rfl, ⟨rfl, rfl, rfl⟩, ⟨?_, R.hs⟩, List.prefix_rfl, ?_⟩
    · exact R.mok.setW (w := { w.mgr.w with eng := w.mgr.w.eng.clearCache })
        (R.mok.ok.eng (clearCache_inv hi) kp) rfl (fun x _ F hF => kp x F hF)
    · rintro h F ⟨x, x1, x2⟩ _
      exact ⟨x, x1, kp x F x2⟩
  | setThreshold n =>
    refine ⟨.unit, _, vs, rfl, ⟨rfl, rfl, rfl⟩, ⟨?_, R.hs⟩, List.prefix_rfl, fun h F hF _ => hF⟩
    exact R.mok.setW (R.mok.ok.threshold n) rfl (fun _ _ _ h => h)
  | gc keep =>
    obtain ⟨xs, hxs, he⟩ := getL (w := w) (fs := keep) hl (k := fun xs =>
      match w.mgr.collect xs with
      | none => none
      | some (n, m) => some (MOut.pair n, { w with mgr := m }))
    obtain ⟨n, e, h1, h2, h3, h4⟩ := R.mok.ok.collect (roots := w.mgr.w.gc.roots.keys ++ xs)
      (fun k hk => by
        rcases List.mem_append.1 hk with hk | hk
        · exact R.mok.ok.live k (R.mok.ok.roots.mem_keys.1 hk)
        · exact R.mok.live (Hs.nodes_mem hxs k hk))
      (fun k hk => List.mem_append_left _ (R.mok.ok.roots.mem_keys.2 hk))
    have hg : ∃ p, w.mgr.w.eng.gc (w.mgr.w.gc.roots.keys ++ xs) = some (p, e) := by
      simp only [mops] at h1
      split at h1
      · cases h1
      · rename_i p e' hp
        simp only [Option.some.injEq, Prod.mk.injEq] at h1
        obtain ⟨_, rfl⟩ := h1
        exact ⟨p, hp⟩
    obtain ⟨p, hp⟩ := hg
    have kl : mI.KeepL (w.hs.held.vals ++ w.mgr.vars.vals) w.mgr.w.eng e := fun k hk =>
      h4 k (List.mem_append_left _ (R.mok.ok.roots.mem_keys.2 hk))
    refine ⟨.pair p, { w with mgr := { w.mgr with w := { w.mgr.w with eng := e } } }, vs, ?_, ⟨rfl, rfl, p, rfl⟩,
      ⟨R.mok.setW h2 h3 (fun k hk => kl k (List.mem_append_right _ hk)), R.hs⟩, List.prefix_rfl, ?_⟩
    · refine Eq.trans he ?_
      simp only [MddMgr.collect, hp]
    · rintro h F ⟨x, x1, x2⟩ _
      exact ⟨x, x1, kl x (List.mem_append_left _ (AMap.mem_vals_of_get x1)) F x2⟩
  | not f =>
    obtain ⟨x, hx, he⟩ := get1 (hl f (by simp [MWorld.operands]))
      (k := fun x => w.give (w.mgr.wrap (w.mgr.w.eng.not x)))
    obtain ⟨F, hF, _⟩ := R.has hx
    refine R.doneOp (not_m hi hF.live) he (fun o w' hr => ⟨rfl, fun F hF => hr.mono ?_⟩)
    intro a ha z hz
    exact hz _ ((has_node hx hF).val a (hv ha))
  | bin p f g =>
    obtain ⟨x, hx⟩ := hl f (by simp [MWorld.operands])
    obtain ⟨y, hy⟩ := hl g (by simp [MWorld.operands])
    obtain ⟨F, hF, _⟩ := R.has hx
    obtain ⟨G, hG, _⟩ := R.has hy
    refine R.doneOp (bin_ok hi p hF.live hG.live) (by simp only [MWorld.step, MWorld.on1, hx, hy])
      (fun o w' hr => ⟨rfl, fun F G hF hG => hr.mono ?_⟩)
    intro a ha z hz
    exact hz _ _ ((has_node hx hF).val a (hv ha)) ((has_node hy hG).val a (hv ha))
  | ite f g h =>
    obtain ⟨x, hx⟩ := hl f (by simp [MWorld.operands])
    obtain ⟨y, hy⟩ := hl g (by simp [MWorld.operands])
    obtain ⟨z, hz⟩ := hl h (by simp [MWorld.operands])
    obtain ⟨F, hF, _⟩ := R.has hx
    obtain ⟨G, hG, _⟩ := R.has hy
    obtain ⟨H, hH, _⟩ := R.has hz
    refine R.doneOp (ite_m hi hF.live hG.live hH.live (hleg y z hy hz))
      (by simp only [MWorld.step, MWorld.on1, hx, hy, hz])
      (fun o w' hr => ⟨rfl, fun F G H hF hG hH => hr.mono ?_⟩)
    intro a ha u hu
    exact hu _ _ _ ((has_node hx hF).val a (hv ha)) ((has_node hy hG).val a (hv ha))
      ((has_node hz hH).val a (hv ha))
  | clone f =>
    obtain ⟨x, hx⟩ := hl f (by simp [MWorld.operands])
    obtain ⟨F, F1, F2⟩ := R.has hx
    obtain ⟨w', k1, k2, k3, k4, _⟩ := R.give (R.mok.pin F1) F1 (fun _ _ _ h => h)
    exact ⟨_, w', vs, by simp only [MWorld.step, MWorld.on1, hx]; exact k1,
      ⟨rfl, fun G hG => ⟨rfl, F, k3, fun a ha => R.has_agree F2 hG a ha⟩⟩, k2, List.prefix_rfl,
      fun h F hF _ => k4 h F hF⟩
  | drop f =>
    obtain ⟨x, hx⟩ := hl f (by simp [MWorld.operands])
    refine ⟨.unit, _, vs, by simp only [MWorld.step, MWorld.on1, hx]; rfl, ⟨rfl, rfl, rfl⟩, ⟨?_, R.hs.drop f⟩,
      List.prefix_rfl, ?_⟩
    · exact R.mok.setW (Wr.OK.dropHandle (P := w.mgr.vars.vals) R.hs R.mok.ok hx) rfl (fun _ _ _ h => h)
    · rintro h F ⟨j, h1, h2⟩ hne
      refine ⟨j, ?_, h2⟩
      show (w.hs.drop f).held.get h = _
      rw [Hs.drop_get (fun e => hne (by rw [e]))]; exact h1
  | children f =>
    obtain ⟨x, hx⟩ := hl f (by simp [MWorld.operands])
    obtain ⟨F, F1, F2⟩ := R.has hx
    cases mden_cases hi R.mok.hdrs R.mok.inj F1 with
    | bterm t _ _ _ _ e5 _ _ e8 =>
      refine R.doneRead (o := .handles none) (by simp only [MWorld.step, MWorld.on1, hx, e5]) ⟨rfl, fun G hG => .inl ⟨?_, rfl, rfl⟩⟩
      intro a b ha hb
      rw [R.has_agree hG F2 a ha, R.has_agree hG F2 b hb, e8 a ha, e8 b hb]
    | vterm t _ _ _ _ e5 _ _ e8 =>
      refine R.doneRead (o := .handles none) (by simp only [MWorld.step, MWorld.on1, hx, e5]) ⟨rfl, fun G hG => .inl ⟨?_, rfl, rfl⟩⟩
      intro a b ha hb
      rw [R.has_agree hG F2 a ha, R.has_agree hG F2 b hb, e8 a ha, e8 b hb]
    | node l p ch e0 _ _ _ e5 _ _ e8 e9 e10 =>
      have lv : ∀ y ∈ ch, w.mgr.w.eng.MLive y := by
        intro y hy
        obtain ⟨j, hj⟩ := List.mem_iff_getElem?.1 hy
        exact (e10 j y hj).2.live
      obtain ⟨w', a1, a2, a3, a4, a5⟩ := R.giveAll ch lv
      refine ⟨.handles (some ((List.range p.2).map (w.hs.next + ·))), w', vs, ?_, ⟨rfl, fun G hG => ?_⟩, a2,
        List.prefix_rfl, fun h F hF _ => a4 h F hF⟩
      · simp only [MWorld.step, MWorld.on1, hx, e5, a1, e8]
      · have hGF := R.has_agree hG F2
        cases mden_cases hi R.mok.hdrs R.mok.inj (has_node hx hG) with
        | bterm t _ _ _ _ e5' => rw [e5] at e5'; cases e5'
        | vterm t _ _ _ _ e5' => rw [e5] at e5'; cases e5'
        | node l' p' ch' f0 _ _ _ f5 _ _ f8 f9 f10 =>
          rw [e5] at f5; cases f5
          have hp : p'.2 = p.2 := f8.symm.trans e8
          refine .inr ⟨l', p', f0, f9, by rw [hp], fun j hj => ?_⟩
          have hj' : ch[j]? = some ch[j] := List.getElem?_eq_getElem (by omega)
          exact a5 j _ _ hj' (f10 j _ hj').2
  | node f =>
    obtain ⟨x, hx⟩ := hl f (by simp [MWorld.operands])
    exact R.doneRead (o := .node x) (by simp only [MWorld.step, MWorld.on1, hx]) ⟨rfl, rfl, x, rfl, hx⟩
  | header f =>
    obtain ⟨x, hx⟩ := hl f (by simp [MWorld.operands])
    refine R.doneRead (o := .nat (w.mgr.w.eng.header? x)) (by simp only [MWorld.step, MWorld.on1, hx])
      ⟨rfl, rfl, fun F hF => ⟨_, rfl, ?_⟩⟩
    cases mden_cases hi R.mok.hdrs R.mok.inj (has_node hx hF) with
    | bterm t _ e2 _ _ _ _ _ e8 => rw [e2]; intro a b ha hb; rw [e8 a ha, e8 b hb]
    | vterm t _ e2 _ _ _ _ _ e8 => rw [e2]; intro a b ha hb; rw [e8 a ha, e8 b hb]
    | node l p ch e0 e2 _ _ _ _ _ _ e9 _ => rw [e2]; exact e9
  | level f =>
    obtain ⟨x, hx⟩ := hl f (by simp [MWorld.operands])
    refine R.doneRead (o := .nat (w.mgr.w.eng.mlevel x)) (by simp only [MWorld.step, MWorld.on1, hx])
      ⟨rfl, rfl, fun F hF => ⟨_, rfl, ?_⟩⟩
    cases mden_cases hi R.mok.hdrs R.mok.inj (has_node hx hF) with
    | bterm t _ _ e2 _ _ _ _ e8 => rw [e2]; intro a b ha hb; rw [e8 a ha, e8 b hb]
    | vterm t _ _ e2 _ _ _ _ e8 => rw [e2]; intro a b ha hb; rw [e8 a ha, e8 b hb]
    | node l p ch e0 _ e2 _ _ _ _ _ e9 _ => rw [e2]; exact e9
  | label f =>
    obtain ⟨x, hx⟩ := hl f (by simp [MWorld.operands])
    refine R.doneRead (o := .str (w.mgr.w.eng.mlabel x)) (by simp only [MWorld.step, MWorld.on1, hx])
      ⟨rfl, rfl, fun F hF => ?_⟩
    cases mden_cases hi R.mok.hdrs R.mok.inj (has_node hx hF) with
    | bterm t _ _ _ e2 _ _ _ e8 =>
      refine ⟨none, fun a b ha hb => by rw [e8 a ha, e8 b hb], by rw [e2]; rfl⟩
    | vterm t _ _ _ e2 _ _ _ e8 =>
      refine ⟨none, fun a b ha hb => by rw [e8 a ha, e8 b hb], by rw [e2]; rfl⟩
    | node l p ch e0 _ _ e2 _ _ _ _ e9 _ => exact ⟨some l, e9, by rw [e2]; simp [e0]⟩
  | isBoolean f =>
    obtain ⟨x, hx⟩ := hl f (by simp [MWorld.operands])
    refine R.doneRead (o := .bool x.isBool) (by simp only [MWorld.step, MWorld.on1, hx])
      ⟨rfl, rfl, fun F hF => ⟨_, rfl, fun a ha => ?_⟩⟩
    exact (isBool_of_meval ((has_node hx hF).val a (hv ha))).symm
  | isValue f =>
    obtain ⟨x, hx⟩ := hl f (by simp [MWorld.operands])
    refine R.doneRead (o := .bool (!x.isBool)) (by simp only [MWorld.step, MWorld.on1, hx])
      ⟨rfl, rfl, fun F hF => ⟨_, rfl, fun a ha => ?_⟩⟩
    rw [Bool.not_not]
    exact (isBool_of_meval ((has_node hx hF).val a (hv ha))).symm
  | isTerm t f =>
    obtain ⟨x, hx⟩ := hl f (by simp [MWorld.operands])
    obtain ⟨F0, hF0, _⟩ := R.has hx
    have hz : ValidV vs (fun _ => 0) := R.mok.valid.1 hi.zero
    have hb : ∃ b, w.mgr.w.eng.isTerm t x = some b := by
      cases mden_cases hi R.mok.hdrs R.mok.inj hF0 with
      | bterm _ _ _ _ _ _ e => exact ⟨_, e t⟩
      | vterm _ _ _ _ _ _ e => exact ⟨_, e t⟩
      | node _ _ _ _ _ _ _ _ e => exact ⟨_, e t⟩
    obtain ⟨b, hb⟩ := hb
    refine R.doneRead (o := .bool b) (by simp only [MWorld.step, MWorld.on1, hx, hb])
      ⟨rfl, rfl, fun F hF => ⟨_, rfl, ?_⟩⟩
    cases mden_cases hi R.mok.hdrs R.mok.inj (has_node hx hF) with
    | bterm t' _ _ _ _ _ e _ e8 =>
      rw [e t] at hb; cases hb
      rw [decide_eq_true_iff]
      constructor
      · rintro rfl; exact e8
      · intro h
        have := (e8 _ hz).symm.trans (h _ hz)
        cases this; rfl
    | vterm t' _ _ _ _ _ e _ e8 =>
      rw [e t] at hb; cases hb
      simp only [Bool.false_eq_true, false_iff]
      intro h
      have := (e8 _ hz).symm.trans (h _ hz)
      cases this
    | node l p ch _ _ _ _ _ e _ _ e9 _ =>
      rw [e t] at hb; cases hb
      simp only [Bool.false_eq_true, false_iff]
      intro h
      obtain ⟨a, b, ha, hb, _, hne⟩ := e9.2
      exact hne (by rw [h a ha, h b hb])
  | valueOf f =>
    obtain ⟨x, hx⟩ := hl f (by simp [MWorld.operands])
    obtain ⟨F0, hF0, _⟩ := R.has hx
    have hz : ValidV vs (fun _ => 0) := R.mok.valid.1 hi.zero
    have hb : ∃ b, w.mgr.w.eng.valueOf x = some b := by
      cases mden_cases hi R.mok.hdrs R.mok.inj hF0 with
      | bterm _ _ _ _ _ _ _ e => exact ⟨_, e⟩
      | vterm _ _ _ _ _ _ _ e => exact ⟨_, e⟩
      | node _ _ _ _ _ _ _ _ _ e => exact ⟨_, e⟩
    obtain ⟨b, hb⟩ := hb
    refine R.doneRead (o := .int b) (by simp only [MWorld.step, MWorld.on1, hx, hb])
      ⟨rfl, rfl, fun F hF => ⟨_, rfl, fun n => ?_⟩⟩
    cases mden_cases hi R.mok.hdrs R.mok.inj (has_node hx hF) with
    | bterm t' _ _ _ _ _ _ e e8 =>
      rw [e] at hb; cases hb
      simp only [reduceCtorEq, false_iff]
      intro h
      have := (e8 _ hz).symm.trans (h _ hz)
      cases this
    | vterm t' _ _ _ _ _ _ e e8 =>
      rw [e] at hb; cases hb
      constructor
      · rintro rfl; exact e8
      · intro h
        have := (e8 _ hz).symm.trans (h _ hz)
        cases this; rfl
    | node l p ch _ _ _ _ _ _ e _ e9 _ =>
      rw [e] at hb; cases hb
      simp only [reduceCtorEq, false_iff]
      intro h
      obtain ⟨a, b, ha, hb, _, hne⟩ := e9.2
      exact hne (by rw [h a ha, h b hb])
  | size => exact R.doneRead (o := .quad _) rfl ⟨rfl, rfl, rfl⟩
  | liveNodeCount => exact R.doneRead (o := .nat (some _)) rfl ⟨rfl, rfl, rfl⟩

theorem on1_some {f : Nat} {k : MNode → Option (MOut × MWorld)} {q : MOut × MWorld} (h : w.on1 f k = some q) :
    ∃ x, w.hs.held.get f = some x ∧ k x = some q := by
  unfold MWorld.on1 at h
  split at h
  · cases h
  · rename_i x hx; exact ⟨x, hx, h⟩

theorem onL_some {fs : List Nat} {k : List MNode → Option (MOut × MWorld)} {q : MOut × MWorld}
    (h : w.onL fs k = some q) : ∃ xs, w.hs.nodes fs = some xs ∧ k xs = some q := by
  unfold MWorld.onL at h
  split at h
  · cases h
  · rename_i x hx; exact ⟨x, hx, h⟩

theorem wrap_some {m : MddMgr} {res : Option (MNode × Mtmdd2)} {p : MNode × MddMgr}
    (h : m.wrap res = some p) : ∃ q, res = some q := by
  cases res with
  | none => cases h
  | some q => exact ⟨q, rfl⟩

theorem give_some {res : Option (MNode × MddMgr)} {p : MOut × MWorld}
    (h : w.give res = some p) : ∃ q, res = some q := by
  cases res with
  | none => cases h
  | some q => exact ⟨q, rfl⟩

/-- A call that returns had all its operands. -/
theorem operands_of_step {c : MCmd} {q : MOut × MWorld} (h : w.step c = some q) :
    ∀ f ∈ MWorld.operands c, ∃ x, w.hs.held.get f = some x := by
  have many : ∀ {fs : List Nat} {xs : List MNode}, w.hs.nodes fs = some xs → ∀ f ∈ fs, ∃ x, w.hs.held.get f = some x := by
    intro fs xs hxs
    exact (Hs.nodes_isSome fs).1 (by rw [hxs]; rfl)
  cases c with
  | boolean | value | undetBoolean | undetValue | defvar | varorder | rpn | clearCache | setThreshold | size
  | liveNodeCount => intro f hf; simp [MWorld.operands] at hf
  | createNode _ fs | andL fs | orL fs | minL fs | maxL fs | gc fs =>
    obtain ⟨xs, hxs, _⟩ := onL_some h
    exact many hxs
  | not f | clone f | drop f | children f | node f | header f | level f | label f | isBoolean f | isValue f
  | isTerm _ f | valueOf f =>
    obtain ⟨x, hx, _⟩ := on1_some h
    intro f' hf'
    simp [MWorld.operands] at hf'; subst hf'
    exact ⟨x, hx⟩
  | bin _ f g =>
    obtain ⟨x, hx, h⟩ := on1_some h
    obtain ⟨y, hy, h⟩ := on1_some h
    intro f' hf'
    simp [MWorld.operands] at hf'
    rcases hf' with rfl | rfl
    · exact ⟨x, hx⟩
    · exact ⟨y, hy⟩
  | ite f g k =>
    obtain ⟨x, hx, h⟩ := on1_some h
    obtain ⟨y, hy, h⟩ := on1_some h
    obtain ⟨z, hz, h⟩ := on1_some h
    intro f' hf'
    simp [MWorld.operands] at hf'
    rcases hf' with rfl | rfl | rfl
    · exact ⟨x, hx⟩
    · exact ⟨y, hy⟩
    · exact ⟨z, hz⟩

/-- A call that returns is legal (`create_node`: if used as intended). -/
theorem legal_of_step (R : MRel w vs) {c : MCmd} {q : MOut × MWorld} (hc : w.Checked c)
    (h : w.step c = some q) : w.Legal c := by
  cases c with
  | createNode _ fs => exact hc
  | defvar x r =>
    obtain ⟨p, hp⟩ := give_some h
    rcases defvar_legal R.mok hp with h | h
    · left
      cases hg : w.mgr.vars.get x with
      | some n => rfl
      | none => exact absurd h (R.mok.get_none.1 hg)
    · exact .inr h
  | varorder =>
    intro hd hm
    rw [R.mok.hdrs] at hm
    obtain ⟨i, hi⟩ := List.mem_iff_getElem?.1 hm
    obtain ⟨p, hp, e⟩ := mkH_get.1 hi
    have hpos := R.mok.inv.b.wf.pos hd (by rw [R.mok.hdrs]; exact hm)
    have he : hd.edgeNum = p.2 := by rw [e]
    refine Decidable.byContradiction fun hlt => ?_
    have h1 : p.2 = 1 := by omega
    have := getVarorder_panics R.mok (x := p.1) (by rw [← h1]; exact List.mem_of_getElem? hp)
    simp only [MWorld.step, this] at h
    cases h
  | rpn ts vars =>
    show (w.mgr.rpn vars ts).isSome
    cases hr : w.mgr.rpn vars ts with
    | none => simp only [MWorld.step, hr] at h; cases h
    | some _ => rfl
  | minL fs =>
    obtain ⟨xs, hxs, h⟩ := onL_some h
    rintro rfl
    cases hxs; cases h
  | maxL fs =>
    obtain ⟨xs, hxs, h⟩ := onL_some h
    rintro rfl
    cases hxs; cases h
  | ite f g k =>
    obtain ⟨x, hx, h⟩ := on1_some h
    obtain ⟨y, hy, h⟩ := on1_some h
    obtain ⟨z, hz, h⟩ := on1_some h
    obtain ⟨p, hp⟩ := give_some h
    obtain ⟨p', hp'⟩ := wrap_some hp
    intro y' z' hy' hz'
    rw [hy] at hy'; rw [hz] at hz'
    cases hy'; cases hz'
    exact ite_kinds hp'
  | _ => exact trivial

theorem of_step (R : MRel w vs) {c : MCmd} {o : MOut} {w' : MWorld} (hc : w.Checked c)
    (h : w.step c = some (o, w')) :
    ∃ vs', MPost w vs c o w' vs' ∧ MRel w' vs' ∧ vs <+: vs' ∧ ∀ h F, w.Has h F → c ≠ .drop h → w'.Has h F := by
  obtain ⟨o', w'', vs', h1, h2⟩ := R.step (R.legal_of_step hc h) (operands_of_step h)
  rw [h] at h1; cases h1
  exact ⟨vs', h2⟩

theorem new : MRel MWorld.new [] where
  mok :=
    { ok := ⟨inv_new, rootsOK_empty, by intro k h; cases h⟩
      hdrs := rfl
      nodup := List.nodup_nil
      varsNodup := AMap.nodup_empty
      varsLen := rfl
      vars := by intro i x r h; cases h
      varsOnly := by intro x n h; cases h }
  hs := Hs.ok_empty

end MRel

/-- `minsol`/`maxsol` keep the invariant and the meaning of every handle. -/
theorem MRel.sol {w : MWorld} {vs : List (String × Nat)} (R : MRel w vs) {f : Nat} {x : MNode} {F : MFun} (top : Bool)
    (hg : w.hs.held.get f = some x) (hx : MDen w.mgr.w.eng x F) :
    ∃ o w', w.sol top f = some (o, w') ∧ MRel w' vs ∧ (∀ h F, w.Has h F → w'.Has h F) ∧ w'.hs = w.hs ∧
      (∀ r, o = some r → w'.mgr.w.eng.MLive r) ∧
      ∀ φ : (Nat → Nat) → Int, (∀ a, ValidV vs a → (F a).num = some (φ a)) →
        (o = none ↔ ¬ MonoV vs φ) ∧ ∀ r, o = some r → ∀ d v, MLab top w'.mgr.w.eng r d v ↔
          (x.isBool = true → v = if top then 0 else 1) ∧ Extreme top vs φ v d := by
  obtain ⟨o, e, h1, h2, h3, h4, h5⟩ := solT_ok R.mok.inv R.mok.hdrs hx top
  refine ⟨o, { w with mgr := { w.mgr with w := { w.mgr.w with eng := e } } }, by simp only [MWorld.sol, hg, h1],
    ⟨R.mok.setEng h2 h3, R.hs⟩, ?_, rfl, h4, h5⟩
  rintro h G ⟨y, hy, hd⟩
  exact ⟨y, hy, hd.ext R.mok.inv h3.ext2⟩

theorem MWorld.Reachable.rel {w : MWorld} (h : w.Reachable) : ∃ vs, MRel w vs := by
  induction h with
  | new => exact ⟨_, MRel.new⟩
  | step c _ hc hst ih =>
    obtain ⟨n, R⟩ := ih
    obtain ⟨n', _, R', _⟩ := R.of_step hc hst
    exact ⟨n', R'⟩
  | sol top f _ hst ih =>
    obtain ⟨n, R⟩ := ih
    have hst' := hst
    unfold MWorld.sol at hst'
    split at hst'
    · cases hst'
    · rename_i x hx
      obtain ⟨F, hF⟩ := R.mok.live (AMap.mem_vals_of_get hx)
      obtain ⟨o', w', h1, R', _⟩ := R.sol top hx hF
      rw [hst] at h1; cases h1
      exact ⟨n, R'⟩

end DD
