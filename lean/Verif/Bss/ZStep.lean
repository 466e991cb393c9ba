import Verif.Bss.ZSession

/-!
# ZDD sessions: one step
-/

set_option autoImplicit false
set_option linter.unusedSectionVars false
set_option linter.unusedVariables false

namespace DD
open Arena Zdd

/-- World invariant. -/
structure ZRel (w : ZWorld) (names : List String) : Prop where
  mok : ZMOK w.mgr names w.hs.held.vals
  hs : w.hs.Ok

/-- Handle `h` is held and means `V`. -/
def ZWorld.Has (w : ZWorld) (h : Nat) (V : ZVal) : Prop :=
  ∃ i, w.hs.held.get h = some i ∧ ZDen w.mgr.w.eng.arena i V

/-- `o` is the highest level used by `F` (`none` if no level is used). -/
def ZTop (F : ZVal) : Option Nat → Prop
  | none => ∀ a z, F a z → a = fun _ => 0
  | some l => (∀ a z, F a z → ∀ x, l < x → a x = 0) ∧ ∃ a z, F a z ∧ a l = 1

/-- Parts of `F` without and with level `l`. -/
def ZVal.lo (F : ZVal) (l : Nat) : ZVal := fun a z => a l = 0 ∧ F a z
@[inherit_doc ZVal.lo] def ZVal.hi (F : ZVal) (l : Nat) : ZVal := fun a z => a l = 0 ∧ F (upd a l 1) z

/-- A binary operation with specification `P`. -/
def ZBin (P : ZVal → ZVal → ZVal → Prop) (w : ZWorld) (f g : Nat) (o : ZOut) (w' : ZWorld) : Prop :=
  ∃ F G V, w.Has f F ∧ w.Has g G ∧ o = .handle w.hs.next ∧ w'.Has w.hs.next V ∧ P F G V

/-- What a call returns and does. -/
def ZPost (w : ZWorld) (names : List String) : ZCmd → ZOut → ZWorld → List String → Prop
  | .empty, o, w', n => n = names ∧ o = .handle w.hs.next ∧ w'.Has w.hs.next zEmpty
  | .base, o, w', n => n = names ∧ o = .handle w.hs.next ∧ w'.Has w.hs.next zBase
  | .singleton x, o, w', n => n = addName names x ∧ o = .handle w.hs.next ∧
      ∃ k, (addName names x)[k]? = some x ∧ w'.Has w.hs.next (zSingle k)
  | .fromSets ss, o, w', n => n = addNames names ss.flatten ∧ o = .handle w.hs.next ∧
      w'.Has w.hs.next (zFam (ZMOK.Listed n ss))
  | .union f g, o, w', n => n = names ∧ ZBin ZSpecUnion w f g o w'
  | .intersect f g, o, w', n => n = names ∧ ZBin ZSpecInter w f g o w'
  | .setdiff f g, o, w', n => n = names ∧ ZBin ZSpecDiff w f g o w'
  | .product f g, o, w', n => n = names ∧ ZBin ZSpecProd w f g o w'
  | .divide f g, o, w', n => n = names ∧ ZBin ZSpecDiv w f g o w'
  | .clone f, o, w', n => n = names ∧ o = .handle w.hs.next ∧ ∀ F, w.Has f F → w'.Has w.hs.next F
  | .drop f, o, w', n => n = names ∧ o = .unit ∧ w'.hs = w.hs.drop f
  | .children f, o, w', n => n = names ∧ ∃ F, w.Has f F ∧
      ((ZTop F none ∧ o = .pair none ∧ w' = w) ∨
       ∃ l, ZTop F (some l) ∧ o = .pair (some (w.hs.next, w.hs.next + 1)) ∧
        w'.Has w.hs.next (F.lo l) ∧ w'.Has (w.hs.next + 1) (F.hi l))
  | .setThreshold _, o, w', n => n = names ∧ o = .unit ∧ w'.hs = w.hs
  | .clearCache, o, w', n => n = names ∧ o = .unit ∧ w'.hs = w.hs
  | .eq f g, o, w', n => n = names ∧ w' = w ∧ ∃ F G b, w.Has f F ∧ w.Has g G ∧ o = .bool b ∧
      (b = true ↔ F = G)
  | .isZero f, o, w', n => n = names ∧ w' = w ∧ ∃ F b, w.Has f F ∧ o = .bool b ∧
      (b = true ↔ F = zEmpty)
  | .isOne f, o, w', n => n = names ∧ w' = w ∧ ∃ F b, w.Has f F ∧ o = .bool b ∧
      (b = true ↔ F = zBase)
  | .header f, o, w', n => n = names ∧ w' = w ∧ ∃ F t, w.Has f F ∧ o = .nat t ∧ ZTop F t
  | .level f, o, w', n => n = names ∧ w' = w ∧ ∃ F t, w.Has f F ∧ o = .nat t ∧ ZTop F t
  | .label f, o, w', n => n = names ∧ w' = w ∧ ∃ F t, w.Has f F ∧ ZTop F t ∧
      o = .str (t.bind fun l => names[l]?)

/-- Effect of a node in terms of its meaning. -/
inductive ZCase (s : Zdd) (i : Nat) (F : ZVal) : Prop
  | term (t : T3) : s.arena.node? i = some (.term t) → i = t.slot → ZTop F none → ZCase s i F
  | node (h lo hi : Nat) (hd : Header) : s.arena.node? i = some (.nt h [lo, hi]) →
      s.arena.headers[h]? = some hd → s.arena.level? i = some hd.level →
      s.arena.label? i = some hd.label → ZTop F (some hd.level) →
      ZDen s.arena lo (F.lo hd.level) → ZDen s.arena hi (F.hi hd.level) → ZCase s i F

theorem zden_cases {s : Zdd} (hs : Inv s) {i : Nat} {F : ZVal} (h : ZDen s.arena i F) : ZCase s i F := by
  rcases node_cases hs h.live with ⟨t, ht, hi⟩ | ⟨hh, lo, hi, hd, hn, h1, l0, l1, r0, r1, hne, hlev, hrk, sp⟩
  · refine .term t ht hi (fun a z ha => ?_)
    exact ((lab_term_iff ht).1 ((h.val a z).1 ha).2).1
  · refine .node hh lo hi hd hn h1 hlev (by unfold label?; rw [hn]; simp only [h1, Option.map_some]) ?_ ?_ ?_
    · refine ⟨fun a z ha x hx => hs.wf.lab_supp ((h.val a z).1 ha).2 h.live x (by omega), ?_⟩
      obtain ⟨b, t, ht, hb⟩ := lab_nonempty hs _ hi (Nat.le_refl _) l1 hne
      have hb0 := hs.wf.lab_supp hb l1 hd.level r1
      exact ⟨upd b hd.level 1, t, (h.val _ _).2 ⟨ht, (sp _ _ ht).2 (.inr ⟨by simp [upd], by
        rw [upd_upd, upd_id hb0]; exact hb⟩)⟩, by simp [upd]⟩
    · refine ⟨l0, fun a z => ?_⟩
      unfold ZVal.lo
      rw [h.val]
      constructor
      · rintro ⟨ha, hz, hl⟩
        refine ⟨hz, ?_⟩
        rcases (sp _ _ hz).1 hl with ⟨_, h⟩ | ⟨h, _⟩
        · exact h
        · omega
      · rintro ⟨hz, hl⟩
        have h0 := hs.wf.lab_supp hl l0 hd.level r0
        exact ⟨h0, hz, (sp _ _ hz).2 (.inl ⟨h0, hl⟩)⟩
    · refine ⟨l1, fun a z => ?_⟩
      unfold ZVal.hi
      rw [h.val]
      constructor
      · rintro ⟨ha, hz, hl⟩
        refine ⟨hz, ?_⟩
        rcases (sp _ _ hz).1 hl with ⟨h, _⟩ | ⟨_, h⟩
        · simp [upd] at h
        · rw [upd_upd, upd_id ha] at h; exact h
      · rintro ⟨hz, hl⟩
        have h0 := hs.wf.lab_supp hl l1 hd.level r1
        exact ⟨h0, hz, (sp _ _ hz).2 (.inr ⟨by simp [upd], by rw [upd_upd, upd_id h0]; exact hl⟩)⟩

theorem ZTop.unique {F : ZVal} {t t' : Option Nat} (h : ZTop F t) (h' : ZTop F t') : t = t' := by
  cases t with
  | none =>
    cases t' with
    | none => rfl
    | some l =>
      obtain ⟨a, z, h1, h2⟩ := h'.2
      rw [h a z h1] at h2; cases h2
  | some l =>
    cases t' with
    | none =>
      obtain ⟨a, z, h1, h2⟩ := h.2
      rw [h' a z h1] at h2; cases h2
    | some l' =>
      obtain ⟨a, z, h1, h2⟩ := h.2
      obtain ⟨b, z', k1, k2⟩ := h'.2
      have e1 : ¬ l' < l := fun hl => by have := h'.1 a z h1 l hl; omega
      have e2 : ¬ l < l' := fun hl => by have := h.1 b z' k1 l' hl; omega
      have : l = l' := by omega
      rw [this]

namespace ZRel
variable {w : ZWorld} {names : List String}

theorem has (R : ZRel w names) {h i : Nat} (hi : w.hs.held.get h = some i) :
    ∃ F, ZDen w.mgr.w.eng.arena i F ∧ w.Has h F := by
  obtain ⟨F, hF⟩ := R.mok.ok.live i (AMap.mem_vals_of_get hi)
  exact ⟨F, hF, i, hi, hF⟩

theorem has_unique {h : Nat} {F G : ZVal} (h1 : w.Has h F) (h2 : w.Has h G) : F = G := by
  obtain ⟨i, a1, a2⟩ := h1
  obtain ⟨j, b1, b2⟩ := h2
  rw [a1] at b1; cases b1
  exact a2.unique b2

/-- A call that creates a handle. -/
theorem give (R : ZRel w names) {m : ZddMgr} {r : Nat} {V : ZVal} {names' : List String}
    (h : ZMOK m names' (r :: w.hs.held.vals)) (hd : ZDen m.w.eng.arena r V)
    (keep : zI.KeepL w.hs.held.vals w.mgr.w.eng m.w.eng) :
    ∃ w', w.give (some (r, m)) = some (.handle w.hs.next, w') ∧ ZRel w' names' ∧
      w'.Has w.hs.next V ∧ (∀ h F, w.Has h F → w'.Has h F) ∧ w'.mgr = m ∧ w'.hs = w.hs.give r := by
  refine ⟨{ mgr := m, hs := w.hs.give r }, rfl, ⟨?_, R.hs.give r⟩, ⟨r, Hs.give_next r, hd⟩, ?_, rfl, rfl⟩
  · show ZMOK m names' (w.hs.give r).held.vals
    rw [R.hs.vals_give]; exact h
  · rintro n F ⟨i, h1, h2⟩
    exact ⟨i, R.hs.give_old r h1, keep i (AMap.mem_vals_of_get h1) F h2⟩

theorem bin (R : ZRel w names) {op : Zdd → Nat → Nat → Option (Nat × Zdd)}
    {P : ZVal → ZVal → ZVal → Prop} {f g : Nat}
    (hop : ∀ i j F G, ZDen w.mgr.w.eng.arena i F → ZDen w.mgr.w.eng.arena j G →
      ZOk w.mgr.w.eng (P F G) (op w.mgr.w.eng i j))
    (hf : ∃ i, w.hs.held.get f = some i) (hg : ∃ i, w.hs.held.get g = some i) :
    ∃ o w', w.op2 op f g = some (o, w') ∧ ZBin P w f g o w' ∧ ZRel w' names ∧
      (∀ h F, w.Has h F → w'.Has h F) := by
  obtain ⟨i, hi⟩ := hf
  obtain ⟨j, hj⟩ := hg
  obtain ⟨F, F1, F2⟩ := R.has hi
  obtain ⟨G, G1, G2⟩ := R.has hj
  obtain ⟨r, m', V, h1, h2, h3, h4, h5, _⟩ := R.mok.wrap (hop i j F G F1 G1)
  obtain ⟨w', k1, k2, k3, k4, _⟩ := R.give h2 h3 h5
  refine ⟨_, w', ?_, ⟨F, G, V, F2, G2, rfl, k3, h4⟩, k2, k4⟩
  simp only [ZWorld.op2, hi, hj, h1]; exact k1

/-- The main step. -/
theorem step (R : ZRel w names) {c : ZCmd}
    (hl : ∀ f ∈ ZWorld.operands c, ∃ i, w.hs.held.get f = some i) :
    ∃ o w' names', w.step c = some (o, w') ∧ ZPost w names c o w' names' ∧ ZRel w' names' ∧
      names <+: names' ∧ ∀ h F, w.Has h F → c ≠ .drop h → w'.Has h F := by
  cases c with
  | empty =>
    obtain ⟨r, m', h1, h2, h3, h4⟩ := R.mok.empty
    obtain ⟨w', k1, k2, k3, k4, _⟩ := R.give h2 h3 h4
    exact ⟨_, w', names, by simp only [ZWorld.step, h1]; exact k1, ⟨rfl, rfl, k3⟩, k2,
      List.prefix_rfl, fun h F hF _ => k4 h F hF⟩
  | base =>
    obtain ⟨r, m', h1, h2, h3, h4⟩ := R.mok.base
    obtain ⟨w', k1, k2, k3, k4, _⟩ := R.give h2 h3 h4
    exact ⟨_, w', names, by simp only [ZWorld.step, h1]; exact k1, ⟨rfl, rfl, k3⟩, k2,
      List.prefix_rfl, fun h F hF _ => k4 h F hF⟩
  | singleton x =>
    obtain ⟨r, m', k, h1, h2, h3, h4, h5⟩ := R.mok.singleton x
    obtain ⟨w', k1, k2, k3, k4, _⟩ := R.give h2 h4 h5
    exact ⟨_, w', _, by simp only [ZWorld.step, h1]; exact k1, ⟨rfl, rfl, k, h3, k3⟩, k2,
      addName_prefix _ _, fun h F hF _ => k4 h F hF⟩
  | fromSets ss =>
    obtain ⟨r, m', h1, h2, h3, h4⟩ := R.mok.fromSets ss
    obtain ⟨w', k1, k2, k3, k4, _⟩ := R.give h2 h3 h4
    exact ⟨_, w', _, by simp only [ZWorld.step, h1]; exact k1, ⟨rfl, rfl, k3⟩, k2,
      addNames_prefix _ _, fun h F hF _ => k4 h F hF⟩
  | union f g =>
    obtain ⟨o, w', h1, h2, h3, h4⟩ := R.bin (fun i j F G => union_z R.mok.ok.inv)
      (hl f (by simp [ZWorld.operands])) (hl g (by simp [ZWorld.operands]))
    exact ⟨o, w', names, h1, ⟨rfl, h2⟩, h3, List.prefix_rfl, fun h F hF _ => h4 h F hF⟩
  | intersect f g =>
    obtain ⟨o, w', h1, h2, h3, h4⟩ := R.bin (fun i j F G => intersect_z R.mok.ok.inv)
      (hl f (by simp [ZWorld.operands])) (hl g (by simp [ZWorld.operands]))
    exact ⟨o, w', names, h1, ⟨rfl, h2⟩, h3, List.prefix_rfl, fun h F hF _ => h4 h F hF⟩
  | setdiff f g =>
    obtain ⟨o, w', h1, h2, h3, h4⟩ := R.bin (fun i j F G => setdiff_z R.mok.ok.inv)
      (hl f (by simp [ZWorld.operands])) (hl g (by simp [ZWorld.operands]))
    exact ⟨o, w', names, h1, ⟨rfl, h2⟩, h3, List.prefix_rfl, fun h F hF _ => h4 h F hF⟩
  | product f g =>
    obtain ⟨o, w', h1, h2, h3, h4⟩ := R.bin (fun i j F G => product_z R.mok.ok.inv)
      (hl f (by simp [ZWorld.operands])) (hl g (by simp [ZWorld.operands]))
    exact ⟨o, w', names, h1, ⟨rfl, h2⟩, h3, List.prefix_rfl, fun h F hF _ => h4 h F hF⟩
  | divide f g =>
    obtain ⟨o, w', h1, h2, h3, h4⟩ := R.bin (fun i j F G => divide_z R.mok.ok.inv R.mok.inj)
      (hl f (by simp [ZWorld.operands])) (hl g (by simp [ZWorld.operands]))
    exact ⟨o, w', names, h1, ⟨rfl, h2⟩, h3, List.prefix_rfl, fun h F hF _ => h4 h F hF⟩
  | clone f =>
    obtain ⟨i, hi⟩ := hl f (by simp [ZWorld.operands])
    obtain ⟨F, F1, F2⟩ := R.has hi
    have h2 : ZMOK { w.mgr with w := w.mgr.w.pin i } names (i :: w.hs.held.vals) :=
      { ok := R.mok.ok.pin (k := i) F1, hdrs := R.mok.hdrs, nodup := R.mok.nodup,
        varsLen := R.mok.varsLen, vars := R.mok.vars }
    obtain ⟨w', k1, k2, k3, k4, _⟩ := R.give h2 F1 (fun _ _ _ h => h)
    exact ⟨_, w', names, by simp only [ZWorld.step, hi]; exact k1,
      ⟨rfl, rfl, fun G hG => by rw [has_unique hG F2]; exact k3⟩, k2, List.prefix_rfl,
      fun h F hF _ => k4 h F hF⟩
  | drop f =>
    obtain ⟨i, hi⟩ := hl f (by simp [ZWorld.operands])
    refine ⟨.unit, _, names, by simp only [ZWorld.step, hi]; rfl, ⟨rfl, rfl, rfl⟩, ?_,
      List.prefix_rfl, ?_⟩
    · refine ⟨?_, R.hs.drop f⟩
      have := Wr.OK.dropHandle (P := []) R.hs (by simpa using R.mok.ok) hi
      rw [List.append_nil] at this
      exact { ok := this, hdrs := R.mok.hdrs, nodup := R.mok.nodup,
              varsLen := R.mok.varsLen, vars := R.mok.vars }
    · rintro h F ⟨j, h1, h2⟩ hne
      refine ⟨j, ?_, h2⟩
      show (w.hs.drop f).held.get h = _
      rw [Hs.drop_get (fun e => hne (by rw [e]))]; exact h1
  | children f =>
    obtain ⟨i, hi⟩ := hl f (by simp [ZWorld.operands])
    obtain ⟨F, F1, F2⟩ := R.has hi
    cases zden_cases R.mok.ok.inv F1 with
    | term t e1 _ e3 =>
      exact ⟨.pair none, w, names, by simp only [ZWorld.step, hi, e1], ⟨rfl, F, F2, .inl ⟨e3, rfl, rfl⟩⟩,
        R, List.prefix_rfl, fun h F hF _ => hF⟩
    | node hh lo hi' hd e1 e2 e3 e4 e5 e6 e7 =>
      have h2 : ZMOK { w.mgr with w := w.mgr.w.pin lo } names (lo :: w.hs.held.vals) :=
        { ok := R.mok.ok.pin (k := lo) e6, hdrs := R.mok.hdrs, nodup := R.mok.nodup,
          varsLen := R.mok.varsLen, vars := R.mok.vars }
      obtain ⟨w1, k1, k2, k3, k4, k5, k6⟩ := R.give h2 e6 (fun _ _ _ h => h)
      have e7' : ZDen w1.mgr.w.eng.arena hi' (F.hi hd.level) := by rw [k5]; exact e7
      have h3 : ZMOK { w1.mgr with w := w1.mgr.w.pin hi' } names (hi' :: w1.hs.held.vals) :=
        { ok := k2.mok.ok.pin (k := hi') e7', hdrs := k2.mok.hdrs, nodup := k2.mok.nodup,
          varsLen := k2.mok.varsLen, vars := k2.mok.vars }
      obtain ⟨w2, l1, l2, l3, l4, l5, l6⟩ := k2.give h3 e7' (fun _ _ _ h => h)
      have hnx : w1.hs.next = w.hs.next + 1 := by rw [k6]; rfl
      refine ⟨.pair (some (w.hs.next, w.hs.next + 1)), w2, names, ?_,
        ⟨rfl, F, F2, .inr ⟨hd.level, e5, rfl, l4 _ _ k3, by rw [hnx] at l3; exact l3⟩⟩,
        l2, List.prefix_rfl, fun h F hF _ => l4 h F (k4 h F hF)⟩
      simp only [ZWorld.step, hi, e1]
      obtain ⟨m2, s2⟩ := w2
      simp only at l5 l6
      rw [l5, l6, k5, k6]
  | setThreshold n =>
    refine ⟨.unit, _, names, rfl, ⟨rfl, rfl, rfl⟩, ⟨?_, R.hs⟩, List.prefix_rfl, fun h F hF _ => hF⟩
    exact { ok := R.mok.ok.threshold n, hdrs := R.mok.hdrs, nodup := R.mok.nodup,
            varsLen := R.mok.varsLen, vars := R.mok.vars }
  | clearCache =>
    refine ⟨.unit, _, names, rfl, ⟨rfl, rfl, rfl⟩, ⟨?_, R.hs⟩, List.prefix_rfl, fun h F hF _ => hF⟩
    exact { ok := R.mok.ok.eng (clearCache_inv R.mok.ok.inv) (fun _ _ h => h), hdrs := R.mok.hdrs,
            nodup := R.mok.nodup, varsLen := R.mok.varsLen, vars := R.mok.vars }
  | eq f g =>
    obtain ⟨i, hi⟩ := hl f (by simp [ZWorld.operands])
    obtain ⟨j, hj⟩ := hl g (by simp [ZWorld.operands])
    obtain ⟨F, F1, F2⟩ := R.has hi
    obtain ⟨G, G1, G2⟩ := R.has hj
    refine ⟨_, w, names, by simp only [ZWorld.step, hi, hj]; rfl, ⟨rfl, rfl, F, G, _, F2, G2, rfl, ?_⟩,
      R, List.prefix_rfl, fun h F hF _ => hF⟩
    rw [decide_eq_true_iff]
    constructor
    · rintro rfl; exact F1.unique G1
    · rintro rfl; exact F1.canon R.mok.ok.inv.wf R.mok.inj G1
  | isZero f =>
    obtain ⟨i, hi⟩ := hl f (by simp [ZWorld.operands])
    obtain ⟨F, F1, F2⟩ := R.has hi
    obtain ⟨x, hx⟩ := F1.live.node
    refine ⟨_, w, names, by simp only [ZWorld.step, hi, node?, hx, Option.map_some]; rfl,
      ⟨rfl, rfl, F, _, F2, rfl, ?_⟩, R, List.prefix_rfl, fun h F hF _ => hF⟩
    rw [decide_eq_true_iff]
    constructor
    · rintro rfl
      have := eq_slot R.mok.ok.inv F1.live hx
      subst this
      exact F1.unique (zden_zero R.mok.ok.inv)
    · rintro rfl
      have := F1.canon R.mok.ok.inv.wf R.mok.inj (zden_zero R.mok.ok.inv)
      subst this
      rw [show zero = T3.zero.slot from rfl, (Zdd.fixed R.mok.ok.inv .zero).2] at hx
      cases hx; rfl
  | isOne f =>
    obtain ⟨i, hi⟩ := hl f (by simp [ZWorld.operands])
    obtain ⟨F, F1, F2⟩ := R.has hi
    obtain ⟨x, hx⟩ := F1.live.node
    refine ⟨_, w, names, by simp only [ZWorld.step, hi, node?, hx, Option.map_some]; rfl,
      ⟨rfl, rfl, F, _, F2, rfl, ?_⟩, R, List.prefix_rfl, fun h F hF _ => hF⟩
    rw [decide_eq_true_iff]
    constructor
    · rintro rfl
      have := eq_slot R.mok.ok.inv F1.live hx
      subst this
      exact F1.unique (zden_one R.mok.ok.inv)
    · rintro rfl
      have := F1.canon R.mok.ok.inv.wf R.mok.inj (zden_one R.mok.ok.inv)
      subst this
      rw [show one = T3.one.slot from rfl, (Zdd.fixed R.mok.ok.inv .one).2] at hx
      cases hx; rfl
  | header f =>
    obtain ⟨i, hi⟩ := hl f (by simp [ZWorld.operands])
    obtain ⟨F, F1, F2⟩ := R.has hi
    cases zden_cases R.mok.ok.inv F1 with
    | term t e1 _ e3 =>
      exact ⟨.nat none, w, names, by simp only [ZWorld.step, hi, e1], ⟨rfl, rfl, F, none, F2, rfl, e3⟩,
        R, List.prefix_rfl, fun h F hF _ => hF⟩
    | node hh lo hi' hd e1 e2 e3 e4 e5 e6 e7 =>
      have e2' := e2
      rw [R.mok.hdrs, mkHeaders_get] at e2'
      obtain ⟨s, hs, rfl⟩ := e2'
      exact ⟨.nat (some hh), w, names, by simp only [ZWorld.step, hi, e1],
        ⟨rfl, rfl, F, _, F2, rfl, e5⟩, R, List.prefix_rfl, fun h F hF _ => hF⟩
  | level f =>
    obtain ⟨i, hi⟩ := hl f (by simp [ZWorld.operands])
    obtain ⟨F, F1, F2⟩ := R.has hi
    cases zden_cases R.mok.ok.inv F1 with
    | term t e1 _ e3 =>
      exact ⟨.nat none, w, names, by simp only [ZWorld.step, hi, level?_term e1],
        ⟨rfl, rfl, F, none, F2, rfl, e3⟩, R, List.prefix_rfl, fun h F hF _ => hF⟩
    | node hh lo hi' hd e1 e2 e3 e4 e5 e6 e7 =>
      exact ⟨.nat (some hd.level), w, names, by simp only [ZWorld.step, hi, e3],
        ⟨rfl, rfl, F, _, F2, rfl, e5⟩, R, List.prefix_rfl, fun h F hF _ => hF⟩
  | label f =>
    obtain ⟨i, hi⟩ := hl f (by simp [ZWorld.operands])
    obtain ⟨F, F1, F2⟩ := R.has hi
    cases zden_cases R.mok.ok.inv F1 with
    | term t e1 _ e3 =>
      have e1' : w.mgr.w.eng.arena.nodes[i]? = _ := e1
      exact ⟨.str none, w, names, by simp only [ZWorld.step, hi, label?, e1'],
        ⟨rfl, rfl, F, none, F2, e3, rfl⟩, R, List.prefix_rfl, fun h F hF _ => hF⟩
    | node hh lo hi' hd e1 e2 e3 e4 e5 e6 e7 =>
      have e2' := e2
      rw [R.mok.hdrs, mkHeaders_get] at e2'
      obtain ⟨s, hs, rfl⟩ := e2'
      exact ⟨.str (some s), w, names, by simp only [ZWorld.step, hi, e4],
        ⟨rfl, rfl, F, some hh, F2, e5, by simp [hs]⟩, R, List.prefix_rfl, fun h F hF _ => hF⟩

/-- A call that returns had all its operands. -/
theorem operands_of_step {c : ZCmd} {o : ZOut} {w' : ZWorld} (h : w.step c = some (o, w')) :
    ∀ f ∈ ZWorld.operands c, ∃ i, w.hs.held.get f = some i := by
  have single : ∀ {f : Nat} {x : Option (ZOut × ZWorld)}, x = some (o, w') →
      (w.hs.held.get f = none → x = none) → ∃ i, w.hs.held.get f = some i := by
    intro f x hx hn
    cases hg : w.hs.held.get f with
    | none => rw [hn hg] at hx; cases hx
    | some i => exact ⟨i, rfl⟩
  intro f' hf'
  cases c with
  | empty | base | singleton | fromSets | setThreshold | clearCache => simp [ZWorld.operands] at hf'
  | clone f | drop f | children f | isZero f | isOne f | header f | level f | label f =>
    simp [ZWorld.operands] at hf'; subst hf'
    exact single h (fun hn => by simp only [ZWorld.step, hn])
  | union f g | intersect f g | setdiff f g | product f g | divide f g | eq f g =>
    simp [ZWorld.operands] at hf'
    rcases hf' with rfl | rfl
    · exact single h (fun hn => by simp only [ZWorld.step, ZWorld.op2, hn])
    · exact single h (fun hn => by
        simp only [ZWorld.step, ZWorld.op2, hn]; cases w.hs.held.get f <;> rfl)

theorem of_step (R : ZRel w names) {c : ZCmd} {o : ZOut} {w' : ZWorld} (h : w.step c = some (o, w')) :
    ∃ names', ZPost w names c o w' names' ∧ ZRel w' names' ∧ names <+: names' ∧
      ∀ h F, w.Has h F → c ≠ .drop h → w'.Has h F := by
  obtain ⟨o', w'', n, h1, h2⟩ := R.step (operands_of_step h)
  rw [h] at h1; cases h1
  exact ⟨n, h2⟩

theorem new : ZRel ZWorld.new [] where
  mok :=
    { ok := ⟨inv_new, rootsOK_empty, by intro k h; cases h⟩
      hdrs := rfl
      nodup := List.nodup_nil
      varsLen := rfl
      vars := by intro s h; simp [ZWorld.new, ZddMgr.new, AMap.get_empty] }
  hs := Hs.ok_empty

end ZRel

theorem ZWorld.Reachable.rel {w : ZWorld} (h : w.Reachable) : ∃ names, ZRel w names := by
  induction h with
  | new => exact ⟨_, ZRel.new⟩
  | step c _ hst ih =>
    obtain ⟨n, R⟩ := ih
    obtain ⟨n', _, R', _⟩ := R.of_step hst
    exact ⟨n', R'⟩

end DD
