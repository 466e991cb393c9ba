import Verif.Mss.MddMgr
import Verif.Bss.Refine

/-!
# MDD sessions: meaning of nodes and the manager's invariant
-/

set_option autoImplicit false
set_option linter.unusedSectionVars false
set_option linter.unusedVariables false

namespace DD
open Arena Mtmdd2

/-- What a node means: a value for every assignment of states to levels. -/
abbrev MFun := (Nat → Nat) → MVal

/-- Node `x` is live and reads `F a` at every assignment `a` within the ranges. -/
structure MDen (e : Mtmdd2) (x : MNode) (F : MFun) : Prop where
  live : e.MLive x
  val : ∀ a, e.ValidA a → e.MEval a x (F a)

namespace MDen
variable {e e' : Mtmdd2} {x y : MNode} {F G : MFun}

theorem valid_ext (h : Ext2 e e') {a : Nat → Nat} (ha : e'.ValidA a) : e.ValidA a := ValidA.ext h.1 ha

theorem ext (h : MDen e x F) (hs : Inv e) (h2 : Ext2 e e') : MDen e' x F :=
  ⟨mlive_ext h2 h.live, fun a ha => (meval_ext hs h2 h.live).2 (h.val a (valid_ext h2 ha))⟩

theorem of_live (hs : Inv e) (hx : e.MLive x) : ∃ F, MDen e x F := by
  classical
  refine ⟨fun a => if h : e.ValidA a then Classical.choose (mtotal hs h hx) else .v none, hx, ?_⟩
  intro a ha
  simp only [ha, dif_pos]
  exact Classical.choose_spec (mtotal hs ha hx)

theorem read (h : MDen e x F) {a : Nat → Nat} (ha : e.ValidA a) {u : MVal} (hu : e.MEval a x u) : u = F a :=
  hu.det (h.val a ha)

theorem agree (h : MDen e x F) (h' : MDen e x G) {a : Nat → Nat} (ha : e.ValidA a) : F a = G a :=
  (h.val a ha).det (h'.val a ha)

theorem congr (h : MDen e x F) (hg : ∀ a, e.ValidA a → G a = F a) : MDen e x G :=
  ⟨h.live, fun a ha => by rw [hg a ha]; exact h.val a ha⟩

end MDen

theorem Mtmdd2.Inv.zero {e : Mtmdd2} (hs : Inv e) : e.ValidA (fun _ => 0) := hs.b.wf.valid_zero

/-- Kind of a value. -/
def MVal.isBool : MVal → Bool
  | .b _ => true
  | .v _ => false

theorem isBool_of_meval {e : Mtmdd2} {a : Nat → Nat} {x : MNode} {u : MVal} (h : e.MEval a x u) :
    x.isBool = u.isBool := by
  cases x <;> cases u <;> first | exact h.elim | rfl

/-- Canonicity of tagged nodes. -/
theorem MDen.canon {e : Mtmdd2} (hs : Inv e) (inj : e.mdd.arena.LevInj) {x y : MNode} {F G : MFun}
    (h : MDen e x F) (h' : MDen e y G) (hg : ∀ a, e.ValidA a → F a = G a) : x = y := by
  have k1 := isBool_of_meval (h.val _ hs.zero)
  have k2 := isBool_of_meval (h'.val _ hs.zero)
  rw [hg _ hs.zero, ← k2] at k1
  have inj' : e.mtmdd.arena.LevInj := by
    intro i j hd hd' h1 h2 hl
    rw [← hs.hdr] at h1 h2
    exact inj i j hd hd' h1 h2 hl
  cases x with
  | bool i =>
    cases y with
    | value j => cases k1
    | bool j =>
      congr 1
      refine hs.b.wf.canon inj h.live h'.live (fun a ha t => ?_)
      constructor
      · intro ht
        have := h.read (u := .b t) ha ht
        rw [hg a ha] at this
        have h2 := h'.val a ha
        rw [← this] at h2
        exact h2
      · intro ht
        have := h'.read (u := .b t) ha ht
        rw [← hg a ha] at this
        have h2 := h.val a ha
        rw [← this] at h2
        exact h2
  | value i =>
    cases y with
    | bool j => cases k1
    | value j =>
      congr 1
      refine hs.v.wf.canon inj' h.live h'.live (fun a ha t => ?_)
      have ha := hs.valid.1 ha
      constructor
      · intro ht
        have := h.read (u := .v t) ha ht
        rw [hg a ha] at this
        have h2 := h'.val a ha
        rw [← this] at h2
        exact h2
      · intro ht
        have := h'.read (u := .v t) ha ht
        rw [← hg a ha] at this
        have h2 := h.val a ha
        rw [← this] at h2
        exact h2

/-- The engine facts used by the wrapper. -/
def mI : EngI Mtmdd2 MNode MFun (List Header) mops where
  inv := Inv
  den := MDen
  hdr e := e.mdd.arena.headers
  gc_ok := by
    intro e roots he hr
    obtain ⟨n, s', h1, h2, h3, _, _, h6, h7, h8, _⟩ := gc_m he (roots := roots)
      (fun r hr' => by obtain ⟨V, hV⟩ := hr r hr'; exact hV.live)
    refine ⟨n.1 + n.2, s', by simp only [mops, h1], h2, h3, fun k hk V hV => ?_⟩
    have lk : s'.MLive k := by
      cases k with
      | bool i =>
        exact (h6 i).2 (Or.inr ⟨i, List.mem_filterMap.2 ⟨_, hk, rfl⟩, hV.live.1, .refl _⟩)
      | value i =>
        exact (h7 i).2 (Or.inr ⟨i, List.mem_filterMap.2 ⟨_, hk, rfl⟩, hV.live.1, .refl _⟩)
    exact ⟨lk, fun a ha => (meval_ext h2 h8.ext2 lk).1 (hV.val a (h8.valid.2 ha))⟩

/-- Headers made by `defvar` for the given variables (name, number of states). -/
def mkH (vs : List (String × Nat)) : List Header := vs.mapIdx (fun i p => ⟨i, p.1, p.2⟩)

theorem mkH_get {vs : List (String × Nat)} {h : Nat} {hd : Header} :
    (mkH vs)[h]? = some hd ↔ ∃ p, vs[h]? = some p ∧ hd = ⟨h, p.1, p.2⟩ := by
  unfold mkH
  rw [List.getElem?_mapIdx]
  cases vs[h]? with
  | none => simp
  | some s => simp [eq_comm]

theorem mkH_append (vs : List (String × Nat)) (p : String × Nat) :
    mkH (vs ++ [p]) = mkH vs ++ [⟨vs.length, p.1, p.2⟩] := by
  unfold mkH
  rw [List.mapIdx_append]
  simp

/-- Assignment within the ranges of `vs`. -/
def ValidV (vs : List (String × Nat)) (a : Nat → Nat) : Prop :=
  ∀ (i : Nat) (x : String) (r : Nat), vs[i]? = some (x, r) → a i < r

theorem validA_iff {e : Mtmdd2} {vs : List (String × Nat)} (h : e.mdd.arena.headers = mkH vs) {a : Nat → Nat} :
    e.ValidA a ↔ ValidV vs a := by
  unfold Mtmdd2.ValidA Arena.ValidA ValidV
  rw [h]
  constructor
  · intro hv i x r hi
    exact hv ⟨i, x, r⟩ (List.mem_of_getElem? (mkH_get.2 ⟨(x, r), hi, rfl⟩))
  · intro hv hd hm
    obtain ⟨i, hi⟩ := List.mem_iff_getElem?.1 hm
    obtain ⟨p, hp, rfl⟩ := mkH_get.1 hi
    exact hv i p.1 p.2 hp

/-- Manager invariant: `vs` are the variables with their ranges, in order; `L` the nodes of the
client's handles. -/
structure MMOK (m : MddMgr) (vs : List (String × Nat)) (L : List MNode) : Prop where
  ok : Wr.OK mI m.w (L ++ m.vars.vals)
  hdrs : m.w.eng.mdd.arena.headers = mkH vs
  nodup : (vs.map Prod.fst).Nodup
  varsNodup : m.vars.NodupKeys
  varsLen : m.vars.len = vs.length
  vars : ∀ (i : Nat) (x : String) (r : Nat), vs[i]? = some (x, r) →
    ∃ n, m.vars.get x = some n ∧ MDen m.w.eng n (fun a => .v (some (a i)))
  varsOnly : ∀ x n, m.vars.get x = some n → x ∈ vs.map Prod.fst

namespace MMOK
variable {m : MddMgr} {vs : List (String × Nat)} {L : List MNode}

theorem inv (h : MMOK m vs L) : Inv m.w.eng := h.ok.inv

theorem inj (h : MMOK m vs L) : m.w.eng.mdd.arena.LevInj := by
  intro i j hd hd' h1 h2 hl
  rw [h.hdrs, mkH_get] at h1 h2
  obtain ⟨s, _, rfl⟩ := h1
  obtain ⟨s', _, rfl⟩ := h2
  exact hl

theorem valid (h : MMOK m vs L) {a : Nat → Nat} : m.w.eng.ValidA a ↔ ValidV vs a := validA_iff h.hdrs

theorem live (h : MMOK m vs L) {x : MNode} (hx : x ∈ L) : ∃ F, MDen m.w.eng x F :=
  h.ok.live x (List.mem_append_left _ hx)

/-- Same variables, a new wrapper state. -/
theorem setW (h : MMOK m vs L) {w : Wr Mtmdd2 MNode} {L' : List MNode}
    (ok : Wr.OK mI w (L' ++ m.vars.vals)) (hdr : w.eng.mdd.arena.headers = m.w.eng.mdd.arena.headers)
    (keep : mI.KeepL m.vars.vals m.w.eng w.eng) : MMOK { m with w := w } vs L' where
  ok := ok
  hdrs := hdr.trans h.hdrs
  nodup := h.nodup
  varsNodup := h.varsNodup
  varsLen := h.varsLen
  vars i x r hi := by
    obtain ⟨n, h1, h2⟩ := h.vars i x r hi
    exact ⟨n, h1, keep n (AMap.mem_vals_of_get h1) _ h2⟩
  varsOnly := h.varsOnly

theorem pin (h : MMOK m vs L) {x : MNode} {F : MFun} (hd : MDen m.w.eng x F) :
    MMOK (m.pin x) vs (x :: L) :=
  h.setW (h.ok.pin (k := x) hd) rfl (fun _ _ _ h => h)

theorem unpin {x : MNode} (h : MMOK m vs (x :: L)) : MMOK (m.unpin x) vs L :=
  h.setW (Wr.OK.unpin h.ok) rfl (fun _ _ _ h => h)

/-- After an engine operation. -/
theorem setEng (h : MMOK m vs L) {e : Mtmdd2} (he : Inv e) (st : St m.w.eng e) :
    MMOK { m with w := { m.w with eng := e } } vs L :=
  h.setW (h.ok.eng he (fun k x hx => hx.ext h.inv st.ext2)) st.1.heq
    (fun k _ x hx => hx.ext h.inv st.ext2)

/-- `wrap` of an operation's outcome. -/
theorem wrap (h : MMOK m vs L) {res : Option (MNode × Mtmdd2)} {Φ : (Nat → Nat) → MVal → Prop}
    (hr : MOk m.w.eng Φ res) :
    ∃ r m' V, m.wrap res = some (r, m') ∧ MMOK m' vs (r :: L) ∧ MDen m'.w.eng r V ∧
      (∀ a, ValidV vs a → Φ a (V a)) ∧ mI.KeepL L m.w.eng m'.w.eng := by
  obtain ⟨r, e, h1, h2, h3, h4, h5⟩ := hr
  obtain ⟨V, hV⟩ := MDen.of_live h2 h4
  obtain ⟨w', k1, k2, k3, k4, k5⟩ := h.ok.wrap (r := r) (e := e) (x := V) h2
    (fun k x hx => hx.ext h.inv h3.ext2) hV
  refine ⟨r, { m with w := w' }, V, by rw [h1]; simp only [MddMgr.wrap, k1], ?_, k4, ?_,
    fun k hk => k5 k (List.mem_append_left _ hk)⟩
  · exact h.setW (L' := r :: L) k2 ((k3 : w'.eng.mdd.arena.headers = _).trans h3.1.heq)
      (fun k hk => k5 k (List.mem_append_right _ hk))
  · intro a ha
    have ha' : e.ValidA a := h3.valid.2 (h.valid.2 ha)
    exact h5 a ha' _ (hV.val a ha')

end MMOK

/-! ## Variables -/

/-- A value terminal, with its node. -/
theorem value_full {e : Mtmdd2} (hs : Inv e) (v : Int) :
    ∃ r e', e.value v = some (.value r, e') ∧ Inv e' ∧ St e e' ∧ e'.mtmdd.arena.Live r ∧
      e'.mtmdd.arena.nodes[r]? = some (.term (some v)) := by
  obtain ⟨r, s', h1, h2, h3, h4, h5, _⟩ := Mtmdd.value_raw hs.v v
  exact ⟨r, { e with mtmdd := s' }, by simp only [Mtmdd2.value, h1, liftV], hs.extV h2 h3,
    ⟨Step.refl _, h3⟩, h4, h5⟩

theorem valuesFrom_ok : ∀ (n lo : Nat) {e : Mtmdd2}, Inv e →
    ∃ xs e', MddMgr.valuesFrom e lo n = some (xs, e') ∧ Inv e' ∧ St e e' ∧ xs.length = n ∧
      ∀ (j : Nat) (x : MNode), xs[j]? = some x → ∃ r, x = .value r ∧ e'.mtmdd.arena.Live r ∧
        e'.mtmdd.arena.nodes[r]? = some (.term (some ((lo + j : Nat) : Int))) := by
  intro n
  induction n with
  | zero =>
    intro lo e he
    exact ⟨[], e, rfl, he, St.refl e, rfl, by intro j x h; simp at h⟩
  | succ n ih =>
    intro lo e he
    obtain ⟨r, e1, h1, h2, h3, h4, h5⟩ := value_full he (lo : Int)
    obtain ⟨xs, e2, k1, k2, k3, k4, k5⟩ := ih (lo + 1) h2
    refine ⟨.value r :: xs, e2, by simp only [MddMgr.valuesFrom, h1, k1], k2, h3.trans k3,
      by simp [k4], ?_⟩
    intro j x hx
    cases j with
    | zero =>
      simp at hx; subst hx
      have := k3.2.keep r h4
      exact ⟨r, rfl, this.1, by rw [this.2]; exact h5⟩
    | succ j =>
      simp at hx
      obtain ⟨r', a1, a2, a3⟩ := k5 j x hx
      exact ⟨r', a1, a2, by rw [a3]; congr 4; omega⟩

theorem varNode_ok {e : Mtmdd2} (hs : Inv e) {level : Nat} (label : String) {range : Nat} (hr : 0 < range)
    (hf : ∀ hd ∈ e.mdd.arena.headers, hd.level ≠ level) :
    ∃ x e', MddMgr.varNode e level label range = some (x, e') ∧ Inv e' ∧ Ext2 e e' ∧
      e'.mdd.arena.headers = e.mdd.arena.headers ++ [⟨level, label, range⟩] ∧
      MDen e' x (fun a => .v (some (a level))) := by
  obtain ⟨xs, e1, h1, h2, h3, h4, h5⟩ := valuesFrom_ok range 0 hs
  have hh1 : e1.mdd.arena.headers = e.mdd.arena.headers := h3.1.heq
  obtain ⟨e2, k1, k2, k3, k4, k5, k6, k7, k8, k9⟩ := createHeader_ok h2 level label range hr
    (fun hd hm hl => absurd hl (hf hd (by rw [← hh1]; exact hm)))
  have kid : ∀ (j : Nat) (x : MNode), xs[j]? = some x → ∃ r, x = .value r ∧ e2.mtmdd.arena.Live r ∧
      e2.mtmdd.arena.nodes[r]? = some (.term (some (j : Int))) := by
    intro j x hx
    obtain ⟨r, a1, a2, a3⟩ := h5 j x hx
    exact ⟨r, a1, (k9 r).2 a2, by rw [k7, a3]; simp⟩
  obtain ⟨⟨x, e3, m1, m2, m3, m4, m5⟩, _⟩ := createNode_m k2 (h := e1.mdd.arena.headers.length) (ch := xs)
    (hd := ⟨level, label, range⟩) (k := false) (by rw [k5]; simp) h4 (by
      intro c hc
      obtain ⟨j, hj⟩ := List.mem_iff_getElem?.1 hc
      obtain ⟨r, rfl, a2, a3⟩ := kid j c hj
      refine ⟨rfl, a2, fun l hl => ?_⟩
      have : e2.mtmdd.arena.level? r = some l := hl
      rw [level?_term a3] at this; cases this)
  refine ⟨x, e3, by simp only [MddMgr.varNode, h1, k1, m1], m2, ?_, ?_, m4, ?_⟩
  · exact ⟨(h3.1.toExt.trans k3).trans m3.1.toExt, (h3.2.toExt.trans k4).trans m3.2.toExt⟩
  · rw [m3.1.heq, k5, hh1]
  · intro a ha
    obtain ⟨u, hu⟩ := mtotal m2 ha m4
    obtain ⟨c, c1, c2⟩ := m5 a ha u hu
    obtain ⟨r, rfl, a2, a3⟩ := kid _ c c1
    cases u with
    | b t => exact c2.elim
    | v t =>
      have : t = _ := (eval_term_iff a3).1 c2
      subst this
      exact hu

/-- The variables after `defvar x r`. -/
def addVar (vs : List (String × Nat)) (x : String) (r : Nat) : List (String × Nat) :=
  if x ∈ vs.map Prod.fst then vs else vs ++ [(x, r)]

theorem addVar_prefix (vs : List (String × Nat)) (x : String) (r : Nat) : vs <+: addVar vs x r := by
  unfold addVar
  split
  · exact List.prefix_rfl
  · exact List.prefix_append _ _

theorem ValidV.mono {vs vs' : List (String × Nat)} (hp : vs <+: vs') {a : Nat → Nat} (h : ValidV vs' a) :
    ValidV vs a := by
  intro i x r hi
  obtain ⟨t, rfl⟩ := hp
  have hlt := (List.getElem?_eq_some_iff.1 hi).1
  exact h i x r (by rw [List.getElem?_append_left hlt]; exact hi)

namespace MMOK
variable {m : MddMgr} {vs : List (String × Nat)} {L : List MNode}

theorem get_none (h : MMOK m vs L) {x : String} : m.vars.get x = none ↔ x ∉ vs.map Prod.fst := by
  constructor
  · intro hg hx
    obtain ⟨p, hp, rfl⟩ := List.mem_map.1 hx
    obtain ⟨i, hi⟩ := List.mem_iff_getElem?.1 hp
    obtain ⟨n, hn, _⟩ := h.vars i p.1 p.2 hi
    rw [hg] at hn; cases hn
  · intro hx
    cases hg : m.vars.get x with
    | none => rfl
    | some n => exact absurd (h.varsOnly x n hg) hx

theorem defvar (h : MMOK m vs L) (x : String) {r : Nat} (hr : x ∈ vs.map Prod.fst ∨ 0 < r) :
    ∃ n m' i, m.defvar x r = some (n, m') ∧ MMOK m' (addVar vs x r) (n :: L) ∧
      (∃ r', (addVar vs x r)[i]? = some (x, r')) ∧ MDen m'.w.eng n (fun a => .v (some (a i))) ∧
      mI.Keep m.w.eng m'.w.eng ∧ m'.vars.get x = some n ∧ Ext2 m.w.eng m'.w.eng := by
  by_cases hx : x ∈ vs.map Prod.fst
  · obtain ⟨p, hp, rfl⟩ := List.mem_map.1 hx
    obtain ⟨i, hi⟩ := List.mem_iff_getElem?.1 hp
    obtain ⟨n, h1, h2⟩ := h.vars i p.1 p.2 hi
    have e : addVar vs p.1 r = vs := by unfold addVar; rw [if_pos hx]
    refine ⟨n, m.pin n, i, by simp only [MddMgr.defvar, h1], by rw [e]; exact h.pin h2,
      ⟨p.2, by rw [e]; exact hi⟩, h2, fun _ _ h => h, h1, ⟨Ext.refl _, Ext.refl _⟩⟩
  · have hr' : 0 < r := hr.resolve_left hx
    have hg := h.get_none.2 hx
    obtain ⟨n, e', h1, h2, h3, h4, h5⟩ := varNode_ok h.inv (level := m.vars.len) x hr' (by
      intro hd hm
      rw [h.hdrs] at hm
      obtain ⟨i, hi⟩ := List.mem_iff_getElem?.1 hm
      obtain ⟨p, hp, rfl⟩ := mkH_get.1 hi
      have := (List.getElem?_eq_some_iff.1 hp).1
      rw [h.varsLen]
      show i ≠ _
      omega)
    have keep : mI.Keep m.w.eng e' := fun k F hF => hF.ext h.inv h3
    have e : addVar vs x r = vs ++ [(x, r)] := by unfold addVar; rw [if_neg hx]
    have hv : (m.vars.insert x n).vals = n :: m.vars.vals := AMap.vals_insert_fresh _ hg
    refine ⟨n, { ((({ m with w := { m.w with eng := e' } } : MddMgr).pin n).pin n) with
        vars := m.vars.insert x n }, vs.length, by simp only [MddMgr.defvar, hg, h1], ?_,
      ⟨r, by rw [e]; simp⟩, by rw [← h.varsLen]; exact h5, keep, AMap.get_insert_self _ _ _, h3⟩
    have ok1 := ((h.ok.eng (e := e') h2 keep).pin (k := n) h5).pin (k := n) h5
    refine ⟨?_, ?_, ?_, AMap.nodup_insert h.varsNodup _ _, ?_, ?_, ?_⟩
    · refine ok1.congr (fun k => ?_)
      show _ = List.count k (n :: L ++ (m.vars.insert x n).vals)
      rw [hv]
      simp only [List.count_cons, List.count_append, List.cons_append]
      omega
    · show e'.mdd.arena.headers = _
      rw [h4, e, mkH_append, h.hdrs, h.varsLen]
    · rw [e, List.map_append, List.nodup_append]
      refine ⟨h.nodup, by simp, ?_⟩
      intro a ha b hb hab
      simp at hb
      subst hb; subst hab
      exact hx ha
    · show (m.vars.insert x n).len = _
      have h0 : (m.vars.insert x n).len = (m.vars.insert x n).vals.length := by simp [AMap.len, AMap.vals]
      have h1' : m.vars.len = m.vars.vals.length := by simp [AMap.len, AMap.vals]
      rw [h0, hv, e]
      simp [← h1', h.varsLen]
    · intro i y s hi
      rw [e] at hi
      by_cases hlt : i < vs.length
      · rw [List.getElem?_append_left hlt] at hi
        obtain ⟨k, k1, k2⟩ := h.vars i y s hi
        have hne : x ≠ y := by
          rintro rfl
          exact hx (List.mem_map.2 ⟨(x, s), List.mem_of_getElem? hi, rfl⟩)
        refine ⟨k, ?_, keep k _ k2⟩
        show (m.vars.insert x n).get y = _
        rw [AMap.get_insert_ne _ _ hne]; exact k1
      · rw [List.getElem?_append_right (by omega)] at hi
        have : i - vs.length = 0 := by
          have := (List.getElem?_eq_some_iff.1 hi).1
          simp at this; omega
        rw [this] at hi
        simp at hi
        obtain ⟨rfl, rfl⟩ := hi
        have hil : i = vs.length := by omega
        subst hil
        exact ⟨n, AMap.get_insert_self _ _ _, by rw [← h.varsLen]; exact h5⟩
    · intro y k hk
      have hk : (m.vars.insert x n).get y = some k := hk
      rw [AMap.get_insert] at hk
      rw [e]
      simp only [List.map_append, List.map_cons, List.map_nil, List.mem_append, List.mem_singleton]
      split at hk
      · rename_i hxy; right; exact hxy.symm
      · left; exact h.varsOnly y k hk

end MMOK

/-! ## Structure of a node in terms of its meaning -/

/-- `o` is the highest level that `F` depends on (`none`: it is constant). -/
def MTop (vs : List (String × Nat)) (F : MFun) : Option Nat → Prop
  | none => ∀ a b, ValidV vs a → ValidV vs b → F a = F b
  | some l => (∀ a b, ValidV vs a → ValidV vs b → (∀ x, x ≤ l → a x = b x) → F a = F b) ∧
      ∃ a b, ValidV vs a ∧ ValidV vs b ∧ (∀ x, x ≠ l → a x = b x) ∧ F a ≠ F b

theorem MTop.unique {vs : List (String × Nat)} {F : MFun} {t t' : Option Nat} (h : MTop vs F t)
    (h' : MTop vs F t') : t = t' := by
  have lt : ∀ l l', MTop vs F (some l) → MTop vs F (some l') → ¬ l < l' := by
    intro l l' h h' hl
    obtain ⟨a, b, ha, hb, hab, hne⟩ := h'.2
    exact hne (h.1 a b ha hb (fun x hx => hab x (by omega)))
  cases t with
  | none =>
    cases t' with
    | none => rfl
    | some l =>
      obtain ⟨a, b, ha, hb, _, hne⟩ := h'.2
      exact absurd (h a b ha hb) hne
  | some l =>
    cases t' with
    | none =>
      obtain ⟨a, b, ha, hb, _, hne⟩ := h.2
      exact absurd (h' a b ha hb) hne
    | some l' =>
      have := lt l l' h h'
      have := lt l' l h' h
      have : l = l' := by omega
      rw [this]

/-- A non-terminal node really depends on its level. -/
theorem nt_depends {T : Type} [DecidableEq T] [Fixed T] {m : Arena T} (wf : WF RFull m) (inj : m.LevInj)
    {i h : Nat} {ch : List Nat} {hd : Header} (hi : m.Live i) (hn : m.nodes[i]? = some (.nt h ch))
    (hh : m.headers[h]? = some hd) :
    ∃ a b t t', m.ValidA a ∧ m.ValidA b ∧ (∀ x, x ≠ hd.level → a x = b x) ∧ Eval m a i t ∧
      Eval m b i t' ∧ t ≠ t' := by
  obtain ⟨hd', hh', hlen, hrk, hlv, hp, hk⟩ := wf.nt hi hn
  rw [hh] at hh'; cases hh'
  have hm := List.mem_of_getElem? hh
  have hR : RFull ch := wf.red i h ch hi hn
  refine Classical.byContradiction fun hno => hR ?_
  have hpos := wf.pos hd hm
  have h0 : 0 < ch.length := by omega
  refine ⟨ch[0], fun c hc => ?_⟩
  obtain ⟨j, hj⟩ := List.mem_iff_getElem?.1 hc
  have hjl := (List.getElem?_eq_some_iff.1 hj).1
  have g0 : ch[0]? = some ch[0] := List.getElem?_eq_getElem h0
  obtain ⟨lc, rc⟩ := hk c hc
  obtain ⟨l0, r0⟩ := hk ch[0] (List.getElem_mem h0)
  refine wf.canon inj lc l0 (fun a ha t => ?_)
  have vj : m.ValidA (upd a hd.level j) := wf.valid_upd ha hm (by omega)
  have v0 : m.ValidA (upd a hd.level 0) := wf.valid_upd ha hm hpos
  have cj : ∀ t, Eval m a c t ↔ Eval m (upd a hd.level j) i t := by
    intro t
    rw [eval_nt_iff hn hh]
    have e1 : Eval m (upd a hd.level j) c t ↔ Eval m a c t :=
      wf.eval_congr_iff lc (fun l hl => upd_ne _ _ (by omega))
    simp only [upd_self, hj, Option.some.injEq, exists_eq_left', e1]
  have c0 : ∀ t, Eval m a ch[0] t ↔ Eval m (upd a hd.level 0) i t := by
    intro t
    rw [eval_nt_iff hn hh]
    have e1 : Eval m (upd a hd.level 0) ch[0] t ↔ Eval m a ch[0] t :=
      wf.eval_congr_iff l0 (fun l hl => upd_ne _ _ (by omega))
    simp only [upd_self, g0, Option.some.injEq, exists_eq_left', e1]
  rw [cj, c0]
  obtain ⟨t1, ht1⟩ := wf.eval_total vj hi
  obtain ⟨t2, ht2⟩ := wf.eval_total v0 hi
  have : t1 = t2 := Decidable.byContradiction fun hne =>
    hno ⟨_, _, t1, t2, vj, v0, fun x hx => by rw [upd_ne _ _ hx, upd_ne _ _ hx], ht1, ht2, hne⟩
  subst this
  exact ⟨fun ht => by rw [ht.det ht1]; exact ht2, fun ht => by rw [ht.det ht2]; exact ht1⟩

/-- What a node looks like, in terms of its meaning. -/
inductive MCase (e : Mtmdd2) (vs : List (String × Nat)) (x : MNode) (F : MFun) : Prop
  | bterm (t : T3) : x = .bool t.slot → e.header? x = none → e.mlevel x = none → e.mlabel x = none →
      e.children? x = some none → (∀ t', e.isTerm t' x = some (decide (t = t'))) →
      e.valueOf x = some none → (∀ a, ValidV vs a → F a = .b t) → MCase e vs x F
  | vterm (t : Option Int) : x.isBool = false → e.header? x = none → e.mlevel x = none →
      e.mlabel x = none → e.children? x = some none → (∀ t', e.isTerm t' x = some false) →
      e.valueOf x = some t → (∀ a, ValidV vs a → F a = .v t) → MCase e vs x F
  | node (l : Nat) (p : String × Nat) (ch : List MNode) : vs[l]? = some p → e.header? x = some l →
      e.mlevel x = some l → e.mlabel x = some p.1 → e.children? x = some (some ch) →
      (∀ t', e.isTerm t' x = some false) → e.valueOf x = some none → ch.length = p.2 →
      MTop vs F (some l) →
      (∀ j c, ch[j]? = some c → c.isBool = x.isBool ∧ MDen e c (fun a => F (upd a l j))) → MCase e vs x F

theorem validV_upd {vs : List (String × Nat)} {a : Nat → Nat} (ha : ValidV vs a) {l j : Nat}
    {p : String × Nat} (hp : vs[l]? = some p) (hj : j < p.2) : ValidV vs (upd a l j) := by
  intro i x r hi
  by_cases h : i = l
  · subst h
    rw [upd_self]
    rw [hp] at hi; cases hi
    exact hj
  · rw [upd_ne _ _ h]; exact ha i x r hi

theorem isTerm_iff {e : Mtmdd2} (hs : Inv e) {i : Nat} {t : T3} (hi : e.mdd.arena.Live i)
    (hn : e.mdd.arena.nodes[i]? = some (.term t)) : i = t.slot :=
  hs.b.wf.uniq hi (Mdd.fixed hs.b t).1 hn (Mdd.fixed hs.b t).2

theorem mden_cases {e : Mtmdd2} {vs : List (String × Nat)} (hs : Inv e)
    (hh : e.mdd.arena.headers = mkH vs) (inj : e.mdd.arena.LevInj) {x : MNode} {F : MFun}
    (h : MDen e x F) : MCase e vs x F := by
  have va : ∀ a, e.ValidA a ↔ ValidV vs a := fun a => validA_iff hh
  have inj' : e.mtmdd.arena.LevInj := by
    intro i j hd hd' h1 h2 hl
    rw [← hs.hdr] at h1 h2
    exact inj i j hd hd' h1 h2 hl
  cases x with
  | bool i =>
    obtain ⟨nd, hn⟩ := (show e.mdd.arena.Live i from h.live).node
    have hn' : e.mdd.arena.node? i = some nd := hn
    cases nd with
    | term t =>
      refine .bterm t (by rw [isTerm_iff hs h.live hn]) (by simp only [header?, hn'])
        (level?_term hn) (by simp only [mlabel, label?, hn]) (by simp only [children?, hn']) ?_
        (by simp only [valueOf]) ?_
      · intro t'
        simp only [isTerm, hn', Node.term.injEq]
      · intro a ha
        have := h.val a ((va a).2 ha)
        cases hF : F a with
        | v z => rw [hF] at this; exact this.elim
        | b z => rw [hF] at this; rw [(eval_term_iff hn).1 this]
    | nt k ch =>
      obtain ⟨hd, h1, hlen, hrk, hlv, hp, hk⟩ := hs.b.wf.nt h.live hn
      have h1' := h1
      rw [hh, mkH_get] at h1'
      obtain ⟨p, hp', rfl⟩ := h1'
      refine .node k p (ch.map .bool) hp' (by simp only [header?, hn']) hlv
        (by simp only [mlabel, label?, hn, h1, Option.map_some]) (by simp only [children?, hn'])
        (by intro t'; simp only [isTerm, hn']; simp) (by simp only [valueOf]) (by rw [List.length_map]; exact hlen)
        ⟨?_, ?_⟩ ?_
      · intro a b ha hb hab
        have e1 := h.val a ((va a).2 ha)
        have e2 := h.val b ((va b).2 hb)
        cases hF : F a with
        | v z => rw [hF] at e1; exact e1.elim
        | b z =>
          rw [hF] at e1
          have e3 : e.MEval b (.bool i) (.b z) := hs.b.wf.eval_congr h.live (fun l hl => hab l (by
            rw [hrk] at hl; exact Nat.le_of_lt_succ hl)) e1
          exact e3.det e2
      · obtain ⟨a, b, t, t', ha, hb, hab, e1, e2, hne⟩ := nt_depends hs.b.wf inj h.live hn h1
        refine ⟨a, b, (va a).1 ha, (va b).1 hb, hab, ?_⟩
        rw [← h.read (u := .b t) ha e1, ← h.read (u := .b t') hb e2]
        intro hc; cases hc; exact hne rfl
      · intro j c hc
        rw [List.getElem?_map, Option.map_eq_some_iff] at hc
        obtain ⟨c', hc', rfl⟩ := hc
        obtain ⟨lc, rc⟩ := hk c' (List.mem_of_getElem? hc')
        have hj := (List.getElem?_eq_some_iff.1 hc').1
        refine ⟨rfl, lc, fun a ha => ?_⟩
        have hv := validV_upd ((va a).1 ha) hp' (j := j) (by rw [hlen] at hj; exact hj)
        have := h.val _ ((va _).2 hv)
        cases hF : F (upd a k j) with
        | v z => rw [hF] at this; exact this.elim
        | b z =>
          rw [hF] at this
          have this : Eval e.mdd.arena (upd a k j) i z := this
          rw [eval_nt_iff hn h1] at this
          simp only [upd_self, hc', Option.some.injEq, exists_eq_left'] at this
          exact hs.b.wf.eval_congr lc (fun l hl => upd_ne _ _ (by simp only at rc; omega)) this
  | value i =>
    obtain ⟨nd, hn⟩ := (show e.mtmdd.arena.Live i from h.live).node
    have hn' : e.mtmdd.arena.node? i = some nd := hn
    cases nd with
    | term t =>
      refine .vterm t rfl (by simp only [header?, hn'])
        (level?_term hn) (by simp only [mlabel, label?, hn]) (by simp only [children?, hn'])
        (fun _ => rfl) (by simp only [valueOf, hn']) ?_
      intro a ha
      have := h.val a ((va a).2 ha)
      cases hF : F a with
      | b z => rw [hF] at this; exact this.elim
      | v z => rw [hF] at this; rw [(eval_term_iff hn).1 this]
    | nt k ch =>
      obtain ⟨hd, h1, hlen, hrk, hlv, hp, hk⟩ := hs.v.wf.nt h.live hn
      have h1' := h1
      rw [← hs.hdr, hh, mkH_get] at h1'
      obtain ⟨p, hp', rfl⟩ := h1'
      refine .node k p (ch.map .value) hp' (by simp only [header?, hn']) hlv
        (by simp only [mlabel, label?, hn, h1, Option.map_some]) (by simp only [children?, hn'])
        (fun _ => rfl) (by simp only [valueOf, hn']) (by rw [List.length_map]; exact hlen)
        ⟨?_, ?_⟩ ?_
      · intro a b ha hb hab
        have e1 := h.val a ((va a).2 ha)
        have e2 := h.val b ((va b).2 hb)
        cases hF : F a with
        | b z => rw [hF] at e1; exact e1.elim
        | v z =>
          rw [hF] at e1
          have e3 : e.MEval b (.value i) (.v z) := hs.v.wf.eval_congr h.live (fun l hl => hab l (by
            rw [hrk] at hl; exact Nat.le_of_lt_succ hl)) e1
          exact e3.det e2
      · obtain ⟨a, b, t, t', ha, hb, hab, e1, e2, hne⟩ := nt_depends hs.v.wf inj' h.live hn h1
        have ha := hs.valid.1 ha
        have hb := hs.valid.1 hb
        refine ⟨a, b, (va a).1 ha, (va b).1 hb, hab, ?_⟩
        rw [← h.read (u := .v t) ha e1, ← h.read (u := .v t') hb e2]
        intro hc; cases hc; exact hne rfl
      · intro j c hc
        rw [List.getElem?_map, Option.map_eq_some_iff] at hc
        obtain ⟨c', hc', rfl⟩ := hc
        obtain ⟨lc, rc⟩ := hk c' (List.mem_of_getElem? hc')
        have hj := (List.getElem?_eq_some_iff.1 hc').1
        refine ⟨rfl, lc, fun a ha => ?_⟩
        have hv := validV_upd ((va a).1 ha) hp' (j := j) (by rw [hlen] at hj; exact hj)
        have := h.val _ ((va _).2 hv)
        cases hF : F (upd a k j) with
        | b z => rw [hF] at this; exact this.elim
        | v z =>
          rw [hF] at this
          have this : Eval e.mtmdd.arena (upd a k j) i z := this
          rw [eval_nt_iff hn h1] at this
          simp only [upd_self, hc', Option.some.injEq, exists_eq_left'] at this
          exact hs.v.wf.eval_congr lc (fun l hl => upd_ne _ _ (by simp only at rc; omega)) this

end DD
