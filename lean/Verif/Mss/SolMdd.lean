import Verif.Mss.SolInst

/-!
# `minsol` and `maxsol` on tagged nodes, in terms of the denoted function
-/

set_option autoImplicit false
set_option linter.unusedSectionVars false
set_option linter.unusedVariables false

namespace DD
open Arena Mtmdd2

/-- Performance value of a reading: truth values count as 0 and 1, an undetermined reading has none. -/
def MVal.num : MVal → Option Int
  | .v o => o
  | .b .zero => some 0
  | .b .one => some 1
  | .b .undet => none

/-- The last state of each variable. -/
def lastV (vs : List (String × Nat)) (l : Nat) : Nat :=
  match vs[l]? with
  | some p => p.2 - 1
  | none => 0

/-- More state never lowers the value. -/
def MonoV (vs : List (String × Nat)) (φ : (Nat → Nat) → Int) : Prop :=
  ∀ a b, ValidV vs b → (∀ l, a l ≤ b l) → φ a ≤ φ b

/-- `d` counts states away from the baseline (`top`: below the last state; otherwise above state 0).
It is nearest to the baseline among the vectors of value `v`. -/
def Extreme (top : Bool) (vs : List (String × Nat)) (φ : (Nat → Nat) → Int) (v : Int) (d : Nat → Nat) : Prop :=
  ValidV vs d ∧ φ (crd top (lastV vs) d) = v ∧
    ∀ b, (∀ l, b l ≤ d l) → φ (crd top (lastV vs) b) = v → b = d

/-- Members of a family in the tagged forest, labels as `to_zmdd` assigns them. -/
def MLab (top : Bool) (e : Mtmdd2) : MNode → (Nat → Nat) → Int → Prop
  | .value r, d, v => LabC top e.mtmdd.arena r d (some v)
  | .bool r, d, v => LabC top e.mdd.arena r d .one ∧ v = if top then 0 else 1

theorem ValidV.le {vs : List (String × Nat)} {a b : Nat → Nat} (h : ValidV vs b) (hl : ∀ l, a l ≤ b l) :
    ValidV vs a := fun i x r hi => Nat.lt_of_le_of_lt (hl i) (h i x r hi)

theorem lastV_of {vs : List (String × Nat)} {l : Nat} {p : String × Nat} (h : vs[l]? = some p) :
    lastV vs l = p.2 - 1 := by simp [lastV, h]

theorem lastV_none {vs : List (String × Nat)} {l : Nat} (h : vs.length ≤ l) : lastV vs l = 0 := by
  simp [lastV, List.getElem?_eq_none h]

theorem crd_validV {top : Bool} {vs : List (String × Nat)} {d : Nat → Nat} (h : ValidV vs d) :
    ValidV vs (crd top (lastV vs) d) := by
  cases top with
  | false => exact h
  | true =>
    intro i x r hi
    have := h i x r hi
    show lastV vs i - d i < r
    rw [lastV_of hi]
    simp only
    omega

section generic
variable {T : Type} [DecidableEq T] [Fixed T] {m : Arena T} {vs : List (String × Nat)}

theorem validA_mkH (h : m.headers = mkH vs) {a : Nat → Nat} : m.ValidA a ↔ ValidV vs a := by
  unfold Arena.ValidA ValidV
  rw [h]
  constructor
  · intro hv i x r hi
    exact hv ⟨i, x, r⟩ (List.mem_of_getElem? (mkH_get.2 ⟨(x, r), hi, rfl⟩))
  · intro hv hd hm
    obtain ⟨i, hi⟩ := List.mem_iff_getElem?.1 hm
    obtain ⟨p, hp, rfl⟩ := mkH_get.1 hi
    exact hv i p.1 p.2 hp

theorem lastOf_mkH (wf : WF RFull m) (h : m.headers = mkH vs) : LastOf (lastV vs) m := by
  intro hd hm
  have hp := wf.pos hd hm
  rw [h] at hm
  obtain ⟨i, hi⟩ := List.mem_iff_getElem?.1 hm
  obtain ⟨p, hp', rfl⟩ := mkH_get.1 hi
  simp only [lastV_of hp'] at hp ⊢
  omega

theorem levInj_mkH (h : m.headers = mkH vs) : m.LevInj := by
  intro i j hd hd' h1 h2 hl
  rw [h, mkH_get] at h1 h2
  obtain ⟨s, _, rfl⟩ := h1
  obtain ⟨s', _, rfl⟩ := h2
  exact hl

/-- The nodes of a forest with these headers have ranks below the number of variables. -/
theorem rank_mkH (wf : WF RFull m) (h : m.headers = mkH vs) {i : Nat} (li : m.Live i) : m.rank i ≤ vs.length := by
  obtain ⟨nd, hn⟩ := li.node
  cases nd with
  | term t => rw [rank_term hn]; omega
  | nt k ch =>
    obtain ⟨hd, hh, -, hr, -⟩ := wf.nt li hn
    rw [h, mkH_get] at hh
    obtain ⟨p, hp, rfl⟩ := hh
    have := (List.getElem?_eq_some_iff.1 hp).1
    simp only at hr
    omega

/-- Monotonicity in coordinates. -/
theorem monoC_iff {X : Sol.Tab T} {Z : Sol.Spec X} (wf : WF RFull m) (h : m.headers = mkH vs) {i : Nat}
    (li : m.Live i) {det : T → Option Int} {φ : (Nat → Nat) → Int}
    (hdet : ∀ a, ValidV vs a → ∀ t, Eval m a i t → det t = some (φ a))
    (hLe : ∀ t t' x y, det t = some x → det t' = some y →
      (Sol.Le Z t t' ↔ if X.top then y ≤ x else x ≤ y)) :
    Sol.MonoC Z (lastV vs) m i ↔ MonoV vs φ := by
  have va : ∀ {a}, m.ValidA a ↔ ValidV vs a := validA_mkH h
  have ev : ∀ {a}, ValidV vs a → ∃ t, Eval m a i t ∧ det t = some (φ a) := by
    intro a ha
    obtain ⟨t, ht⟩ := wf.eval_total (va.2 ha) li
    exact ⟨t, ht, hdet a ha t ht⟩
  have congr : ∀ {a b}, ValidV vs a → (∀ l, l < vs.length → a l = b l) → φ a = φ b := by
    intro a b ha hab
    have hb : ValidV vs b := by
      intro j x r hj
      rw [← hab j (List.getElem?_eq_some_iff.1 hj).1]
      exact ha j x r hj
    obtain ⟨t, h1, h2⟩ := ev ha
    have h3 : Eval m b i t := wf.eval_congr li (fun l hl => hab l (Nat.lt_of_lt_of_le hl (rank_mkH wf h li))) h1
    have h4 := hdet b hb t h3
    rw [h2] at h4
    exact Option.some.inj h4
  constructor
  · intro hm a b hb hab
    have ha := hb.le hab
    cases htop : X.top with
    | false =>
      obtain ⟨t, h1, h2⟩ := ev ha
      obtain ⟨t', h3, h4⟩ := ev hb
      have := (hLe t t' _ _ h2 h4).1 (hm a b t t' (va.2 hb) hab (by rw [htop]; exact h1) (by rw [htop]; exact h3))
      simpa [htop] using this
    | true =>
      have back : ∀ {c : Nat → Nat}, ValidV vs c → ∀ l, l < vs.length →
          c l = crd true (lastV vs) (fun l => lastV vs l - c l) l := by
        intro c hc l hl
        show c l = lastV vs l - (lastV vs l - c l)
        have hp := List.getElem?_eq_getElem hl
        have h1 : c l < (vs[l]).2 := hc l (vs[l]).1 (vs[l]).2 hp
        have h2 : lastV vs l = (vs[l]).2 - 1 := lastV_of hp
        omega
      have vd : ∀ {c : Nat → Nat}, ValidV vs c → ValidV vs (fun l => lastV vs l - c l) := by
        intro c hc j x r hj
        have := hc j x r hj
        show lastV vs j - c j < r
        rw [lastV_of hj]
        simp only
        omega
      obtain ⟨t, h1, h2⟩ := ev (crd_validV (top := true) (vd hb))
      obtain ⟨t', h3, h4⟩ := ev (crd_validV (top := true) (vd ha))
      have := (hLe t t' _ _ h2 h4).1 (hm (fun l => lastV vs l - b l) (fun l => lastV vs l - a l) t t'
        (va.2 (vd ha)) (fun l => by have := hab l; show lastV vs l - b l ≤ lastV vs l - a l; omega)
        (by rw [htop]; exact h1) (by rw [htop]; exact h3))
      simp only [htop, if_true] at this
      rw [congr ha (back ha), congr hb (back hb)]
      exact this
  · intro hm d d' t t' hd' hdd h1 h2
    have vd' := va.1 hd'
    have vd := vd'.le hdd
    have e1 := hdet _ (crd_validV vd) t h1
    have e2 := hdet _ (crd_validV vd') t' h2
    refine (hLe t t' _ _ e1 e2).2 ?_
    cases htop : X.top with
    | false =>
      simp only [Bool.false_eq_true, if_false]
      exact hm d d' vd' hdd
    | true =>
      simp only [if_true]
      refine hm _ _ (crd_validV vd) (fun l => ?_)
      have := hdd l
      show lastV vs l - d' l ≤ lastV vs l - d l
      omega

/-- What the generic proof says about one numeric label. -/
theorem sem_of {X : Sol.Tab T} {Z : Sol.Spec X} (wf : WF RFull m) (h : m.headers = mkH vs) {i : Nat} {o : Option Nat}
    (sk : Sol.SOk Z (lastV vs) m i o) {det : T → Option Int} {φ : (Nat → Nat) → Int}
    (hdet : ∀ a, ValidV vs a → ∀ t, Eval m a i t → det t = some (φ a))
    (hDom : ∀ t x, det t = some x → Z.Dom t)
    (hLe : ∀ t t' x y, det t = some x → det t' = some y →
      (Sol.Le Z t t' ↔ if X.top then y ≤ x else x ≤ y)) :
    (o = none ↔ ¬ MonoV vs φ) ∧ ∀ r, o = some r → ∀ u v, u ≠ Z.und →
      (∀ t x, det t = some x → (Z.mem t = some u ↔ x = v)) →
      ∀ d, LabC X.top m r d u ↔ Extreme X.top vs φ v d := by
  have va : ∀ {a}, m.ValidA a ↔ ValidV vs a := validA_mkH h
  obtain ⟨h1, h2⟩ := sk.sem (by
    intro d t hd ht
    exact hDom t _ (hdet _ (crd_validV (va.1 hd)) t ht))
  refine ⟨by rw [h1, monoC_iff wf h sk.li hdet hLe], ?_⟩
  intro r hr u v hu hm d
  rw [h2 r hr d u hu]
  have hit : ∀ {b}, ValidV vs b → (Sol.Hit Z (lastV vs) m i b u ↔ φ (crd X.top (lastV vs) b) = v) := by
    intro b hb
    constructor
    · rintro ⟨t, ht, hu'⟩
      exact (hm t _ (hdet _ (crd_validV hb) t ht)).1 hu'
    · intro e
      obtain ⟨t, ht⟩ := wf.evC_total (top := X.top) (lastOf_mkH wf h) (va.2 hb) sk.li
      exact ⟨t, ht, (hm t _ (hdet _ (crd_validV hb) t ht)).2 e⟩
  constructor
  · rintro ⟨k1, k2, k3⟩
    have vd := va.1 k1
    exact ⟨vd, (hit vd).1 k2, fun b hb e => k3 b hb ((hit (vd.le hb)).2 e)⟩
  · rintro ⟨k1, k2, k3⟩
    exact ⟨va.2 k1, (hit k1).2 k2, fun b hb e => k3 b hb ((hit (k1.le hb)).1 e)⟩

end generic

theorem vLe_min {x y : Int} {t t' : Option Int} (h : t = some x) (h' : t' = some y) :
    Sol.Le Sol.vminSpec t t' ↔ if vminTab.top then y ≤ x else x ≤ y := by
  subst h; subst h'
  show (if vminTab.top = true then _ else _) ↔ _
  simp only [vminTab, Bool.false_eq_true, if_false]
  show Sol.vInf (some x) (some y) = some x ↔ x ≤ y
  simp only [Sol.vInf, Mtmdd.pt, Option.some.injEq]
  omega

theorem vLe_max {x y : Int} {t t' : Option Int} (h : t = some x) (h' : t' = some y) :
    Sol.Le Sol.vmaxSpec t t' ↔ if vmaxTab.top then y ≤ x else x ≤ y := by
  subst h; subst h'
  show (if vmaxTab.top = true then _ else _) ↔ _
  simp only [vmaxTab, if_true]
  show Sol.vInf (some y) (some x) = some y ↔ y ≤ x
  simp only [Sol.vInf, Mtmdd.pt, Option.some.injEq]
  omega

/-- Numeric reading of a truth value. -/
def T3.num (t : T3) : Option Int := (MVal.b t).num

theorem bLe_min {x y : Int} {t t' : T3} (h : t.num = some x) (h' : t'.num = some y) :
    Sol.Le Sol.bminSpec t t' ↔ if bminTab.top then y ≤ x else x ≤ y := by
  show (if bminTab.top = true then _ else _) ↔ _
  simp only [bminTab, Bool.false_eq_true, if_false]
  show Sol.bInf _ _ = _ ↔ _
  cases t <;> cases t' <;> simp [T3.num, MVal.num] at h h' <;> subst h <;> subst h' <;> simp [Sol.bInf]

theorem bLe_max {x y : Int} {t t' : T3} (h : t.num = some x) (h' : t'.num = some y) :
    Sol.Le Sol.bmaxSpec t t' ↔ if bmaxTab.top then y ≤ x else x ≤ y := by
  show (if bmaxTab.top = true then _ else _) ↔ _
  simp only [bmaxTab, if_true]
  show Sol.bInf _ _ = _ ↔ _
  cases t <;> cases t' <;> simp [T3.num, MVal.num] at h h' <;> subst h <;> subst h' <;> simp [Sol.bInf]

/-- Outcome of `minsol`/`maxsol`: it never panics, and on a determined function the result is the family of vectors
nearest to the baseline, per value. -/
theorem solT_ok {e : Mtmdd2} {vs : List (String × Nat)} (hs : Inv e) (hh : e.mdd.arena.headers = mkH vs)
    {x : MNode} {F : MFun} (hx : MDen e x F) (top : Bool) :
    ∃ o e', e.solT top x = some (o, e') ∧ Inv e' ∧ St e e' ∧ (∀ r, o = some r → e'.MLive r) ∧
      ∀ φ : (Nat → Nat) → Int, (∀ a, ValidV vs a → (F a).num = some (φ a)) →
        (o = none ↔ ¬ MonoV vs φ) ∧ ∀ r, o = some r → ∀ d v, MLab top e' r d v ↔
          (x.isBool = true → v = if top then 0 else 1) ∧ Extreme top vs φ v d := by
  have hh' : e.mtmdd.arena.headers = mkH vs := by rw [← hs.hdr]; exact hh
  have va : ∀ a, e.ValidA a ↔ ValidV vs a := fun a => validA_iff hh
  cases x with
  | value i =>
    have rd : ∀ {φ : (Nat → Nat) → Int}, (∀ a, ValidV vs a → (F a).num = some (φ a)) →
        ∀ a, ValidV vs a → ∀ t, Eval e.mtmdd.arena a i t → t = some (φ a) := by
      intro φ hφ a ha t ht
      have h1 := hx.read (u := .v t) ((va a).2 ha) ht
      have h2 := hφ a ha
      rw [← h1] at h2
      exact h2
    cases top with
    | false =>
      obtain ⟨o, s', h1, h2, h3, h4⟩ := Sol.sol_ok (Z := Sol.vminSpec) (β := lastV vs) (E := Mtmdd.eng)
        Sol.vmin_inf hs.v (lastOf_mkH hs.v.wf hh') (levInj_mkH hh') hx.live
      have h3 : Step e.mtmdd.arena s'.arena := h3
      have h2 : Mtmdd.Inv s' := h2
      have h4 : Sol.SOk Sol.vminSpec (lastV vs) s'.arena i o := h4
      have h1 : Sol.sol Mtmdd.arena Mtmdd.createNode Mtmdd.min vminTab e.mtmdd i = some (o, s') := h1
      refine ⟨o.map .value, { e with mtmdd := s' }, by simp [solT, minsol, solV, h1], hs.extV h2 h3,
        ⟨Step.refl _, h3⟩, ?_, ?_⟩
      · intro r hr
        obtain ⟨r', hr', rfl⟩ := Option.map_eq_some_iff.1 hr
        exact h4.lr r' hr'
      · intro φ hφ
        obtain ⟨k1, k2⟩ := sem_of (det := fun t => t) h2.wf (by rw [h3.heq]; exact hh') h4
          (fun a ha t ht => rd hφ a ha t ((hs.v.wf.eval_ext h3.toExt hx.live).1 ht))
          (fun _ _ _ => trivial) (fun t t' x y => vLe_min)
        refine ⟨by rw [Option.map_eq_none_iff]; exact k1, ?_⟩
        intro r hr d v
        obtain ⟨r', hr', rfl⟩ := Option.map_eq_some_iff.1 hr
        have := k2 r' hr' (some v) v (by intro hc; cases hc) (by
          intro t x e; subst e
          show Sol.vMem (some x) = some (some v) ↔ x = v
          simp [Sol.vMem]) d
        show LabC false s'.arena r' d (some v) ↔ _
        rw [show Extreme false vs φ v d ↔ _ from this.symm]
        simp [MNode.isBool]
        rfl
    | true =>
      obtain ⟨o, s', h1, h2, h3, h4⟩ := Sol.sol_ok (Z := Sol.vmaxSpec) (β := lastV vs) (E := Mtmdd.eng)
        Sol.vmax_inf hs.v (lastOf_mkH hs.v.wf hh') (levInj_mkH hh') hx.live
      have h3 : Step e.mtmdd.arena s'.arena := h3
      have h2 : Mtmdd.Inv s' := h2
      have h4 : Sol.SOk Sol.vmaxSpec (lastV vs) s'.arena i o := h4
      have h1 : Sol.sol Mtmdd.arena Mtmdd.createNode Mtmdd.min vmaxTab e.mtmdd i = some (o, s') := h1
      refine ⟨o.map .value, { e with mtmdd := s' }, by simp [solT, maxsol, solV, h1], hs.extV h2 h3,
        ⟨Step.refl _, h3⟩, ?_, ?_⟩
      · intro r hr
        obtain ⟨r', hr', rfl⟩ := Option.map_eq_some_iff.1 hr
        exact h4.lr r' hr'
      · intro φ hφ
        obtain ⟨k1, k2⟩ := sem_of (det := fun t => t) h2.wf (by rw [h3.heq]; exact hh') h4
          (fun a ha t ht => rd hφ a ha t ((hs.v.wf.eval_ext h3.toExt hx.live).1 ht))
          (fun _ _ _ => trivial) (fun t t' x y => vLe_max)
        refine ⟨by rw [Option.map_eq_none_iff]; exact k1, ?_⟩
        intro r hr d v
        obtain ⟨r', hr', rfl⟩ := Option.map_eq_some_iff.1 hr
        have := k2 r' hr' (some v) v (by intro hc; cases hc) (by
          intro t x e; subst e
          show Sol.vMem (some x) = some (some v) ↔ x = v
          simp [Sol.vMem]) d
        show LabC true s'.arena r' d (some v) ↔ _
        rw [show Extreme true vs φ v d ↔ _ from this.symm]
        simp [MNode.isBool]
        rfl
  | bool i =>
    have rd : ∀ {φ : (Nat → Nat) → Int}, (∀ a, ValidV vs a → (F a).num = some (φ a)) →
        ∀ a, ValidV vs a → ∀ t, Eval e.mdd.arena a i t → T3.num t = some (φ a) := by
      intro φ hφ a ha t ht
      have h1 := hx.read (u := .b t) ((va a).2 ha) ht
      have h2 := hφ a ha
      rw [← h1] at h2
      exact h2
    have dom : ∀ t x, T3.num t = some x → t ≠ .undet := by
      rintro t x h rfl
      cases h
    cases top with
    | false =>
      obtain ⟨o, s', h1, h2, h3, h4⟩ := Sol.sol_ok (Z := Sol.bminSpec) (β := lastV vs) (E := Mdd.eng)
        Sol.bmin_inf hs.b (lastOf_mkH hs.b.wf hh) (levInj_mkH hh) hx.live
      have h3 : Step e.mdd.arena s'.arena := h3
      have h2 : Mdd.Inv s' := h2
      have h4 : Sol.SOk Sol.bminSpec (lastV vs) s'.arena i o := h4
      have h1 : Sol.sol Mdd.arena Mdd.createNode Mdd.and bminTab e.mdd i = some (o, s') := h1
      refine ⟨o.map .bool, { e with mdd := s' }, by simp [solT, minsol, solB, h1], hs.extB h2 h3,
        ⟨h3, Step.refl _⟩, ?_, ?_⟩
      · intro r hr
        obtain ⟨r', hr', rfl⟩ := Option.map_eq_some_iff.1 hr
        exact h4.lr r' hr'
      · intro φ hφ
        obtain ⟨k1, k2⟩ := sem_of (det := T3.num) h2.wf (by rw [h3.heq]; exact hh) h4
          (fun a ha t ht => rd hφ a ha t ((hs.b.wf.eval_ext h3.toExt hx.live).1 ht))
          dom (fun t t' x y => bLe_min)
        refine ⟨by rw [Option.map_eq_none_iff]; exact k1, ?_⟩
        intro r hr d v
        obtain ⟨r', hr', rfl⟩ := Option.map_eq_some_iff.1 hr
        have := k2 r' hr' .one 1 (by intro hc; cases hc) (by
          intro t x e
          show Sol.bMem1 _ = _ ↔ _
          cases t <;> simp [T3.num, MVal.num] at e <;> subst e <;> simp [Sol.bMem1]) d
        show LabC false s'.arena r' d .one ∧ v = 1 ↔ (_ → v = 1) ∧ _
        simp only [MNode.isBool, true_implies]
        constructor
        · rintro ⟨a, rfl⟩; exact ⟨rfl, this.1 a⟩
        · rintro ⟨rfl, a⟩; exact ⟨this.2 a, rfl⟩
    | true =>
      obtain ⟨o, s', h1, h2, h3, h4⟩ := Sol.sol_ok (Z := Sol.bmaxSpec) (β := lastV vs) (E := Mdd.eng)
        Sol.bmax_inf hs.b (lastOf_mkH hs.b.wf hh) (levInj_mkH hh) hx.live
      have h3 : Step e.mdd.arena s'.arena := h3
      have h2 : Mdd.Inv s' := h2
      have h4 : Sol.SOk Sol.bmaxSpec (lastV vs) s'.arena i o := h4
      have h1 : Sol.sol Mdd.arena Mdd.createNode Mdd.and bmaxTab e.mdd i = some (o, s') := h1
      refine ⟨o.map .bool, { e with mdd := s' }, by simp [solT, maxsol, solB, h1], hs.extB h2 h3,
        ⟨h3, Step.refl _⟩, ?_, ?_⟩
      · intro r hr
        obtain ⟨r', hr', rfl⟩ := Option.map_eq_some_iff.1 hr
        exact h4.lr r' hr'
      · intro φ hφ
        obtain ⟨k1, k2⟩ := sem_of (det := T3.num) h2.wf (by rw [h3.heq]; exact hh) h4
          (fun a ha t ht => rd hφ a ha t ((hs.b.wf.eval_ext h3.toExt hx.live).1 ht))
          dom (fun t t' x y => bLe_max)
        refine ⟨by rw [Option.map_eq_none_iff]; exact k1, ?_⟩
        intro r hr d v
        obtain ⟨r', hr', rfl⟩ := Option.map_eq_some_iff.1 hr
        have := k2 r' hr' .one 0 (by intro hc; cases hc) (by
          intro t x e
          show Sol.bMem0 _ = _ ↔ _
          cases t <;> simp [T3.num, MVal.num] at e <;> subst e <;> simp [Sol.bMem0]) d
        show LabC true s'.arena r' d .one ∧ v = 0 ↔ (_ → v = 0) ∧ _
        simp only [MNode.isBool, true_implies]
        constructor
        · rintro ⟨a, rfl⟩; exact ⟨rfl, this.1 a⟩
        · rintro ⟨rfl, a⟩; exact ⟨this.2 a, rfl⟩

end DD
