import Verif.Mss.Step
import Verif.Mss.ZmddStep
import Verif.Mss.MssMgr
import Verif.Wrap.Pace

/-!
# When `MddMgr` and `ZmddMgr` collect
-/

set_option autoImplicit false
set_option linter.unusedSectionVars false
set_option linter.unusedVariables false

namespace DD
open Arena

/-- The manager inside an MDD world. -/
def mLens : Lens MWorld Mtmdd2 MNode where
  mgr w := w.mgr.w
  put w m := { w with mgr := { w.mgr with w := m } }
  mgr_put _ _ := rfl
  put_mgr _ := rfl
  put_put _ _ _ := rfl

/-- The manager inside a ZMDD world. -/
def zmLens : Lens ZMWorld Zmdd Nat where
  mgr w := w.mgr
  put w m := { w with mgr := m }
  mgr_put _ _ := rfl
  put_mgr _ := rfl
  put_put _ _ _ := rfl

/-- The ZMDD manager inside an `MssMgr`. -/
def msLens : Lens MssW Zmdd Nat where
  mgr w := w.z.mgr
  put w m := { w with z := { w.z with mgr := m } }
  mgr_put _ _ := rfl
  put_mgr _ := rfl
  put_put _ _ _ := rfl

namespace MddMgr

/-- The same manager with another threshold. -/
def setT (m : MddMgr) (t : Nat) : MddMgr := { m with w := m.w.setT t }

theorem defvar_setT (m : MddMgr) (v : String) (r t : Nat) :
    (m.setT t).defvar v r = (m.defvar v r).map (fun p => (p.1, p.2.setT t)) := by
  have e1 : (m.setT t).vars = m.vars := rfl
  have e2 : (m.setT t).w.eng = m.w.eng := rfl
  unfold defvar
  rw [e1, e2]
  cases m.vars.get v with
  | some i => rfl
  | none =>
    dsimp only
    cases varNode m.w.eng m.vars.len v r with
    | none => rfl
    | some p => rfl

theorem defvar_floor {m : MddMgr} {v : String} {r : Nat} {p : MNode × MddMgr} (h : m.defvar v r = some p) :
    p.2.w.gc.floor = m.w.gc.floor := by
  unfold defvar at h
  split at h
  · cases h; rfl
  · split at h
    · cases h
    · cases h; rfl

/-- The same state with another threshold. -/
def RpnSt.setT (s : RpnSt) (t : Nat) : RpnSt := { s with mgr := s.mgr.setT t }

theorem RpnSt.push_setT (s : RpnSt) (st : List MNode) (res : Option (MNode × Mtmdd2)) (t : Nat) :
    (s.setT t).push st res = (s.push st res).map (fun r => r.map (fun s => s.setT t)) := by
  cases res <;> rfl

theorem RpnSt.push_floor {s s' : RpnSt} {st : List MNode} {res : Option (MNode × Mtmdd2)}
    (h : s.push st res = some (.ok s')) : s'.mgr.w.gc.floor = s.mgr.w.gc.floor := by
  cases res with
  | none => cases h
  | some p => cases h; rfl

theorem rpnTok_setT (vars : String → Option Nat) (s : RpnSt) (k : MTok) (t : Nat) :
    rpnTok vars (s.setT t) k = (rpnTok vars s k).map (fun r => r.map (fun s => s.setT t)) := by
  have e1 : (s.setT t).stack = s.stack := rfl
  cases k with
  | const b => rfl
  | bin o =>
    simp only [rpnTok]
    rw [e1]
    cases s.stack with
    | nil => rfl
    | cons r st => cases st with
      | nil => rfl
      | cons l st => exact RpnSt.push_setT _ _ _ _
  | not =>
    simp only [rpnTok]
    rw [e1]
    cases s.stack with
    | nil => rfl
    | cons r st => exact RpnSt.push_setT _ _ _ _
  | ite =>
    simp only [rpnTok]
    rw [e1]
    cases s.stack with
    | nil => rfl
    | cons r st => cases st with
      | nil => rfl
      | cons l st => cases st with
        | nil => rfl
        | cons l st => exact RpnSt.push_setT _ _ _ _
  | save id =>
    simp only [rpnTok]
    rw [e1]
    cases hs : s.stack with
    | nil => rfl
    | cons x st => simp only [Option.map, Except.map, RpnSt.setT, hs]
  | load id =>
    have e2 : (s.setT t).cache = s.cache := rfl
    simp only [rpnTok]
    rw [e2]
    cases s.cache.get id <;> rfl
  | int v => exact RpnSt.push_setT _ _ _ _
  | var v =>
    have e2 : (s.setT t).mgr = s.mgr.setT t := rfl
    simp only [rpnTok]
    rw [e2]
    cases vars v with
    | none => rfl
    | some r =>
      dsimp only
      rw [defvar_setT]
      cases s.mgr.defvar v r <;> rfl

theorem rpnTok_floor {vars : String → Option Nat} {s s' : RpnSt} {k : MTok}
    (h : rpnTok vars s k = some (.ok s')) : s'.mgr.w.gc.floor = s.mgr.w.gc.floor := by
  cases k with
  | const b => cases h; rfl
  | bin o => simp only [rpnTok] at h; split at h <;> first | exact RpnSt.push_floor h | cases h
  | not => simp only [rpnTok] at h; split at h <;> first | exact RpnSt.push_floor h | cases h
  | ite => simp only [rpnTok] at h; split at h <;> first | exact RpnSt.push_floor h | cases h
  | save id => simp only [rpnTok] at h; split at h <;> cases h; rfl
  | load id => simp only [rpnTok] at h; split at h <;> cases h; rfl
  | int v => exact RpnSt.push_floor h
  | var v =>
    simp only [rpnTok] at h
    split at h
    · cases h
    · split at h
      · cases h
      · rename_i i m hd
        cases h
        exact defvar_floor hd

theorem rpnLoop_setT (vars : String → Option Nat) (ts : List MTok) (t : Nat) : ∀ (s : RpnSt),
    rpnLoop vars (s.setT t) ts = (rpnLoop vars s ts).map
      (fun r => (r.map (fun s => s.setT t)).mapError (fun e => (e.1, e.2.setT t))) := by
  induction ts with
  | nil => intro s; rfl
  | cons k ts ih =>
    intro s
    simp only [rpnLoop, rpnTok_setT]
    cases rpnTok vars s k with
    | none => rfl
    | some r =>
      cases r with
      | error e => rfl
      | ok s' => exact ih s'

theorem rpnLoop_floor (vars : String → Option Nat) (ts : List MTok) : ∀ {s s' : RpnSt},
    rpnLoop vars s ts = some (.ok s') → s'.mgr.w.gc.floor = s.mgr.w.gc.floor := by
  induction ts with
  | nil => intro s s' h; cases h; rfl
  | cons k ts ih =>
    intro s s' h
    simp only [rpnLoop] at h
    split at h
    · cases h
    · cases h
    · rename_i s1 h1
      rw [ih h, rpnTok_floor h1]

theorem rpnLoop_floor_err (vars : String → Option Nat) (ts : List MTok) : ∀ {s : RpnSt} {e : RpnErr} {m : MddMgr},
    rpnLoop vars s ts = some (.error (e, m)) → m.w.gc.floor = s.mgr.w.gc.floor := by
  induction ts with
  | nil => intro s e m h; cases h
  | cons k ts ih =>
    intro s e m h
    simp only [rpnLoop] at h
    split at h
    · cases h
    · cases h; rfl
    · rename_i s1 h1
      rw [ih h, rpnTok_floor h1]

theorem rpnLoop_threshold (vars : String → Option Nat) (ts : List MTok) {s : RpnSt} :
    (∀ {s'}, rpnLoop vars s ts = some (.ok s') → s'.mgr.w.gc.threshold = s.mgr.w.gc.threshold) ∧
    (∀ {e m}, rpnLoop vars s ts = some (.error (e, m)) → m.w.gc.threshold = s.mgr.w.gc.threshold) := by
  have h := rpnLoop_setT vars ts s.mgr.w.gc.threshold s
  have e0 : s.setT s.mgr.w.gc.threshold = s := rfl
  rw [e0] at h
  constructor
  · intro s' h'
    rw [h'] at h
    simp only [Option.map, Except.map, Except.mapError, Option.some.injEq, Except.ok.injEq] at h
    rw [h]; rfl
  · intro e m h'
    rw [h'] at h
    simp only [Option.map, Except.map, Except.mapError, Option.some.injEq, Except.error.injEq, Prod.mk.injEq] at h
    rw [h.2]; rfl

end MddMgr

namespace MWorld

/-- Calls that pass their result through `wrap`. -/
def wraps : MCmd → Bool
  | .boolean _ | .value _ | .undetBoolean | .undetValue | .createNode _ _ | .rpn _ _ | .andL _ | .orL _ | .minL _
  | .maxL _ | .not _ | .bin _ _ _ | .ite _ _ _ => true
  | _ => false

theorem give_form (w : MWorld) {r : MNode} {m : MddMgr} (hf : m.w.gc.floor = w.mgr.w.gc.floor) {c : MCmd}
    (h : ∀ t, (mLens.setT w t).step c = (mLens.setT w t).give ((m.setT t).wrap (some (r, m.w.eng)))) :
    ∃ w0, mLens.Form mops (fun w => w.step c) w w0 r (.handle w.hs.next) := by
  refine ⟨{ mgr := m, hs := w.hs.give r }, hf, fun t => ?_⟩
  show (mLens.setT w t).step c = _
  rw [h t]
  have e : ∀ (x : MddMgr) (res : Option (MNode × Mtmdd2)), (mLens.setT w t).give (x.wrap res) =
      match x.w.wrap mops res with
      | none => none
      | some (r, m) => some (.handle w.hs.next, { mgr := { x with w := m }, hs := w.hs.give r }) := by
    intro x res
    simp only [MddMgr.wrap]
    cases x.w.wrap mops res <;> rfl
  rw [e]
  have e1 : (mLens.mgr { mgr := m, hs := w.hs.give r }).setT t = m.w.setT t := rfl
  have e2 : (mLens.mgr { mgr := m, hs := w.hs.give r }).eng = m.w.eng := rfl
  have e3 : (m.setT t).w = m.w.setT t := rfl
  rw [e1, e2, e3]
  cases hw : (m.w.setT t).wrap mops (some (r, m.w.eng)) with
  | none => rfl
  | some p =>
    have : p.1 = r := by
      simp only [Wr.wrap] at hw
      split at hw
      · cases hw
      · cases hw; rfl
    obtain ⟨p1, p2⟩ := p
    cases this
    rfl

theorem res_form (w : MWorld) {c : MCmd} (res : Option (MNode × Mtmdd2))
    (h : ∀ t, (mLens.setT w t).step c = (mLens.setT w t).give ((mLens.setT w t).mgr.wrap res))
    {o : MOut} {w' : MWorld} (hs : w.step c = some (o, w')) :
    ∃ w0 r, mLens.Form mops (fun w => w.step c) w w0 r (.handle w.hs.next) := by
  cases res with
  | none =>
    have := h w.mgr.w.gc.threshold
    rw [show mLens.setT w w.mgr.w.gc.threshold = w from rfl, hs] at this
    cases this
  | some p =>
    obtain ⟨r, b⟩ := p
    obtain ⟨w0, F⟩ := w.give_form (m := { w.mgr with w := { w.mgr.w with eng := b } }) (r := r) rfl (c := c) (fun t => h t)
    exact ⟨w0, r, F⟩

theorem list_form {w : MWorld} {c : MCmd} {fs : List Nat} (res : List MNode → Option (MNode × Mtmdd2))
    (h : ∀ t xs, w.hs.nodes fs = some xs → (mLens.setT w t).step c =
      (mLens.setT w t).give ((mLens.setT w t).mgr.wrap (res xs)))
    (hn : w.hs.nodes fs = none → w.step c = none)
    {o : MOut} {w' : MWorld} (hs : w.step c = some (o, w')) :
    ∃ w0 r, mLens.Form mops (fun w => w.step c) w w0 r (.handle w.hs.next) := by
  cases hf : w.hs.nodes fs with
  | none => rw [hn hf] at hs; cases hs
  | some xs => exact w.res_form (res xs) (fun t => h t xs hf) hs

theorem step_form {w : MWorld} {c : MCmd} (hc : wraps c = true) {o : MOut} {w' : MWorld}
    (hs : w.step c = some (o, w')) (ho : ∀ e, o ≠ .err e) :
    ∃ w0 r, mLens.Form mops (fun w => w.step c) w w0 r (.handle w.hs.next) := by
  have none_case : ∀ {P : Prop}, w.step c = none → P := fun h => by rw [h] at hs; cases hs
  have eh : ∀ t, (mLens.setT w t).hs = w.hs := fun t => rfl
  cases c with
  | boolean b => exact w.res_form (some (if b then Mtmdd2.one else Mtmdd2.zero, w.mgr.w.eng)) (fun t => rfl) hs
  | value v => exact w.res_form (w.mgr.w.eng.value v) (fun t => rfl) hs
  | undetBoolean => exact w.res_form (some (Mtmdd2.undetBoolean, w.mgr.w.eng)) (fun t => rfl) hs
  | undetValue => exact w.res_form (some (Mtmdd2.undetValue, w.mgr.w.eng)) (fun t => rfl) hs
  | createNode h fs =>
    exact list_form (fs := fs) (fun xs => w.mgr.w.eng.createNode h xs)
      (fun t xs hx => by simp only [step, onL, eh, hx]; rfl) (fun hx => by simp only [step, onL, hx]) hs
  | andL fs =>
    exact list_form (fs := fs) (fun xs => foldOp .and w.mgr.w.eng Mtmdd2.one xs)
      (fun t xs hx => by simp only [step, onL, eh, hx]; rfl) (fun hx => by simp only [step, onL, hx]) hs
  | orL fs =>
    exact list_form (fs := fs) (fun xs => foldOp .or w.mgr.w.eng Mtmdd2.zero xs)
      (fun t xs hx => by simp only [step, onL, eh, hx]; rfl) (fun hx => by simp only [step, onL, hx]) hs
  | minL fs =>
    exact list_form (fs := fs) (fun xs => match xs with | [] => none | x :: xs => foldOp .min w.mgr.w.eng x xs)
      (fun t xs hx => by simp only [step, onL, eh, hx]; cases xs <;> rfl) (fun hx => by simp only [step, onL, hx]) hs
  | maxL fs =>
    exact list_form (fs := fs) (fun xs => match xs with | [] => none | x :: xs => foldOp .max w.mgr.w.eng x xs)
      (fun t xs hx => by simp only [step, onL, eh, hx]; cases xs <;> rfl) (fun hx => by simp only [step, onL, hx]) hs
  | not f =>
    cases hf : w.hs.held.get f with
    | none => exact none_case (by simp only [step, on1, hf])
    | some i => exact w.res_form (w.mgr.w.eng.not i) (fun t => by simp only [step, on1, eh, hf]; rfl) hs
  | bin op f g =>
    cases hf : w.hs.held.get f with
    | none => exact none_case (by simp only [step, on1, hf])
    | some i =>
      cases hg : w.hs.held.get g with
      | none => exact none_case (by simp only [step, on1, hf, hg])
      | some j => exact w.res_form (op.run w.mgr.w.eng i j) (fun t => by simp only [step, on1, eh, hf, hg]; rfl) hs
  | ite f g h =>
    cases hf : w.hs.held.get f with
    | none => exact none_case (by simp only [step, on1, hf])
    | some i =>
      cases hg : w.hs.held.get g with
      | none => exact none_case (by simp only [step, on1, hf, hg])
      | some j =>
        cases hh : w.hs.held.get h with
        | none => exact none_case (by simp only [step, on1, hf, hg, hh])
        | some k =>
          exact w.res_form (w.mgr.w.eng.ite i j k) (fun t => by simp only [step, on1, eh, hf, hg, hh]; rfl) hs
  | rpn ts vars =>
    cases hl : MddMgr.rpnLoop vars { mgr := w.mgr, stack := [], cache := AMap.empty } ts with
    | none => exact none_case (by simp only [step, MddMgr.rpn, hl])
    | some res =>
      cases res with
      | error e =>
        simp only [step, MddMgr.rpn, hl] at hs
        cases hs
        exact absurd rfl (ho _)
      | ok s =>
        by_cases hx : ∃ x, s.stack = [x]
        · obtain ⟨x, hx⟩ := hx
          have hfl := MddMgr.rpnLoop_floor vars ts hl
          obtain ⟨w0, F⟩ := w.give_form (m := s.mgr) (r := x) hfl (c := .rpn ts vars) (fun t => by
            have h2 := MddMgr.rpnLoop_setT vars ts t { mgr := w.mgr, stack := [], cache := AMap.empty }
            rw [hl] at h2
            have h2 : MddMgr.rpnLoop vars { mgr := w.mgr.setT t, stack := [], cache := AMap.empty } ts =
              some (.ok (s.setT t)) := h2
            show (match (w.mgr.setT t).rpn vars ts with | none => _ | some (.error e, m) => _ | some (.ok r, m) => _) = _
            have h3 : (s.setT t).stack = [x] := hx
            have h4 : (w.mgr.setT t).rpn vars ts = match (s.mgr.setT t).wrap (some (x, s.mgr.w.eng)) with
              | none => none
              | some (r, m') => some (.ok r, m') := by
              simp only [MddMgr.rpn, h2, h3]
              rfl
            rw [h4]
            rcases (s.mgr.setT t).wrap (some (x, s.mgr.w.eng)) with _ | ⟨r, m'⟩ <;> rfl)
          exact ⟨w0, x, F⟩
        · simp only [step, MddMgr.rpn, hl] at hs
          split at hs
          · cases hs
          · cases hs; exact absurd rfl (ho _)
          · rename_i h3
            split at h3
            · rename_i x hst
              exact absurd ⟨x, hst⟩ hx
            · cases h3
  | _ => cases hc

/-- Threshold and floor are the same. -/
def SamePace (w w' : MWorld) : Prop :=
  w'.mgr.w.gc.threshold = w.mgr.w.gc.threshold ∧ w'.mgr.w.gc.floor = w.mgr.w.gc.floor

theorem giveAll_pace (xs : List MNode) : ∀ (w : MWorld), w.SamePace (w.giveAll xs).2 := by
  induction xs with
  | nil => intro w; exact ⟨rfl, rfl⟩
  | cons x xs ih => intro w; exact ih { mgr := w.mgr.pin x, hs := w.hs.give x }

theorem step_quiet {w w' : MWorld} {c : MCmd} {o : MOut} (h : w.step c = some (o, w'))
    (hc : wraps c = false ∨ ∃ e, o = .err e) (hn : ∀ n, c ≠ .setThreshold n) : w.SamePace w' := by
  have gv : ∀ {res : Option (MNode × MddMgr)}, w.give res = some (o, w') →
      (∀ r m, res = some (r, m) → m.w.gc.threshold = w.mgr.w.gc.threshold ∧ m.w.gc.floor = w.mgr.w.gc.floor) →
      w.SamePace w' := by
    intro res h1 h2
    cases res with
    | none => cases h1
    | some p => cases h1; exact h2 _ _ rfl
  have noerr : ∀ {res : Option (MNode × MddMgr)}, w.give res = some (o, w') → ¬ ∃ e, o = .err e := by
    intro res h1
    cases res with
    | none => cases h1
    | some p => cases h1; rintro ⟨e, he⟩; cases he
  cases c with
  | setThreshold n => exact absurd rfl (hn n)
  | rpn ts vars =>
    rcases hc with hc | ⟨e, rfl⟩
    · cases hc
    simp only [step, MddMgr.rpn] at h
    split at h
    · cases h
    · rename_i e' m h1
      cases h
      split at h1
      · cases h1
      · rename_i h2
        cases h1
        exact ⟨(MddMgr.rpnLoop_threshold vars ts).2 h2, MddMgr.rpnLoop_floor_err vars ts h2⟩
      · rename_i s h2
        split at h1
        · split at h1 <;> cases h1
        · cases h1
          exact ⟨(MddMgr.rpnLoop_threshold vars ts).1 h2, MddMgr.rpnLoop_floor vars ts h2⟩
    · rename_i r m h1
      exact absurd ⟨_, rfl⟩ (noerr h)
  | defvar v k =>
    refine gv h fun r m hm => ?_
    refine ⟨?_, MddMgr.defvar_floor hm⟩
    have := MddMgr.defvar_setT w.mgr v k w.mgr.w.gc.threshold
    rw [show w.mgr.setT w.mgr.w.gc.threshold = w.mgr from rfl, hm] at this
    simp only [Option.map, Option.some.injEq, Prod.mk.injEq, true_and] at this
    rw [this]; rfl
  | clone f =>
    simp only [step, on1] at h
    split at h
    · cases h
    · exact gv h fun r m hm => by cases hm; exact ⟨rfl, rfl⟩
  | children f =>
    simp only [step, on1] at h
    split at h
    · cases h
    · split at h
      · cases h
      · cases h; exact ⟨rfl, rfl⟩
      · cases h; exact giveAll_pace _ _
  | gc keep =>
    simp only [step, onL] at h
    split at h
    · cases h
    · split at h
      · cases h
      · rename_i h1
        cases h
        simp only [MddMgr.collect] at h1
        split at h1 <;> cases h1
        exact ⟨rfl, rfl⟩
  | clearCache => cases h; exact ⟨rfl, rfl⟩
  | varorder => simp only [step] at h; split at h <;> cases h; exact ⟨rfl, rfl⟩
  | size => cases h; exact ⟨rfl, rfl⟩
  | liveNodeCount => cases h; exact ⟨rfl, rfl⟩
  | drop f => simp only [step, on1] at h; split at h <;> cases h; exact ⟨rfl, rfl⟩
  | node f => simp only [step, on1] at h; split at h <;> cases h; exact ⟨rfl, rfl⟩
  | header f => simp only [step, on1] at h; split at h <;> cases h; exact ⟨rfl, rfl⟩
  | level f => simp only [step, on1] at h; split at h <;> cases h; exact ⟨rfl, rfl⟩
  | label f => simp only [step, on1] at h; split at h <;> cases h; exact ⟨rfl, rfl⟩
  | isBoolean f => simp only [step, on1] at h; split at h <;> cases h; exact ⟨rfl, rfl⟩
  | isValue f => simp only [step, on1] at h; split at h <;> cases h; exact ⟨rfl, rfl⟩
  | isTerm t f =>
    simp only [step, on1] at h
    split at h
    · cases h
    · split at h <;> cases h; exact ⟨rfl, rfl⟩
  | valueOf f =>
    simp only [step, on1] at h
    split at h
    · cases h
    · split at h <;> cases h; exact ⟨rfl, rfl⟩
  | _ =>
    refine absurd hc ?_
    rintro (hc | ⟨e, rfl⟩)
    · cases hc
    · simp only [step, onL, on1] at h
      repeat' split at h
      all_goals first | exact noerr h ⟨_, rfl⟩ | cases h

theorem setThreshold_spec {w w' : MWorld} {n : Nat} {o : MOut} (h : w.step (.setThreshold n) = some (o, w')) :
    w'.mgr.w.gc.threshold = n ∧ w'.mgr.w.gc.floor = n := by
  cases h; exact ⟨rfl, rfl⟩

end MWorld

namespace ZMWorld

/-- Calls that pass their result through `rewrap`. -/
def wraps : ZMCmd → Bool
  | .intersect _ _ | .setdiff _ _ => true
  | _ => false

/-- What `give` does, in terms of `wrap`. -/
theorem give_eq (w : ZMWorld) (rev : Bool) (vars : List (String × Nat)) (r : Nat) (e : Zmdd) (t : Nat) :
    (zmLens.setT w t).give rev vars (some (r, e)) =
      match ((Wr.mk e w.mgr.gc).setT t).wrap zmOps (some (r, e)) with
      | none => none
      | some (_, m) => some (w.hs.next, { mgr := m, hs := w.hs.give ⟨r, rev, vars⟩ }) := by
  have e1 : (zmLens.setT w t).mgr.wrap zmOps (some (r, e)) = ((Wr.mk e w.mgr.gc).setT t).wrap zmOps (some (r, e)) := rfl
  unfold give
  rw [e1]
  cases hw : ((Wr.mk e w.mgr.gc).setT t).wrap zmOps (some (r, e)) with
  | none => rfl
  | some p =>
    have : p.1 = r := by
      simp only [Wr.wrap] at hw
      split at hw
      · cases hw
      · cases hw; rfl
    obtain ⟨p1, p2⟩ := p
    cases this
    rfl

theorem op2_form {w : ZMWorld} {op : Zmdd → Nat → Nat → Option (Nat × Zmdd)} {f g : Nat} {c : ZMCmd}
    (hc : ∀ w : ZMWorld, w.step c = w.op2 op f g) {o : ZMOut} {w' : ZMWorld} (hs : w.step c = some (o, w')) :
    ∃ w0 r, zmLens.Form zmOps (fun w => w.step c) w w0 r (.handle w.hs.next) := by
  have none_case : ∀ {P : Prop}, w.step c = none → P := fun h => by rw [h] at hs; cases hs
  have eh : ∀ t, (zmLens.setT w t).hs = w.hs := fun t => rfl
  have ee : ∀ t, (zmLens.setT w t).mgr.eng = w.mgr.eng := fun t => rfl
  cases hf : w.hs.held.get f with
  | none => exact none_case (by simp only [hc, op2, on1, hf])
  | some x =>
    cases hg : w.hs.held.get g with
    | none => exact none_case (by simp only [hc, op2, on1, hf, hg])
    | some y =>
      cases hr : op w.mgr.eng x.node y.node with
      | none => exact none_case (by simp only [hc, op2, on1, hf, hg, hr]; rfl)
      | some p =>
        obtain ⟨r, e⟩ := p
        refine ⟨{ mgr := ⟨e, w.mgr.gc⟩, hs := w.hs.give ⟨r, x.reverse, x.vars⟩ }, r, rfl, fun t => ?_⟩
        show (zmLens.setT w t).step c = _
        simp only [hc, op2, on1, eh, ee, hf, hg, hr, give_eq]
        have e1 : (zmLens.mgr { mgr := ⟨e, w.mgr.gc⟩, hs := w.hs.give ⟨r, x.reverse, x.vars⟩ }) = ⟨e, w.mgr.gc⟩ := rfl
        rw [e1]
        cases Wr.wrap zmOps ((Wr.mk e w.mgr.gc).setT t) (some (r, e)) <;> rfl

theorem step_form {w : ZMWorld} {c : ZMCmd} (hc : wraps c = true) {o : ZMOut} {w' : ZMWorld}
    (hs : w.step c = some (o, w')) : ∃ w0 r, zmLens.Form zmOps (fun w => w.step c) w w0 r (.handle w.hs.next) := by
  cases c with
  | intersect f g => exact op2_form (fun _ => rfl) hs
  | setdiff f g => exact op2_form (fun _ => rfl) hs
  | _ => cases hc

theorem step_quiet {w w' : ZMWorld} {c : ZMCmd} {o : ZMOut} (h : w.step c = some (o, w'))
    (hc : wraps c = false) : w'.mgr.gc.threshold = w.mgr.gc.threshold ∧ w'.mgr.gc.floor = w.mgr.gc.floor := by
  cases c with
  | intersect f g => cases hc
  | setdiff f g => cases hc
  | size => cases h; exact ⟨rfl, rfl⟩
  | labels f =>
    simp only [step, on1] at h
    split at h
    · cases h
    · obtain ⟨n, _, h⟩ := Option.map_eq_some_iff.1 h; cases h; exact ⟨rfl, rfl⟩
  | count ss f =>
    simp only [step, on1] at h
    split at h
    · cases h
    · obtain ⟨n, _, h⟩ := Option.map_eq_some_iff.1 h; cases h; exact ⟨rfl, rfl⟩
  | extractLevel v f =>
    simp only [step, on1] at h
    split at h
    · cases h
    · obtain ⟨n, _, h⟩ := Option.map_eq_some_iff.1 h; cases h; exact ⟨rfl, rfl⟩
  | _ => simp only [step, on1] at h; split at h <;> cases h; exact ⟨rfl, rfl⟩

end ZMWorld

namespace MssW

theorem zmdd_form {w w' : MssW} {c : ZMCmd} (hc : ZMWorld.wraps c = true) {o : MssOut}
    (hs : w.step (.zmdd c) = some (o, w')) :
    ∃ w0 r, msLens.Form zmOps (fun w => w.step (.zmdd c)) w w0 r (.zmdd (.handle w.z.hs.next)) := by
  simp only [step] at hs
  obtain ⟨p, h1, h2⟩ := Option.map_eq_some_iff.1 hs
  obtain ⟨w0, r, F⟩ := ZMWorld.step_form hc h1
  exact ⟨{ w with z := w0 }, r, F.lift (up := fun z => ({ w with z := z } : MssW)) (f := MssOut.zmdd)
    (fun _ => rfl) (fun _ _ => rfl) rfl (fun t => rfl)⟩

theorem sol_form {w w' : MssW} {top : Bool} {f : Nat} {h : Nat} (hs : w.sol top f = some (.fam (some h), w')) :
    ∃ w0 r, msLens.Form zmOps (fun w => w.sol top f) w w0 r (.fam (some w.z.hs.next)) := by
  have em : ∀ t, (msLens.setT w t).mdd = w.mdd := fun t => rfl
  simp only [sol] at hs
  split at hs
  case h_2 => cases hs
  case h_1 x fake m hx hsol =>
  split at hs
  case h_2 => cases hs
  case h_1 vars bl hv hb =>
  cases fake with
  | none => cases hs
  | some r0 =>
    dsimp only at hs
    cases hz : toZmdd m.mgr.w.eng r0 w.z.mgr.eng top with
    | none => simp only [ZMWorld.convert, hz] at hs; cases hs
    | some p =>
      obtain ⟨r1, e1⟩ := p
      cases hbz : e1.setBaseline r1 bl with
      | none => simp only [ZMWorld.convert, hz, hbz, ZMWorld.give, Wr.wrap] at hs; cases hs
      | some q =>
        obtain ⟨r, e⟩ := q
        refine ⟨{ mdd := m, z := { mgr := ⟨e, w.z.mgr.gc⟩, hs := w.z.hs.give ⟨r, top, vars⟩ } }, r, rfl, fun t => ?_⟩
        show (msLens.setT w t).sol top f = _
        have ez : (msLens.setT w t).z = zmLens.setT w.z t := rfl
        have ee : (zmLens.setT w.z t).mgr.eng = w.z.mgr.eng := rfl
        simp only [sol, em, hx, hsol, hv, hb, ez, ZMWorld.convert, ee, hz, hbz, ZMWorld.give_eq]
        have e1 : (msLens.mgr { mdd := m, z := { mgr := ⟨e, w.z.mgr.gc⟩, hs := w.z.hs.give ⟨r, top, vars⟩ } }) =
          ⟨e, w.z.mgr.gc⟩ := rfl
        rw [e1]
        cases Wr.wrap zmOps ((Wr.mk e w.z.mgr.gc).setT t) (some (r, e)) <;> rfl

end MssW
end DD
