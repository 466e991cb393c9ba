import Verif.Bss.ReachW
import Verif.Bss.BssStep
import Verif.Wrap.Pace

/-!
# When `BddMgr` and `ZddMgr` collect
-/

set_option autoImplicit false
set_option linter.unusedSectionVars false
set_option linter.unusedVariables false

namespace DD
open Arena

/-- The wrapper's view of the BDD engine, /repo/bss/src/bdd.rs:35-47. -/
def bops : EngOps Bdd Nat := { live := Bdd.liveNodeCount, gc := Bdd.gc }

/-- The manager inside a BDD world. -/
def bLens : Lens World Bdd Nat where
  mgr w := ⟨w.mgr.bdd, w.mgr.gc⟩
  put w m := { w with mgr := { w.mgr with bdd := m.eng, gc := m.gc } }
  mgr_put _ _ := rfl
  put_mgr _ := rfl
  put_put _ _ _ := rfl

/-- The manager inside a ZDD world. -/
def zLens : Lens ZWorld Zdd Nat where
  mgr w := w.mgr.w
  put w m := { w with mgr := { w.mgr with w := m } }
  mgr_put _ _ := rfl
  put_mgr _ := rfl
  put_put _ _ _ := rfl

namespace BddMgr

/-- The same manager with another threshold. -/
def setT (m : BddMgr) (t : Nat) : BddMgr := { m with gc := { m.gc with threshold := t } }

theorem wrap_eq (m : BddMgr) (r : Nat) (b : Bdd) : m.wrap (some (r, b)) =
    match (Wr.mk b m.gc).wrap bops (some (r, b)) with
    | none => none
    | some (_, x) => some (r, { m with bdd := x.eng, gc := x.gc }) := by
  have h1 : ({ m with bdd := b }.pin r).maybeGc = (Wr.maybeGc bops ((Wr.mk b m.gc).pin r)).map
      (fun x => { m with bdd := x.eng, gc := x.gc }) := by
    by_cases h : b.liveNodeCount < m.gc.threshold
    · unfold maybeGc Wr.maybeGc
      rw [if_pos (by exact h), if_pos (by exact h)]
      rfl
    · unfold maybeGc Wr.maybeGc
      rw [if_neg (by exact h), if_neg (by exact h)]
      have e1 : bops.gc ((Wr.mk b m.gc).pin r).eng ((Wr.mk b m.gc).pin r).gc.roots.keys =
        b.gc (pinR m.gc.roots r).keys := rfl
      have e2 : ({ m with bdd := b }.pin r).bdd.gc ({ m with bdd := b }.pin r).gc.roots.keys =
        b.gc (pinR m.gc.roots r).keys := rfl
      rw [e1, e2]
      cases b.gc (pinR m.gc.roots r).keys <;> rfl
  simp only [wrap, Wr.wrap]
  rw [h1]
  cases Wr.maybeGc bops ((Wr.mk b m.gc).pin r) <;> rfl

theorem defvar_setT (m : BddMgr) (v : String) (t : Nat) :
    (m.setT t).defvar v = (m.defvar v).map (fun p => (p.1, p.2.setT t)) := by
  have e1 : (m.setT t).vars = m.vars := rfl
  have e2 : (m.setT t).bdd = m.bdd := rfl
  unfold defvar
  rw [e1, e2]
  cases m.vars.get v with
  | some i => rfl
  | none =>
    dsimp only
    cases (m.bdd.createHeader m.vars.len v).2.createNode (m.bdd.createHeader m.vars.len v).1 Bdd.zero Bdd.one with
    | none => rfl
    | some p => rfl

theorem defvar_floor {m : BddMgr} {v : String} {p : Nat × BddMgr} (h : m.defvar v = some p) :
    p.2.gc.floor = m.gc.floor := by
  unfold defvar at h
  cases hv : m.vars.get v with
  | some i => rw [hv] at h; cases h; rfl
  | none =>
    rw [hv] at h
    dsimp only at h
    split at h
    · cases h
    · cases h; rfl

/-- The same state with another threshold. -/
def RpnSt.setT (s : RpnSt) (t : Nat) : RpnSt := { s with mgr := s.mgr.setT t }

theorem rpnTok_setT (s : RpnSt) (k : Tok) (t : Nat) :
    rpnTok (s.setT t) k = (rpnTok s k).map (fun r => r.map (fun s => s.setT t)) := by
  have hp : ∀ (st : List Nat) (res : Option (Nat × Bdd)), (pushRes (s.mgr.setT t) st res).map
      (fun p => (Except.ok { s.setT t with mgr := p.1, stack := p.2 } : Except RpnErr RpnSt)) =
      ((pushRes s.mgr st res).map (fun p => (Except.ok { s with mgr := p.1, stack := p.2 } : Except RpnErr RpnSt))).map
        (fun r => r.map (fun s => s.setT t)) := by
    intro st res
    cases res <;> rfl
  cases k with
  | const b => rfl
  | and =>
    simp only [rpnTok]
    show (match s.stack with | r :: l :: st => _ | _ => _) = _
    cases s.stack with
    | nil => rfl
    | cons r st => cases st with
      | nil => rfl
      | cons l st => exact hp _ _
  | or =>
    simp only [rpnTok]
    show (match s.stack with | r :: l :: st => _ | _ => _) = _
    cases s.stack with
    | nil => rfl
    | cons r st => cases st with
      | nil => rfl
      | cons l st => exact hp _ _
  | xor =>
    simp only [rpnTok]
    show (match s.stack with | r :: l :: st => _ | _ => _) = _
    cases s.stack with
    | nil => rfl
    | cons r st => cases st with
      | nil => rfl
      | cons l st => exact hp _ _
  | not =>
    simp only [rpnTok]
    show (match s.stack with | x :: st => _ | _ => _) = _
    cases s.stack with
    | nil => rfl
    | cons r st => exact hp _ _
  | ite =>
    simp only [rpnTok]
    show (match s.stack with | e :: t :: c :: st => _ | _ => _) = _
    cases s.stack with
    | nil => rfl
    | cons r st => cases st with
      | nil => rfl
      | cons l st => cases st with
        | nil => rfl
        | cons l st => exact hp _ _
  | save id =>
    simp only [rpnTok]
    have e1 : (s.setT t).stack = s.stack := rfl
    rw [e1]
    cases hs : s.stack with
    | nil => rfl
    | cons x st => simp only [Option.map, Except.map, RpnSt.setT, hs]
  | load id =>
    simp only [rpnTok]
    show (match s.cache.get id with | some x => _ | none => _) = _
    cases s.cache.get id <;> rfl
  | var v =>
    simp only [rpnTok]
    show (match (s.mgr.setT t).defvar v with | none => _ | some (i, m) => _) = _
    rw [defvar_setT]
    cases s.mgr.defvar v <;> rfl

theorem rpnTok_floor {s s' : RpnSt} {k : Tok} (h : rpnTok s k = some (.ok s')) :
    s'.mgr.gc.floor = s.mgr.gc.floor := by
  have hp : ∀ (st : List Nat) (res : Option (Nat × Bdd)), (pushRes s.mgr st res).map
      (fun p => (Except.ok { s with mgr := p.1, stack := p.2 } : Except RpnErr RpnSt)) = some (.ok s') →
      s'.mgr.gc.floor = s.mgr.gc.floor := by
    intro st res h
    cases res with
    | none => cases h
    | some p => cases h; rfl
  cases k with
  | const b => cases h; rfl
  | and => simp only [rpnTok] at h; split at h <;> first | exact hp _ _ h | cases h
  | or => simp only [rpnTok] at h; split at h <;> first | exact hp _ _ h | cases h
  | xor => simp only [rpnTok] at h; split at h <;> first | exact hp _ _ h | cases h
  | not => simp only [rpnTok] at h; split at h <;> first | exact hp _ _ h | cases h
  | ite => simp only [rpnTok] at h; split at h <;> first | exact hp _ _ h | cases h
  | save id => simp only [rpnTok] at h; split at h <;> cases h; rfl
  | load id => simp only [rpnTok] at h; split at h <;> cases h; rfl
  | var v =>
    simp only [rpnTok] at h
    split at h
    · cases h
    · rename_i i m hd
      cases h
      exact defvar_floor hd

theorem rpnLoop_setT (ts : List Tok) (t : Nat) : ∀ (s : RpnSt), rpnLoop (s.setT t) ts =
    (rpnLoop s ts).map (fun r => (r.map (fun s => s.setT t)).mapError (fun e => (e.1, e.2.setT t))) := by
  induction ts with
  | nil => intro s; rfl
  | cons k ts ih =>
    intro s
    simp only [rpnLoop, rpnTok_setT]
    cases rpnTok s k with
    | none => rfl
    | some r =>
      cases r with
      | error e => rfl
      | ok s' => exact ih s'

theorem rpnLoop_floor (ts : List Tok) : ∀ {s s' : RpnSt}, rpnLoop s ts = some (.ok s') →
    s'.mgr.gc.floor = s.mgr.gc.floor := by
  induction ts with
  | nil => intro s s' h; cases h; rfl
  | cons k ts ih =>
    intro s s' h
    simp only [rpnLoop] at h
    split at h
    · cases h
    · cases h
    · rename_i s1 h1
      rw [ih h, rpnTok_floor h1]

theorem rpnLoop_floor_err (ts : List Tok) : ∀ {s : RpnSt} {e : RpnErr} {m : BddMgr},
    rpnLoop s ts = some (.error (e, m)) → m.gc.floor = s.mgr.gc.floor := by
  induction ts with
  | nil => intro s e m h; cases h
  | cons k ts ih =>
    intro s e m h
    simp only [rpnLoop] at h
    split at h
    · cases h
    · cases h; rfl
    · rename_i s1 h1
      rw [ih h, rpnTok_floor h1]

theorem rpnLoop_threshold (ts : List Tok) {s : RpnSt} :
    (∀ {s'}, rpnLoop s ts = some (.ok s') → s'.mgr.gc.threshold = s.mgr.gc.threshold) ∧
    (∀ {e m}, rpnLoop s ts = some (.error (e, m)) → m.gc.threshold = s.mgr.gc.threshold) := by
  have h := rpnLoop_setT ts s.mgr.gc.threshold s
  have e0 : s.setT s.mgr.gc.threshold = s := rfl
  rw [e0] at h
  constructor
  · intro s' h'
    rw [h'] at h
    simp only [Option.map, Except.map, Except.mapError, Option.some.injEq, Except.ok.injEq] at h
    rw [h]; rfl
  · intro e m h'
    rw [h'] at h
    simp only [Option.map, Except.map, Except.mapError, Option.some.injEq, Except.error.injEq, Prod.mk.injEq] at h
    rw [h.2]; rfl

end BddMgr

namespace World

/-- Calls that pass their result through `wrap`. -/
def wraps : Cmd → Bool
  | .const _ | .not _ | .and _ _ | .or _ _ | .xor _ _ | .ite _ _ _ | .dual _ | .createNode _ _ _ | .andList _
  | .orList _ | .kofn _ _ | .rpn _ => true
  | _ => false

theorem give_form (w : World) {r : Nat} {m : BddMgr} (hf : m.gc.floor = w.mgr.gc.floor)
    {c : Cmd} (h : ∀ t, (bLens.setT w t).step c =
      (bLens.setT w t).give ((m.setT t).wrap (some (r, m.bdd)))) :
    ∃ w0, bLens.Form bops (fun w => w.step c) w w0 r (.handle w.next) := by
  refine ⟨{ mgr := m, held := w.held.insert w.next r, next := w.next + 1 }, hf, fun t => ?_⟩
  show (bLens.setT w t).step c = _
  rw [h t, BddMgr.wrap_eq]
  have e1 : (bLens.mgr { mgr := m, held := w.held.insert w.next r, next := w.next + 1 }).setT t =
    ⟨m.bdd, (m.setT t).gc⟩ := rfl
  have e2 : (bLens.mgr { mgr := m, held := w.held.insert w.next r, next := w.next + 1 }).eng = m.bdd := rfl
  rw [e1, e2]
  cases Wr.wrap bops ⟨m.bdd, (m.setT t).gc⟩ (some (r, m.bdd)) <;> rfl

theorem res_form (w : World) {c : Cmd} {res : Option (Nat × Bdd)}
    (h : ∀ t, (bLens.setT w t).step c = (bLens.setT w t).give ((bLens.setT w t).mgr.wrap res))
    {o : Out} {w' : World} (hs : w.step c = some (o, w')) :
    ∃ w0 r, bLens.Form bops (fun w => w.step c) w w0 r (.handle w.next) := by
  cases res with
  | none =>
    have := h w.mgr.gc.threshold
    rw [show bLens.setT w w.mgr.gc.threshold = w from rfl, hs] at this
    cases this
  | some p =>
    obtain ⟨r, b⟩ := p
    obtain ⟨w0, F⟩ := w.give_form (m := { w.mgr with bdd := b }) (r := r) rfl (c := c) (fun t => h t)
    exact ⟨w0, r, F⟩

theorem step_form {w : World} {c : Cmd} (hc : wraps c = true) {o : Out} {w' : World}
    (hs : w.step c = some (o, w')) (ho : ∀ e, o ≠ .err e) :
    ∃ w0 r, bLens.Form bops (fun w => w.step c) w w0 r (.handle w.next) := by
  have none_case : ∀ {P : Prop}, w.step c = none → P := fun h => by rw [h] at hs; cases hs
  cases c with
  | const b => exact w.res_form (res := some (if b then Bdd.one else Bdd.zero, w.mgr.bdd)) (fun t => rfl) hs
  | not f =>
    cases hf : w.held.get f with
    | none => exact none_case (by simp only [step, hf])
    | some i => exact w.res_form (res := w.mgr.bdd.not i) (fun t => by
        have : (bLens.setT w t).held.get f = some i := hf
        simp only [step, this]; rfl) hs
  | dual f =>
    cases hf : w.held.get f with
    | none => exact none_case (by simp only [step, hf])
    | some i => exact w.res_form (res := w.mgr.bdd.dual i) (fun t => by
        have : (bLens.setT w t).held.get f = some i := hf
        simp only [step, this]; rfl) hs
  | and f g =>
    cases hf : w.held.get f with
    | none => exact none_case (by simp only [step, hf])
    | some i =>
      cases hg : w.held.get g with
      | none => exact none_case (by simp only [step, hf, hg])
      | some j => exact w.res_form (res := w.mgr.bdd.and i j) (fun t => by
          have h1 : (bLens.setT w t).held.get f = some i := hf
          have h2 : (bLens.setT w t).held.get g = some j := hg
          simp only [step, h1, h2]; rfl) hs
  | or f g =>
    cases hf : w.held.get f with
    | none => exact none_case (by simp only [step, hf])
    | some i =>
      cases hg : w.held.get g with
      | none => exact none_case (by simp only [step, hf, hg])
      | some j => exact w.res_form (res := w.mgr.bdd.or i j) (fun t => by
          have h1 : (bLens.setT w t).held.get f = some i := hf
          have h2 : (bLens.setT w t).held.get g = some j := hg
          simp only [step, h1, h2]; rfl) hs
  | xor f g =>
    cases hf : w.held.get f with
    | none => exact none_case (by simp only [step, hf])
    | some i =>
      cases hg : w.held.get g with
      | none => exact none_case (by simp only [step, hf, hg])
      | some j => exact w.res_form (res := w.mgr.bdd.xor i j) (fun t => by
          have h1 : (bLens.setT w t).held.get f = some i := hf
          have h2 : (bLens.setT w t).held.get g = some j := hg
          simp only [step, h1, h2]; rfl) hs
  | createNode h f g =>
    cases hf : w.held.get f with
    | none => exact none_case (by simp only [step, hf])
    | some i =>
      cases hg : w.held.get g with
      | none => exact none_case (by simp only [step, hf, hg])
      | some j => exact w.res_form (res := w.mgr.bdd.createNode h i j) (fun t => by
          have h1 : (bLens.setT w t).held.get f = some i := hf
          have h2 : (bLens.setT w t).held.get g = some j := hg
          simp only [step, h1, h2]; rfl) hs
  | ite f g h =>
    cases hf : w.held.get f with
    | none => exact none_case (by simp only [step, hf])
    | some i =>
      cases hg : w.held.get g with
      | none => exact none_case (by simp only [step, hf, hg])
      | some j =>
        cases hh : w.held.get h with
        | none => exact none_case (by simp only [step, hf, hg, hh])
        | some k => exact w.res_form (res := w.mgr.bdd.ite i j k) (fun t => by
            have h1 : (bLens.setT w t).held.get f = some i := hf
            have h2 : (bLens.setT w t).held.get g = some j := hg
            have h3 : (bLens.setT w t).held.get h = some k := hh
            simp only [step, h1, h2, h3]; rfl) hs
  | andList fs =>
    have hn : ∀ t fs, (bLens.setT w t).nodes fs = w.nodes fs := by
      intro t fs
      induction fs with
      | nil => rfl
      | cons f fs ih => simp only [nodes, ih]; rfl
    cases hf : w.nodes fs with
    | none => exact none_case (by simp only [step, hf])
    | some is => exact w.res_form (res := w.mgr.bdd.andList is) (fun t => by
        have : (bLens.setT w t).nodes fs = some is := (hn t fs).trans hf
        simp only [step, this]; rfl) hs
  | orList fs =>
    have hn : ∀ t fs, (bLens.setT w t).nodes fs = w.nodes fs := by
      intro t fs
      induction fs with
      | nil => rfl
      | cons f fs ih => simp only [nodes, ih]; rfl
    cases hf : w.nodes fs with
    | none => exact none_case (by simp only [step, hf])
    | some is => exact w.res_form (res := w.mgr.bdd.orList is) (fun t => by
        have : (bLens.setT w t).nodes fs = some is := (hn t fs).trans hf
        simp only [step, this]; rfl) hs
  | kofn k fs =>
    have hn : ∀ t fs, (bLens.setT w t).nodes fs = w.nodes fs := by
      intro t fs
      induction fs with
      | nil => rfl
      | cons f fs ih => simp only [nodes, ih]; rfl
    cases hf : w.nodes fs with
    | none => exact none_case (by simp only [step, hf])
    | some is => exact w.res_form (res := w.mgr.bdd.kofn k is) (fun t => by
        have : (bLens.setT w t).nodes fs = some is := (hn t fs).trans hf
        simp only [step, this]; rfl) hs
  | rpn ts =>
    cases hl : BddMgr.rpnLoop { mgr := w.mgr, stack := [], cache := AMap.empty } ts with
    | none => exact none_case (by simp only [step, BddMgr.rpn, hl])
    | some res =>
      cases res with
      | error e =>
        simp only [step, BddMgr.rpn, hl] at hs
        cases hs
        exact absurd rfl (ho _)
      | ok s =>
        by_cases hx : ∃ x, s.stack = [x]
        · obtain ⟨x, hx⟩ := hx
          have hfl := BddMgr.rpnLoop_floor ts hl
          obtain ⟨w0, F⟩ := w.give_form (m := s.mgr) (r := x) hfl (c := .rpn ts) (fun t => by
            have h2 := BddMgr.rpnLoop_setT ts t { mgr := w.mgr, stack := [], cache := AMap.empty }
            rw [hl] at h2
            have h2 : BddMgr.rpnLoop { mgr := w.mgr.setT t, stack := [], cache := AMap.empty } ts =
              some (.ok (s.setT t)) := h2
            show (match (w.mgr.setT t).rpn ts with | none => _ | some (.error e, m) => _ | some (.ok r, m) => _) = _
            have h3 : (s.setT t).stack = [x] := hx
            have h4 : (w.mgr.setT t).rpn ts = match (s.mgr.setT t).wrap (some (x, s.mgr.bdd)) with
              | none => none
              | some (r, m') => some (.ok r, m') := by
              simp only [BddMgr.rpn, h2, h3]
              rfl
            rw [h4]
            rcases (s.mgr.setT t).wrap (some (x, s.mgr.bdd)) with _ | ⟨r, m'⟩ <;> rfl)
          exact ⟨w0, x, F⟩
        · simp only [step, BddMgr.rpn, hl] at hs
          split at hs
          · cases hs
          · cases hs; exact absurd rfl (ho _)
          · rename_i h3
            split at h3
            · rename_i x hst
              exact absurd ⟨x, hst⟩ hx
            · cases h3
  | _ => cases hc

/-- Threshold and floor are the same. -/
def SamePace (w w' : World) : Prop :=
  w'.mgr.gc.threshold = w.mgr.gc.threshold ∧ w'.mgr.gc.floor = w.mgr.gc.floor

theorem step_quiet {w w' : World} {c : Cmd} {o : Out} (h : w.step c = some (o, w'))
    (hc : wraps c = false ∨ ∃ e, o = .err e) (hn : ∀ n, c ≠ .setThreshold n) : w.SamePace w' := by
  have gv : ∀ {res : Option (Nat × BddMgr)}, w.give res = some (o, w') →
      (∀ r m, res = some (r, m) → m.gc.threshold = w.mgr.gc.threshold ∧ m.gc.floor = w.mgr.gc.floor) → w.SamePace w' := by
    intro res h1 h2
    cases res with
    | none => cases h1
    | some p => cases h1; exact h2 _ _ rfl
  have noerr : ∀ {res : Option (Nat × BddMgr)}, w.give res = some (o, w') → ¬ ∃ e, o = .err e := by
    intro res h1
    cases res with
    | none => cases h1
    | some p => cases h1; rintro ⟨e, he⟩; cases he
  cases c with
  | setThreshold n => exact absurd rfl (hn n)
  | rpn ts =>
    rcases hc with hc | ⟨e, rfl⟩
    · cases hc
    simp only [step, BddMgr.rpn] at h
    split at h
    · cases h
    · rename_i e' m h1
      cases h
      split at h1
      · cases h1
      · rename_i h2
        cases h1
        exact ⟨(BddMgr.rpnLoop_threshold ts).2 h2, BddMgr.rpnLoop_floor_err ts h2⟩
      · rename_i s h2
        split at h1
        · split at h1 <;> cases h1
        · cases h1
          exact ⟨(BddMgr.rpnLoop_threshold ts).1 h2, BddMgr.rpnLoop_floor ts h2⟩
    · rename_i r m h1
      exact absurd ⟨_, rfl⟩ (noerr h)
  | defvar v =>
    refine gv h fun r m hm => ?_
    refine ⟨?_, BddMgr.defvar_floor hm⟩
    have := BddMgr.defvar_setT w.mgr v w.mgr.gc.threshold
    rw [show w.mgr.setT w.mgr.gc.threshold = w.mgr from rfl, hm] at this
    simp only [Option.map, Option.some.injEq, Prod.mk.injEq, true_and] at this
    rw [this]; rfl
  | clone f =>
    simp only [step] at h
    split at h
    · exact gv h fun r m hm => by cases hm; exact ⟨rfl, rfl⟩
    · cases h
  | drop f => simp only [step] at h; split at h <;> cases h; exact ⟨rfl, rfl⟩
  | children f =>
    simp only [step] at h
    split at h
    · cases h
    · split at h <;> cases h <;> exact ⟨rfl, rfl⟩
  | gc keep =>
    simp only [step] at h
    split at h
    · cases h
    · split at h
      · cases h
      · rename_i h1
        cases h
        simp only [BddMgr.collect] at h1
        split at h1 <;> cases h1
        exact ⟨rfl, rfl⟩
  | clearCache => cases h; exact ⟨rfl, rfl⟩
  | eq f g => simp only [step] at h; split at h <;> cases h; exact ⟨rfl, rfl⟩
  | isZero f =>
    simp only [step] at h
    split at h
    · obtain ⟨n, _, h⟩ := Option.map_eq_some_iff.1 h; cases h; exact ⟨rfl, rfl⟩
    · cases h
  | isOne f =>
    simp only [step] at h
    split at h
    · obtain ⟨n, _, h⟩ := Option.map_eq_some_iff.1 h; cases h; exact ⟨rfl, rfl⟩
    · cases h
  | isUndet f =>
    simp only [step] at h
    split at h
    · obtain ⟨n, _, h⟩ := Option.map_eq_some_iff.1 h; cases h; exact ⟨rfl, rfl⟩
    · cases h
  | level f => simp only [step] at h; split at h <;> cases h; exact ⟨rfl, rfl⟩
  | varorder => obtain ⟨n, _, h⟩ := Option.map_eq_some_iff.1 h; cases h; exact ⟨rfl, rfl⟩
  | minsol f =>
    simp only [step] at h
    split at h
    · cases h
    · split at h <;> cases h; exact ⟨rfl, rfl⟩
  | _ =>
    refine absurd hc ?_
    rintro (hc | ⟨e, rfl⟩)
    · cases hc
    · simp only [step] at h
      first
      | exact noerr h ⟨_, rfl⟩
      | (split at h <;> first | exact noerr h ⟨_, rfl⟩ | cases h)

theorem setThreshold_spec {w w' : World} {n : Nat} {o : Out} (h : w.step (.setThreshold n) = some (o, w')) :
    w'.mgr.gc.threshold = n ∧ w'.mgr.gc.floor = n := by
  cases h; exact ⟨rfl, rfl⟩

end World

namespace ZWorld

/-- Calls that pass their result through `wrap` once. -/
def wraps : ZCmd → Bool
  | .empty | .base | .singleton _ | .union _ _ | .intersect _ _ | .setdiff _ _ | .product _ _ | .divide _ _ => true
  | _ => false

theorem give_form (w : ZWorld) {r : Nat} {m : ZddMgr} (hf : m.w.gc = w.mgr.w.gc) {c : ZCmd}
    (h : ∀ t, (zLens.setT w t).step c = (zLens.setT w t).give
      (({ m with w := m.w.setT t } : ZddMgr).wrap (some (r, m.w.eng)))) :
    ∃ w0, zLens.Form zops (fun w => w.step c) w w0 r (.handle w.hs.next) := by
  refine ⟨{ mgr := m, hs := w.hs.give r }, by show m.w.gc.floor = _; rw [hf]; rfl, fun t => ?_⟩
  show (zLens.setT w t).step c = _
  rw [h t]
  have e : ∀ (x : ZddMgr) (res : Option (Nat × Zdd)), (zLens.setT w t).give (x.wrap res) =
      match x.w.wrap zops res with
      | none => none
      | some (r, m) => some (.handle w.hs.next, { mgr := { x with w := m }, hs := w.hs.give r }) := by
    intro x res
    simp only [ZddMgr.wrap]
    cases x.w.wrap zops res <;> rfl
  rw [e]
  have e1 : (zLens.mgr { mgr := m, hs := w.hs.give r }).setT t = m.w.setT t := rfl
  have e2 : (zLens.mgr { mgr := m, hs := w.hs.give r }).eng = m.w.eng := rfl
  rw [e1, e2]
  cases hw : (m.w.setT t).wrap zops (some (r, m.w.eng)) with
  | none => rfl
  | some p =>
    have : p.1 = r := by
      simp only [Wr.wrap] at hw
      split at hw
      · cases hw
      · cases hw; rfl
    obtain ⟨p1, p2⟩ := p
    cases this
    rfl

theorem res_form (w : ZWorld) {c : ZCmd} {res : Option (Nat × Zdd)}
    (h : ∀ t, (zLens.setT w t).step c = (zLens.setT w t).give ((zLens.setT w t).mgr.wrap res))
    {o : ZOut} {w' : ZWorld} (hs : w.step c = some (o, w')) :
    ∃ w0 r, zLens.Form zops (fun w => w.step c) w w0 r (.handle w.hs.next) := by
  cases res with
  | none =>
    have := h w.mgr.w.gc.threshold
    rw [show zLens.setT w w.mgr.w.gc.threshold = w from rfl, hs] at this
    cases this
  | some p =>
    obtain ⟨r, b⟩ := p
    obtain ⟨w0, F⟩ := w.give_form (m := { w.mgr with w := { w.mgr.w with eng := b } }) (r := r) rfl (c := c) (fun t => h t)
    exact ⟨w0, r, F⟩

theorem op2_form {w : ZWorld} {op : Zdd → Nat → Nat → Option (Nat × Zdd)} {f g : Nat} {c : ZCmd}
    (hc : ∀ w : ZWorld, w.step c = w.op2 op f g) {o : ZOut} {w' : ZWorld} (hs : w.step c = some (o, w')) :
    ∃ w0 r, zLens.Form zops (fun w => w.step c) w w0 r (.handle w.hs.next) := by
  have none_case : ∀ {P : Prop}, w.step c = none → P := fun h => by rw [h] at hs; cases hs
  cases hf : w.hs.held.get f with
  | none => exact none_case (by simp only [hc, op2, hf])
  | some i =>
    cases hg : w.hs.held.get g with
    | none => exact none_case (by simp only [hc, op2, hf, hg])
    | some j => exact w.res_form (res := op w.mgr.w.eng i j) (fun t => by
        have h1 : (zLens.setT w t).hs.held.get f = some i := hf
        have h2 : (zLens.setT w t).hs.held.get g = some j := hg
        simp only [hc, op2, h1, h2]; rfl) hs

theorem step_form {w : ZWorld} {c : ZCmd} (hc : wraps c = true) {o : ZOut} {w' : ZWorld}
    (hs : w.step c = some (o, w')) : ∃ w0 r, zLens.Form zops (fun w => w.step c) w w0 r (.handle w.hs.next) := by
  cases c with
  | empty => exact w.res_form (res := some (Zdd.zero, w.mgr.w.eng)) (fun t => rfl) hs
  | base => exact w.res_form (res := some (Zdd.one, w.mgr.w.eng)) (fun t => rfl) hs
  | singleton x =>
    have key : ∀ t, (zLens.setT w t).mgr.singleton x =
        ({ (w.mgr.header x).2 with w := (w.mgr.header x).2.w.setT t } : ZddMgr).wrap
          ((w.mgr.header x).2.w.eng.createNode (w.mgr.header x).1 Zdd.zero Zdd.one) := by
      intro t
      have e1 : (zLens.setT w t).mgr.vars = w.mgr.vars := rfl
      simp only [ZddMgr.singleton, ZddMgr.header, e1]
      cases w.mgr.vars.get x <;> rfl
    have hg : (w.mgr.header x).2.w.gc = w.mgr.w.gc := by
      unfold ZddMgr.header
      cases w.mgr.vars.get x <;> rfl
    cases hn : (w.mgr.header x).2.w.eng.createNode (w.mgr.header x).1 Zdd.zero Zdd.one with
    | none =>
      have := key w.mgr.w.gc.threshold
      rw [hn] at this
      have h2 : w.step (.singleton x) = none := by
        show w.give (w.mgr.singleton x) = none
        have this : w.mgr.singleton x = _ := this
        rw [this]; rfl
      rw [h2] at hs; cases hs
    | some p =>
      obtain ⟨r, b⟩ := p
      obtain ⟨w0, F⟩ := w.give_form
        (m := { (w.mgr.header x).2 with w := { (w.mgr.header x).2.w with eng := b } }) (r := r) hg
        (c := .singleton x) (fun t => by
          show (zLens.setT w t).give ((zLens.setT w t).mgr.singleton x) = _
          rw [key t, hn]; rfl)
      exact ⟨w0, r, F⟩
  | union f g => exact op2_form (fun _ => rfl) hs
  | intersect f g => exact op2_form (fun _ => rfl) hs
  | setdiff f g => exact op2_form (fun _ => rfl) hs
  | product f g => exact op2_form (fun _ => rfl) hs
  | divide f g => exact op2_form (fun _ => rfl) hs
  | _ => cases hc

/-- Threshold and floor are the same. -/
def SamePace (w w' : ZWorld) : Prop :=
  w'.mgr.w.gc.threshold = w.mgr.w.gc.threshold ∧ w'.mgr.w.gc.floor = w.mgr.w.gc.floor

theorem step_quiet {w w' : ZWorld} {c : ZCmd} {o : ZOut} (h : w.step c = some (o, w'))
    (hc : wraps c = false) (hf : ∀ ss, c ≠ .fromSets ss) (hn : ∀ n, c ≠ .setThreshold n) : w.SamePace w' := by
  cases c with
  | setThreshold n => exact absurd rfl (hn n)
  | fromSets ss => exact absurd rfl (hf ss)
  | clone f => simp only [step] at h; split at h <;> cases h; exact ⟨rfl, rfl⟩
  | drop f => simp only [step] at h; split at h <;> cases h; exact ⟨rfl, rfl⟩
  | children f =>
    simp only [step] at h
    split at h
    · cases h
    · split at h <;> cases h <;> exact ⟨rfl, rfl⟩
  | clearCache => cases h; exact ⟨rfl, rfl⟩
  | eq f g => simp only [step] at h; split at h <;> cases h; exact ⟨rfl, rfl⟩
  | isZero f =>
    simp only [step] at h
    split at h
    · obtain ⟨n, _, h⟩ := Option.map_eq_some_iff.1 h; cases h; exact ⟨rfl, rfl⟩
    · cases h
  | isOne f =>
    simp only [step] at h
    split at h
    · obtain ⟨n, _, h⟩ := Option.map_eq_some_iff.1 h; cases h; exact ⟨rfl, rfl⟩
    · cases h
  | header f => simp only [step] at h; split at h <;> cases h; exact ⟨rfl, rfl⟩
  | level f => simp only [step] at h; split at h <;> cases h; exact ⟨rfl, rfl⟩
  | label f => simp only [step] at h; split at h <;> cases h; exact ⟨rfl, rfl⟩
  | _ => cases hc

end ZWorld

/-! ## `from_sets` -/

namespace ZddMgr

/-- Below the threshold (or nothing at all in use). -/
def Low (f : Nat) (m : ZddMgr) : Prop :=
  zops.live m.w.eng < max m.w.gc.threshold 1 ∧ m.w.gc.floor = f

theorem wrap_low {m m' : ZddMgr} {r : Nat} {res : Option (Nat × Zdd)} (h : m.wrap res = some (r, m')) :
    Low m.w.gc.floor m' := by
  simp only [wrap] at h
  split at h
  · cases h
  · rename_i r' x hw
    cases h
    cases res with
    | none => cases hw
    | some p =>
      obtain ⟨r0, e⟩ := p
      simp only [Wr.wrap, Wr.maybeGc] at hw
      split at hw
      · cases hw
      · rename_i m1 h1
        cases hw
        split at h1
        · rename_i hlt
          cases h1
          exact ⟨Nat.lt_of_lt_of_le hlt (Nat.le_max_left _ _), rfl⟩
        · split at h1
          · cases h1
          · rename_i n e' _
            cases h1
            refine ⟨?_, rfl⟩
            show zops.live e' < max (max (zops.live e' * 2) m.w.gc.floor) 1
            omega

theorem header_gc (m : ZddMgr) (x : String) : (m.header x).2.w.gc = m.w.gc := by
  unfold header
  cases m.vars.get x <;> rfl

theorem singleton_low {m m' : ZddMgr} {x : String} {r : Nat} (h : m.singleton x = some (r, m')) :
    Low m.w.gc.floor m' := by
  simp only [singleton] at h
  have := wrap_low h
  rw [header_gc] at this
  exact this

theorem unpin_low {m : ZddMgr} {f i : Nat} (h : Low f m) : Low f (m.unpin i) := h

theorem fromSet_low (xs : List String) : ∀ {m m' : ZddMgr} {f fam r : Nat}, Low f m →
    m.fromSet fam xs = some (r, m') → Low f m' := by
  induction xs with
  | nil => intro m m' f fam r hl h; cases h; exact hl
  | cons x xs ih =>
    intro m m' f fam r hl h
    simp only [fromSet] at h
    split at h
    · cases h
    · rename_i s m1 h1
      have l1 := singleton_low h1
      split at h
      · cases h
      · rename_i fam' m2 h2
        have l2 := wrap_low h2
        rw [l1.2, hl.2] at l2
        exact ih (unpin_low (unpin_low l2)) h

theorem fromSetsLoop_low (ss : List (List String)) : ∀ {m m' : ZddMgr} {f res r : Nat}, Low f m →
    m.fromSetsLoop res ss = some (r, m') → Low f m' := by
  induction ss with
  | nil => intro m m' f res r hl h; cases h; exact hl
  | cons s ss ih =>
    intro m m' f res r hl h
    simp only [fromSetsLoop] at h
    split at h
    · cases h
    · rename_i fam m1 h1
      have l1 := wrap_low h1
      rw [hl.2] at l1
      split at h
      · cases h
      · rename_i fam2 m2 h2
        have l2 := fromSet_low _ l1 h2
        split at h
        · cases h
        · rename_i r3 m3 h3
          have l3 := wrap_low h3
          rw [l2.2] at l3
          exact ih (unpin_low (unpin_low l3)) h

theorem fromSets_low {m m' : ZddMgr} {ss : List (List String)} {r : Nat} (h : m.fromSets ss = some (r, m')) :
    Low m.w.gc.floor m' := by
  simp only [fromSets] at h
  split at h
  · cases h
  · rename_i r1 m1 h1
    exact fromSetsLoop_low ss (wrap_low h1) h

end ZddMgr

/-! ## `BssMgr` -/

/-- The ZDD manager inside a `BssMgr`. -/
def bsLens : Lens BssW Zdd Nat where
  mgr w := w.zdd.mgr.w
  put w m := { w with zdd := { w.zdd with mgr := { w.zdd.mgr with w := m } } }
  mgr_put _ _ := rfl
  put_mgr _ := rfl
  put_put _ _ _ := rfl

namespace BssW

theorem minpath_form {w w' : BssW} {f h : Nat} (hs : w.minpath f = some (.fam (some h), w')) :
    ∃ w0 r, bsLens.Form zops (fun w => w.minpath f) w w0 r (.fam (some w.zdd.hs.next)) := by
  simp only [minpath] at hs
  split at hs
  · cases hs
  · rename_i i hi
    split at hs
    · cases hs
    · cases hs
    · rename_i r b hb
      cases hz : Zdd.toZdd b.arena w.zdd.mgr.w.eng r with
      | none => rw [hz] at hs; cases hs
      | some p =>
        obtain ⟨z, e⟩ := p
        refine ⟨{ bdd := { w.bdd with mgr := { w.bdd.mgr with bdd := b } }
                  zdd := { mgr := { w.zdd.mgr with w := { w.zdd.mgr.w with eng := e } }, hs := w.zdd.hs.give z } },
          z, rfl, fun t => ?_⟩
        have e1 : (bsLens.setT w t).bdd = w.bdd := rfl
        have e2 : (bsLens.setT w t).zdd.mgr.w.eng = w.zdd.mgr.w.eng := rfl
        show (bsLens.setT w t).minpath f = _
        simp only [minpath, e1, hi, hb, e2, hz]
        have e3 : (bsLens.setT w t).zdd.mgr.wrap (some (z, e)) =
            match ((Wr.mk e w.zdd.mgr.w.gc).setT t).wrap zops (some (z, e)) with
            | none => none
            | some (r, m) => some (r, { w.zdd.mgr with w := m }) := rfl
        have e4 : (bsLens.mgr { bdd := { w.bdd with mgr := { w.bdd.mgr with bdd := b } }
                                zdd := { mgr := { w.zdd.mgr with w := { w.zdd.mgr.w with eng := e } }
                                         hs := w.zdd.hs.give z } }) = Wr.mk e w.zdd.mgr.w.gc := rfl
        rw [e3, e4]
        cases hw : ((Wr.mk e w.zdd.mgr.w.gc).setT t).wrap zops (some (z, e)) with
        | none => rfl
        | some p =>
          have : p.1 = z := by
            simp only [Wr.wrap] at hw
            split at hw
            · cases hw
            · cases hw; rfl
          obtain ⟨p1, p2⟩ := p
          cases this
          rfl

theorem mincut_form {w w' : BssW} {f h : Nat} (hs : w.mincut f = some (.fam (some h), w')) :
    ∃ w0 r, bsLens.Form zops (fun w => w.mincut f) w w0 r (.fam (some w.zdd.hs.next)) := by
  simp only [mincut] at hs
  split at hs
  · rename_i d b hd
    split at hs
    · cases hs
    · rename_i o w2 h2
      split at hs
      · cases hs
      · rename_i o3 b3 h3
        cases hs
        obtain ⟨w0, r, F⟩ := minpath_form h2
        have hm : ∀ t, (bsLens.setT ({ w with bdd := b } : BssW) t).minpath d =
          match ((bsLens.mgr w0).setT t).wrap zops (some (r, (bsLens.mgr w0).eng)) with
          | none => none
          | some (_, m) => some (.fam (some w.zdd.hs.next), bsLens.put w0 m) := fun t => (F.2 t).trans (by
            cases Wr.wrap zops ((bsLens.mgr w0).setT t) (some (r, (bsLens.mgr w0).eng)) <;> rfl)
        have hbdd : w0.bdd = w2.bdd := by
          have := hm w.zdd.mgr.w.gc.threshold
          rw [show bsLens.setT ({ w with bdd := b } : BssW) w.zdd.mgr.w.gc.threshold = { w with bdd := b } from rfl,
            h2] at this
          split at this
          · cases this
          · simp only [Option.some.injEq, Prod.mk.injEq] at this
            rw [this.2]; rfl
        refine ⟨{ w0 with bdd := b3 }, r, F.1, fun t => ?_⟩
        show (bsLens.setT w t).mincut f = _
        have e1 : (bsLens.setT w t).bdd = w.bdd := rfl
        have e2 : (⟨b, (bsLens.setT w t).zdd⟩ : BssW) = bsLens.setT ({ w with bdd := b } : BssW) t := rfl
        have e3 : bsLens.mgr ({ w0 with bdd := b3 } : BssW) = bsLens.mgr w0 := rfl
        simp only [mincut, e1, hd, e2, hm, e3]
        cases Wr.wrap zops ((bsLens.mgr w0).setT t) (some (r, (bsLens.mgr w0).eng)) with
        | none => rfl
        | some p =>
          have e4 : (bsLens.put w0 p.2).bdd = w2.bdd := hbdd
          simp only [e4, h3]
          rfl
  · cases hs

theorem zdd_form {w w' : BssW} {c : ZCmd} (hc : ZWorld.wraps c = true) {o : BssOut}
    (hs : w.step (.zdd c) = some (o, w')) :
    ∃ w0 r, bsLens.Form zops (fun w => w.step (.zdd c)) w w0 r (.zdd (.handle w.zdd.hs.next)) := by
  simp only [step] at hs
  split at hs
  · rename_i hsh
    obtain ⟨p, h1, h2⟩ := Option.map_eq_some_iff.1 hs
    obtain ⟨w0, r, F⟩ := ZWorld.step_form hc h1
    refine ⟨{ w with zdd := w0 }, r, F.lift (up := fun z => ({ w with zdd := z } : BssW)) (f := BssOut.zdd)
      (fun _ => rfl) (fun _ _ => rfl) rfl (fun t => ?_)⟩
    simp only [step, hsh, if_true]
  · cases hs

end BssW
end DD
