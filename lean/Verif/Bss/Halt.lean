import Verif.Bss.ReachW

/-!
# The state a caught panic of `BddMgr::rpn` leaves

`BddMgr::rpn` evaluates its tokens one after the other on the manager itself (`&mut self`), so a panic at some token,
caught by the client with `catch_unwind`, leaves the manager as the tokens before it made it.  Nothing of the failing
token itself has happened: each operator pops its operands before it calls the forest (/repo/bss/src/bdd.rs:270-300),
and the pop is what panics.  The guards of the borrows are released by unwinding; `RefCell` has no poisoning.
-/

set_option autoImplicit false
set_option linter.unusedSectionVars false
set_option linter.unusedVariables false

namespace DD

namespace BddMgr

/-- The state in which the loop of `rpn` panics, and the token at which it does.  /repo/bss/src/bdd.rs:267-327 -/
def rpnHalt (s : RpnSt) : List Tok → Option (RpnSt × Tok)
  | [] => none
  | t :: ts =>
    match rpnTok s t with
    | none => some (s, t)
    | some (.error _) => none
    | some (.ok s') => rpnHalt s' ts

theorem rpnHalt_spec : ∀ {ts : List Tok} {s u : RpnSt} {t : Tok}, rpnHalt s ts = some (u, t) →
    ∃ pre rest, ts = pre ++ t :: rest ∧ rpnLoop s pre = some (.ok u) ∧ rpnTok u t = none := by
  intro ts
  induction ts with
  | nil => intro s u t h; cases h
  | cons k ts ih =>
    intro s u t h
    unfold rpnHalt at h
    split at h
    · rename_i hk
      simp only [Option.some.injEq, Prod.mk.injEq] at h
      obtain ⟨rfl, rfl⟩ := h
      exact ⟨[], ts, rfl, rfl, hk⟩
    · cases h
    · rename_i s' hk
      obtain ⟨pre, rest, rfl, h2, h3⟩ := ih h
      refine ⟨k :: pre, rest, rfl, ?_, h3⟩
      simp only [rpnLoop, hk]
      exact h2

theorem rpnHalt_iff : ∀ (ts : List Tok) (s : RpnSt), (rpnHalt s ts).isSome ↔ rpnLoop s ts = none := by
  intro ts
  induction ts with
  | nil => intro s; simp [rpnHalt, rpnLoop]
  | cons k ts ih =>
    intro s
    unfold rpnHalt rpnLoop
    cases hk : rpnTok s k with
    | none => simp
    | some r =>
      cases r with
      | error e => simp
      | ok s' => exact ih s'

theorem rpnLoop_append : ∀ {pre : List Tok} {s u : RpnSt} (ts : List Tok), rpnLoop s pre = some (.ok u) →
    rpnLoop s (pre ++ ts) = rpnLoop u ts := by
  intro pre
  induction pre with
  | nil => intro s u ts h; simp only [rpnLoop, Option.some.injEq, Except.ok.injEq] at h; subst h; rfl
  | cons k pre ih =>
    intro s u ts h
    simp only [rpnLoop, List.cons_append] at h ⊢
    split at h
    · cases h
    · cases h
    · rename_i s' hk
      exact ih ts h

/-- An expression that stops with `Err` in exactly the state in which another one panics. -/
theorem rpn_stop {m : BddMgr} {pre : List Tok} {u : RpnSt}
    (h : rpnLoop { mgr := m, stack := [], cache := AMap.empty } pre = some (.ok u)) :
    m.rpn (pre ++ [.const false, .const false]) = some (.error .invalid, u.mgr) := by
  unfold rpn
  rw [rpnLoop_append _ h]
  rfl

/-- A panic of `rpn` is a panic of the loop, when the manager is in order. -/
theorem rpn_none_loop {m : BddMgr} {names : List String} {L : List Nat} (h : MOK m names L) {ts : List Tok}
    (hn : m.rpn ts = none) : rpnLoop { mgr := m, stack := [], cache := AMap.empty } ts = none := by
  have h1 := h.rpn ts
  have h2 := MOK.rpnLoop (L := L) ts (s := ⟨m, [], AMap.empty⟩) (t := ⟨names, [], fun _ => none⟩)
    ⟨h, .nil, fun _ _ => rfl, by intro id i hi; cases hi⟩
  cases ha : arpn names ts with
  | none =>
    unfold arpn at ha
    split at ha
    · rename_i hl
      rw [hl] at h2
      exact h2
    · cases ha
    · split at ha <;> cases ha
  | some p =>
    rw [ha] at h1
    obtain ⟨r, ns⟩ := p
    cases r with
    | error e => obtain ⟨m', e1, _⟩ := h1; rw [hn] at e1; cases e1
    | ok F => obtain ⟨i, m', e1, _⟩ := h1; rw [hn] at e1; cases e1

end BddMgr

namespace World

/-- The state that a client who catches the panic of a call finds.  Only `rpn` is listed: no other call of `BddMgr`
or `BddNode` on held handles panics (`C03_no_panic`). -/
def caught (w : World) : Cmd → Option World
  | .rpn ts => (BddMgr.rpnHalt { mgr := w.mgr, stack := [], cache := AMap.empty } ts).map
      fun p => { w with mgr := p.1.mgr }
  | _ => none

/-- Worlds reachable from a new manager by public calls, some of which may panic and be caught. -/
inductive Survives : World → Prop
  | new : Survives World.new
  | step {w w' : World} {o : Out} (c : Cmd) : Survives w → w.Ordered c → w.step c = some (o, w') → Survives w'
  | caught {w w' : World} (c : Cmd) : Survives w → w.step c = none → w.caught c = some w' → Survives w'

end World
end DD
