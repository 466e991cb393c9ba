import Verif.Mss.Fit
import Verif.Mss.Step

/-!
# The MDD manager over machine integers

`mss::MddMgr<V>` for `V` = signed `n`-bit integers (`i32`, `i64`), with and without overflow checks.  Only the four
arithmetic operations differ from the model over mathematical integers; they are reached by `MddNode::add` etc. and by
`rpn` (/repo/mss/src/mdd.rs:297-470, 748-866).  `V::from(i32)` is the inclusion because `n ≥ 32`.
-/

set_option autoImplicit false
set_option linter.unusedSectionVars false
set_option linter.unusedVariables false

namespace DD
open Arena Mtmdd2

namespace MddMgr

/-- One token, /repo/mss/src/mdd.rs:301-463. -/
def rpnTokIn (b : Build) (n : Nat) (vars : String → Option Nat) (s : RpnSt) : MTok → Option (Except RpnErr RpnSt)
  | .bin o =>
    match s.stack with
    | y :: x :: st => s.push st (o.runIn b n s.mgr.w.eng x y)
    | _ => none
  | t => rpnTok vars s t

/-- The loop over the tokens. -/
def rpnLoopIn (b : Build) (n : Nat) (vars : String → Option Nat) (s : RpnSt) :
    List MTok → Option (Except (RpnErr × MddMgr) RpnSt)
  | [] => some (.ok s)
  | t :: ts =>
    match rpnTokIn b n vars s t with
    | none => none
    | some (.error e) => some (.error (e, s.mgr))
    | some (.ok s') => rpnLoopIn b n vars s' ts

/-- /repo/mss/src/mdd.rs:297-470 on the list of tokens. -/
def rpnIn (b : Build) (n : Nat) (m : MddMgr) (vars : String → Option Nat) (ts : List MTok) :
    Option (Except RpnErr MNode × MddMgr) :=
  match rpnLoopIn b n vars { mgr := m, stack := [], cache := AMap.empty } ts with
  | none => none
  | some (.error (e, m')) => some (.error e, m')
  | some (.ok s) =>
    match s.stack with
    | [x] =>
      match s.mgr.wrap (some (x, s.mgr.w.eng)) with
      | none => none
      | some (r, m') => some (.ok r, m')
    | _ => some (.error .invalid, s.mgr)

end MddMgr

namespace MWorld

/-- One public call over signed `n`-bit integers. -/
def stepIn (b : Build) (n : Nat) (w : MWorld) : MCmd → Option (MOut × MWorld)
  | .rpn ts vars =>
    match w.mgr.rpnIn b n vars ts with
    | none => none
    | some (.error e, m) => some (.err e, { w with mgr := m })
    | some (.ok x, m) => w.give (some (x, m))
  | .bin o f g => w.on1 f fun x => w.on1 g fun y => w.give (w.mgr.wrap (o.runIn b n w.mgr.w.eng x y))
  | c => w.step c

/-- The constants of the call are of the value type: `value` takes a `V`; the states of a variable and the integers of
an `rpn` expression are `i32`s (/repo/mss/src/mdd.rs:220, 446). -/
def InRange (n : Nat) : MCmd → Prop
  | .value v => Fits n v
  | .defvar _ r => r ≤ 2 ^ 31
  | .rpn ts vars => (∀ v, .int v ∈ ts → Fits 32 v) ∧ ∀ x r, vars x = some r → r ≤ 2 ^ 31
  | _ => True

/-- Worlds reachable by public calls over signed `n`-bit integers. -/
inductive ReachableIn (b : Build) (n : Nat) : MWorld → Prop
  | new : ReachableIn b n MWorld.new
  | sol {w w' : MWorld} {o : Option MNode} (top : Bool) (f : Nat) : ReachableIn b n w → w.sol top f = some (o, w') →
      ReachableIn b n w'
  | step {w w' : MWorld} {o : MOut} (c : MCmd) : ReachableIn b n w → w.Checked c → InRange n c →
      w.stepIn b n c = some (o, w') → ReachableIn b n w'

end MWorld

/-! ## Agreement of the two builds and the mathematical integers -/

namespace MddMgr

theorem push_dev {s : RpnSt} {st : List MNode} {res res' : Option (MNode × Mtmdd2)} {p : Except RpnErr RpnSt}
    (hr : ∀ q, res = some q → res' = some q) (h : s.push st res = some p) : s.push st res' = some p := by
  cases res with
  | none => cases h
  | some q => rw [hr q rfl]; exact h

theorem rpnTokIn_dev {n : Nat} {vars : String → Option Nat} {s : RpnSt} {t : MTok} {p : Except RpnErr RpnSt}
    (h : rpnTokIn .dev n vars s t = some p) : rpnTok vars s t = some p ∧ rpnTokIn .release n vars s t = some p := by
  cases t with
  | bin o =>
    simp only [rpnTokIn, rpnTok] at h ⊢
    split at h
    · rename_i hst
      simp only [hst]
      exact ⟨push_dev (fun q hq => (M2Bin.runIn_dev hq).1) h, push_dev (fun q hq => (M2Bin.runIn_dev hq).2) h⟩
    · cases h
  | _ => exact ⟨h, h⟩

theorem rpnLoopIn_dev {n : Nat} {vars : String → Option Nat} : ∀ (ts : List MTok) {s : RpnSt}
    {p : Except (RpnErr × MddMgr) RpnSt}, rpnLoopIn .dev n vars s ts = some p →
    rpnLoop vars s ts = some p ∧ rpnLoopIn .release n vars s ts = some p := by
  intro ts
  induction ts with
  | nil => intro s p h; exact ⟨h, h⟩
  | cons t ts ih =>
    intro s p h
    simp only [rpnLoopIn, rpnLoop] at h ⊢
    cases ht : rpnTokIn .dev n vars s t with
    | none => rw [ht] at h; cases h
    | some q =>
      obtain ⟨h1, h2⟩ := rpnTokIn_dev ht
      rw [h1, h2]
      rw [ht] at h
      cases q with
      | error e => exact ⟨h, h⟩
      | ok s' => exact ih h

theorem rpnIn_dev {n : Nat} {m : MddMgr} {vars : String → Option Nat} {ts : List MTok}
    {p : Except RpnErr MNode × MddMgr} (h : m.rpnIn .dev n vars ts = some p) :
    m.rpn vars ts = some p ∧ m.rpnIn .release n vars ts = some p := by
  unfold rpnIn rpn at *
  cases hl : rpnLoopIn .dev n vars { mgr := m, stack := [], cache := AMap.empty } ts with
  | none => rw [hl] at h; cases h
  | some q =>
    obtain ⟨h1, h2⟩ := rpnLoopIn_dev ts hl
    rw [h1, h2]
    rw [hl] at h
    exact ⟨h, h⟩

end MddMgr

namespace MWorld

theorem give_wrap_dev {w : MWorld} {res res' : Option (MNode × Mtmdd2)} {p : MOut × MWorld}
    (hr : ∀ q, res = some q → res' = some q) (h : w.give (w.mgr.wrap res) = some p) :
    w.give (w.mgr.wrap res') = some p := by
  cases res with
  | none => cases h
  | some q => rw [hr q rfl]; exact h

/-- With overflow checks a call that returns does what it does over the mathematical integers, and what it does without
overflow checks. -/
theorem stepIn_dev {n : Nat} {w : MWorld} {c : MCmd} {p : MOut × MWorld} (h : w.stepIn .dev n c = some p) :
    w.step c = some p ∧ w.stepIn .release n c = some p := by
  cases c with
  | rpn ts vars =>
    simp only [stepIn, step] at h ⊢
    cases hr : w.mgr.rpnIn .dev n vars ts with
    | none => rw [hr] at h; cases h
    | some q =>
      obtain ⟨h1, h2⟩ := MddMgr.rpnIn_dev hr
      rw [h1, h2]
      rw [hr] at h
      exact ⟨h, h⟩
  | bin o f g =>
    simp only [stepIn, step, on1] at h ⊢
    split at h
    · cases h
    · split at h
      · cases h
      · exact ⟨give_wrap_dev (fun q hq => (M2Bin.runIn_dev hq).1) h,
          give_wrap_dev (fun q hq => (M2Bin.runIn_dev hq).2) h⟩
  | _ => exact ⟨h, h⟩

/-- With overflow checks every session is one over the mathematical integers. -/
theorem ReachableIn.exact {n : Nat} {w : MWorld} (h : ReachableIn .dev n w) : w.Reachable := by
  induction h with
  | new => exact .new
  | sol top f _ h ih => exact .sol top f ih h
  | step c _ hc _ h ih => exact .step c ih hc (stepIn_dev h).1

/-- … and one without overflow checks. -/
theorem ReachableIn.release {n : Nat} {w : MWorld} (h : ReachableIn .dev n w) : ReachableIn .release n w := by
  induction h with
  | new => exact .new
  | sol top f _ h ih => exact .sol top f ih h
  | step c _ hc hr h ih => exact .step c ih hc hr (stepIn_dev h).2

end MWorld

/-! ## Values stay in range -/

theorem Fits.nat {n : Nat} (hn : 32 ≤ n) {k : Nat} (hk : k < 2 ^ 31) : Fits n (k : Int) := by
  obtain ⟨m, rfl⟩ : ∃ m, n = 32 + m := ⟨n - 32, by omega⟩
  have : (2 : Int) ^ (32 + m - 1) = 2 ^ 31 * 2 ^ m := by
    rw [show 32 + m - 1 = 31 + m by omega, Int.pow_add]
  have h1 : (0 : Int) < 2 ^ m := Int.pow_pos (by decide)
  unfold Fits
  rw [this]
  generalize (2 : Int) ^ m = K at *
  omega

theorem Fits.mono {n : Nat} (hn : 32 ≤ n) {v : Int} (hv : Fits 32 v) : Fits n v := by
  obtain ⟨m, rfl⟩ : ∃ m, n = 32 + m := ⟨n - 32, by omega⟩
  have : (2 : Int) ^ (32 + m - 1) = 2 ^ 31 * 2 ^ m := by
    rw [show 32 + m - 1 = 31 + m by omega, Int.pow_add]
  have h1 : (0 : Int) < 2 ^ m := Int.pow_pos (by decide)
  unfold Fits at *
  rw [this]
  simp only [show 32 - 1 = 31 from rfl] at hv
  generalize (2 : Int) ^ m = K at *
  omega

section fit
variable {n : Nat}

theorem maybeGc_fit {m m' : Wr Mtmdd2 MNode} (hm : FitE n m.eng) (h : m.maybeGc mops = some m') : FitE n m'.eng := by
  unfold Wr.maybeGc at h
  split at h
  · cases h; exact hm
  · split at h
    · cases h
    · rename_i k e hg
      cases h
      simp only [mops] at hg
      split at hg
      · cases hg
      · rename_i h1; cases hg; exact gc_fit hm h1

theorem MddMgr.wrap_fit {m m' : MddMgr} {res : Option (MNode × Mtmdd2)} {r : MNode}
    (hr : ∀ r e, res = some (r, e) → FitE n e) (h : m.wrap res = some (r, m')) : FitE n m'.w.eng := by
  unfold MddMgr.wrap at h
  split at h
  · cases h
  · rename_i r1 w1 h1
    cases h
    unfold Wr.wrap at h1
    split at h1
    · cases h1
    · rename_i r2 e
      split at h1
      · cases h1
      · rename_i m2 h3
        cases h1
        exact maybeGc_fit (m := ({ m.w with eng := e } : Wr Mtmdd2 MNode).pin r) (hr r e rfl) h3

theorem valuesFrom_fit {hi : Nat} (hn : 32 ≤ n) (hhi : hi ≤ 2 ^ 31) : ∀ (k lo : Nat) {e e' : Mtmdd2} {xs : List MNode},
    lo + k ≤ hi → FitE n e → MddMgr.valuesFrom e lo k = some (xs, e') → FitE n e' := by
  intro k
  induction k with
  | zero => intro lo e e' xs _ he h; cases h; exact he
  | succ k ih =>
    intro lo e e' xs hk he h
    unfold MddMgr.valuesFrom at h
    split at h
    · cases h
    · rename_i x e1 h1
      split at h
      · cases h
      · rename_i h2
        cases h
        exact ih (lo + 1) (by omega) (value_fit he (Fits.nat hn (by omega)) h1) h2

theorem varNode_fit (hn : 32 ≤ n) {e e' : Mtmdd2} {l r : Nat} {lab : String} {x : MNode} (hr : r ≤ 2 ^ 31)
    (he : FitE n e) (h : MddMgr.varNode e l lab r = some (x, e')) : FitE n e' := by
  unfold MddMgr.varNode at h
  split at h
  · cases h
  · rename_i xs e1 h1
    have f1 := valuesFrom_fit hn hr r 0 (by omega) he h1
    split at h
    · cases h
    · rename_i h2
      exact createNode_fit (createHeader_fit f1 h2) h

theorem defvar_fit (hn : 32 ≤ n) {m m' : MddMgr} {lab : String} {r : Nat} {x : MNode} (hr : r ≤ 2 ^ 31)
    (hm : FitE n m.w.eng) (h : m.defvar lab r = some (x, m')) : FitE n m'.w.eng := by
  unfold MddMgr.defvar at h
  split at h
  · cases h; exact hm
  · split at h
    · cases h
    · rename_i h1
      cases h
      exact varNode_fit hn hr hm h1

theorem foldOp_fit (b : Build) (hn : 0 < n) {o : M2Bin} (ho : o.run = o.runIn b n) : ∀ (xs : List MNode)
    {e e' : Mtmdd2} {r r' : MNode}, FitE n e → foldOp o e r xs = some (r', e') → FitE n e' := by
  intro xs
  induction xs with
  | nil => intro e e' r r' he h; cases h; exact he
  | cons x xs ih =>
    intro e e' r r' he h
    unfold foldOp at h
    split at h
    · cases h
    · rename_i h1
      rw [ho] at h1
      exact ih (M2Bin.runIn_fit hn he h1) h

theorem push_fit {s s' : MddMgr.RpnSt} {st : List MNode} {res : Option (MNode × Mtmdd2)}
    (hr : ∀ r e, res = some (r, e) → FitE n e) (h : s.push st res = some (.ok s')) : FitE n s'.mgr.w.eng := by
  cases res with
  | none => cases h
  | some q => cases h; exact hr _ _ rfl

theorem push_ne_error {s : MddMgr.RpnSt} {st : List MNode} {res : Option (MNode × Mtmdd2)} {e : RpnErr} :
    s.push st res ≠ some (.error e) := by
  cases res with
  | none => intro h; cases h
  | some q => intro h; cases h

theorem rpnTokIn_fit {b : Build} (hn : 32 ≤ n) {vars : String → Option Nat} (hv : ∀ x r, vars x = some r → r ≤ 2 ^ 31)
    {s s' : MddMgr.RpnSt} {t : MTok} (ht : ∀ v, t = .int v → Fits 32 v) (hs : FitE n s.mgr.w.eng)
    (h : MddMgr.rpnTokIn b n vars s t = some (.ok s')) : FitE n s'.mgr.w.eng := by
  cases t with
  | bin o =>
    simp only [MddMgr.rpnTokIn] at h
    split at h
    · exact push_fit (fun _ _ h => M2Bin.runIn_fit (by omega) hs h) h
    · cases h
  | not =>
    simp only [MddMgr.rpnTokIn, MddMgr.rpnTok] at h
    split at h
    · exact push_fit (fun _ _ h => not_fit hs h) h
    · cases h
  | ite =>
    simp only [MddMgr.rpnTokIn, MddMgr.rpnTok] at h
    split at h
    · exact push_fit (fun _ _ h => ite_fit hs h) h
    · cases h
  | const b => cases h; exact hs
  | save id =>
    simp only [MddMgr.rpnTokIn, MddMgr.rpnTok] at h
    split at h <;> cases h
    exact hs
  | load id =>
    simp only [MddMgr.rpnTokIn, MddMgr.rpnTok] at h
    split at h <;> cases h
    exact hs
  | int v =>
    simp only [MddMgr.rpnTokIn, MddMgr.rpnTok] at h
    exact push_fit (fun _ _ h => value_fit hs (Fits.mono hn (ht v rfl)) h) h
  | var x =>
    simp only [MddMgr.rpnTokIn, MddMgr.rpnTok] at h
    split at h
    · cases h
    · rename_i r hr
      split at h
      · cases h
      · rename_i i m h1
        cases h
        exact defvar_fit (m' := m) hn (hv _ _ hr) hs h1

/-- The engine at the end of the loop. -/
def outEng : Except (RpnErr × MddMgr) MddMgr.RpnSt → Mtmdd2
  | .ok s => s.mgr.w.eng
  | .error (_, m) => m.w.eng

theorem rpnLoopIn_fit {b : Build} (hn : 32 ≤ n) {vars : String → Option Nat}
    (hv : ∀ x r, vars x = some r → r ≤ 2 ^ 31) : ∀ (ts : List MTok), (∀ v, .int v ∈ ts → Fits 32 v) →
    ∀ {s : MddMgr.RpnSt} {p}, FitE n s.mgr.w.eng → MddMgr.rpnLoopIn b n vars s ts = some p → FitE n (outEng p) := by
  intro ts
  induction ts with
  | nil => intro _ s p hs h; cases h; exact hs
  | cons t ts ih =>
    intro ht s p hs h
    simp only [MddMgr.rpnLoopIn] at h
    split at h
    · cases h
    · cases h; exact hs
    · rename_i s' h1
      exact ih (fun v hv => ht v (List.mem_cons_of_mem _ hv))
        (rpnTokIn_fit hn hv (fun v e => ht v (by rw [e]; exact List.mem_cons_self)) hs h1) h

theorem rpnIn_fit {b : Build} (hn : 32 ≤ n) {m m' : MddMgr} {vars : String → Option Nat}
    (hv : ∀ x r, vars x = some r → r ≤ 2 ^ 31) {ts : List MTok} (ht : ∀ v, .int v ∈ ts → Fits 32 v)
    {o : Except RpnErr MNode} (hm : FitE n m.w.eng) (h : m.rpnIn b n vars ts = some (o, m')) : FitE n m'.w.eng := by
  unfold MddMgr.rpnIn at h
  split at h
  · cases h
  · rename_i h1
    cases h
    exact rpnLoopIn_fit hn hv ts ht (by exact hm) h1
  · rename_i s h1
    have hs : FitE n s.mgr.w.eng := rpnLoopIn_fit hn hv ts ht (by exact hm) h1
    split at h
    · split at h
      · cases h
      · rename_i h2
        cases h
        exact MddMgr.wrap_fit (fun r e h => by cases h; exact hs) h2
    · cases h; exact hs

theorem giveAll_eng : ∀ (xs : List MNode) (w : MWorld), (w.giveAll xs).2.mgr.w.eng = w.mgr.w.eng := by
  intro xs
  induction xs with
  | nil => intro w; rfl
  | cons x xs ih => intro w; exact ih _

theorem give_fit {w w' : MWorld} {res : Option (MNode × MddMgr)} {o : MOut}
    (hr : ∀ r m, res = some (r, m) → FitE n m.w.eng) (h : w.give res = some (o, w')) : FitE n w'.mgr.w.eng := by
  cases res with
  | none => cases h
  | some q => cases h; exact hr _ _ rfl

theorem stepIn_fit {b : Build} (hn : 32 ≤ n) {w w' : MWorld} {c : MCmd} {o : MOut} (hc : MWorld.InRange n c)
    (hw : FitE n w.mgr.w.eng) (h : w.stepIn b n c = some (o, w')) : FitE n w'.mgr.w.eng := by
  have h0 : 0 < n := by omega
  have gw : ∀ {res : Option (MNode × Mtmdd2)}, (∀ r e, res = some (r, e) → FitE n e) →
      w.give (w.mgr.wrap res) = some (o, w') → FitE n w'.mgr.w.eng :=
    fun hr h => give_fit (fun _ _ h => MddMgr.wrap_fit hr h) h
  have sm : ∀ {k : MNode} {r : MNode} {e : Mtmdd2}, some (k, w.mgr.w.eng) = some (r, e) → FitE n e := by
    intro k r e h; cases h; exact hw
  cases c with
  | rpn ts vars =>
    simp only [MWorld.stepIn] at h
    split at h
    · cases h
    · rename_i h1; cases h; exact rpnIn_fit hn hc.2 hc.1 hw h1
    · rename_i h1; exact give_fit (fun r m e => by cases e; exact rpnIn_fit hn hc.2 hc.1 hw h1) h
  | bin o f g =>
    simp only [MWorld.stepIn, MWorld.on1] at h
    split at h
    · cases h
    · split at h
      · cases h
      · exact gw (fun _ _ h => M2Bin.runIn_fit h0 hw h) h
  | boolean b => exact gw (fun _ _ h => sm h) h
  | value v => exact gw (fun _ _ h => value_fit hw hc h) h
  | undetBoolean => exact gw (fun _ _ h => sm h) h
  | undetValue => exact gw (fun _ _ h => sm h) h
  | createNode hd fs =>
    simp only [MWorld.stepIn, MWorld.step, MWorld.onL] at h
    split at h
    · cases h
    · exact gw (fun _ _ h => createNode_fit hw h) h
  | defvar x r => exact give_fit (fun _ _ h => defvar_fit hn hc hw h) h
  | varorder =>
    simp only [MWorld.stepIn, MWorld.step] at h
    split at h <;> cases h
    exact hw
  | andL fs =>
    simp only [MWorld.stepIn, MWorld.step, MWorld.onL] at h
    split at h
    · cases h
    · exact gw (fun _ _ h => foldOp_fit b h0 rfl _ hw h) h
  | orL fs =>
    simp only [MWorld.stepIn, MWorld.step, MWorld.onL] at h
    split at h
    · cases h
    · exact gw (fun _ _ h => foldOp_fit b h0 rfl _ hw h) h
  | minL fs =>
    simp only [MWorld.stepIn, MWorld.step, MWorld.onL] at h
    split at h
    · cases h
    · rename_i xs _
      cases xs with
      | nil => cases h
      | cons x xs => exact gw (fun _ _ h => foldOp_fit b h0 rfl _ hw h) h
  | maxL fs =>
    simp only [MWorld.stepIn, MWorld.step, MWorld.onL] at h
    split at h
    · cases h
    · rename_i xs _
      cases xs with
      | nil => cases h
      | cons x xs => exact gw (fun _ _ h => foldOp_fit b h0 rfl _ hw h) h
  | clearCache => cases h; exact hw
  | setThreshold k => cases h; exact hw
  | gc keep =>
    simp only [MWorld.stepIn, MWorld.step, MWorld.onL] at h
    split at h
    · cases h
    · unfold MddMgr.collect at h
      split at h
      · cases h
      · rename_i h1
        split at h1
        · cases h1
        · rename_i h2
          cases h1
          cases h
          exact gc_fit hw h2
  | not f =>
    simp only [MWorld.stepIn, MWorld.step, MWorld.on1] at h
    split at h
    · cases h
    · exact gw (fun _ _ h => not_fit hw h) h
  | ite f g k =>
    simp only [MWorld.stepIn, MWorld.step, MWorld.on1] at h
    split at h
    · cases h
    · split at h
      · cases h
      · split at h
        · cases h
        · exact gw (fun _ _ h => ite_fit hw h) h
  | children f =>
    simp only [MWorld.stepIn, MWorld.step, MWorld.on1] at h
    split at h
    · cases h
    · split at h
      · cases h
      · cases h; exact hw
      · cases h; rw [giveAll_eng]; exact hw
  | clone f | drop f | node f | header f | level f | label f | isBoolean f | isValue f =>
    simp only [MWorld.stepIn, MWorld.step, MWorld.on1] at h
    split at h
    · cases h
    · cases h; exact hw
  | isTerm t f =>
    simp only [MWorld.stepIn, MWorld.step, MWorld.on1] at h
    split at h
    · cases h
    · split at h <;> cases h
      exact hw
  | valueOf f =>
    simp only [MWorld.stepIn, MWorld.step, MWorld.on1] at h
    split at h
    · cases h
    · split at h <;> cases h
      exact hw
  | size => cases h; exact hw
  | liveNodeCount => cases h; exact hw

theorem MWorld.ReachableIn.fit {b : Build} (hn : 32 ≤ n) {w : MWorld} (h : MWorld.ReachableIn b n w) :
    FitE n w.mgr.w.eng := by
  induction h with
  | new =>
    intro v hv
    simp [MWorld.new, MddMgr.new, Wr.new, Mtmdd2.new, Mtmdd.new] at hv
  | sol top f _ h ih =>
    unfold MWorld.sol at h
    split at h
    · cases h
    · split at h
      · cases h
      · rename_i h1
        cases h
        exact solT_fit ih h1
  | step c _ _ hr h ih => exact stepIn_fit hn hr ih h

end fit

/-! ## When a checked operation panics -/

namespace Mtmdd

theorem eval_term {T : Type} {m : Arena T} {a : Nat → Nat} {i : Nat} {t : T} (h : Eval m a i t) :
    Node.term t ∈ m.nodes := by
  induction h with
  | term h => exact List.mem_of_getElem? h
  | nt _ _ _ _ ih => exact ih

theorem bin_dev_none {n op : Nat} {comm : Bool} {tt : Int → Int → Option (Option Int)} {ex : Int → Int → Option Int}
    (hop : exactFn op = some (total ex)) (hle : ArmLe tt (total ex)) (hcomm : comm = true → ∀ a b, tt a b = tt b a)
    (hcomm' : comm = true → ∀ a b, total ex a b = total ex b a) (hfit : ArmFit n tt)
    (hov : ∀ x y, tt x y = none → ∃ z, ex x y = some z ∧ ¬ Fits n z) {s : Mtmdd} (hs : Inv s) (hf : AllFit n s)
    {f g : Nat} (lf : s.arena.Live f) (lg : s.arena.Live g) :
    bin op comm tt s f g = none ↔ s.arena.Hits (Over tt) f g := by
  have hp := bin_pok exact_sane hop hle.ret hcomm hcomm' hs lf lg
  constructor
  · intro hn
    rcases hp with h | ⟨r, s', h, _⟩
    · exact h.2
    · rw [hn] at h; cases h
  · rintro ⟨a, x, y, ha, hx, hy, ho⟩
    rcases hp with h | ⟨r, s', h, hi, hst, hr, _, hsd⟩
    · exact h.1
    · exfalso
      cases x with
      | none => exact ho
      | some x =>
        cases y with
        | none => exact ho
        | some y =>
          obtain ⟨z, e1, e2⟩ := hov x y ho
          have ha' : s'.arena.ValidA a := by
            unfold Arena.ValidA; rw [show s'.arena.headers = _ from hst.heq]; exact ha
          obtain ⟨u, hu⟩ := hi.wf.eval_total ha' hr
          have := hsd a ha' u hu (some x) (some y) hx hy
          simp only [ptM, total, e1, Option.some.injEq] at this
          subst this
          exact e2 (bin_fit hfit hf h z (eval_term hu))

end Mtmdd

/-- The exact result is not an `n`-bit integer (division: only `MIN / -1`). -/
def M2Bin.Overflows (n : Nat) : M2Bin → MVal → MVal → Prop
  | .add, .v (some x), .v (some y) => ¬ Fits n (x + y)
  | .sub, .v (some x), .v (some y) => ¬ Fits n (x - y)
  | .mul, .v (some x), .v (some y) => ¬ Fits n (x * y)
  | .div, .v (some x), .v (some y) => y ≠ 0 ∧ ¬ Fits n (x.tdiv y)
  | _, _, _ => False

theorem ovf_dev_none {n : Nat} {v : Int} : ovf .dev n v = none ↔ ¬ Fits n v := by
  unfold ovf
  split <;> simp_all

/-- A checked operation panics exactly when some point overflows. -/
theorem M2Bin.runIn_dev_none {n : Nat} (hn : 0 < n) {s : Mtmdd2} (hs : Inv s) (hf : FitE n s) (o : M2Bin) {f g : MNode}
    (lf : s.MLive f) (lg : s.MLive g) :
    o.runIn .dev n s f g = none ↔
      ∃ a u v, s.ValidA a ∧ s.MEval a f u ∧ s.MEval a g v ∧ o.Overflows n u v := by
  have hva : ∀ a, s.ValidA a ↔ s.mtmdd.arena.ValidA a := by
    intro a
    unfold Mtmdd2.ValidA Arena.ValidA
    rw [hs.hdr]
  have route : ∀ {o : M2Bin} {op : Mtmdd → Nat → Nat → Option (Nat × Mtmdd)} {tt : Int → Int → Option (Option Int)},
      (∀ u v, o.Overflows n u v ↔ ∃ x y, u = .v (some x) ∧ v = .v (some y) ∧ tt x y = none) →
      (∀ f g, s.mtmdd.arena.Live f → s.mtmdd.arena.Live g →
        (op s.mtmdd f g = none ↔ s.mtmdd.arena.Hits (Mtmdd.Over tt) f g)) →
      (routeV op s f g = none ↔ ∃ a u v, s.ValidA a ∧ s.MEval a f u ∧ s.MEval a g v ∧ o.Overflows n u v) := by
    intro o op tt hO hop
    have bad : ∀ {u v}, o.Overflows n u v → (∃ x, u = .v (some x)) ∧ ∃ y, v = .v (some y) := by
      intro u v h
      obtain ⟨x, y, rfl, rfl, _⟩ := (hO u v).1 h
      exact ⟨⟨x, rfl⟩, y, rfl⟩
    cases f with
    | bool f =>
      simp only [routeV]
      refine iff_of_false (by simp) ?_
      rintro ⟨a, u, v, _, hu, _, ho⟩
      obtain ⟨⟨x, rfl⟩, _⟩ := bad ho
      exact hu
    | value f =>
      cases g with
      | bool g =>
        simp only [routeV]
        refine iff_of_false (by simp) ?_
        rintro ⟨a, u, v, _, _, hv, ho⟩
        obtain ⟨_, y, rfl⟩ := bad ho
        exact hv
      | value g =>
        have : routeV op s (.value f) (.value g) = none ↔ op s.mtmdd f g = none := by
          simp only [routeV, liftV]
          cases op s.mtmdd f g <;> simp
        rw [this, hop f g lf lg]
        constructor
        · rintro ⟨a, x, y, ha, hx, hy, ho⟩
          cases x with
          | none => exact ho.elim
          | some x =>
            cases y with
            | none => exact ho.elim
            | some y => exact ⟨a, .v (some x), .v (some y), (hva a).2 ha, hx, hy, (hO _ _).2 ⟨x, y, rfl, rfl, ho⟩⟩
        · rintro ⟨a, u, v, ha, hu, hv, ho⟩
          obtain ⟨x, y, rfl, rfl, h⟩ := (hO u v).1 ho
          exact ⟨a, some x, some y, (hva a).1 ha, hu, hv, h⟩
  have l1 : ∀ (e : Int → Int → Int), Mtmdd.ArmLe (fun x y => (ovf .dev n (e x y)).map some)
      (Mtmdd.total fun x y => some (e x y)) := by
    intro e
    refine ⟨fun x y z h => ?_, fun x y h => by cases h⟩
    simp only [Option.map_eq_some_iff] at h
    obtain ⟨r, h, rfl⟩ := h
    rw [(Mtmdd.ovf_dev h).1]
  have nc : ∀ {p : Prop}, false = true → p := fun h => by cases h
  have fin : o.runIn .dev n s f g ≠ none → (∀ u v, ¬ o.Overflows n u v) → (o.runIn .dev n s f g = none ↔
      ∃ a u v, s.ValidA a ∧ s.MEval a f u ∧ s.MEval a g v ∧ o.Overflows n u v) := by
    intro h1 h2
    refine iff_of_false h1 ?_
    rintro ⟨a, u, v, _, _, _, h⟩
    exact h2 u v h
  have tot : ∀ o' : M2Bin, o'.run = o'.runIn .dev n → o'.runIn .dev n s f g ≠ none := by
    intro o' e h
    rw [← e] at h
    obtain ⟨r, s', h', _⟩ := bin_ok hs o' lf lg
    rw [h] at h'
    cases h'
  cases o with
  | add =>
    refine route (o := .add) (op := fun s f g => (MtOp.add f g).runIn .dev n s) (tt := Mtmdd.machAdd .dev n) (fun u v => ?_) (fun f g lf lg => ?_)
    · rcases u with u | _ | u <;> rcases v with v | _ | v <;> simp [Overflows, Mtmdd.machAdd, ovf_dev_none]
    · exact Mtmdd.bin_dev_none (op := Mtmdd.opAdd) rfl (l1 (· + ·)) (fun _ x y => by simp only [Mtmdd.machAdd, Int.add_comm])
        (fun _ x y => by simp only [Mtmdd.total, Int.add_comm]) (Mtmdd.machAdd_fit _ hn)
        (fun x y h => ⟨_, rfl, by simpa [Mtmdd.machAdd, ovf_dev_none] using h⟩) hs.v hf lf lg
  | sub =>
    refine route (o := .sub) (op := fun s f g => (MtOp.sub f g).runIn .dev n s) (tt := Mtmdd.machSub .dev n) (fun u v => ?_) (fun f g lf lg => ?_)
    · rcases u with u | _ | u <;> rcases v with v | _ | v <;> simp [Overflows, Mtmdd.machSub, ovf_dev_none]
    · exact Mtmdd.bin_dev_none (op := Mtmdd.opSub) rfl (l1 (· - ·)) nc nc (Mtmdd.machSub_fit _ hn)
        (fun x y h => ⟨_, rfl, by simpa [Mtmdd.machSub, ovf_dev_none] using h⟩) hs.v hf lf lg
  | mul =>
    refine route (o := .mul) (op := fun s f g => (MtOp.mul f g).runIn .dev n s) (tt := Mtmdd.machMul .dev n) (fun u v => ?_) (fun f g lf lg => ?_)
    · rcases u with u | _ | u <;> rcases v with v | _ | v <;> simp [Overflows, Mtmdd.machMul, ovf_dev_none]
    · exact Mtmdd.bin_dev_none (op := Mtmdd.opMul) rfl (l1 (· * ·)) (fun _ x y => by simp only [Mtmdd.machMul, Int.mul_comm])
        (fun _ x y => by simp only [Mtmdd.total, Int.mul_comm]) (Mtmdd.machMul_fit _ hn)
        (fun x y h => ⟨_, rfl, by simpa [Mtmdd.machMul, ovf_dev_none] using h⟩) hs.v hf lf lg
  | div =>
    have dn : ∀ x y, Mtmdd.machDiv n x y = none ↔ y ≠ 0 ∧ ¬ Fits n (x.tdiv y) := by
      intro x y
      unfold Mtmdd.machDiv
      split
      · simp_all
      · split <;> simp_all
    refine route (o := .div) (op := fun s f g => (MtOp.div f g).runIn .dev n s) (tt := Mtmdd.machDiv n) (fun u v => ?_) (fun f g lf lg => ?_)
    · rcases u with u | _ | u <;> rcases v with v | _ | v <;> simp [Overflows, dn]
    · refine Mtmdd.bin_dev_none (op := Mtmdd.opDiv) (ex := fun a b => if b = 0 then none else some (a.tdiv b)) rfl
        ⟨fun x y z h => ?_, fun x y h => ?_⟩ nc nc (Mtmdd.machDiv_fit n)
        (fun x y h => ⟨x.tdiv y, by rw [if_neg ((dn x y).1 h).1], ((dn x y).1 h).2⟩) hs.v hf lf lg
      · unfold Mtmdd.machDiv at h
        simp only [Mtmdd.total]
        split at h
        · rename_i h0; rw [if_pos h0]; exact h
        · rename_i h0; rw [if_neg h0]; split at h <;> cases h; rfl
      · unfold Mtmdd.machDiv
        simp only [Mtmdd.total] at h
        split at h
        · rename_i h0; rw [if_pos h0]
        · cases h
  | and | or | xor | max | min | eq | neq | lt | lte | gt | gte =>
    refine fin (tot _ rfl) (fun u v h => by cases u <;> cases v <;> exact h)

/-! ## When a checked `rpn` panics -/

namespace MddMgr

/-- After the first tokens of the expression, the two topmost operands overflow at some assignment under the operation
that comes next. -/
def RpnOverflows (n : Nat) (vars : String → Option Nat) (s : RpnSt) (ts : List MTok) : Prop :=
  ∃ ts1 o ts2 s1 x y st, ts = ts1 ++ .bin o :: ts2 ∧ rpnLoop vars s ts1 = some (.ok s1) ∧ s1.stack = y :: x :: st ∧
    ∃ a u v, s1.mgr.w.eng.ValidA a ∧ s1.mgr.w.eng.MEval a x u ∧ s1.mgr.w.eng.MEval a y v ∧ o.Overflows n u v

theorem rpnLoopIn_dev_none {n : Nat} (hn : 32 ≤ n) {L : List MNode} {vars : String → Option Nat}
    (hv : ∀ x r, vars x = some r → r ≤ 2 ^ 31) : ∀ (ts : List MTok), (∀ v, .int v ∈ ts → Fits 32 v) →
    ∀ {s : RpnSt} {vs : List (String × Nat)}, RpnOk s vs L → FitE n s.mgr.w.eng →
    (rpnLoopIn .dev n vars s ts = none ↔ rpnLoop vars s ts = none ∨ RpnOverflows n vars s ts) := by
  intro ts
  induction ts with
  | nil =>
    intro _ s vs _ _
    refine iff_of_false (by simp [rpnLoopIn]) ?_
    rintro (h | ⟨ts1, o, ts2, _, _, _, _, h, _⟩)
    · cases h
    · cases ts1 <;> cases h
  | cons t ts ih =>
    intro ht s vs hs hf
    have shift : ∀ {s'}, rpnTok vars s t = some (.ok s') → RpnOverflows n vars s' ts → RpnOverflows n vars s (t :: ts) := by
      rintro s' h ⟨ts1, o, ts2, s1, x, y, st, rfl, h2, h3⟩
      exact ⟨t :: ts1, o, ts2, s1, x, y, st, rfl, by simp only [rpnLoop, h, h2], h3⟩
    have here : ∀ {o x y st}, t = .bin o → s.stack = y :: x :: st →
        (o.runIn .dev n s.mgr.w.eng x y = none ↔ ∃ a u v, s.mgr.w.eng.ValidA a ∧ s.mgr.w.eng.MEval a x u ∧
          s.mgr.w.eng.MEval a y v ∧ o.Overflows n u v) := by
      intro o x y st _ hst
      exact M2Bin.runIn_dev_none (by omega) hs.mok.inv hf o (hs.stack x (by rw [hst]; simp))
        (hs.stack y (by rw [hst]; simp))
    cases hd : rpnTokIn .dev n vars s t with
    | none =>
      refine iff_of_true (by simp only [rpnLoopIn, hd]) ?_
      cases t with
      | bin o =>
        simp only [rpnTokIn] at hd
        split at hd
        · rename_i y x st hst
          right
          refine ⟨[], o, ts, s, x, y, st, rfl, rfl, hst, (here rfl hst).1 ?_⟩
          cases hr : o.runIn .dev n s.mgr.w.eng x y with
          | none => rfl
          | some q => rw [hr] at hd; cases hd
        · rename_i hne
          left
          simp only [rpnLoop, rpnTok]
      | _ =>
        left
        simp only [rpnTokIn] at hd
        simp only [rpnLoop, hd]
    | some q =>
      have he := (rpnTokIn_dev hd).1
      have hno : ∀ o x y st, t = .bin o → s.stack = y :: x :: st →
          ¬ ∃ a u v, s.mgr.w.eng.ValidA a ∧ s.mgr.w.eng.MEval a x u ∧ s.mgr.w.eng.MEval a y v ∧ o.Overflows n u v := by
        intro o x y st e hst h
        have := (here e hst).2 h
        subst e
        simp only [rpnTokIn, hst, this] at hd
        cases hd
      cases q with
      | error e =>
        refine iff_of_false (by simp [rpnLoopIn, hd]) ?_
        rintro (h | ⟨ts1, o, ts2, s1, x, y, st, h1, h2, h3, h4⟩)
        · simp [rpnLoop, he] at h
        · cases ts1 with
          | nil =>
            simp only [List.nil_append, List.cons.injEq] at h1
            cases h2
            exact hno o x y st h1.1 h3 h4
          | cons t' ts1 =>
            simp only [List.cons_append, List.cons.injEq] at h1
            obtain ⟨rfl, _⟩ := h1
            simp [rpnLoop, he] at h2
      | ok s' =>
        have hs' := (hs.tok he).1
        have hf' := rpnTokIn_fit hn hv (fun v e => ht v (by rw [e]; exact List.mem_cons_self)) hf hd
        have := ih (fun v hv => ht v (List.mem_cons_of_mem _ hv)) hs' hf'
        simp only [rpnLoopIn, hd, rpnLoop, he]
        rw [this]
        refine or_congr Iff.rfl ⟨shift he, ?_⟩
        rintro ⟨ts1, o, ts2, s1, x, y, st, h1, h2, h3, h4⟩
        cases ts1 with
        | nil =>
          simp only [List.nil_append, List.cons.injEq] at h1
          cases h2
          exact absurd h4 (hno o x y st h1.1 h3)
        | cons t' ts1 =>
          simp only [List.cons_append, List.cons.injEq] at h1
          obtain ⟨rfl, rfl⟩ := h1
          simp only [rpnLoop, he] at h2
          exact ⟨ts1, o, ts2, s1, x, y, st, rfl, h2, h3, h4⟩

end MddMgr
end DD
