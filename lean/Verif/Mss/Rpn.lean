import Verif.Mss.Step

/-!
# Postfix expressions of `MddMgr`

Specification: an expression tree with an evaluator over plain values, and the simulation of the
postfix machine by it.
-/

set_option autoImplicit false
set_option linter.unusedSectionVars false
set_option linter.unusedVariables false

namespace DD
open Arena Mtmdd2

/-- Values of expressions: truth values, and integers or "undetermined" (division by zero). -/
inductive RVal where
  | b (x : Bool)
  | i (x : Option Int)
deriving DecidableEq, Inhabited

/-- The same value as read from a diagram. -/
def RVal.toM : RVal → MVal
  | .b x => .b (T3.ofBool x)
  | .i x => .v x

/-- Arithmetic: undetermined if an operand is. -/
def arith (f : Int → Int → Option Int) : RVal → RVal → Option RVal
  | .i (some x), .i (some y) => some (.i (f x y))
  | .i _, .i _ => some (.i none)
  | _, _ => none

/-- Comparison of integers; `d` if an operand is undetermined. -/
def cmp (f : Int → Int → Bool) (d : Bool) : RVal → RVal → Option RVal
  | .i (some x), .i (some y) => some (.b (f x y))
  | .i _, .i _ => some (.b d)
  | _, _ => none

/-- Logical connectives. -/
def logic (f : Bool → Bool → Bool) : RVal → RVal → Option RVal
  | .b x, .b y => some (.b (f x y))
  | _, _ => none

/-- Value of a binary operator; `none` for ill-typed operands.  `<=` is left out: the code does not
compute it (C31). -/
def sbin : M2Bin → RVal → RVal → Option RVal
  | .and => logic (· && ·)
  | .or => logic (· || ·)
  | .xor => logic (· ^^ ·)
  | .add => arith (fun x y => some (x + y))
  | .sub => arith (fun x y => some (x - y))
  | .mul => arith (fun x y => some (x * y))
  | .div => arith (fun x y => if y = 0 then none else some (x.tdiv y))
  | .max => arith (fun x y => some (Max.max x y))
  | .min => arith (fun x y => some (Min.min x y))
  | .eq => fun x y => match x, y with
    | .b x, .b y => some (.b (decide (x = y)))
    | x, y => cmp (fun x y => decide (x = y)) false x y
  | .neq => fun x y => match x, y with
    | .b x, .b y => some (.b (decide (x ≠ y)))
    | x, y => cmp (fun x y => decide (x ≠ y)) true x y
  | .lt => cmp (fun x y => decide (x < y)) false
  | .gt => cmp (fun x y => decide (y < x)) false
  | .gte => cmp (fun x y => decide (y ≤ x)) true
  | .lte => fun _ _ => none

/-- Value of `!`. -/
def snot : RVal → Option RVal
  | .b x => some (.b !x)
  | _ => none

/-- Value of `?`. -/
def site : RVal → RVal → RVal → Option RVal
  | .b c, .b x, .b y => some (.b (if c then x else y))
  | .b c, .i x, .i y => some (.i (if c then x else y))
  | _, _, _ => none

theorem toM_i {z : RVal} {t : Option Int} (h : z = .i t) : z.toM = .v t := by rw [h]; rfl

theorem T3_ofBool_b {x : Bool} : (RVal.b x).toM = .b (T3.ofBool x) := rfl

theorem logic_rel {f : Bool → Bool → Bool} {x y z : RVal} {u : MVal} (h : logic f x y = some z)
    (hr : M2Bin.boolRel f x.toM y.toM u) : u = z.toM := by
  cases x <;> cases y <;> first | (cases h; done) | skip
  rename_i x y
  cases h
  obtain ⟨t, rfl, ht⟩ := hr
  rw [ht x y rfl rfl]; rfl

theorem arith_rel {f : Int → Int → Option Int} {x y z : RVal} {u : MVal} (h : arith f x y = some z)
    (hr : M2Bin.valRel f x.toM y.toM u) : u = z.toM := by
  cases x with
  | b x => cases y <;> cases h
  | i x =>
    cases y with
    | b y => cases x <;> cases h
    | i y => cases x <;> cases y <;> (cases h; exact hr)

theorem cmp_rel {f : Int → Int → Bool} {d : Bool} {x y z : RVal} (h : cmp f d x y = some z) :
    ∃ p q, x = .i p ∧ y = .i q ∧ z.toM = M2Bin.cmpV f d p q := by
  cases x with
  | b x => cases y <;> cases h
  | i x =>
    cases y with
    | b y => cases x <;> cases h
    | i y => cases x <;> cases y <;> (cases h; exact ⟨_, _, rfl, rfl, rfl⟩)

theorem sbin_rel {o : M2Bin} {x y z : RVal} {u : MVal} (h : sbin o x y = some z)
    (hr : o.Rel x.toM y.toM u) : u = z.toM := by
  cases o with
  | and | or | xor => exact logic_rel h hr
  | add | sub | mul | div | max | min => exact arith_rel h hr
  | lte => cases h
  | lt =>
    obtain ⟨p, q, rfl, rfl, e⟩ := cmp_rel h
    exact (show u = _ from hr).trans e.symm
  | gt =>
    obtain ⟨p, q, rfl, rfl, e⟩ := cmp_rel h
    exact (show u = _ from hr).trans e.symm
  | gte =>
    obtain ⟨p, q, rfl, rfl, e⟩ := cmp_rel h
    refine (show u = _ from hr).trans (Eq.trans ?_ e.symm)
    congr 1
    funext a b
    by_cases hab : a < b
    · simp [hab]
    · simp [hab, Int.not_lt.1 hab]
  | eq =>
    cases x with
    | b x =>
      cases y with
      | i y => cases h
      | b y =>
        cases h
        obtain ⟨t, rfl, ht⟩ := hr
        rw [ht x y rfl rfl]
        cases x <;> cases y <;> rfl
    | i x =>
      obtain ⟨p, q, e1, rfl, e⟩ := cmp_rel (show cmp _ _ _ y = _ from h)
      cases e1
      exact (show u = _ from hr).trans e.symm
  | neq =>
    cases x with
    | b x =>
      cases y with
      | i y => cases h
      | b y =>
        cases h
        obtain ⟨t, rfl, ht⟩ := hr
        rw [ht x y rfl rfl]
        cases x <;> cases y <;> rfl
    | i x =>
      obtain ⟨p, q, e1, rfl, e⟩ := cmp_rel (show cmp _ _ _ y = _ from h)
      cases e1
      refine (show u = _ from hr).trans (Eq.trans ?_ e.symm)
      congr 1
      funext a b
      by_cases hab : a = b <;> simp [hab]

theorem snot_rel {x z : RVal} {u : MVal} (h : snot x = some z) (hr : notRel x.toM u) : u = z.toM := by
  cases x with
  | i x => cases h
  | b x =>
    cases h
    obtain ⟨t, rfl, ht⟩ := hr
    rw [ht x rfl]; rfl

theorem site_rel {x y w z : RVal} {u : MVal} (h : site x y w = some z) (hr : iteRel x.toM y.toM w.toM u) :
    u = z.toM := by
  cases x with
  | i x => cases y <;> cases w <;> cases h
  | b x =>
    cases y with
    | b y =>
      cases w with
      | i w => cases h
      | b w =>
        cases h
        obtain ⟨t, rfl, h1, h2⟩ := hr
        cases x
        · rw [h2 rfl]; rfl
        · rw [h1 rfl]; rfl
    | i y =>
      cases w with
      | b w => cases h
      | i w =>
        cases h
        obtain ⟨t, rfl, h1, h2⟩ := hr
        cases x
        · rw [h2 rfl]; rfl
        · rw [h1 rfl]; rfl

/-- Expressions. `save id e` is `e`, remembered as `id`; `load id` is what was last saved as `id`. -/
inductive MExpr where
  | const (b : Bool)
  | int (v : Int)
  | var (x : String)
  | bin (o : M2Bin) (e e' : MExpr)
  | not (e : MExpr)
  | ite (c t e : MExpr)
  | save (id : String) (e : MExpr)
  | load (id : String)

/-- Remembered values. -/
abbrev MEnv := String → Option RVal

namespace MExpr

/-- Evaluation when variable `x` is in state `ν x`; `none`: ill-typed, or a load of something never
saved. -/
def eval (ν : String → Nat) : MExpr → MEnv → Option (RVal × MEnv)
  | .const b, E => some (.b b, E)
  | .int v, E => some (.i (some v), E)
  | .var x, E => some (.i (some (ν x)), E)
  | .bin o e e', E => do
    let (x, E) ← e.eval ν E
    let (y, E) ← e'.eval ν E
    return (← sbin o x y, E)
  | .not e, E => do
    let (x, E) ← e.eval ν E
    return (← snot x, E)
  | .ite c t e, E => do
    let (x, E) ← c.eval ν E
    let (y, E) ← t.eval ν E
    let (z, E) ← e.eval ν E
    return (← site x y z, E)
  | .save id e, E => do
    let (x, E) ← e.eval ν E
    return (x, fun k => if k = id then some x else E k)
  | .load id, E => do
    let x ← E id
    return (x, E)

/-- Postfix form. -/
def toks : MExpr → List MTok
  | .const b => [.const b]
  | .int v => [.int v]
  | .var x => [.var x]
  | .bin o e e' => e.toks ++ e'.toks ++ [.bin o]
  | .not e => e.toks ++ [.not]
  | .ite c t e => c.toks ++ t.toks ++ e.toks ++ [.ite]
  | .save id e => e.toks ++ [.save id]
  | .load id => [.load id]

/-- Variables in order of appearance. -/
def names : MExpr → List String
  | .const _ | .int _ | .load _ => []
  | .var x => [x]
  | .bin _ e e' => e.names ++ e'.names
  | .not e => e.names
  | .ite c t e => c.names ++ t.names ++ e.names
  | .save _ e => e.names

end MExpr

/-- The variables after those in the list were declared with the ranges in `rng`. -/
def addVars (rng : String → Option Nat) (vs : List (String × Nat)) : List String → List (String × Nat)
  | [] => vs
  | x :: xs => addVars rng (match rng x with | some r => addVar vs x r | none => vs) xs

theorem addVars_append (rng : String → Option Nat) (vs : List (String × Nat)) (l l' : List String) :
    addVars rng vs (l ++ l') = addVars rng (addVars rng vs l) l' := by
  induction l generalizing vs with
  | nil => rfl
  | cons v l ih => exact ih _

theorem addVars_prefix (rng : String → Option Nat) (vs : List (String × Nat)) (l : List String) :
    vs <+: addVars rng vs l := by
  induction l generalizing vs with
  | nil => exact List.prefix_rfl
  | cons v l ih =>
    refine List.IsPrefix.trans ?_ (ih _)
    split
    · exact addVar_prefix _ _ _
    · exact List.prefix_rfl

/-- Assignment `a` (by level) puts the variables in the states `ν` (by name), within their ranges. -/
structure At (vs : List (String × Nat)) (a : Nat → Nat) (ν : String → Nat) : Prop where
  valid : ValidV vs a
  agree : ∀ (i : Nat) (x : String) (r : Nat), vs[i]? = some (x, r) → a i = ν x

theorem At.mono {vs vs' : List (String × Nat)} (hp : vs <+: vs') {a : Nat → Nat} {ν : String → Nat}
    (h : At vs' a ν) : At vs a ν := by
  refine ⟨h.valid.mono hp, fun i x r hi => ?_⟩
  obtain ⟨t, rfl⟩ := hp
  have hlt := (List.getElem?_eq_some_iff.1 hi).1
  exact h.agree i x r (by rw [List.getElem?_append_left hlt]; exact hi)

/-- Remembered nodes match the remembered values. -/
def MCacheRel (vsF : List (String × Nat)) (s : MddMgr.RpnSt) (E : (String → Nat) → MEnv) : Prop :=
  ∀ id, (s.cache.get id = none ∧ ∀ a ν, At vsF a ν → E ν id = none) ∨
    ∃ x, s.cache.get id = some x ∧ ∀ a ν, At vsF a ν → ∃ u, E ν id = some u ∧ s.mgr.w.eng.MEval a x u.toM

/-- The environments after an expression. -/
def MExpr.envs (e : MExpr) (E : (String → Nat) → MEnv) (ν : String → Nat) : MEnv :=
  match e.eval ν (E ν) with
  | some (_, E') => E'
  | none => fun _ => none

/-- The declared ranges suffice for the variables in the list. -/
def RangesOk (rng : String → Option Nat) (vs : List (String × Nat)) (xs : List String) : Prop :=
  ∀ x ∈ xs, ∃ r, rng x = some r ∧ (x ∈ vs.map Prod.fst ∨ 0 < r)

theorem RangesOk.mono {rng : String → Option Nat} {vs vs' : List (String × Nat)} {xs : List String}
    (h : RangesOk rng vs xs) (hp : vs <+: vs') : RangesOk rng vs' xs := by
  intro x hx
  obtain ⟨r, h1, h2⟩ := h x hx
  refine ⟨r, h1, h2.imp (fun h => ?_) id⟩
  obtain ⟨t, rfl⟩ := hp
  rw [List.map_append]
  exact List.mem_append_left _ h

/-- Result of running an expression on top of a stack. -/
def Ran (rng : String → Option Nat) (L : List MNode) (vsF vs : List (String × Nat)) (s : MddMgr.RpnSt)
    (e : MExpr) (E : (String → Nat) → MEnv) (rest : List MTok) : Prop :=
  ∃ x s', MddMgr.rpnLoop rng s (e.toks ++ rest) = MddMgr.rpnLoop rng s' rest ∧ s'.stack = x :: s.stack ∧
    RpnOk s' (addVars rng vs e.names) L ∧ Ext2 s.mgr.w.eng s'.mgr.w.eng ∧
    (∀ a ν, At vsF a ν → ∃ v E', e.eval ν (E ν) = some (v, E') ∧ s'.mgr.w.eng.MEval a x v.toM) ∧
    MCacheRel vsF s' (e.envs E)

section sim
variable {rng : String → Option Nat} {L : List MNode} {vsF : List (String × Nat)}

theorem MCacheRel.ext {s s' : MddMgr.RpnSt} {E : (String → Nat) → MEnv} {vs : List (String × Nat)}
    (h : MCacheRel vsF s E) (ok : RpnOk s vs L) (hc : s'.cache = s.cache)
    (he : Ext2 s.mgr.w.eng s'.mgr.w.eng) : MCacheRel vsF s' E := by
  intro id
  rcases h id with h | ⟨x, h1, h2⟩
  · exact .inl ⟨by rw [hc]; exact h.1, h.2⟩
  · refine .inr ⟨x, by rw [hc]; exact h1, fun a ν ha => ?_⟩
    obtain ⟨u, h3, h4⟩ := h2 a ν ha
    exact ⟨u, h3, (meval_ext ok.mok.inv he (ok.cache id x h1)).2 h4⟩

theorem MCacheRel.congr {s : MddMgr.RpnSt} {E E' : (String → Nat) → MEnv}
    (h : MCacheRel vsF s E) (he : ∀ a ν, At vsF a ν → E' ν = E ν) : MCacheRel vsF s E' := by
  intro id
  rcases h id with h | ⟨x, h1, h2⟩
  · exact .inl ⟨h.1, fun a ν ha => by rw [he a ν ha]; exact h.2 a ν ha⟩
  · exact .inr ⟨x, h1, fun a ν ha => by rw [he a ν ha]; exact h2 a ν ha⟩

/-- An engine result pushed on the stack. -/
theorem push_sim {s : MddMgr.RpnSt} {vs : List (String × Nat)} (ok : RpnOk s vs L) {t : MTok}
    {rest : List MTok} {st : List MNode} (hst : ∀ x ∈ st, x ∈ s.stack) {res : Option (MNode × Mtmdd2)}
    {Φ : (Nat → Nat) → MVal → Prop} (hr : MOk s.mgr.w.eng Φ res)
    (ht : MddMgr.rpnTok rng s t = s.push st res) (hp : vs <+: vsF) :
    ∃ x s', MddMgr.rpnLoop rng s (t :: rest) = MddMgr.rpnLoop rng s' rest ∧ s'.stack = x :: st ∧
      RpnOk s' vs L ∧ Ext2 s.mgr.w.eng s'.mgr.w.eng ∧ s'.cache = s.cache ∧
      ∀ a, ValidV vsF a → ∃ u, s'.mgr.w.eng.MEval a x u ∧ Φ a u := by
  obtain ⟨r, e, h1, h2, h3, h4, h5⟩ := ok.push hst hr
  refine ⟨r, _, by simp only [MddMgr.rpnLoop, ht, h2], rfl, h3, h4.ext2, rfl, fun a ha => ?_⟩
  have hv : e.ValidA a := h3.mok.valid.2 (ha.mono hp)
  obtain ⟨u, hu⟩ := mtotal h3.mok.inv hv (h3.stack r List.mem_cons_self)
  exact ⟨u, hu, h5 a hv u hu⟩

theorem toM_isBool : ∀ v : RVal, v.toM.isBool = (match v with | .b _ => true | .i _ => false)
  | .b _ => rfl
  | .i _ => rfl

theorem site_kind {x y w z : RVal} (h : site x y w = some z) : y.toM.isBool = w.toM.isBool := by
  cases x <;> cases y <;> cases w <;> first | rfl | cases h

theorem at_zero {vs : List (String × Nat)} {m : MddMgr} (h : MMOK m vs L) : At vs (fun _ => 0) (fun _ => 0) :=
  ⟨h.valid.1 h.inv.zero, fun _ _ _ _ => rfl⟩

theorem bindSome {α β : Type} {x : Option α} {f : α → Option β} {y : β} :
    (x >>= f) = some y ↔ ∃ a, x = some a ∧ f a = some y := by
  cases x <;> simp

theorem sim (hz : ∃ a ν, At vsF a ν) : ∀ (e : MExpr) (s : MddMgr.RpnSt) (vs : List (String × Nat)) (rest : List MTok)
    (E : (String → Nat) → MEnv), RpnOk s vs L → addVars rng vs e.names <+: vsF → RangesOk rng vs e.names →
    MCacheRel vsF s E → (∀ a ν, At vsF a ν → (e.eval ν (E ν)).isSome) → Ran rng L vsF vs s e E rest := by
  intro e
  induction e with
  | const b =>
    intro s vs rest E ok hp hr hc hs
    obtain ⟨h1, h2⟩ := ok.tok (vars := rng) (t := .const b) (s' := { s with
      stack := (if b then Mtmdd2.one else Mtmdd2.zero) :: s.stack }) rfl
    refine ⟨_, _, rfl, rfl, h1, h2, fun a ν ha => ⟨.b b, E ν, rfl, ?_⟩, hc.congr (fun _ _ _ => rfl)⟩
    cases b
    · exact (meval_constB ok.mok.inv .zero).2 rfl
    · exact (meval_constB ok.mok.inv .one).2 rfl
  | int v =>
    intro s vs rest E ok hp hr hc hs
    obtain ⟨x, s', h1, h2, h3, h4, h5, h6⟩ := push_sim (rng := rng) (rest := rest) ok (st := s.stack) (fun _ h => h)
      (value_m ok.mok.inv v) (t := .int v) rfl hp
    refine ⟨x, s', h1, h2, h3, h4, fun a ν ha => ⟨.i (some v), E ν, rfl, ?_⟩, (hc.ext ok h5 h4).congr (fun _ _ _ => rfl)⟩
    obtain ⟨u, hu, rfl⟩ := h6 a ha.valid
    exact hu
  | var x =>
    intro s vs rest E ok hp hr hc hs
    obtain ⟨r, hr1, hr2⟩ := hr x (by simp [MExpr.names])
    obtain ⟨n, m', i, h1, h2, ⟨r', h3⟩, h4, h5, h6, h7⟩ := ok.mok.defvar x hr2
    have ht : MddMgr.rpnTok rng s (.var x) = some (.ok { s with mgr := m'.unpin n, stack := n :: s.stack }) := by
      simp only [MddMgr.rpnTok, hr1, h1]
    obtain ⟨k1, k2⟩ := ok.tok ht
    have e1 : addVars rng vs (MExpr.var x).names = tokVars rng vs (.var x) := by
      simp only [MExpr.names, addVars, tokVars, hr1]
    have e2 : tokVars rng vs (.var x) = addVar vs x r := by simp only [tokVars, hr1]
    refine ⟨n, { s with mgr := m'.unpin n, stack := n :: s.stack }, by simp only [MExpr.toks, List.cons_append,
      List.nil_append, MddMgr.rpnLoop, ht], rfl, by rw [e1]; exact k1, k2,
      fun a ν ha => ⟨.i (some (ν x)), E ν, rfl, ?_⟩, (hc.ext (s' := { s with mgr := m'.unpin n, stack := n :: s.stack }) ok rfl k2).congr (fun _ _ _ => rfl)⟩
    rw [e1, e2] at hp
    have ha' := ha.mono hp
    have := h4.val a (h2.valid.2 ha'.valid)
    rw [ha'.agree i x r' h3] at this
    exact this
  | bin o e e' ih ih' =>
    intro s vs rest E ok hp hr hc hs
    have hn : (MExpr.bin o e e').names = e.names ++ e'.names := rfl
    rw [hn, addVars_append] at hp
    rw [hn] at hr
    have ev : ∀ a ν, At vsF a ν → ∃ v1 E1 v2 E2 v, e.eval ν (E ν) = some (v1, E1) ∧
        e'.eval ν E1 = some (v2, E2) ∧ sbin o v1 v2 = some v ∧
        (MExpr.bin o e e').eval ν (E ν) = some (v, E2) := by
      intro a ν ha
      obtain ⟨p, hp⟩ := Option.isSome_iff_exists.1 (hs a ν ha)
      have hp' := hp
      simp only [MExpr.eval, bindSome] at hp'
      obtain ⟨⟨v1, E1⟩, q1, ⟨v2, E2⟩, q2, v, q3, q4⟩ := hp'
      cases q4
      exact ⟨v1, E1, v2, E2, v, q1, q2, q3, hp⟩
    obtain ⟨x1, s1, a1, a2, a3, a4, a5, a6⟩ := ih s vs (e'.toks ++ ([.bin o] ++ rest)) E ok
      ((addVars_prefix _ _ _).trans hp) (fun x hx => hr x (List.mem_append_left _ hx)) hc
      (fun a ν ha => by obtain ⟨v1, E1, _, _, _, q1, _⟩ := ev a ν ha; rw [q1]; rfl)
    obtain ⟨x2, s2, b1, b2, b3, b4, b5, b6⟩ := ih' s1 _ ([.bin o] ++ rest) (e.envs E) a3 hp
      ((show RangesOk rng vs e'.names from fun x hx => hr x (List.mem_append_right _ hx)).mono (addVars_prefix _ _ _)) a6
      (fun a ν ha => by
        obtain ⟨v1, E1, _, _, _, q1, q2, _⟩ := ev a ν ha
        simp only [MExpr.envs, q1, q2]; rfl)
    have l2 := b3.stack x2 (by rw [b2]; simp)
    have l1 := b3.stack x1 (by rw [b2, a2]; simp)
    obtain ⟨x3, s3, c1, c2, c3, c4, c5, c6⟩ := push_sim (rng := rng) (rest := rest) (t := .bin o) b3 (st := s.stack)
      (by rw [b2, a2]; intro x hx; simp [hx]) (bin_ok b3.mok.inv o l1 l2)
      (by simp only [MddMgr.rpnTok, b2, a2]) hp
    refine ⟨x3, s3, ?_, c2, by rw [hn, addVars_append]; exact c3, Ext2.trans a4 (Ext2.trans b4 c4), ?_, ?_⟩
    · simp only [MExpr.toks, List.append_assoc]
      rw [a1, b1]; exact c1
    · intro a ν ha
      obtain ⟨v1, E1, v2, E2, v, q1, q2, q3, q4⟩ := ev a ν ha
      refine ⟨v, E2, q4, ?_⟩
      obtain ⟨v1', E1', r1, r2⟩ := a5 a ν ha
      rw [q1] at r1; cases r1
      obtain ⟨v2', E2', t1, t2⟩ := b5 a ν ha
      have : e.envs E ν = E1 := by simp only [MExpr.envs, q1]
      rw [this, q2] at t1; cases t1
      obtain ⟨u, u1, u2⟩ := c6 a ha.valid
      have := u2 _ _ ((meval_ext a3.mok.inv b4 (a3.stack x1 (by rw [a2]; simp))).2 r2) t2
      rw [← sbin_rel q3 this]
      exact u1
    · refine (b6.ext b3 c5 c4).congr (fun a ν ha => ?_)
      obtain ⟨v1, E1, v2, E2, v, q1, q2, q3, q4⟩ := ev a ν ha
      have : e.envs E ν = E1 := by simp only [MExpr.envs, q1]
      simp only [MExpr.envs, q4, q1, q2]
  | not e ih =>
    intro s vs rest E ok hp hr hc hs
    have ev : ∀ a ν, At vsF a ν → ∃ v1 E1 v, e.eval ν (E ν) = some (v1, E1) ∧ snot v1 = some v ∧
        (MExpr.not e).eval ν (E ν) = some (v, E1) := by
      intro a ν ha
      obtain ⟨p, hp⟩ := Option.isSome_iff_exists.1 (hs a ν ha)
      have hp' := hp
      simp only [MExpr.eval, bindSome] at hp'
      obtain ⟨⟨v1, E1⟩, q1, v, q3, q4⟩ := hp'
      cases q4
      exact ⟨v1, E1, v, q1, q3, hp⟩
    obtain ⟨x1, s1, a1, a2, a3, a4, a5, a6⟩ := ih s vs ([.not] ++ rest) E ok hp hr hc
      (fun a ν ha => by obtain ⟨v1, E1, _, q1, _⟩ := ev a ν ha; rw [q1]; rfl)
    have l1 := a3.stack x1 (by rw [a2]; simp)
    obtain ⟨x3, s3, c1, c2, c3, c4, c5, c6⟩ := push_sim (rng := rng) (rest := rest) (t := .not) a3 (st := s.stack)
      (by rw [a2]; intro x hx; simp [hx]) (not_m a3.mok.inv l1) (by simp only [MddMgr.rpnTok, a2]) hp
    refine ⟨x3, s3, ?_, c2, c3, Ext2.trans a4 c4, ?_, ?_⟩
    · simp only [MExpr.toks, List.append_assoc]
      rw [a1]; exact c1
    · intro a ν ha
      obtain ⟨v1, E1, v, q1, q3, q4⟩ := ev a ν ha
      refine ⟨v, E1, q4, ?_⟩
      obtain ⟨v1', E1', r1, r2⟩ := a5 a ν ha
      rw [q1] at r1; cases r1
      obtain ⟨u, u1, u2⟩ := c6 a ha.valid
      rw [← snot_rel q3 (u2 _ r2)]
      exact u1
    · refine (a6.ext a3 c5 c4).congr (fun a ν ha => ?_)
      obtain ⟨v1, E1, v, q1, q3, q4⟩ := ev a ν ha
      simp only [MExpr.envs, q4, q1]
  | ite c t e ihc iht ihe =>
    intro s vs rest E ok hp hr hc hs
    have hn : (MExpr.ite c t e).names = c.names ++ t.names ++ e.names := rfl
    rw [hn, addVars_append, addVars_append] at hp
    rw [hn] at hr
    have ev : ∀ a ν, At vsF a ν → ∃ v1 E1 v2 E2 v3 E3 v, c.eval ν (E ν) = some (v1, E1) ∧
        t.eval ν E1 = some (v2, E2) ∧ e.eval ν E2 = some (v3, E3) ∧ site v1 v2 v3 = some v ∧
        (MExpr.ite c t e).eval ν (E ν) = some (v, E3) := by
      intro a ν ha
      obtain ⟨p, hp⟩ := Option.isSome_iff_exists.1 (hs a ν ha)
      have hp' := hp
      simp only [MExpr.eval, bindSome] at hp'
      obtain ⟨⟨v1, E1⟩, q1, ⟨v2, E2⟩, q2, ⟨v3, E3⟩, q3, v, q4, q5⟩ := hp'
      cases q5
      exact ⟨v1, E1, v2, E2, v3, E3, v, q1, q2, q3, q4, hp⟩
    obtain ⟨x1, s1, a1, a2, a3, a4, a5, a6⟩ := ihc s vs (t.toks ++ (e.toks ++ ([.ite] ++ rest))) E ok
      ((addVars_prefix _ _ _).trans ((addVars_prefix _ _ _).trans hp))
      (fun x hx => hr x (List.mem_append_left _ (List.mem_append_left _ hx))) hc
      (fun a ν ha => by obtain ⟨v1, E1, _, _, _, _, _, q1, _⟩ := ev a ν ha; rw [q1]; rfl)
    obtain ⟨x2, s2, b1, b2, b3, b4, b5, b6⟩ := iht s1 _ (e.toks ++ ([.ite] ++ rest)) (c.envs E) a3
      ((addVars_prefix _ _ _).trans hp)
      ((show RangesOk rng vs t.names from
        fun x hx => hr x (List.mem_append_left _ (List.mem_append_right _ hx))).mono (addVars_prefix _ _ _)) a6
      (fun a ν ha => by
        obtain ⟨v1, E1, _, _, _, _, _, q1, q2, _⟩ := ev a ν ha
        simp only [MExpr.envs, q1, q2]; rfl)
    obtain ⟨x3, s3, d1, d2, d3, d4, d5, d6⟩ := ihe s2 _ ([.ite] ++ rest) (t.envs (c.envs E)) b3 hp
      ((show RangesOk rng vs e.names from
        fun x hx => hr x (List.mem_append_right _ hx)).mono ((addVars_prefix _ _ _).trans (addVars_prefix _ _ _))) b6
      (fun a ν ha => by
        obtain ⟨v1, E1, _, _, _, _, _, q1, q2, q3, _⟩ := ev a ν ha
        simp only [MExpr.envs, q1, q2, q3]; rfl)
    have l3 := d3.stack x3 (by rw [d2]; simp)
    have l2 := d3.stack x2 (by rw [d2, b2]; simp)
    have l1 := d3.stack x1 (by rw [d2, b2, a2]; simp)
    -- readings of the three operands after the third
    have rd : ∀ a ν, At vsF a ν → ∃ v1 v2 v3 E3 v, site v1 v2 v3 = some v ∧
        (MExpr.ite c t e).eval ν (E ν) = some (v, E3) ∧ s3.mgr.w.eng.MEval a x1 v1.toM ∧
        s3.mgr.w.eng.MEval a x2 v2.toM ∧ s3.mgr.w.eng.MEval a x3 v3.toM ∧
        e.envs (t.envs (c.envs E)) ν = E3 := by
      intro a ν ha
      obtain ⟨v1, E1, v2, E2, v3, E3, v, q1, q2, q3, q4, q5⟩ := ev a ν ha
      have f1 : c.envs E ν = E1 := by simp only [MExpr.envs, q1]
      have f2 : t.envs (c.envs E) ν = E2 := by simp only [MExpr.envs, q1, q2]
      obtain ⟨v1', E1', r1, r2⟩ := a5 a ν ha
      rw [q1] at r1; cases r1
      obtain ⟨v2', E2', t1, t2⟩ := b5 a ν ha
      rw [f1, q2] at t1; cases t1
      obtain ⟨v3', E3', y1, y2⟩ := d5 a ν ha
      rw [f2, q3] at y1; cases y1
      exact ⟨v1, v2, v3, E3, v, q4, q5,
        (meval_ext b3.mok.inv d4 (b3.stack x1 (by rw [b2, a2]; simp))).2
          ((meval_ext a3.mok.inv b4 (a3.stack x1 (by rw [a2]; simp))).2 r2),
        (meval_ext b3.mok.inv d4 (b3.stack x2 (by rw [b2]; simp))).2 t2, y2,
        by simp only [MExpr.envs, q1, q2, q3]⟩
    have kd : x2.isBool = x3.isBool := by
      obtain ⟨a, ν, ha⟩ := hz
      obtain ⟨v1, v2, v3, E3, v, q1, _, q3, q4, q5, _⟩ := rd a ν ha
      rw [isBool_of_meval q4, isBool_of_meval q5, site_kind q1]
    obtain ⟨x4, s4, c1, c2, c3, c4, c5, c6⟩ := push_sim (rng := rng) (rest := rest) (t := .ite) d3 (st := s.stack)
      (by rw [d2, b2, a2]; intro x hx; simp [hx]) (ite_m d3.mok.inv l1 l2 l3 kd)
      (by simp only [MddMgr.rpnTok, d2, b2, a2]) hp
    refine ⟨x4, s4, ?_, c2, by rw [hn, addVars_append, addVars_append]; exact c3,
      Ext2.trans a4 (Ext2.trans b4 (Ext2.trans d4 c4)), ?_, ?_⟩
    · simp only [MExpr.toks, List.append_assoc]
      rw [a1, b1, d1]; exact c1
    · intro a ν ha
      obtain ⟨v1, v2, v3, E3, v, q1, q2, q3, q4, q5, _⟩ := rd a ν ha
      refine ⟨v, E3, q2, ?_⟩
      obtain ⟨u, u1, u2⟩ := c6 a ha.valid
      rw [← site_rel q1 (u2 _ _ _ q3 q4 q5)]
      exact u1
    · refine (d6.ext d3 c5 c4).congr (fun a ν ha => ?_)
      obtain ⟨v1, v2, v3, E3, v, q1, q2, q3, q4, q5, q6⟩ := rd a ν ha
      rw [q6]
      simp only [MExpr.envs, q2]
  | save id e ih =>
    intro s vs rest E ok hp hr hc hs
    have ev : ∀ a ν, At vsF a ν → ∃ v1 E1, e.eval ν (E ν) = some (v1, E1) ∧
        (MExpr.save id e).eval ν (E ν) = some (v1, fun k => if k = id then some v1 else E1 k) := by
      intro a ν ha
      obtain ⟨p, hp⟩ := Option.isSome_iff_exists.1 (hs a ν ha)
      have hp' := hp
      simp only [MExpr.eval, bindSome] at hp'
      obtain ⟨⟨v1, E1⟩, q1, q4⟩ := hp'
      cases q4
      exact ⟨v1, E1, q1, hp⟩
    obtain ⟨x1, s1, a1, a2, a3, a4, a5, a6⟩ := ih s vs ([.save id] ++ rest) E ok hp hr hc
      (fun a ν ha => by obtain ⟨v1, E1, q1, _⟩ := ev a ν ha; rw [q1]; rfl)
    have ht : MddMgr.rpnTok rng s1 (.save id) = some (.ok { s1 with cache := s1.cache.insert id x1 }) := by
      simp only [MddMgr.rpnTok, a2]
    obtain ⟨k1, k2⟩ := a3.tok ht
    refine ⟨x1, { s1 with cache := s1.cache.insert id x1 }, ?_, a2, k1, a4, ?_, ?_⟩
    · simp only [MExpr.toks, List.append_assoc]
      rw [a1]
      simp only [List.cons_append, List.nil_append, MddMgr.rpnLoop, ht]
    · intro a ν ha
      obtain ⟨v1, E1, q1, q4⟩ := ev a ν ha
      obtain ⟨v1', E1', r1, r2⟩ := a5 a ν ha
      rw [q1] at r1; cases r1
      exact ⟨v1, _, q4, r2⟩
    · intro id'
      show ((s1.cache.insert id x1).get id' = none ∧ _) ∨ ∃ x, (s1.cache.insert id x1).get id' = some x ∧ _
      rw [AMap.get_insert]
      by_cases hid : id = id'
      · rw [if_pos hid]
        refine .inr ⟨x1, rfl, fun a ν ha => ?_⟩
        obtain ⟨v1, E1, q1, q4⟩ := ev a ν ha
        obtain ⟨v1', E1', r1, r2⟩ := a5 a ν ha
        rw [q1] at r1; cases r1
        exact ⟨v1, by simp only [MExpr.envs, q4]; rw [if_pos hid.symm], r2⟩
      · rw [if_neg hid]
        rcases a6 id' with ⟨h1, h2⟩ | ⟨x, h1, h2⟩
        · refine .inl ⟨h1, fun a ν ha => ?_⟩
          obtain ⟨v1, E1, q1, q4⟩ := ev a ν ha
          have := h2 a ν ha
          simp only [MExpr.envs, q1] at this
          simp only [MExpr.envs, q4]
          rw [if_neg (fun h => hid h.symm)]
          exact this
        · refine .inr ⟨x, h1, fun a ν ha => ?_⟩
          obtain ⟨v1, E1, q1, q4⟩ := ev a ν ha
          obtain ⟨u, u1, u2⟩ := h2 a ν ha
          refine ⟨u, ?_, u2⟩
          simp only [MExpr.envs, q1] at u1
          simp only [MExpr.envs, q4]
          rw [if_neg (fun h => hid h.symm)]
          exact u1
  | load id =>
    intro s vs rest E ok hp hr hc hs
    have ev : ∀ a ν, At vsF a ν → ∃ v, E ν id = some v ∧ (MExpr.load id).eval ν (E ν) = some (v, E ν) := by
      intro a ν ha
      obtain ⟨p, hp⟩ := Option.isSome_iff_exists.1 (hs a ν ha)
      have hp' := hp
      simp only [MExpr.eval, bindSome] at hp'
      obtain ⟨v, q1, q4⟩ := hp'
      cases q4
      exact ⟨v, q1, hp⟩
    rcases hc id with ⟨h1, h2⟩ | ⟨x, h1, h2⟩
    · obtain ⟨a, ν, ha⟩ := hz
      obtain ⟨v, q1, _⟩ := ev a ν ha
      rw [h2 a ν ha] at q1; cases q1
    · have ht : MddMgr.rpnTok rng s (.load id) = some (.ok { s with stack := x :: s.stack }) := by
        simp only [MddMgr.rpnTok, h1]
      obtain ⟨k1, k2⟩ := ok.tok ht
      refine ⟨x, { s with stack := x :: s.stack }, by simp only [MExpr.toks, List.cons_append,
        List.nil_append, MddMgr.rpnLoop, ht], rfl, k1, Ext2.refl _, ?_, ?_⟩
      · intro a ν ha
        obtain ⟨v, q1, q2⟩ := ev a ν ha
        obtain ⟨u, u1, u2⟩ := h2 a ν ha
        rw [q1] at u1; cases u1
        exact ⟨v, E ν, q2, u2⟩
      · refine (hc.ext ok rfl (Ext2.refl _)).congr (fun a ν ha => ?_)
        obtain ⟨v, q1, q2⟩ := ev a ν ha
        simp only [MExpr.envs, q2]

end sim

/-- `rpn` on the postfix form of an expression. -/
theorem MMOK.rpn_expr {m : MddMgr} {vs : List (String × Nat)} {L : List MNode} (h : MMOK m vs L)
    (rng : String → Option Nat) (e : MExpr) (hr : RangesOk rng vs e.names)
    (he : ∀ a ν, At (addVars rng vs e.names) a ν → (e.eval ν (fun _ => none)).isSome) :
    ∃ x m' V, m.rpn rng e.toks = some (.ok x, m') ∧ MMOK m' (addVars rng vs e.names) (x :: L) ∧
      MDen m'.w.eng x V ∧ mI.KeepL L m.w.eng m'.w.eng ∧
      ∀ a ν, At (addVars rng vs e.names) a ν → ∃ v E, e.eval ν (fun _ => none) = some (v, E) ∧ V a = v.toM := by
  have hz : ∃ a ν, At (addVars rng vs e.names) a ν := by
    refine ⟨fun _ => 0, fun _ => 0, ?_, fun _ _ _ _ => rfl⟩
    have : ∀ (xs : List String) (vs : List (String × Nat)), RangesOk rng vs xs → ValidV vs (fun _ => 0) →
        ValidV (addVars rng vs xs) (fun _ => 0) := by
      intro xs
      induction xs with
      | nil => intro vs _ h; exact h
      | cons x xs ih =>
        intro vs hr h
        obtain ⟨r, h1, h2⟩ := hr x List.mem_cons_self
        simp only [addVars, h1]
        refine ih _ ((show RangesOk rng vs xs from fun y hy => hr y (List.mem_cons_of_mem _ hy)).mono (addVar_prefix _ _ _)) ?_
        unfold addVar
        split
        · exact h
        · rename_i hx
          intro i y r' hi
          by_cases hlt : i < vs.length
          · rw [List.getElem?_append_left hlt] at hi; exact h i y r' hi
          · rw [List.getElem?_append_right (by omega)] at hi
            have hm := List.mem_of_getElem? hi
            simp at hm
            obtain ⟨_, rfl⟩ := hm
            exact h2.resolve_left hx
    exact this _ _ hr (h.valid.1 h.inv.zero)
  obtain ⟨x, s', h1, h2, h3, h4, h5, h6⟩ := sim (L := L) hz e _ vs [] (fun _ _ => none) (rpnOk_start h)
    List.prefix_rfl hr (fun id => .inl ⟨rfl, fun _ _ _ => rfl⟩) he
  obtain ⟨r, m1, V, b1, b2, b3, b4, b5⟩ := h3.mok.wrap (MOk.ret h3.mok.inv (h3.stack x (by rw [h2]; simp)))
  have hst : s'.stack = [x] := h2
  refine ⟨r, m1, V, ?_, b2, b3, fun k hk F hF => b5 k hk F (hF.ext h.inv h4), ?_⟩
  · rw [List.append_nil] at h1
    simp only [MddMgr.rpn, h1, MddMgr.rpnLoop, hst, b1]
  · intro a ν ha
    obtain ⟨v, E, e1, e2⟩ := h5 a ν ha
    exact ⟨v, E, e1, (b4 a ha.valid).det e2⟩

/-! ## Which tokens panic, fail or go through -/

/-- Kind (Boolean?) of a binary operator's result. -/
def M2Bin.kind : M2Bin → Bool
  | .add | .sub | .mul | .div | .max | .min => false
  | _ => true

theorem M2Bin.rel_kind {o : M2Bin} {x y z : MVal} (h : o.Rel x y z) : z.isBool = o.kind := by
  have cv : ∀ {p : Int → Int → Bool} {d : Bool} {a b : Option Int}, (cmpV p d a b).isBool = true := by
    intro p d a b
    cases a <;> cases b <;> rfl
  cases o with
  | lte =>
    cases x <;> cases y
    · subst h; rfl
    · subst h; rfl
    · subst h; rfl
    · rcases h with rfl | ⟨rfl, _⟩
      · exact cv
      · rfl
  | and | or | xor =>
    cases x <;> cases y
    · obtain ⟨t, rfl, _⟩ := h; rfl
    all_goals (subst h; rfl)
  | add | sub | mul | div | max | min => cases x <;> cases y <;> (subst h; rfl)
  | eq | neq =>
    cases x <;> cases y
    · obtain ⟨t, rfl, _⟩ := h; rfl
    · subst h; rfl
    · subst h; rfl
    · subst h; exact cv
  | lt | gt | gte =>
    cases x <;> cases y
    · subst h; rfl
    · subst h; rfl
    · subst h; rfl
    · subst h; exact cv

/-- What a run of `rpn` ends with. -/
inductive MShape where
  | panics
  | fails (e : RpnErr)
  | returns
deriving DecidableEq

/-- Fate of a postfix expression: only the kinds of the operands on the stack (`true` = Boolean), the
saved names and the known variables matter. -/
def mshape (rng : String → Option Nat) : List MTok → List Bool → (String → Option Bool) → List String → MShape
  | [], [_], _, _ => .returns
  | [], _, _, _ => .fails .invalid
  | .bin o :: ts, _ :: _ :: st, c, ns => mshape rng ts (o.kind :: st) c ns
  | .bin _ :: _, _, _, _ => .panics
  | .not :: ts, _ :: st, c, ns => mshape rng ts (true :: st) c ns
  | .not :: _, _, _, _ => .panics
  | .ite :: ts, k :: k' :: _ :: st, c, ns => if k = k' then mshape rng ts (k :: st) c ns else .panics
  | .ite :: _, _, _, _ => .panics
  | .const _ :: ts, st, c, ns => mshape rng ts (true :: st) c ns
  | .int _ :: ts, st, c, ns => mshape rng ts (false :: st) c ns
  | .save id :: ts, k :: st, c, ns => mshape rng ts (k :: st) (fun i => if i = id then some k else c i) ns
  | .save _ :: _, [], _, _ => .fails .emptySave
  | .load id :: ts, st, c, ns =>
    match c id with
    | some k => mshape rng ts (k :: st) c ns
    | none => .fails (.noCached id)
  | .var x :: ts, st, c, ns =>
    match rng x with
    | none => .panics
    | some r => if x ∈ ns ∨ 0 < r then mshape rng ts (false :: st) c (if x ∈ ns then ns else ns ++ [x])
      else .panics

/-- The fate of a run of the model's loop. -/
def fateOf : Option (Except (RpnErr × MddMgr) MddMgr.RpnSt) → MShape
  | none => .panics
  | some (.error (e, _)) => .fails e
  | some (.ok s) => match s.stack with | [_] => .returns | _ => .fails .invalid

section shape
variable {rng : String → Option Nat} {L : List MNode}

/-- The result of an operation has the kind its specification forces. -/
theorem mok_kind {e : Mtmdd2} {Φ : (Nat → Nat) → MVal → Prop} {r : MNode} {e' : Mtmdd2}
    (h : MOk e Φ (some (r, e'))) {k : Bool} (hk : ∀ a, e.ValidA a → ∀ z, Φ a z → z.isBool = k) : r.isBool = k := by
  obtain ⟨r', e'', h1, h2, h3, h4, h5⟩ := h
  cases h1
  obtain ⟨u, hu⟩ := mtotal h2 h2.zero h4
  rw [isBool_of_meval hu]
  exact hk _ (h3.valid.1 h2.zero) u (h5 _ h2.zero u hu)

theorem addVar_names (vs : List (String × Nat)) (x : String) (r : Nat) :
    (addVar vs x r).map Prod.fst = if x ∈ vs.map Prod.fst then vs.map Prod.fst else vs.map Prod.fst ++ [x] := by
  unfold addVar
  split
  · rfl
  · simp

theorem mshape_ok : ∀ (ts : List MTok) (s : MddMgr.RpnSt) (vs : List (String × Nat)), RpnOk s vs L →
    fateOf (MddMgr.rpnLoop rng s ts) =
      mshape rng ts (s.stack.map MNode.isBool) (fun id => (s.cache.get id).map MNode.isBool) (vs.map Prod.fst) := by
  intro ts
  induction ts with
  | nil =>
    intro s vs ok
    simp only [MddMgr.rpnLoop, fateOf]
    rcases s.stack with _ | ⟨x, _ | ⟨y, st⟩⟩ <;> rfl
  | cons t ts ih =>
    intro s vs ok
    have go : ∀ {st : List MNode} {res : Option (MNode × Mtmdd2)} {Φ : (Nat → Nat) → MVal → Prop} {k : Bool},
        (∀ x ∈ st, x ∈ s.stack) → MOk s.mgr.w.eng Φ res → (∀ a, s.mgr.w.eng.ValidA a → ∀ z, Φ a z → z.isBool = k) →
        MddMgr.rpnTok rng s t = s.push st res → fateOf (MddMgr.rpnLoop rng s (t :: ts)) =
        mshape rng ts (k :: st.map MNode.isBool) (fun id => (s.cache.get id).map MNode.isBool) (vs.map Prod.fst) := by
      intro st res Φ k hst hm hk ht
      obtain ⟨r, e, h1, h2, h3, h4, h5⟩ := ok.push hst hm
      rw [h1] at hm
      have := mok_kind hm hk
      simp only [MddMgr.rpnLoop, ht, h2]
      rw [ih _ vs h3]
      simp only [List.map_cons, this]
    cases t with
    | bin o =>
      rcases hst : s.stack with _ | ⟨b, _ | ⟨a, st⟩⟩
      · simp only [MddMgr.rpnLoop, MddMgr.rpnTok, hst]; rfl
      · simp only [MddMgr.rpnLoop, MddMgr.rpnTok, hst]; rfl
      · refine go (st := st) (by intro x hx; rw [hst]; simp [hx]) (bin_ok ok.mok.inv o (ok.stack a (by rw [hst]; simp))
          (ok.stack b (by rw [hst]; simp))) (k := o.kind) ?_ (by simp only [MddMgr.rpnTok, hst])
        intro c hc z hz
        obtain ⟨u, hu⟩ := mtotal ok.mok.inv hc (ok.stack a (by rw [hst]; simp))
        obtain ⟨v, hv⟩ := mtotal ok.mok.inv hc (ok.stack b (by rw [hst]; simp))
        exact M2Bin.rel_kind (hz u v hu hv)
    | not =>
      rcases hst : s.stack with _ | ⟨a, st⟩
      · simp only [MddMgr.rpnLoop, MddMgr.rpnTok, hst]; rfl
      · refine go (st := st) (by intro x hx; rw [hst]; simp [hx]) (not_m ok.mok.inv (ok.stack a (by rw [hst]; simp)))
          (k := true) ?_ (by simp only [MddMgr.rpnTok, hst])
        intro c hc z hz
        obtain ⟨u, hu⟩ := mtotal ok.mok.inv hc (ok.stack a (by rw [hst]; simp))
        have := hz u hu
        cases u with
        | b u => obtain ⟨t, rfl, _⟩ := this; rfl
        | v u => have this : z = _ := this; subst this; rfl
    | ite =>
      rcases hst : s.stack with _ | ⟨c, _ | ⟨b, _ | ⟨a, st⟩⟩⟩
      · simp only [MddMgr.rpnLoop, MddMgr.rpnTok, hst]; rfl
      · simp only [MddMgr.rpnLoop, MddMgr.rpnTok, hst]; rfl
      · simp only [MddMgr.rpnLoop, MddMgr.rpnTok, hst]; rfl
      · simp only [List.map_cons, mshape]
        by_cases hk : c.isBool = b.isBool
        · rw [if_pos hk]
          refine go (st := st) (by intro x hx; rw [hst]; simp [hx]) (ite_m ok.mok.inv (ok.stack a (by rw [hst]; simp))
            (ok.stack b (by rw [hst]; simp)) (ok.stack c (by rw [hst]; simp)) hk.symm)
            (k := c.isBool) ?_ (by simp only [MddMgr.rpnTok, hst])
          intro p hp z hz
          obtain ⟨u, hu⟩ := mtotal ok.mok.inv hp (ok.stack a (by rw [hst]; simp))
          obtain ⟨v, hv⟩ := mtotal ok.mok.inv hp (ok.stack b (by rw [hst]; simp))
          obtain ⟨w, hw⟩ := mtotal ok.mok.inv hp (ok.stack c (by rw [hst]; simp))
          have hr := hz u v w hu hv hw
          rw [isBool_of_meval hw]
          cases u <;> cases v <;> cases w <;> first | exact hr.elim | skip
          · obtain ⟨t, rfl, _⟩ := hr; rfl
          · obtain ⟨t, rfl, _⟩ := hr; rfl
          · have hr : z = _ := hr; subst hr; rfl
          · have hr : z = _ := hr; subst hr; rfl
        · rw [if_neg hk]
          have : s.mgr.w.eng.ite a b c = none := by
            cases hi : s.mgr.w.eng.ite a b c with
            | none => rfl
            | some p => exact absurd (ite_kinds hi).symm hk
          simp only [MddMgr.rpnLoop, MddMgr.rpnTok, hst, this, MddMgr.RpnSt.push]
          rfl
    | const b =>
      have ht : MddMgr.rpnTok rng s (.const b) = some (.ok { s with
        stack := (if b then Mtmdd2.one else Mtmdd2.zero) :: s.stack }) := rfl
      obtain ⟨k1, _⟩ := ok.tok ht
      simp only [MddMgr.rpnLoop, ht]
      rw [ih _ _ k1]
      cases b <;> rfl
    | int v =>
      refine go (st := s.stack) (fun _ h => h) (value_m ok.mok.inv v) (k := false) ?_ rfl
      rintro a _ z rfl; rfl
    | save id =>
      rcases hst : s.stack with _ | ⟨a, st⟩
      · simp only [MddMgr.rpnLoop, MddMgr.rpnTok, hst]; rfl
      · have ht : MddMgr.rpnTok rng s (.save id) = some (.ok { s with cache := s.cache.insert id a }) := by
          simp only [MddMgr.rpnTok, hst]
        obtain ⟨k1, _⟩ := ok.tok ht
        simp only [MddMgr.rpnLoop, ht]
        rw [ih _ _ k1]
        simp only [hst, List.map_cons, mshape]
        congr 1
        funext i
        rw [AMap.get_insert]
        by_cases hi : id = i
        · rw [if_pos hi, if_pos hi.symm]; rfl
        · rw [if_neg hi, if_neg (Ne.symm hi)]
    | load id =>
      cases hg : s.cache.get id with
      | none => simp only [MddMgr.rpnLoop, MddMgr.rpnTok, hg, mshape, Option.map_none]; rfl
      | some x =>
        have ht : MddMgr.rpnTok rng s (.load id) = some (.ok { s with stack := x :: s.stack }) := by
          simp only [MddMgr.rpnTok, hg]
        obtain ⟨k1, _⟩ := ok.tok ht
        simp only [MddMgr.rpnLoop, ht]
        rw [ih _ _ k1]
        simp only [mshape, hg, Option.map_some]
        rfl
    | var x =>
      simp only [mshape]
      cases hv : rng x with
      | none => simp only [MddMgr.rpnLoop, MddMgr.rpnTok, hv]; rfl
      | some r =>
        simp only
        by_cases hl : x ∈ vs.map Prod.fst ∨ 0 < r
        · rw [if_pos hl]
          obtain ⟨n, m', i, h1, h2, _, h4, _⟩ := ok.mok.defvar x hl
          have ht : MddMgr.rpnTok rng s (.var x) = some (.ok { s with mgr := m'.unpin n, stack := n :: s.stack }) := by
            simp only [MddMgr.rpnTok, hv, h1]
          obtain ⟨k1, _⟩ := ok.tok ht
          simp only [MddMgr.rpnLoop, ht]
          rw [ih _ _ k1]
          have e2 : tokVars rng vs (.var x) = addVar vs x r := by simp only [tokVars, hv]
          have hb : n.isBool = false := isBool_of_meval (h4.val _ h2.inv.zero)
          rw [e2, addVar_names]
          simp only [List.map_cons, hb]
        · rw [if_neg hl]
          have : s.mgr.defvar x r = none := by
            cases hd : s.mgr.defvar x r with
            | none => rfl
            | some p => exact absurd (defvar_legal ok.mok hd) hl
          simp only [MddMgr.rpnLoop, MddMgr.rpnTok, hv, this]
          rfl

end shape
end DD
