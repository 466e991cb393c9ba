import Verif.Props.BddSession
import Verif.Bss.Text

/-!
# C09, C10: postfix expressions

The specification is an expression tree with an ordinary evaluator over truth values of variable
*names*; `save`/`load` thread an environment from left to right.
-/

set_option autoImplicit false
set_option linter.unusedSectionVars false
set_option linter.unusedVariables false

namespace DD.Props
open Arena

/-- Expressions. `save id e` is `e`, remembered as `id`; `load id` is what was last saved as `id`. -/
inductive Expr where
  | const (b : Bool)
  | var (v : String)
  | not (e : Expr)
  | and (e e' : Expr)
  | or (e e' : Expr)
  | xor (e e' : Expr)
  | ite (c t e : Expr)
  | save (id : String) (e : Expr)
  | load (id : String)

/-- Remembered truth values. -/
abbrev Env := String → Option Bool

/-- Evaluation under truth values `ν` of the variables; `none`: a load of something never saved. -/
def Expr.eval (ν : String → Bool) : Expr → Env → Option (Bool × Env)
  | .const b, E => some (b, E)
  | .var v, E => some (ν v, E)
  | .not e, E => do
    let (x, E) ← e.eval ν E
    return (!x, E)
  | .and e e', E => do
    let (x, E) ← e.eval ν E
    let (y, E) ← e'.eval ν E
    return (x && y, E)
  | .or e e', E => do
    let (x, E) ← e.eval ν E
    let (y, E) ← e'.eval ν E
    return (x || y, E)
  | .xor e e', E => do
    let (x, E) ← e.eval ν E
    let (y, E) ← e'.eval ν E
    return (x ^^ y, E)
  | .ite c t e, E => do
    let (x, E) ← c.eval ν E
    let (y, E) ← t.eval ν E
    let (z, E) ← e.eval ν E
    return (if x then y else z, E)
  | .save id e, E => do
    let (x, E) ← e.eval ν E
    return (x, fun k => if k = id then some x else E k)
  | .load id, E => do
    let x ← E id
    return (x, E)

/-- Postfix form. -/
def Expr.toks : Expr → List Tok
  | .const b => [.const b]
  | .var v => [.var v]
  | .not e => e.toks ++ [.not]
  | .and e e' => e.toks ++ e'.toks ++ [.and]
  | .or e e' => e.toks ++ e'.toks ++ [.or]
  | .xor e e' => e.toks ++ e'.toks ++ [.xor]
  | .ite c t e => c.toks ++ t.toks ++ e.toks ++ [.ite]
  | .save id e => e.toks ++ [.save id]
  | .load id => [.load id]

/-- Variables in order of appearance. -/
def Expr.vars : Expr → List String
  | .const _ => []
  | .var v => [v]
  | .not e => e.vars
  | .and e e' | .or e e' | .xor e e' => e.vars ++ e'.vars
  | .ite c t e => c.vars ++ t.vars ++ e.vars
  | .save _ e => e.vars
  | .load _ => []

/-- The order `names` with the variables in `vs` appended on their first appearance. -/
def addNames (names : List String) : List String → List String
  | [] => names
  | v :: vs => addNames (if v ∈ names then names else names ++ [v]) vs

/-- The assignment `a` (by level) gives the variables the values `ν` (by name). -/
def Agrees (names : List String) (a : Nat → Bool) (ν : String → Bool) : Prop :=
  ∀ (i : Nat) (v : String), names[i]? = some v → a i = ν v

theorem addNames_append (names : List String) : ∀ (l l' : List String),
    addNames names (l ++ l') = addNames (addNames names l) l' := by
  intro l
  induction l generalizing names with
  | nil => intro l'; rfl
  | cons v vs ih => intro l'; exact ih _ l'

theorem addNames_prefix (names : List String) (l : List String) : names <+: addNames names l := by
  induction l generalizing names with
  | nil => exact List.prefix_rfl
  | cons v vs ih =>
    refine List.IsPrefix.trans ?_ (ih _)
    split
    · exact List.prefix_rfl
    · exact List.prefix_append _ _

theorem Agrees.mono {names names' : List String} (hp : names <+: names') {a : Nat → Bool}
    {ν : String → Bool} (h : Agrees names' a ν) : Agrees names a ν := by
  intro i v hi
  obtain ⟨t, rfl⟩ := hp
  have hlt := (List.getElem?_eq_some_iff.1 hi).1
  exact h i v (by rw [List.getElem?_append_left hlt]; exact hi)

theorem Agrees.proj {names : List String} {a : Nat → Bool} {ν : String → Bool}
    (h : Agrees names a ν) {v : String} (hv : v ∈ names) : DD.proj names v a = ν v :=
  h _ _ (getElem?_idxOf' names hv)

/-- Remembered functions match the environments. -/
def CacheRel (names : List String) (cache : String → Option BFun)
    (E : (String → Bool) → Env) : Prop :=
  ∀ id, (cache id = none ∧ ∀ ν, E ν id = none) ∨
    ∃ G, cache id = some G ∧ ∀ a ν, Agrees names a ν → E ν id = some (G a)

theorem CacheRel.mono {names names' : List String} (hp : names <+: names')
    {cache : String → Option BFun} {E : (String → Bool) → Env} (h : CacheRel names cache E) :
    CacheRel names' cache E := by
  intro id
  rcases h id with h | ⟨G, h1, h2⟩
  · exact .inl h
  · exact .inr ⟨G, h1, fun a ν ha => h2 a ν (ha.mono hp)⟩

theorem arpnLoop_toks : ∀ (e : Expr) (s : ARpn) (rest : List Tok) (E E' : (String → Bool) → Env)
    (V : (String → Bool) → Bool), CacheRel s.names s.cache E →
    (∀ ν, e.eval ν (E ν) = some (V ν, E' ν)) →
    ∃ F cache', arpnLoop s (e.toks ++ rest) =
        arpnLoop { names := addNames s.names e.vars, stack := F :: s.stack, cache := cache' } rest ∧
      (∀ a ν, Agrees (addNames s.names e.vars) a ν → F a = V ν) ∧
      CacheRel (addNames s.names e.vars) cache' E' := by
  intro e
  have split2 : ∀ {e e' : Expr} {E : (String → Bool) → Env} {f : Bool → Bool → Bool}
      {V : (String → Bool) → Bool} {E' : (String → Bool) → Env},
      (∀ ν, ((e.eval ν (E ν)).bind fun p => (e'.eval ν p.2).bind fun q => some (f p.1 q.1, q.2)) =
        some (V ν, E' ν)) →
      ∃ (V1 : (String → Bool) → Bool) (E1 : (String → Bool) → Env) (V2 : (String → Bool) → Bool),
        (∀ ν, e.eval ν (E ν) = some (V1 ν, E1 ν)) ∧
        (∀ ν, e'.eval ν (E1 ν) = some (V2 ν, E' ν)) ∧ ∀ ν, V ν = f (V1 ν) (V2 ν) := by
    intro e e' E f V E' h
    have h1 : ∀ ν, ∃ x E1, e.eval ν (E ν) = some (x, E1) := by
      intro ν
      cases hx : e.eval ν (E ν) with
      | none => have := h ν; rw [hx] at this; cases this
      | some p => exact ⟨p.1, p.2, rfl⟩
    choose V1 E1 h1 using h1
    have h2 : ∀ ν, ∃ y, e'.eval ν (E1 ν) = some (y, E' ν) ∧ V ν = f (V1 ν) y := by
      intro ν
      have := h ν
      rw [h1] at this
      simp only [Option.bind_some] at this
      cases hy : e'.eval ν (E1 ν) with
      | none => rw [hy] at this; cases this
      | some q =>
        rw [hy] at this
        simp only [Option.bind_some, Option.some.injEq, Prod.mk.injEq] at this
        exact ⟨q.1, by rw [← this.2], this.1.symm⟩
    choose V2 h2 h3 using h2
    exact ⟨V1, E1, V2, h1, h2, h3⟩
  have split1 : ∀ {e : Expr} {E : (String → Bool) → Env} 
      {f : (String → Bool) → Bool × Env → Bool × Env}
      {V : (String → Bool) → Bool} {E' : (String → Bool) → Env},
      (∀ ν, ((e.eval ν (E ν)).bind fun p => some (f ν p)) = some (V ν, E' ν)) →
      ∃ (V1 : (String → Bool) → Bool) (E1 : (String → Bool) → Env), (∀ ν, e.eval ν (E ν) = some (V1 ν, E1 ν)) ∧ ∀ ν, (V ν, E' ν) = f ν (V1 ν, E1 ν) := by
    intro e E f V E' h
    have h1 : ∀ ν, ∃ x E1, e.eval ν (E ν) = some (x, E1) ∧ (V ν, E' ν) = f ν (x, E1) := by
      intro ν
      have := h ν
      cases hx : e.eval ν (E ν) with
      | none => rw [hx] at this; cases this
      | some p => 
        rw [hx] at this
        simp only [Option.bind_some, Option.some.injEq] at this
        exact ⟨p.1, p.2, rfl, this.symm⟩
    choose V1 E1 h1 h2 using h1
    exact ⟨V1, E1, h1, h2⟩
  induction e with
  | const b =>
    intro s rest E E' V hc hv
    refine ⟨fun _ => b, s.cache, rfl, ?_, ?_⟩
    · intro a ν _
      have := hv ν; simp only [Expr.eval, Option.some.injEq, Prod.mk.injEq] at this; exact this.1
    · have : E' = E := by
        funext ν; have := hv ν
        simp only [Expr.eval, Option.some.injEq, Prod.mk.injEq] at this; exact this.2.symm
      rw [this]; exact hc
  | var v =>
    intro s rest E E' V hc hv
    have hv' : ∀ ν, ν v = V ν ∧ E ν = E' ν := by
      intro ν; have := hv ν
      simpa only [Expr.eval, Option.some.injEq, Prod.mk.injEq] using this
    have hE : E' = E := funext fun ν => (hv' ν).2.symm
    subst hE
    refine ⟨proj (addName s.names v) v, s.cache, rfl, ?_, hc.mono (addNames_prefix _ _)⟩
    intro a ν ha
    have hm : v ∈ addName s.names v := by unfold addName; split <;> simp_all
    rw [← (hv' ν).1]
    exact Agrees.proj (names := addName s.names v) ha hm
  | not e ih =>
    intro s rest E E' V hc hv
    obtain ⟨V1, E1, h1, h2⟩ := split1 (e := e) (E := E) (f := fun _ p => (!p.1, p.2)) hv
    obtain ⟨F, c', k1, k2, k3⟩ := ih s (.not :: rest) E E1 V1 hc h1
    refine ⟨fun a => !F a, c', ?_, ?_, ?_⟩
    · simp only [Expr.toks, List.append_assoc, List.singleton_append, k1]; rfl
    · intro a ν ha
      have := h2 ν; simp only [Prod.mk.injEq] at this
      rw [this.1, ← k2 a ν ha]
    · have : E' = E1 := by
        funext ν; have := h2 ν; simp only [Prod.mk.injEq] at this; exact this.2
      rw [this]; exact k3
  | and e e' ih ih' =>
    intro s rest E E' V hc hv
    obtain ⟨V1, E1, V2, h1, h2, h3⟩ := split2 (e := e) (e' := e') (E := E) (f := fun x y => x && y) hv
    obtain ⟨F, c1, k1, k2, k3⟩ := ih s (e'.toks ++ (.and :: rest)) E E1 V1 hc h1
    obtain ⟨G, c2, g1, g2, g3⟩ := ih' { names := addNames s.names e.vars, stack := F :: s.stack, cache := c1 }
      (.and :: rest) E1 E' V2 k3 h2
    refine ⟨fun a => F a && G a, c2, ?_, ?_, ?_⟩
    · simp only [Expr.toks, Expr.vars, List.append_assoc, List.singleton_append, k1, g1, addNames_append]; rfl
    · intro a ν ha
      simp only [Expr.vars, addNames_append] at ha
      rw [h3, ← k2 a ν (ha.mono (addNames_prefix _ _)), ← g2 a ν ha]
    · simpa only [Expr.vars, addNames_append] using g3
  | or e e' ih ih' =>
    intro s rest E E' V hc hv
    obtain ⟨V1, E1, V2, h1, h2, h3⟩ := split2 (e := e) (e' := e') (E := E) (f := fun x y => x || y) hv
    obtain ⟨F, c1, k1, k2, k3⟩ := ih s (e'.toks ++ (.or :: rest)) E E1 V1 hc h1
    obtain ⟨G, c2, g1, g2, g3⟩ := ih' { names := addNames s.names e.vars, stack := F :: s.stack, cache := c1 }
      (.or :: rest) E1 E' V2 k3 h2
    refine ⟨fun a => F a || G a, c2, ?_, ?_, ?_⟩
    · simp only [Expr.toks, Expr.vars, List.append_assoc, List.singleton_append, k1, g1, addNames_append]; rfl
    · intro a ν ha
      simp only [Expr.vars, addNames_append] at ha
      rw [h3, ← k2 a ν (ha.mono (addNames_prefix _ _)), ← g2 a ν ha]
    · simpa only [Expr.vars, addNames_append] using g3
  | xor e e' ih ih' =>
    intro s rest E E' V hc hv
    obtain ⟨V1, E1, V2, h1, h2, h3⟩ := split2 (e := e) (e' := e') (E := E) (f := fun x y => x ^^ y) hv
    obtain ⟨F, c1, k1, k2, k3⟩ := ih s (e'.toks ++ (.xor :: rest)) E E1 V1 hc h1
    obtain ⟨G, c2, g1, g2, g3⟩ := ih' { names := addNames s.names e.vars, stack := F :: s.stack, cache := c1 }
      (.xor :: rest) E1 E' V2 k3 h2
    refine ⟨fun a => F a ^^ G a, c2, ?_, ?_, ?_⟩
    · simp only [Expr.toks, Expr.vars, List.append_assoc, List.singleton_append, k1, g1, addNames_append]; rfl
    · intro a ν ha
      simp only [Expr.vars, addNames_append] at ha
      rw [h3, ← k2 a ν (ha.mono (addNames_prefix _ _)), ← g2 a ν ha]
    · simpa only [Expr.vars, addNames_append] using g3
  | ite c t e ihc iht ihe =>
    intro s rest E E' V hc hv
    have h0 : ∀ ν, ∃ x E1 y E2 z, c.eval ν (E ν) = some (x, E1) ∧ t.eval ν E1 = some (y, E2) ∧
        e.eval ν E2 = some (z, E' ν) ∧ V ν = if x then y else z := by
      intro ν
      have := hv ν
      simp only [Expr.eval, Option.bind_eq_bind, pure] at this
      cases hx : c.eval ν (E ν) with
      | none => rw [hx] at this; cases this
      | some p =>
        rw [hx] at this; simp only [Option.bind_some] at this
        cases hy : t.eval ν p.2 with
        | none => rw [hy] at this; cases this
        | some q =>
          rw [hy] at this; simp only [Option.bind_some] at this
          cases hz : e.eval ν q.2 with
          | none => rw [hz] at this; cases this
          | some r =>
            rw [hz] at this
            simp only [Option.bind_some, Option.some.injEq, Prod.mk.injEq] at this
            exact ⟨p.1, p.2, q.1, q.2, r.1, rfl, hy, by rw [← this.2]; exact hz, this.1.symm⟩
    choose V1 E1 V2 E2 V3 h1 h2 h3 h4 using h0
    obtain ⟨F, c1, k1, k2, k3⟩ := ihc s (t.toks ++ (e.toks ++ (.ite :: rest))) E E1 V1 hc h1
    obtain ⟨G, c2, g1, g2, g3⟩ := iht { names := addNames s.names c.vars, stack := F :: s.stack, cache := c1 }
      (e.toks ++ (.ite :: rest)) E1 E2 V2 k3 h2
    obtain ⟨H, c3, f1, f2, f3⟩ := ihe { names := addNames (addNames s.names c.vars) t.vars, stack := G :: F :: s.stack, cache := c2 }
      (.ite :: rest) E2 E' V3 g3 h3
    refine ⟨fun a => if F a then G a else H a, c3, ?_, ?_, ?_⟩
    · simp only [Expr.toks, Expr.vars, List.append_assoc, List.singleton_append, k1, g1, f1, addNames_append]; rfl
    · intro a ν ha
      simp only [Expr.vars, addNames_append] at ha
      rw [h4, ← k2 a ν ((ha.mono (addNames_prefix _ _)).mono (addNames_prefix _ _)),
        ← g2 a ν (ha.mono (addNames_prefix _ _)), ← f2 a ν ha]
    · simpa only [Expr.vars, addNames_append] using f3
  | save id e ih =>
    intro s rest E E' V hc hv
    obtain ⟨V1, E1, h1, h2⟩ := split1 (e := e) (E := E)
      (f := fun _ p => (p.1, fun k => if k = id then some p.1 else p.2 k)) hv
    obtain ⟨F, c', k1, k2, k3⟩ := ih s (.save id :: rest) E E1 V1 hc h1
    have hh : ∀ ν, V ν = V1 ν ∧ E' ν = fun k => if k = id then some (V1 ν) else E1 ν k := by
      intro ν; have := h2 ν; simpa only [Prod.mk.injEq] using this
    refine ⟨F, fun k => if k = id then some F else c' k, ?_, ?_, ?_⟩
    · simp only [Expr.toks, List.append_assoc, List.singleton_append, k1]; rfl
    · intro a ν ha; rw [(hh ν).1, k2 a ν ha]
    · intro k
      by_cases hk : k = id
      · refine .inr ⟨F, by simp [hk], fun a ν ha => ?_⟩
        rw [(hh ν).2]; simp only [hk, if_true]; rw [k2 a ν ha]
      · rcases k3 k with ⟨n1, n2⟩ | ⟨G, n1, n2⟩
        · refine .inl ⟨by simp only [hk, if_false]; exact n1, fun ν => ?_⟩
          rw [(hh ν).2]; simp only [hk, if_false]; exact n2 ν
        · refine .inr ⟨G, by simp only [hk, if_false]; exact n1, fun a ν ha => ?_⟩
          rw [(hh ν).2]; simp only [hk, if_false]; exact n2 a ν ha
  | load id =>
    intro s rest E E' V hc hv
    have hh : ∀ ν, E ν id = some (V ν) ∧ E ν = E' ν := by
      intro ν; have := hv ν
      simp only [Expr.eval, Option.bind_eq_bind, pure] at this
      cases hx : E ν id with
      | none => rw [hx] at this; cases this
      | some x =>
        rw [hx] at this
        simp only [Option.bind_some, Option.some.injEq, Prod.mk.injEq] at this
        exact ⟨by rw [this.1], this.2⟩
    have hE : E' = E := funext fun ν => (hh ν).2.symm
    subst hE
    rcases hc id with ⟨_, n2⟩ | ⟨G, n1, n2⟩
    · have := (hh (fun _ => false)).1; rw [n2] at this; cases this
    · refine ⟨G, s.cache, ?_, ?_, hc⟩
      · simp only [Expr.toks, Expr.vars, addNames, List.singleton_append, arpnLoop, arpnTok, n1]
      · intro a ν ha
        have := (hh ν).1
        rw [n2 a ν ha] at this
        exact Option.some.inj this

/-- **C09.** For every expression whose loads are all preceded by a save, `rpn` of its postfix form
returns a handle for the expression's truth function: under every assignment it has the value that
the evaluator computes from the truth values of the variable names.  Variables not yet defined
are appended to the order on first appearance; all other handles keep their functions. -/
theorem C09_rpn {w : World} (hw : w.Reachable) {names : List String} (hn : Names w names) (e : Expr)
    (saved : ∀ ν, (e.eval ν (fun _ => none)).isSome) :
    ∃ F w', w.step (.rpn e.toks) = some (.handle w.next, w') ∧ w'.Reachable ∧
      w'.Denotes w.next F ∧ Names w' (addNames names e.vars) ∧
      (∀ a ν, Agrees (addNames names e.vars) a ν →
        (e.eval ν (fun _ => none)).map (·.1) = some (F a)) ∧
      ∀ h G, w.Denotes h G → w'.Denotes h G := by
  obtain ⟨A, R⟩ := hw.rel
  rw [names_iff R] at hn
  subst hn
  have h0 : ∀ ν, ∃ x E, e.eval ν (fun _ => none) = some (x, E) := by
    intro ν
    obtain ⟨p, hp⟩ := Option.isSome_iff_exists.1 (saved ν)
    exact ⟨p.1, p.2, hp⟩
  choose V E h0 using h0
  obtain ⟨F, c, k1, k2, k3⟩ := arpnLoop_toks e
    { names := A.names, stack := [], cache := fun _ => none } [] (fun _ _ => none) E V
    (fun id => .inl ⟨rfl, fun _ => rfl⟩) h0
  have har : arpn A.names e.toks = some (.ok F, addNames A.names e.vars) := by
    unfold arpn
    rw [List.append_nil] at k1
    rw [k1]; rfl
  have hl : A.Legal (.rpn e.toks) := by show (arpn A.names e.toks).isSome; rw [har]; rfl
  have hpost : ∀ o A', A.Post (.rpn e.toks) o A' →
      o = .handle A.next ∧ A' = { A with names := addNames A.names e.vars }.give F := by
    rintro o A' ⟨r, ns, e1, e2⟩
    rw [har] at e1; cases e1
    exact e2
  obtain ⟨w', g1, g2, g3, _, g5⟩ := gives_of (.rpn e.toks) R hw hl trivial
    (names := addNames A.names e.vars) (F := F) hpost
  obtain ⟨A', p1, R'⟩ := R.of_step (c := .rpn e.toks) trivial g1
  obtain ⟨_, rfl⟩ := hpost _ _ p1
  refine ⟨F, w', g1, g2, g3, (names_iff R' _).2 rfl, ?_, g5⟩
  intro a ν ha
  rw [h0, Option.map_some, k2 a ν ha]

/-! ## C10 -/

/-- What a token sequence does, looking only at the stack depth and the saved ids. -/
inductive Shape where
  | panics
  | fails (e : RpnErr)
  | returns
deriving DecidableEq

/-- An operator of arity `n` (`n ≥ 1`) needs `n` operands; a load needs its id saved; a save needs a
non-empty stack; at the end the stack must hold one node. -/
def shape : List Tok → Nat → List String → Shape
  | [], d, _ => if d = 1 then .returns else .fails .invalid
  | .const _ :: ts, d, ids | .var _ :: ts, d, ids => shape ts (d + 1) ids
  | .not :: ts, d, ids => if d < 1 then .panics else shape ts d ids
  | .and :: ts, d, ids | .or :: ts, d, ids | .xor :: ts, d, ids =>
    if d < 2 then .panics else shape ts (d - 1) ids
  | .ite :: ts, d, ids => if d < 3 then .panics else shape ts (d - 2) ids
  | .save id :: ts, d, ids => if d = 0 then .fails .emptySave else shape ts d (id :: ids)
  | .load id :: ts, d, ids => if id ∈ ids then shape ts (d + 1) ids else .fails (.noCached id)

/-- Shape of a result of the abstract evaluator. -/
def shapeOf : Option (Except RpnErr BFun × List String) → Shape
  | none => .panics
  | some (.error e, _) => .fails e
  | some (.ok _, _) => .returns

/-- The end of `arpn`. -/
def arpnEnd : Option (Except (RpnErr × List String) ARpn) → Option (Except RpnErr BFun × List String)
  | none => none
  | some (.error (e, ns)) => some (.error e, ns)
  | some (.ok s) =>
    match s.stack with
    | [x] => some (.ok x, s.names)
    | _ => some (.error .invalid, s.names)

theorem shape_arpnLoop : ∀ (ts : List Tok) (s : ARpn) (ids : List String),
    (∀ id, (s.cache id).isSome ↔ id ∈ ids) →
    shapeOf (arpnEnd (arpnLoop s ts)) = shape ts s.stack.length ids := by
  intro ts
  induction ts with
  | nil =>
    intro s ids _
    obtain ⟨ns, st, c⟩ := s
    match st with
    | [] => rfl
    | [x] => rfl
    | x :: y :: r => simp [arpnLoop, arpnEnd, shapeOf, shape]
  | cons t ts ih =>
    intro s ids hc
    obtain ⟨ns, st, c⟩ := s
    cases t with
    | const b => exact ih { names := ns, stack := _ :: st, cache := c } ids hc
    | var v => exact ih { names := addName ns v, stack := _ :: st, cache := c } ids hc
    | not =>
      match st with
      | [] => rfl
      | x :: st => exact ih { names := ns, stack := _ :: st, cache := c } ids hc
    | and =>
      match st with
      | [] => rfl
      | [x] => rfl
      | x :: y :: st => exact ih { names := ns, stack := _ :: st, cache := c } ids hc
    | or =>
      match st with
      | [] => rfl
      | [x] => rfl
      | x :: y :: st => exact ih { names := ns, stack := _ :: st, cache := c } ids hc
    | xor =>
      match st with
      | [] => rfl
      | [x] => rfl
      | x :: y :: st => exact ih { names := ns, stack := _ :: st, cache := c } ids hc
    | ite =>
      match st with
      | [] => rfl
      | [x] => rfl
      | [x, y] => rfl
      | x :: y :: z :: st => exact ih { names := ns, stack := _ :: st, cache := c } ids hc
    | save id =>
      match st with
      | [] => rfl
      | x :: st =>
        refine (ih { names := ns, stack := x :: st, cache := fun k => if k = id then some x else c k }
          (id :: ids) ?_)
        intro k
        by_cases hk : k = id
        · simp [hk]
        · simp only [hk, if_false, List.mem_cons, false_or]; exact hc k
    | load id =>
      have hid := hc id
      cases hcid : c id with
      | none =>
        have hm : id ∉ ids := fun hm => by
          have := hid.2 hm; simp only at this; rw [hcid] at this; cases this
        simp only [arpnLoop, arpnTok, hcid, arpnEnd, shapeOf, shape, if_neg hm]
      | some x =>
        have hm : id ∈ ids := hid.1 (by simp only; rw [hcid]; rfl)
        simp only [arpnLoop, arpnTok, hcid, shape, if_pos hm]
        exact ih { names := ns, stack := x :: st, cache := c } ids hc

theorem arpn_end (names : List String) (ts : List Tok) : arpn names ts =
    arpnEnd (arpnLoop { names := names, stack := [], cache := fun _ => none } ts) := by
  unfold arpn arpnEnd
  rfl

/-- **C10.** `rpn` panics exactly when an operator lacks operands, returns `Err` exactly (and with
the message) when a load is unsaved, a save meets an empty stack or the final stack does not hold one
node, and returns a handle otherwise. -/
theorem C10_rpn_outcome {w : World} (hw : w.Reachable) (ts : List Tok) :
    match shape ts 0 [] with
    | .panics => w.step (.rpn ts) = none
    | .fails e => ∃ w', w.step (.rpn ts) = some (.err e, w') ∧ w'.Reachable
    | .returns => ∃ w', w.step (.rpn ts) = some (.handle w.next, w') ∧ w'.Reachable := by
  obtain ⟨A, R⟩ := hw.rel
  have hsh := shape_arpnLoop ts { names := A.names, stack := [], cache := fun _ => none } []
    (by intro id; simp)
  rw [← arpn_end] at hsh
  have hsh : shapeOf (arpn A.names ts) = shape ts 0 [] := hsh
  rw [← hsh]
  cases ha : arpn A.names ts with
  | none => exact (R.rpn_none ts).2 ha
  | some p =>
    obtain ⟨r, ns⟩ := p
    obtain ⟨o, w', A', h1, ⟨r', ns', e1, e2⟩, _⟩ :=
      R.step (c := .rpn ts) (by show (arpn A.names ts).isSome; rw [ha]; rfl)
    rw [ha] at e1; cases e1
    have hr : w'.Reachable := .step (.rpn ts) hw trivial h1
    cases r with
    | error e => obtain ⟨rfl, _⟩ := e2; exact ⟨w', h1, hr⟩
    | ok F => obtain ⟨rfl, _⟩ := e2; rw [R.next] at h1; exact ⟨w', h1, hr⟩

/-- **C10.** An `rpn` that returns — in particular one that fails — leaves every held handle's
function unchanged, and issues no handle when it fails. -/
theorem C10_rpn_keeps {w : World} (hw : w.Reachable) (ts : List Tok) {o : Out} {w' : World}
    (hs : w.step (.rpn ts) = some (o, w')) :
    (∀ h F, w.Denotes h F → w'.Denotes h F) ∧
    ((∃ e, o = .err e) → ∀ h F, w'.Denotes h F → w.Denotes h F) := by
  refine ⟨fun h F hF => C03_step hw (c := .rpn ts) trivial hs (by intro e; cases e) hF, ?_⟩
  rintro ⟨e, rfl⟩ h F hF
  obtain ⟨A, R⟩ := hw.rel
  obtain ⟨A', ⟨r, ns, e1, e2⟩, R'⟩ := R.of_step (c := .rpn ts) trivial hs
  cases r with
  | ok G => cases e2.1
  | error e' =>
    have := R'.denotes_iff.1 hF
    rw [e2.2] at this
    exact R.denotes_iff.2 this

/-! ## Text -/

/-- How a token is written. -/
def Tok.text : Tok → List Char
  | .const b => if b then ['1'] else ['0']
  | .and => ['&']
  | .or => ['|']
  | .xor => ['^']
  | .not => ['~']
  | .ite => ['?']
  | .save id => "save(".toList ++ id.toList ++ [')']
  | .load id => "load(".toList ++ id.toList ++ [')']
  | .var v => v.toList

/-- A writable token: no whitespace in it, and a variable name is not empty and does not read as another
token. -/
def Tok.Writable : Tok → Prop
  | .save id | .load id => ∀ c ∈ id.toList, isWs c = false
  | .var v => v ≠ "" ∧ (∀ c ∈ v.toList, isWs c = false) ∧ v ∉ ["0", "False", "1", "True", "&", "|", "^", "~", "?"] ∧
      ¬ ∃ id, v.toList = "save(".toList ++ id ++ [')'] ∨ v.toList = "load(".toList ++ id ++ [')']
  | _ => True

/-- Tokens separated by single spaces. -/
def write : List Tok → List Char
  | [] => []
  | t :: ts => Tok.text t ++ ' ' :: write ts

theorem Tok.text_props {t : Tok} (h : Tok.Writable t) :
    Tok.text t ≠ [] ∧ ∀ c ∈ Tok.text t, isWs c = false := by
  cases t with
  | const b => cases b <;> exact ⟨by simp [Tok.text], by simp [Tok.text]; decide⟩
  | and | or | xor | not | ite => exact ⟨by simp [Tok.text], by simp [Tok.text]; decide⟩
  | save id =>
    refine ⟨by simp [Tok.text], fun c hc => ?_⟩
    simp only [Tok.text, List.mem_append] at hc
    rcases hc with (hc | hc) | hc
    · revert hc; revert c; decide
    · exact h c hc
    · revert hc; revert c; decide
  | load id =>
    refine ⟨by simp [Tok.text], fun c hc => ?_⟩
    simp only [Tok.text, List.mem_append] at hc
    rcases hc with (hc | hc) | hc
    · revert hc; revert c; decide
    · exact h c hc
    · revert hc; revert c; decide
  | var v =>
    exact ⟨fun e => h.1 (String.toList_inj.1 (by rw [show v.toList = [] from e]; rfl)), h.2.1⟩

theorem parse_text {t : Tok} (h : Tok.Writable t) : parseTok (String.ofList (Tok.text t)) = t := by
  cases t with
  | const b => cases b <;> decide
  | and | or | xor | not | ite => decide
  | save id =>
    have hl : (String.ofList (Tok.text (.save id))).toList = "save(".toList ++ id.toList ++ [')'] := by
      simp [Tok.text]
    have hne : ∀ s : String, s.toList.length ≤ 5 → String.ofList (Tok.text (.save id)) ≠ s := by
      intro s hs e
      rw [e] at hl
      rw [hl] at hs
      simp at hs
    unfold parseTok
    rw [if_neg (by rintro (e | e) <;> exact hne _ (by decide) e),
      if_neg (by rintro (e | e) <;> exact hne _ (by decide) e),
      if_neg (hne _ (by decide)), if_neg (hne _ (by decide)), if_neg (hne _ (by decide)),
      if_neg (hne _ (by decide)), if_neg (hne _ (by decide)), hl, if_pos]
    · congr 1
      have : (("save(".toList ++ id.toList ++ [')']).drop 5).dropLast = id.toList := by
        rw [show "save(".toList = ['s','a','v','e','('] from rfl]
        simp
      rw [this]; simp
    · refine ⟨?_, by rw [List.getLast?_concat]⟩
      rw [List.isPrefixOf_iff_prefix, List.append_assoc]
      exact List.prefix_append _ _
  | load id =>
    have hl : (String.ofList (Tok.text (.load id))).toList = "load(".toList ++ id.toList ++ [')'] := by
      simp [Tok.text]
    have hne : ∀ s : String, s.toList.length ≤ 5 → String.ofList (Tok.text (.load id)) ≠ s := by
      intro s hs e
      rw [e] at hl
      rw [hl] at hs
      simp at hs
    unfold parseTok
    rw [if_neg (by rintro (e | e) <;> exact hne _ (by decide) e),
      if_neg (by rintro (e | e) <;> exact hne _ (by decide) e),
      if_neg (hne _ (by decide)), if_neg (hne _ (by decide)), if_neg (hne _ (by decide)),
      if_neg (hne _ (by decide)), if_neg (hne _ (by decide)), hl, if_neg, if_pos]
    · congr 1
      have : (("load(".toList ++ id.toList ++ [')']).drop 5).dropLast = id.toList := by
        rw [show "load(".toList = ['l','o','a','d','('] from rfl]
        simp
      rw [this]; simp
    · refine ⟨?_, by rw [List.getLast?_concat]⟩
      rw [List.isPrefixOf_iff_prefix, List.append_assoc]
      exact List.prefix_append _ _
    · rintro ⟨e, _⟩
      rw [show "save(".toList = ['s','a','v','e','('] from rfl,
        show "load(".toList = ['l','o','a','d','('] from rfl] at e
      simp [List.isPrefixOf] at e
  | var v =>
    obtain ⟨h1, h2, h3, h4⟩ := h
    have hv : String.ofList (Tok.text (.var v)) = v := by simp [Tok.text]
    rw [hv]
    simp only [List.mem_cons, not_or, List.not_mem_nil, not_false_eq_true, and_true] at h3
    have key : ∀ p : List Char, p.length = 5 → (∃ id, v.toList = p ++ id ++ [')']) ∨
        ¬ (p.isPrefixOf v.toList ∧ v.toList.getLast? = some ')') ∨ p.getLast? = some ')' := by
      intro p hp
      by_cases hh : p.isPrefixOf v.toList ∧ v.toList.getLast? = some ')'
      · obtain ⟨g1, g2⟩ := hh
        rw [List.isPrefixOf_iff_prefix] at g1
        obtain ⟨r, hr⟩ := g1
        rcases List.eq_nil_or_concat r with rfl | ⟨id, x, rfl⟩
        · right; right; rw [← hr] at g2; simpa using g2
        · left
          refine ⟨id, ?_⟩
          rw [← hr] at g2 ⊢
          simp at g2
          simp [g2]
      · exact .inr (.inl hh)
    unfold parseTok
    obtain ⟨a1, a2, a3, a4, a5, a6, a7, a8, a9⟩ := h3
    rw [if_neg (by simp [a1, a2]), if_neg (by simp [a3, a4]), if_neg a5, if_neg a6, if_neg a7,
      if_neg a8, if_neg a9, if_neg, if_neg]
    · rcases key "load(".toList rfl with ⟨id, hid⟩ | hh | hh
      · exact absurd ⟨id, .inr hid⟩ h4
      · exact hh
      · exact absurd hh (by decide)
    · rcases key "save(".toList rfl with ⟨id, hid⟩ | hh | hh
      · exact absurd ⟨id, .inl hid⟩ h4
      · exact hh
      · exact absurd hh (by decide)

/-- **C09 (text).** Reading back a written token sequence gives the tokens: the token syntax loses
nothing for names that are not themselves operators. -/
theorem C09_lex_write (ts : List Tok) (h : ∀ t ∈ ts, Tok.Writable t) :
    lex (String.ofList (write ts)) = ts := by
  unfold lex
  rw [String.toList_ofList]
  induction ts with
  | nil => rfl
  | cons t ts ih =>
    have ht := h t List.mem_cons_self
    obtain ⟨hne, hws⟩ := Tok.text_props ht
    simp only [write]
    rw [splitWs_run _ _ _ hws]
    have : isWs ' ' = true := by decide
    simp only [splitWs, this, List.append_nil, if_true]
    rw [if_neg (by simpa using hne)]
    simp only [List.reverse_reverse, List.map_cons, parse_text ht]
    rw [ih (fun t' ht' => h t' (List.mem_cons_of_mem _ ht'))]

/-! ## Concrete cases -/

example : lex "  x y &  save(f) z|\tload(f) ~ & " =
    [.var "x", .var "y", .and, .save "f", .var "z|", .load "f", .not, .and] := by decide +kernel

example : shape (lex "x y & save(f) z | load(f) ^") 0 [] = .returns := by decide +kernel
example : shape (lex "x &") 0 [] = .panics := by decide +kernel
example : shape (lex "x y") 0 [] = .fails .invalid := by decide +kernel
example : shape (lex "save(a)") 0 [] = .fails .emptySave := by decide +kernel
example : shape (lex "x load(a)") 0 [] = .fails (.noCached "a") := by decide +kernel

/-- `(x & y as f) ^ (z | f)`: the hypotheses of `C09_rpn` hold and the value is as expected. -/
example : let e : Expr := .xor (.save "f" (.and (.var "x") (.var "y"))) (.or (.var "z") (.load "f"))
    (∀ ν, (e.eval ν (fun _ => none)).isSome) ∧ e.toks = lex "x y & save(f) z load(f) | ^" ∧
    (e.eval (fun v => v = "z") (fun _ => none)).map (·.1) = some true := by
  refine ⟨fun ν => rfl, by decide +kernel, by decide +kernel⟩

example : (World.new.run [.defvar "z", .rpn (lex "x y & save(f) z load(f) | ^"), .rpn (lex "q load(a)"),
    .varorder, .rpn (lex "x y & ~ z &"), .eq 1 2]).map (·.1) =
    some [.handle 0, .handle 1, .err (.noCached "a"), .strs ["z", "x", "y", "q"], .handle 2, .bool true] := by
  decide +kernel

end DD.Props
