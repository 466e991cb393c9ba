import Verif.Props.VarOrder

/-!
# C85: `rpn` followed by `==`, `is_zero` or `is_one` decides formulas
-/

set_option autoImplicit false
set_option linter.unusedSectionVars false
set_option linter.unusedVariables false

namespace DD.Props
open Arena

/-! ## BDD -/

/-- The truth value of an expression under the values `ν` of the names. -/
def Holds (e : Expr) (ν : String → Bool) : Prop := (e.eval ν (fun _ => none)).map (·.1) = some true

/-- Values of the names that agree with an assignment of the levels. -/
theorem agrees_exists {names : List String} (hnd : names.Nodup) (a : Nat → Bool) : ∃ ν, Agrees names a ν := by
  classical
  refine ⟨fun y => if h : ∃ l : Nat, names[l]? = some y then a h.choose else false, fun l y hy => ?_⟩
  have h : ∃ l : Nat, names[l]? = some y := ⟨l, hy⟩
  simp only [dif_pos h]
  rw [nodup_getElem?_inj hnd h.choose_spec hy]

theorem holds_iff {e : Expr} {ν : String → Bool} {b : Bool} (h : (e.eval ν (fun _ => none)).map (·.1) = some b) :
    Holds e ν ↔ b = true := by
  unfold Holds; rw [h]; simp

/-- **C85.** `is_zero` of an expression's handle says whether the expression is unsatisfiable and `is_one`
whether it is a tautology. -/
theorem C85_sat {w : World} (hw : w.Reachable) (e : Expr) (saved : ∀ ν, (e.eval ν (fun _ => none)).isSome) :
    ∃ u z o, w.step (.rpn e.toks) = some (.handle w.next, u) ∧ u.step (.isZero w.next) = some (.bool z, u) ∧
      u.step (.isOne w.next) = some (.bool o, u) ∧ (z = true ↔ ∀ ν, ¬ Holds e ν) ∧ (o = true ↔ ∀ ν, Holds e ν) := by
  obtain ⟨names, hn⟩ := names_exists hw
  obtain ⟨F, u, h1, h2, h3, h4, h5, _⟩ := C09_rpn hw hn e saved
  obtain ⟨⟨z, z1, z2⟩, ⟨o, o1, o2⟩, _⟩ := C02_constants h2 h3
  have nd := names_nodup h2 h4
  refine ⟨u, z, o, h1, z1, o1, ?_, ?_⟩
  · rw [z2]
    constructor
    · intro h ν
      rw [holds_iff (h5 _ ν (agrees_atNames _ ν)), h]; simp
    · intro h a
      obtain ⟨ν, hν⟩ := agrees_exists nd a
      have := h ν
      rw [holds_iff (h5 a ν hν)] at this
      simpa using this
  · rw [o2]
    constructor
    · intro h ν
      rw [holds_iff (h5 _ ν (agrees_atNames _ ν)), h]
    · intro h a
      obtain ⟨ν, hν⟩ := agrees_exists nd a
      exact (holds_iff (h5 a ν hν)).1 (h ν)

/-- **C85.** `==` of the handles of two expressions, read one after the other in one manager, says whether the
expressions are equivalent. -/
theorem C85_equiv {w : World} (hw : w.Reachable) (e e' : Expr) (saved : ∀ ν, (e.eval ν (fun _ => none)).isSome)
    (saved' : ∀ ν, (e'.eval ν (fun _ => none)).isSome) :
    ∃ u v f g b, w.step (.rpn e.toks) = some (.handle f, u) ∧ u.step (.rpn e'.toks) = some (.handle g, v) ∧
      v.step (.eq f g) = some (.bool b, v) ∧ (b = true ↔ ∀ ν, Holds e ν ↔ Holds e' ν) := by
  obtain ⟨names, hn⟩ := names_exists hw
  obtain ⟨F, u, h1, h2, h3, h4, h5, _⟩ := C09_rpn hw hn e saved
  obtain ⟨G, v, k1, k2, k3, k4, k5, k6⟩ := C09_rpn h2 h4 e' saved'
  obtain ⟨b, b1, b2⟩ := C02_eq k2 (k6 _ _ h3) k3
  have nd := names_nodup k2 k4
  have hp := addNames_prefix (addNames names e.vars) e'.vars
  refine ⟨u, v, _, _, b, h1, k1, b1, ?_⟩
  rw [b2]
  constructor
  · intro h ν
    have ha := agrees_atNames (addNames (addNames names e.vars) e'.vars) ν
    rw [holds_iff (h5 _ ν (ha.mono hp)), holds_iff (k5 _ ν ha), h]
  · intro h
    funext a
    obtain ⟨ν, hν⟩ := agrees_exists nd a
    have := h ν
    rw [holds_iff (h5 a ν (hν.mono hp)), holds_iff (k5 a ν hν)] at this
    exact Bool.eq_iff_iff.2 this

/-- **C85.** An expression follows from another iff adding it changes nothing: `==` of the handles of `e` and
`e & e'` says whether every valuation that makes `e` true makes `e'` true. -/
theorem C85_implies {w : World} (hw : w.Reachable) (e e' : Expr) (saved : ∀ ν, (e.eval ν (fun _ => none)).isSome)
    (saved' : ∀ ν E, (e'.eval ν E).isSome) (keep : ∀ ν E E' b c, e'.eval ν E = some b → e'.eval ν E' = some c → b.1 = c.1) :
    ∃ u v f g b, w.step (.rpn e.toks) = some (.handle f, u) ∧
      u.step (.rpn (Expr.and e e').toks) = some (.handle g, v) ∧
      v.step (.eq f g) = some (.bool b, v) ∧ (b = true ↔ ∀ ν, Holds e ν → Holds e' ν) := by
  have key : ∀ ν, ∃ x y E E' E'', e.eval ν (fun _ => none) = some (x, E) ∧ e'.eval ν E = some (y, E') ∧
      e'.eval ν (fun _ => none) = some (y, E'') ∧ (Expr.and e e').eval ν (fun _ => none) = some (x && y, E') := by
    intro ν
    obtain ⟨⟨x, E⟩, h1⟩ := Option.isSome_iff_exists.1 (saved ν)
    obtain ⟨⟨y, E'⟩, h2⟩ := Option.isSome_iff_exists.1 (saved' ν E)
    obtain ⟨⟨y', E''⟩, h3⟩ := Option.isSome_iff_exists.1 (saved' ν (fun _ => none))
    obtain rfl : y = y' := keep ν _ _ _ _ h2 h3
    exact ⟨x, y, E, E', E'', h1, h2, h3, by simp [Expr.eval, h1, h2]⟩
  obtain ⟨u, v, f, g, b, h1, h2, h3, h4⟩ := C85_equiv hw e (.and e e') saved (fun ν => by
    obtain ⟨x, y, E, E', E'', _, _, _, k⟩ := key ν; rw [k]; rfl)
  refine ⟨u, v, f, g, b, h1, h2, h3, h4.trans (forall_congr' fun ν => ?_)⟩
  obtain ⟨x, y, E, E', E'', k1, k2, k3, k4⟩ := key ν
  rw [holds_iff (b := x) (by rw [k1]; rfl), holds_iff (b := x && y) (by rw [k4]; rfl), holds_iff (b := y) (by rw [k3]; rfl)]
  cases x <;> cases y <;> simp

/-! ## MDD -/

/-- The value of an expression in the states `ν` of the names. -/
def valueIn (e : MExpr) (ν : String → Nat) : Option MVal := (e.eval ν (fun _ => none)).map (fun p => p.1.toM)

theorem at_exists {vs : List (String × Nat)} (hnd : (vs.map Prod.fst).Nodup) {a : Nat → Nat} (ha : ValidV vs a) :
    ∃ ν, At vs a ν := by
  classical
  refine ⟨fun y => if h : ∃ i : Nat, ∃ r, vs[i]? = some (y, r) then a h.choose else 0, ha, fun i x r hi => ?_⟩
  have h : ∃ i : Nat, ∃ r, vs[i]? = some (x, r) := ⟨i, r, hi⟩
  simp only [dif_pos h]
  obtain ⟨r', hr'⟩ := h.choose_spec
  have : i = h.choose := by
    have h1 : (vs.map Prod.fst)[i]? = some x := by simp [hi]
    have h2 : (vs.map Prod.fst)[h.choose]? = some x := by rw [List.getElem?_map, hr']; rfl
    exact nodup_getElem?_inj hnd h1 h2
  rw [← this]

/-- **C85.** The nodes of the handles of two multi-state expressions, read one after the other in one
manager, are the same iff the expressions have the same value in all states of the variables. -/
theorem C85_mdd_equiv {w : MWorld} {vs : List (String × Nat)} (hw : w.Reachable) (hv : MVars w vs)
    (rng : String → Option Nat) (e e' : MExpr) (hr : ∀ x ∈ e.names ++ e'.names, ∃ r, rng x = some r ∧ 0 < r)
    (he : ∀ ν, InRange (addVars rng vs e.names) ν → (valueIn e ν).isSome)
    (he' : ∀ ν, InRange (addVars rng (addVars rng vs e.names) e'.names) ν → (valueIn e' ν).isSome) :
    ∃ u v f g x y, w.step (.rpn e.toks rng) = some (.handle f, u) ∧ u.step (.rpn e'.toks rng) = some (.handle g, v) ∧
      v.step (.node f) = some (.node x, v) ∧ v.step (.node g) = some (.node y, v) ∧
      (x = y ↔ ∀ ν, InRange (addVars rng (addVars rng vs e.names) e'.names) ν → valueIn e ν = valueIn e' ν) := by
  obtain ⟨u, F, h1, h2, h3, h4, h5, _⟩ := C35_rpn hw hv rng e (fun x hx => by
    obtain ⟨r, k1, k2⟩ := hr x (List.mem_append_left _ hx); exact ⟨r, k1, .inr k2⟩)
    (fun a ν ha => by simpa [valueIn] using he ν ha.range)
  obtain ⟨v, G, k1, k2, k3, k4, k5, k6⟩ := C35_rpn h2 h3 rng e' (fun x hx => by
    obtain ⟨r, k1, k2⟩ := hr x (List.mem_append_right _ hx); exact ⟨r, k1, .inr k2⟩)
    (fun a ν ha => by simpa [valueIn] using he' ν ha.range)
  obtain ⟨x, y, x1, y1, xy⟩ := C27_handles k2 k3 (k6 _ _ h4) k4
  have hp := addVars_prefix rng (addVars rng vs e.names) e'.names
  have nd : ((addVars rng (addVars rng vs e.names) e'.names).map Prod.fst).Nodup := (mrel k2 k3).mok.nodup
  refine ⟨u, v, _, _, x, y, h1, k1, x1, y1, xy.trans ?_⟩
  constructor
  · intro h ν hν
    have ha := atStates_at (vs := addVars rng (addVars rng vs e.names) e'.names) hν
    exact (h5 _ ν (ha.mono hp)).trans ((congrArg some (h _ ha.valid)).trans (k5 _ ν ha).symm)
  · intro h a ha
    obtain ⟨ν, hν⟩ := at_exists nd ha
    exact Option.some.inj ((h5 _ ν (hν.mono hp)).symm.trans ((h ν hν.range).trans (k5 _ ν hν)))

/-! ## Examples -/

/-- De Morgan's law is found, and absorption; `x & ~x` is unsatisfiable and `x | ~x` a tautology. -/
example : (World.new.run [.rpn (lex "x y & ~"), .rpn (lex "y ~ x ~ |"), .eq 0 1, .rpn (lex "x"), .rpn (lex "x x y & |"),
    .eq 2 3, .eq 0 2, .rpn (lex "x x ~ &"), .isZero 4, .rpn (lex "x x ~ |"), .isOne 5, .isOne 0]).map (·.1) =
    some [.handle 0, .handle 1, .bool true, .handle 2, .handle 3, .bool true, .bool false, .handle 4, .bool true,
      .handle 5, .bool true, .bool false] := by decide +kernel

example : let e : Expr := .not (.and (.var "x") (.var "y"))
    let e' : Expr := .or (.not (.var "y")) (.not (.var "x"))
    (∀ ν, (e.eval ν (fun _ => none)).isSome) ∧ (∀ ν, (e'.eval ν (fun _ => none)).isSome) ∧ ∀ ν, Holds e ν ↔ Holds e' ν := by
  refine ⟨fun ν => rfl, fun ν => rfl, fun ν => ?_⟩
  simp only [Holds, Expr.eval]
  cases ν "x" <;> cases ν "y" <;> simp

/-- `y` keeps its value and needs nothing saved, so `C85_implies` applies to it: `x & y` implies `y`. -/
example : (∀ (ν : String → Bool) E, ((Expr.var "y").eval ν E).isSome) ∧
    (∀ (ν : String → Bool) E E' b c, (Expr.var "y").eval ν E = some b → (Expr.var "y").eval ν E' = some c → b.1 = c.1) ∧
    ∀ ν, Holds (.and (.var "x") (.var "y")) ν → Holds (.var "y") ν := by
  refine ⟨fun ν E => rfl, fun ν E E' b c h h' => ?_, fun ν => ?_⟩
  · simp only [Expr.eval, Option.some.injEq] at h h'; subst h; subst h'; rfl
  · simp only [Holds, Expr.eval]
    cases ν "x" <;> cases ν "y" <;> simp

/-- `x + y >= 2` and `!(y + x < 2)` of variables with three states share their node. -/
example {w : MWorld} {vs : List (String × Nat)} (hw : w.Reachable) (hv : MVars w vs) :
    ∃ u v f g x, w.step (.rpn [.var "x", .var "y", .bin .add, .int 2, .bin .gte] (fun _ => some 3)) = some (.handle f, u) ∧
      u.step (.rpn [.var "y", .var "x", .bin .add, .int 2, .bin .lt, .not] (fun _ => some 3)) = some (.handle g, v) ∧
      v.step (.node f) = some (.node x, v) ∧ v.step (.node g) = some (.node x, v) := by
  obtain ⟨u, v, f, g, x, y, h1, h2, h3, h4, h5⟩ := C85_mdd_equiv hw hv (fun _ => some 3)
    (.bin .gte (.bin .add (.var "x") (.var "y")) (.int 2)) (.not (.bin .lt (.bin .add (.var "y") (.var "x")) (.int 2)))
    (fun x _ => ⟨3, rfl, by omega⟩) (fun ν _ => rfl)
    (fun ν _ => rfl)
  obtain rfl := h5.2 fun ν _ => by
    simp [valueIn, MExpr.eval, sbin, snot, arith, cmp, Int.add_comm, ← decide_not, not_lt]
  exact ⟨u, v, f, g, x, h1, h2, h3, h4⟩

end DD.Props
