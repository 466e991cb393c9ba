import Verif.Mtmdd2.Reach
import Verif.Props.BddCore

/-!
# Properties of the core MDD, MTMDD and two-forest managers: C26, C27 (core), C28–C33, C48, C52

`Eval m a i t`: reading node `i` at assignment `a` (level ↦ edge number) ends in terminal `t`;
`MEval` is the same for the tagged nodes of the two-forest manager.
-/

set_option autoImplicit false
set_option linter.unusedSectionVars false
set_option linter.unusedVariables false

namespace DD.Props
open Arena

/-- Every node of `m` in use is still there in `m'` and reads the same. -/
def SameMeaningT {T : Type} (m m' : Arena T) : Prop :=
  ∀ i, m.Live i → m'.Live i ∧ ∀ a t, Eval m' a i t ↔ Eval m a i t

/-! ## C26 -/

/-- Truth table of a connective (`replace` is not one). -/
def mtruth : MddOp → List Bool → Option Bool
  | .not _, [x] => some (!x)
  | .and _ _, [x, y] => some (x && y)
  | .or _ _, [x, y] => some (x || y)
  | .xor _ _, [x, y] => some (x ^^ y)
  | .imp _ _, [x, y] => some (!x || y)
  | .nand _ _, [x, y] => some (!(x && y))
  | .nor _ _, [x, y] => some (!(x || y))
  | .xnor _ _, [x, y] => some (!(x ^^ y))
  | .ite _ _ _, [x, y, z] => some (if x then y else z)
  | _, _ => none

/-- **C26.** In any reachable forest, a connective applied to nodes in use returns, without panic, a
node whose value is the connective of the operands' values wherever these are determined; all nodes
keep their meaning.  Variables have any ranges. -/
theorem C26_connectives {s : Mdd} (hs : s.Reachable) (o : MddOp)
    (hl : ∀ i ∈ o.args, s.arena.Live i) :
    ∃ r s', o.run s = some (r, s') ∧ s'.Reachable ∧ s'.arena.Live r ∧
      (∀ a, s.arena.ValidA a → ∀ bs, Reads s.arena a o.args bs → ∀ b, mtruth o bs = some b →
        Eval s'.arena a r (T3.ofBool b)) ∧
      SameMeaningT s.arena s'.arena := by
  have inv := hs.inv
  obtain ⟨r, s', h1, h2, h3, h4, h6⟩ := Mdd.op_ok inv o hl
  refine ⟨r, s', h1, .op o hs hl h1, h4, ?_, ?_⟩
  · intro a ha bs hb b hbt
    have ha' : s'.arena.ValidA a := (ValidA.step h3).2 ha
    obtain ⟨t, ht⟩ := h2.wf.eval_total ha' h4
    have hz := h6 a ha' t ht
    suffices t = T3.ofBool b by rw [← this]; exact ht
    have two : ∀ {f g : Nat} {F : Bool → Bool → Bool}, Reads s.arena a [f, g] bs →
        Op2 (lift2 F) s.arena s.arena f g a t → (∀ x y, bs = [x, y] → F x y = b) → t = T3.ofBool b := by
      intro f g F hb hz hF
      obtain ⟨x, y, rfl, hx, hy⟩ := reads_two hb
      rw [← hF x y rfl]
      exact hz _ _ hx hy x y rfl rfl
    have inj : ∀ {x : Bool}, some x = some b → x = b := fun h => Option.some.inj h
    cases o with
    | not f =>
      match bs, hb with
      | [x], hb => rw [← inj hbt]; exact hz _ hb.1 x rfl
      | [], hb => exact hb.elim
      | _ :: _ :: _, hb => exact hb.2.elim
    | ite f g h =>
      match bs, hb with
      | [x, y, w], hb =>
        rw [← inj hbt]
        have := hz _ _ _ hb.1 hb.2.1 hb.2.2.1
        cases x with
        | true => exact this.1 rfl
        | false => exact this.2 rfl
      | [], hb => exact hb.elim
      | [_], hb => exact hb.2.elim
      | [_, _], hb => exact hb.2.2.elim
      | _ :: _ :: _ :: _ :: _, hb => exact hb.2.2.2.elim
    | and f g => exact two hb hz (by rintro x y rfl; exact inj hbt)
    | or f g => exact two hb hz (by rintro x y rfl; exact inj hbt)
    | xor f g => exact two hb hz (by rintro x y rfl; exact inj hbt)
    | imp f g => exact two hb hz (by rintro x y rfl; exact inj hbt)
    | nand f g => exact two hb hz (by rintro x y rfl; exact inj hbt)
    | nor f g => exact two hb hz (by rintro x y rfl; exact inj hbt)
    | xnor f g => exact two hb hz (by rintro x y rfl; exact inj hbt)
    | replace f g =>
      obtain ⟨x, y, rfl, _, _⟩ := reads_two hb
      cases hbt
  · intro i hi
    exact ⟨(h3.keep i hi).1, fun a t => inv.wf.eval_ext h3.toExt hi⟩

/-- **C26.** `ite` needs only the selected branch to be determined. -/
theorem C26_ite_selects {s : Mdd} (hs : s.Reachable) {f g h : Nat} (lf : s.arena.Live f)
    (lg : s.arena.Live g) (lh : s.arena.Live h) :
    ∃ r s', s.ite f g h = some (r, s') ∧ ∀ a, s.arena.ValidA a →
      (Eval s.arena a f .one → ∀ t, Eval s'.arena a r t ↔ Eval s.arena a g t) ∧
      (Eval s.arena a f .zero → ∀ t, Eval s'.arena a r t ↔ Eval s.arena a h t) := by
  have inv := hs.inv
  obtain ⟨r, s', h1, h2, h3, h4, _, h6⟩ := Mdd.ite_ok inv lf lg lh
  have h2 : Mdd.Inv s' := h2
  have h3 : Step s.arena s'.arena := h3
  refine ⟨r, s', h1, fun a ha => ?_⟩
  have ha' : s'.arena.ValidA a := (ValidA.step h3).2 ha
  obtain ⟨t, ht⟩ := h2.wf.eval_total ha' h4
  obtain ⟨y, hy⟩ := inv.wf.eval_total ha lg
  obtain ⟨w, hw⟩ := inv.wf.eval_total ha lh
  constructor
  · intro hf t'
    have : t = y := (h6 a ha' t ht _ _ _ hf hy hw).1 rfl
    subst this
    exact ⟨fun h => by rw [h.det ht]; exact hy, fun h => by rw [h.det hy]; exact ht⟩
  · intro hf t'
    have : t = w := (h6 a ha' t ht _ _ _ hf hy hw).2 rfl
    subst this
    exact ⟨fun h => by rw [h.det ht]; exact hw, fun h => by rw [h.det hw]; exact ht⟩

/-- Every node in use reads as exactly one terminal at every assignment. -/
theorem C26_total {s : Mdd} (hs : s.Reachable) {i : Nat} (hi : s.arena.Live i) {a : Nat → Nat}
    (ha : s.arena.ValidA a) : ∃ t, Eval s.arena a i t ∧ ∀ t', Eval s.arena a i t' → t' = t := by
  obtain ⟨t, ht⟩ := hs.inv.wf.eval_total ha hi
  exact ⟨t, ht, fun t' ht' => ht'.det ht⟩

/-! ## C27, on node ids -/

/-- **C27.** If distinct headers have distinct levels, two Boolean nodes in use are the same id
exactly when they read the same at every assignment. -/
theorem C27_mdd_canonical {s : Mdd} (hs : s.Reachable) (inj : s.arena.LevInj) {i j : Nat}
    (hi : s.arena.Live i) (hj : s.arena.Live j) :
    i = j ↔ ∀ a, s.arena.ValidA a → ∀ t, Eval s.arena a i t ↔ Eval s.arena a j t := by
  constructor
  · rintro rfl a _ t; exact Iff.rfl
  · exact hs.inv.wf.canon inj hi hj

/-- **C27.** The same for value nodes. -/
theorem C27_mtmdd_canonical {s : Mtmdd} (hs : s.Reachable) (inj : s.arena.LevInj) {i j : Nat}
    (hi : s.arena.Live i) (hj : s.arena.Live j) :
    i = j ↔ ∀ a, s.arena.ValidA a → ∀ t, Eval s.arena a i t ↔ Eval s.arena a j t := by
  constructor
  · rintro rfl a _ t; exact Iff.rfl
  · exact hs.inv.wf.canon inj hi hj

/-! ## C28, C48 -/

/-- The arithmetic meant (`none`: no value). Division truncates toward zero. -/
def arith : MtOp → Int → Int → Option Int
  | .add _ _, a, b => some (a + b)
  | .sub _ _, a, b => some (a - b)
  | .mul _ _, a, b => some (a * b)
  | .div _ _, a, b => if b = 0 then none else some (a.tdiv b)
  | .rem _ _, a, b => if b = 0 then none else some (a.tmod b)
  | .min _ _, a, b => some (if a ≤ b then a else b)
  | .max _ _, a, b => some (if a ≤ b then b else a)
  | .replace _ _, a, _ => some a

/-- The arithmetic meant when operands may be undetermined. -/
def arithU (o : MtOp) : Option Int → Option Int → Option Int
  | some x, some y => arith o x y
  | _, _ => none

/-- The operands of an operation. -/
def opnds : MtOp → Nat × Nat
  | .add f g | .sub f g | .mul f g | .div f g | .rem f g | .min f g | .max f g | .replace f g => (f, g)

/-- `replace` is not arithmetic. -/
def isArith : MtOp → Bool
  | .replace _ _ => false
  | _ => true

/-- **C28.** In any reachable forest, arithmetic on nodes in use returns, without panic, a node that
reads, at every assignment, the operation on the two values read there, and undetermined when an
operand is undetermined there or the divisor is 0. -/
theorem C28_arith {s : Mtmdd} (hs : s.Reachable) (o : MtOp) (ho : isArith o = true)
    (lf : s.arena.Live (opnds o).1) (lg : s.arena.Live (opnds o).2) :
    ∃ r s', o.run s = some (r, s') ∧ s'.Reachable ∧ s'.arena.Live r ∧
      (∀ a, s.arena.ValidA a → ∀ x y, Eval s.arena a (opnds o).1 x → Eval s.arena a (opnds o).2 y →
        Eval s'.arena a r (arithU o x y)) ∧
      SameMeaningT s.arena s'.arena := by
  have inv := hs.inv
  have hl : ∀ i ∈ o.args, s.arena.Live i := by
    intro i hi
    cases o <;> simp only [MtOp.args, List.mem_cons, List.not_mem_nil, or_false] at hi <;>
      rcases hi with rfl | rfl <;> first | exact lf | exact lg
  obtain ⟨r, s', h1, h2, h3, h4, h6⟩ := Mtmdd.op_ok inv o hl
  refine ⟨r, s', h1, .op o hs hl h1, h4, ?_, ?_⟩
  · intro a ha x y hx hy
    have ha' : s'.arena.ValidA a := (ValidA.step h3).2 ha
    obtain ⟨t, ht⟩ := h2.wf.eval_total ha' h4
    have hz := h6 a ha' t ht
    have fin : ∀ {tt : Int → Int → Option Int}, Op2 (Mtmdd.ptR tt) s.arena s.arena (opnds o).1 (opnds o).2 a t →
        (∀ u v, tt u v = arith o u v) →
        Eval s'.arena a r (arithU o x y) := by
      intro tt h he
      have e : t = Mtmdd.pt tt x y := h x y hx hy
      rw [e] at ht
      cases x <;> cases y <;> first | exact ht | skip
      simp only [Mtmdd.pt, he] at ht
      exact ht
    cases o with
    | replace f g => cases ho
    | add f g => exact fin hz (fun _ _ => rfl)
    | sub f g => exact fin hz (fun _ _ => rfl)
    | mul f g => exact fin hz (fun _ _ => rfl)
    | div f g => exact fin hz (fun _ _ => rfl)
    | rem f g => exact fin hz (fun _ _ => rfl)
    | min f g => exact fin hz (fun u v => by simp only [arith]; congr 1)
    | max f g => exact fin hz (fun u v => by simp only [arith]; congr 1)
  · intro i hi
    exact ⟨(h3.keep i hi).1, fun a t => inv.wf.eval_ext h3.toExt hi⟩

/-- **C28.** The result is undetermined at an assignment exactly when an operand is, or the
operation divides by 0 there. -/
theorem C28_undet_iff {s : Mtmdd} (hs : s.Reachable) (o : MtOp) (ho : isArith o = true)
    (lf : s.arena.Live (opnds o).1) (lg : s.arena.Live (opnds o).2) {r : Nat} {s' : Mtmdd}
    (h : o.run s = some (r, s')) {a : Nat → Nat} (ha : s.arena.ValidA a) :
    Eval s'.arena a r none ↔
      Eval s.arena a (opnds o).1 none ∨ Eval s.arena a (opnds o).2 none ∨
      (Eval s.arena a (opnds o).2 (some 0) ∧ (o = .div (opnds o).1 (opnds o).2 ∨ o = .rem (opnds o).1 (opnds o).2)) := by
  obtain ⟨r', s'', h1, _, _, h4, _⟩ := C28_arith hs o ho lf lg
  rw [h] at h1; cases h1
  obtain ⟨x, hx⟩ := hs.inv.wf.eval_total ha lf
  obtain ⟨y, hy⟩ := hs.inv.wf.eval_total ha lg
  have hz := h4 a ha x y hx hy
  have eqx : ∀ t, Eval s.arena a (opnds o).1 t ↔ t = x := fun t => ⟨fun h => h.det hx, fun h => h ▸ hx⟩
  have eqy : ∀ t, Eval s.arena a (opnds o).2 t ↔ t = y := fun t => ⟨fun h => h.det hy, fun h => h ▸ hy⟩
  have eqz : ∀ t, Eval s'.arena a r t ↔
      t = (arithU o x y) :=
    fun t => ⟨fun h => h.det hz, fun h => h ▸ hz⟩
  rw [eqx, eqy, eqz, eqy]
  cases x with
  | none => simp [arithU]
  | some x =>
    cases y with
    | none => simp [arithU]
    | some y =>
      cases o with
      | replace f g => cases ho
      | div f g =>
        simp only [arithU, arith, opnds]
        by_cases hy0 : y = 0
        · simp [hy0]
        · simp [hy0]; exact fun h => hy0 h.symm
      | rem f g =>
        simp only [arithU, arith, opnds]
        by_cases hy0 : y = 0
        · simp [hy0]
        · simp [hy0]; exact fun h => hy0 h.symm
      | _ => simp [arithU, arith, opnds]

/-- **C48.** `replace(f, g)` on value diagrams reads `f`'s value where `f` is determined and `g`'s
reading elsewhere. -/
theorem C48_mtmdd_replace {s : Mtmdd} (hs : s.Reachable) {f g : Nat} (lf : s.arena.Live f)
    (lg : s.arena.Live g) :
    ∃ r s', s.replace f g = some (r, s') ∧ s'.Reachable ∧ s'.arena.Live r ∧
      (∀ a, s.arena.ValidA a →
        (∀ v, Eval s.arena a f (some v) → Eval s'.arena a r (some v)) ∧
        (Eval s.arena a f none → ∀ t, Eval s.arena a g t → Eval s'.arena a r t)) ∧
      SameMeaningT s.arena s'.arena := by
  have inv := hs.inv
  have hl : ∀ i ∈ (MtOp.replace f g).args, s.arena.Live i := by
    simp only [MtOp.args, List.mem_cons, List.not_mem_nil, or_false]
    rintro i (rfl | rfl) <;> assumption
  obtain ⟨r, s', h1, h2, h3, h4, h6⟩ := Mtmdd.op_ok inv (.replace f g) hl
  refine ⟨r, s', h1, .op (.replace f g) hs hl h1, h4, ?_, ?_⟩
  · intro a ha
    have ha' : s'.arena.ValidA a := (ValidA.step h3).2 ha
    obtain ⟨t, ht⟩ := h2.wf.eval_total ha' h4
    have hz : Op2 Mtmdd.over s.arena s.arena f g a t := h6 a ha' t ht
    obtain ⟨y, hy⟩ := inv.wf.eval_total ha lg
    constructor
    · intro v hv
      have : t = some v := hz _ _ hv hy
      rw [← this]; exact ht
    · intro hv u hu
      have : t = u := hz _ _ hv hu
      rw [← this]; exact ht
  · intro i hi
    exact ⟨(h3.keep i hi).1, fun a t => inv.wf.eval_ext h3.toExt hi⟩

/-- **C48.** `replace(f, g)` on Boolean diagrams likewise. -/
theorem C48_mdd_replace {s : Mdd} (hs : s.Reachable) {f g : Nat} (lf : s.arena.Live f)
    (lg : s.arena.Live g) :
    ∃ r s', s.replace f g = some (r, s') ∧ s'.Reachable ∧ s'.arena.Live r ∧
      (∀ a, s.arena.ValidA a →
        (∀ b, Eval s.arena a f (T3.ofBool b) → Eval s'.arena a r (T3.ofBool b)) ∧
        (Eval s.arena a f .undet → ∀ t, Eval s.arena a g t → Eval s'.arena a r t)) ∧
      SameMeaningT s.arena s'.arena := by
  have inv := hs.inv
  have hl : ∀ i ∈ (MddOp.replace f g).args, s.arena.Live i := by
    simp only [MddOp.args, List.mem_cons, List.not_mem_nil, or_false]
    rintro i (rfl | rfl) <;> assumption
  obtain ⟨r, s', h1, h2, h3, h4, h6⟩ := Mdd.op_ok inv (.replace f g) hl
  refine ⟨r, s', h1, .op (.replace f g) hs hl h1, h4, ?_, ?_⟩
  · intro a ha
    have ha' : s'.arena.ValidA a := (ValidA.step h3).2 ha
    obtain ⟨t, ht⟩ := h2.wf.eval_total ha' h4
    have hz : Op2 Mdd.over s.arena s.arena f g a t := h6 a ha' t ht
    obtain ⟨y, hy⟩ := inv.wf.eval_total ha lg
    constructor
    · intro b hv
      have : t = T3.ofBool b := by
        have := hz _ _ hv hy
        cases b <;> exact this
      rw [← this]; exact ht
    · intro hv u hu
      have : t = u := hz _ _ hv hu
      rw [← this]; exact ht
  · intro i hi
    exact ⟨(h3.keep i hi).1, fun a t => inv.wf.eval_ext h3.toExt hi⟩

/-! ## C29 -/

/-- **C29.** `value(v)` always returns; a node in use that is the constant `v` is exactly what it
returns, and the manager does not change then.  Hence equal values give equal ids and distinct
values distinct ids, as long as the earlier node is in use, whatever happened in between. -/
theorem C29_value_unique {s : Mtmdd} (hs : s.Reachable) (v : Int) :
    ∃ r s', s.value v = some (r, s') ∧ s'.Reachable ∧ s'.arena.Live r ∧
      (∀ a t, Eval s'.arena a r t ↔ t = some v) ∧
      (∀ i w, s.arena.Live i → s.arena.nodes[i]? = some (.term (some w)) → (i = r ↔ w = v)) ∧
      (s.arena.Live r → s' = s) ∧ SameMeaningT s.arena s'.arena := by
  have inv := hs.inv
  obtain ⟨r, s', h1, h2, h3, h4, h5, h6⟩ := Mtmdd.value_raw inv v
  refine ⟨r, s', h1, .value v hs h1, h4, fun a t => eval_term_iff h5, ?_, h6, ?_⟩
  · intro i w hi hn
    constructor
    · rintro rfl
      have := (h3.keep i hi).2
      rw [h5, hn] at this
      cases this; rfl
    · rintro rfl
      have hn' : s'.arena.nodes[i]? = some (.term (some w)) := by rw [(h3.keep i hi).2, hn]
      exact h2.wf.uniq (h3.keep i hi).1 h4 hn' h5
  · intro i hi
    exact ⟨(h3.keep i hi).1, fun a t => inv.wf.eval_ext h3.toExt hi⟩

/-- **C29.** Reading form: with distinct levels, a node in use is `value(v)` exactly when it reads
`v` everywhere. -/
theorem C29_value_reading {s : Mtmdd} (hs : s.Reachable) (inj : s.arena.LevInj) (v : Int) {r : Nat}
    {s' : Mtmdd} (h : s.value v = some (r, s')) {i : Nat} (hi : s.arena.Live i) :
    i = r ↔ ∀ a, s.arena.ValidA a → Eval s.arena a i (some v) := by
  have inv := hs.inv
  obtain ⟨r', s'', h1, h2, h3, h4, h5, _⟩ := Mtmdd.value_raw inv v
  rw [h] at h1; cases h1
  have inj' : s'.arena.LevInj := by
    intro p q hd hd' e1 e2
    rw [h3.heq] at e1 e2
    exact inj p q hd hd' e1 e2
  constructor
  · rintro rfl a ha
    exact (inv.wf.eval_ext h3.toExt hi).1 ((eval_term_iff h5).2 rfl)
  · intro hc
    refine h2.wf.canon inj' (h3.keep i hi).1 h4 ?_
    intro a ha t
    have ha0 := (ValidA.step h3).1 ha
    rw [inv.wf.eval_ext h3.toExt hi, eval_term_iff h5]
    exact ⟨fun k => k.det (hc a ha0), fun k => k ▸ hc a ha0⟩

/-! ## C30 -/

/-- Every tagged node in use is still there and reads the same. -/
def SameMeaning2 (s s' : Mtmdd2) : Prop :=
  ∀ x, s.MLive x → s'.MLive x ∧ ∀ a u, s'.MEval a x u ↔ s.MEval a x u

theorem same2 {s s' : Mtmdd2} (hs : Mtmdd2.Inv s) (e : Mtmdd2.Ext2 s s') : SameMeaning2 s s' :=
  fun _ hx => ⟨Mtmdd2.mlive_ext e hx, fun _ _ => Mtmdd2.meval_ext hs e hx⟩

/-- The comparison meant, for the operators that are pointwise comparisons. -/
def cmpSpec : M2Bin → Option (Int → Int → Prop)
  | .eq => some (· = ·)
  | .neq => some (· ≠ ·)
  | .lt => some (· < ·)
  | .gt => some (· > ·)
  | .gte => some (· ≥ ·)
  | _ => none

/-- **C30.** `eq`, `neq`, `lt`, `gt`, `gte` on value nodes return, without panic, a Boolean node that
is true exactly where the comparison holds and false exactly where it fails, wherever both operands
are determined. -/
theorem C30_compare {s : Mtmdd2} (hs : s.Reachable) (o : M2Bin) {P : Int → Int → Prop}
    (ho : cmpSpec o = some P) {f g : Nat} (lf : s.MLive (.value f)) (lg : s.MLive (.value g)) :
    ∃ r s', o.run s (.value f) (.value g) = some (.bool r, s') ∧ s'.Reachable ∧ s'.MLive (.bool r) ∧
      (∀ a, s.ValidA a → ∀ x y, s.MEval a (.value f) (.v (some x)) →
        s.MEval a (.value g) (.v (some y)) →
        (s'.MEval a (.bool r) (.b .one) ↔ P x y) ∧ (s'.MEval a (.bool r) (.b .zero) ↔ ¬ P x y)) ∧
      SameMeaning2 s s' := by
  have inv := hs.inv
  obtain ⟨q, s', h1, h2, h3, h4, h5⟩ := Mtmdd2.bin_ok inv o lf lg
  have hreach : s'.Reachable := .op (.bin o (.value f) (.value g)) hs (by
    simp only [M2Op.args, List.mem_cons, List.not_mem_nil, or_false]
    rintro x (rfl | rfl) <;> assumption) trivial h1
  have key : ∀ a, s.ValidA a → ∀ x y z, s.MEval a (.value f) (.v (some x)) →
      s.MEval a (.value g) (.v (some y)) → s'.MEval a q z → ∃ b, z = .b (T3.ofBool b) ∧ (b = true ↔ P x y) := by
    intro a ha x y z hx hy hz
    have := h5 a (h3.valid.2 ha) z hz _ _ hx hy
    cases o <;> simp only [cmpSpec] at ho <;> cases ho <;>
      simp only [M2Bin.Rel, M2Bin.cmpV] at this <;> refine ⟨_, this, ?_⟩ <;> simp
  obtain ⟨r, rfl⟩ : ∃ r, q = .bool r := by
    obtain ⟨a, ha⟩ : ∃ a, s'.ValidA a := ⟨_, h2.b.wf.valid_zero⟩
    obtain ⟨z, hz⟩ := Mtmdd2.mtotal h2 ha h4
    cases q with
    | bool r => exact ⟨r, rfl⟩
    | value r =>
      exfalso
      obtain ⟨x, hx⟩ := Mtmdd2.mtotal inv (h3.valid.1 ha) lf
      obtain ⟨y, hy⟩ := Mtmdd2.mtotal inv (h3.valid.1 ha) lg
      have := h5 a ha z hz _ _ hx hy
      cases x with
      | b _ => exact hx.elim
      | v x =>
      cases y with
      | b _ => exact hy.elim
      | v y =>
      have : ∃ t, z = .b t := by
        cases o <;> simp only [cmpSpec] at ho <;> cases ho <;>
          simp only [M2Bin.Rel, M2Bin.cmpV] at this <;> cases x <;> cases y <;> exact ⟨_, this⟩
      obtain ⟨t, rfl⟩ := this
      exact hz
  refine ⟨r, s', h1, hreach, h4, ?_, same2 inv h3.ext2⟩
  intro a ha x y hx hy
  obtain ⟨z, hz⟩ := Mtmdd2.mtotal h2 (h3.valid.2 ha) h4
  obtain ⟨b, rfl, hb⟩ := key a ha x y z hx hy hz
  have e : ∀ u, s'.MEval a (.bool r) u ↔ u = .b (T3.ofBool b) :=
    fun u => ⟨fun h => h.det hz, fun h => h ▸ hz⟩
  rw [e, e, ← hb]
  cases b <;> simp [T3.ofBool]

/-- **C30.** `ite(c, t, e)` with branches of one kind returns, without panic, a node that reads like
`t` where `c` is true and like `e` where `c` is false. -/
theorem C30_ite {s : Mtmdd2} (hs : s.Reachable) {c : Nat} {t e : MNode} (lc : s.MLive (.bool c))
    (lt : s.MLive t) (le : s.MLive e) (hk : t.isBool = e.isBool) :
    ∃ r s', s.ite (.bool c) t e = some (r, s') ∧ s'.Reachable ∧ s'.MLive r ∧ r.isBool = t.isBool ∧
      (∀ a, s.ValidA a →
        (s.MEval a (.bool c) (.b .one) → ∀ u, s'.MEval a r u ↔ s.MEval a t u) ∧
        (s.MEval a (.bool c) (.b .zero) → ∀ u, s'.MEval a r u ↔ s.MEval a e u)) ∧
      SameMeaning2 s s' := by
  have inv := hs.inv
  obtain ⟨r, s', h1, h2, h3, h4, h5⟩ := Mtmdd2.ite_m inv lc lt le hk
  have hreach : s'.Reachable := .op (.ite (.bool c) t e) hs (by
    simp only [M2Op.args, List.mem_cons, List.not_mem_nil, or_false]
    rintro x (rfl | rfl | rfl) <;> assumption) hk h1
  have key : ∀ a, s.ValidA a → ∃ z y w, s'.MEval a r z ∧ s.MEval a t y ∧ s.MEval a e w ∧
      ∀ x, s.MEval a (.bool c) x → iteRel x y w z := by
    intro a ha
    obtain ⟨z, hz⟩ := Mtmdd2.mtotal h2 (h3.valid.2 ha) h4
    obtain ⟨y, hy⟩ := Mtmdd2.mtotal inv ha lt
    obtain ⟨w, hw⟩ := Mtmdd2.mtotal inv ha le
    exact ⟨z, y, w, hz, hy, hw, fun x hx => h5 a (h3.valid.2 ha) z hz x y w hx hy hw⟩
  refine ⟨r, s', h1, hreach, h4, ?_, ?_, same2 inv h3.ext2⟩
  · obtain ⟨a, ha⟩ : ∃ a, s.ValidA a := ⟨_, inv.b.wf.valid_zero⟩
    obtain ⟨z, y, w, hz, hy, hw, hR⟩ := key a ha
    obtain ⟨x, hx⟩ := Mtmdd2.mtotal inv ha lc
    have := hR x hx
    cases x with
    | v _ => exact hx.elim
    | b x =>
    cases t <;> cases e <;> first | (cases hk; done) | skip
    all_goals
      cases y <;> first | exact hy.elim | skip
      cases w <;> first | exact hw.elim | skip
      obtain ⟨u, rfl, _⟩ := this
      cases r <;> first | exact hz.elim | rfl
  · intro a ha
    obtain ⟨z, y, w, hz, hy, hw, hR⟩ := key a ha
    constructor
    · intro hc u
      have : z = y := by
        have := hR _ hc
        cases y <;> cases w <;> first | exact this.elim | (obtain ⟨u, rfl, h⟩ := this; rw [h.1 rfl])
      subst this
      exact ⟨fun h => by rw [h.det hz]; exact hy, fun h => by rw [h.det hy]; exact hz⟩
    · intro hc u
      have : z = w := by
        have := hR _ hc
        cases y <;> cases w <;> first | exact this.elim | (obtain ⟨u, rfl, h⟩ := this; rw [h.2 rfl])
      subst this
      exact ⟨fun h => by rw [h.det hz]; exact hw, fun h => by rw [h.det hw]; exact hz⟩

/-! ## C31: `lte` is not pointwise `≤` -/

/-- **C31, what `lte` does compute.** A Boolean node; where the operands are determined it is true
when `f < g`, false when `f > g`, and where they are equal it is either. -/
theorem C31_lte_partial {s : Mtmdd2} (hs : s.Reachable) {f g : Nat} (lf : s.MLive (.value f))
    (lg : s.MLive (.value g)) :
    ∃ r s', s.lte (.value f) (.value g) = some (r, s') ∧ s'.Reachable ∧ s'.MLive r ∧
      (∀ a, s.ValidA a → ∀ x y, s.MEval a (.value f) (.v (some x)) →
        s.MEval a (.value g) (.v (some y)) → x ≠ y →
        s'.MEval a r (.b (T3.ofBool (decide (x ≤ y))))) ∧
      SameMeaning2 s s' := by
  have inv := hs.inv
  obtain ⟨q, s', h1, h2, h3, h4, h5⟩ := Mtmdd2.bin_ok inv .lte lf lg
  refine ⟨q, s', h1, .op (.bin .lte (.value f) (.value g)) hs (by
    simp only [M2Op.args, List.mem_cons, List.not_mem_nil, or_false]
    rintro x (rfl | rfl) <;> assumption) trivial h1, h4, ?_, same2 inv h3.ext2⟩
  intro a ha x y hx hy hne
  obtain ⟨z, hz⟩ := Mtmdd2.mtotal h2 (h3.valid.2 ha) h4
  have := h5 a (h3.valid.2 ha) z hz _ _ hx hy
  simp only [M2Bin.Rel, M2Bin.cmpV] at this
  rcases this with rfl | ⟨rfl, c, e1, e2⟩
  · rw [show decide (x ≤ y) = decide (x < y) by
      rw [decide_eq_decide]; omega]
    exact hz
  · cases e1; cases e2; exact (hne rfl).elim

/-- What `lte` returns in any consistent state with distinct levels. -/
theorem lte_exact {s : Mtmdd2} (inv : s.Inv) (inj : s.mdd.arena.LevInj) {f g : Nat}
    (lf : s.MLive (.value f)) (lg : s.MLive (.value g)) :
    ∃ r s', s.lte (.value f) (.value g) = some (r, s') ∧ s'.Inv ∧ Mtmdd2.St s s' ∧ s'.MLive r ∧
      ((∀ a, s.ValidA a → ∃ x, s.MEval a (.value f) (.v (some x)) ∧ s.MEval a (.value g) (.v (some x))) →
        r = .bool Mdd.one) ∧
      ((¬ ∀ a, s.ValidA a → ∃ x, s.MEval a (.value f) (.v (some x)) ∧
          s.MEval a (.value g) (.v (some x))) →
        ∀ a, s.ValidA a → ∀ x y, s.MEval a (.value f) (.v x) → s.MEval a (.value g) (.v y) →
          s'.MEval a r (M2Bin.cmpV (fun x y => decide (x < y)) false x y)) := by
  obtain ⟨r, s1, h1, h2, h3, h4, _, h6⟩ := Mtmdd2.veq_ok inv lf lg
  have h2 : Mtmdd2.Inv s1 := h2
  have h3 : Mtmdd2.St s s1 := h3
  have h4 : s1.mdd.arena.Live r := h4
  have hone : r = Mdd.one ↔ ∀ a, s.ValidA a → ∃ x, s.MEval a (.value f) (.v (some x)) ∧
      s.MEval a (.value g) (.v (some x)) := by
    constructor
    · rintro rfl a ha
      obtain ⟨x, hx⟩ := inv.v.wf.eval_total (inv.valid.2 ha) lf
      obtain ⟨y, hy⟩ := inv.v.wf.eval_total (inv.valid.2 ha) lg
      have : Mtmdd2.cmpR (fun a b => decide (a = b)) x y .one :=
        h6 a (h3.valid.2 ha) .one ((eval_term_iff (Mdd.fixed h2.b .one).2).2 rfl) x y hx hy
      unfold Mtmdd2.cmpR at this
      cases x <;> cases y
      · cases this
      · cases this
      · cases this
      · rename_i x y
        have := decide_eq_true_iff.1 (T3.ofBool_inj (show T3.ofBool (decide (x = y)) = T3.ofBool true from this.symm))
        subst this
        exact ⟨x, hx, hy⟩
    · intro hall
      have inj1 : s1.mdd.arena.LevInj := by
        intro p q hd hd' e1 e2
        rw [h3.1.heq] at e1 e2
        exact inj p q hd hd' e1 e2
      refine h2.b.wf.canon inj1 h4 (Mdd.fixed h2.b .one).1 ?_
      intro a ha t
      rw [show Mdd.one = T3.one.slot from rfl, eval_term_iff (Mdd.fixed h2.b .one).2]
      obtain ⟨x, hx, hy⟩ := hall a (h3.valid.1 ha)
      have hto : ∀ t, Eval s1.mdd.arena a r t → t = .one := by
        intro t ht
        have : Mtmdd2.cmpR (fun a b => decide (a = b)) (some x) (some x) t := h6 a ha t ht _ _ hx hy
        unfold Mtmdd2.cmpR at this
        rw [this]; simp [T3.ofBool]
      obtain ⟨t', ht'⟩ := h2.b.wf.eval_total ha h4
      exact ⟨hto t, fun e => by rw [e, ← hto t' ht']; exact ht'⟩
  by_cases hc : r = Mdd.one
  · refine ⟨.bool Mdd.one, s1, ?_, h2, h3, (Mdd.fixed h2.b .one).1, fun _ => rfl, fun hn => (hn (hone.1 hc)).elim⟩
    simp only [Mtmdd2.lte, h1]
    rw [if_pos hc]
  · obtain ⟨q, s', k1, k2, k3, k4, k5⟩ := Mtmdd2.tagB_ok
      (Mtmdd2.vlt_ok h2 (Mtmdd2.mlive_ext h3.ext2 lf) (Mtmdd2.mlive_ext h3.ext2 lg))
    refine ⟨q, s', ?_, k2, h3.trans k3, k4, fun h => (hc (hone.2 h)).elim, ?_⟩
    · simp only [Mtmdd2.lte, h1]
      rw [if_neg hc]
      exact k1
    · intro _ a ha x y hx hy
      have ha' : s'.ValidA a := k3.valid.2 (h3.valid.2 ha)
      obtain ⟨z, hz⟩ := Mtmdd2.mtotal k2 ha' k4
      obtain ⟨t, rfl, ht⟩ := k5 a ha' z hz
      rw [← Mtmdd2.cmpR_cmpV (ht x y ((Mtmdd2.meval_ext inv h3.ext2 lf).2 hx)
        ((Mtmdd2.meval_ext inv h3.ext2 lg).2 hy))]
      exact hz

/-- **C31, exactly.** With distinct levels: the result is the constant true if the operands are
determined and equal at *every* assignment; otherwise it is the pointwise strict comparison
(false where an operand is undetermined). -/
theorem C31_lte_exact {s : Mtmdd2} (hs : s.Reachable) (inj : s.mdd.arena.LevInj) {f g : Nat}
    (lf : s.MLive (.value f)) (lg : s.MLive (.value g)) :
    ∃ r s', s.lte (.value f) (.value g) = some (r, s') ∧
      ((∀ a, s.ValidA a → ∃ x, s.MEval a (.value f) (.v (some x)) ∧ s.MEval a (.value g) (.v (some x))) →
        r = .bool Mdd.one) ∧
      ((¬ ∀ a, s.ValidA a → ∃ x, s.MEval a (.value f) (.v (some x)) ∧
          s.MEval a (.value g) (.v (some x))) →
        ∀ a, s.ValidA a → ∀ x y, s.MEval a (.value f) (.v x) → s.MEval a (.value g) (.v y) →
          s'.MEval a r (M2Bin.cmpV (fun x y => decide (x < y)) false x y)) := by
  obtain ⟨r, s', h1, _, _, _, h2, h3⟩ := lte_exact hs.inv inj lf lg
  exact ⟨r, s', h1, h2, h3⟩

/-! ## C32: `undet_boolean` is not undetermined -/

/-- **C32, what holds.** `undet_boolean()` is a Boolean node in use. -/
theorem C32_undet_boolean_partial {s : Mtmdd2} (hs : s.Reachable) :
    s.MLive Mtmdd2.undetBoolean ∧ Mtmdd2.undetBoolean.isBool = true :=
  ⟨(Mdd.fixed hs.inv.b .zero).1, rfl⟩

/-- **C32 fails, in every manager and at every assignment:** `undet_boolean()` reads false. -/
theorem C32_undet_boolean_false {s : Mtmdd2} (hs : s.Reachable) (a : Nat → Nat) :
    s.MEval a Mtmdd2.undetBoolean (.b .zero) ∧ ¬ s.MEval a Mtmdd2.undetBoolean (.b .undet) := by
  refine ⟨(Mtmdd2.meval_constB hs.inv .zero (u := .b .zero)).2 rfl, fun k => ?_⟩
  have := (Mtmdd2.meval_constB hs.inv .zero (u := .b .undet)).1 k
  cases this

/-! ## C33 -/

/-- A node reachable from a root, in the root's forest. -/
def Kept (s : Mtmdd2) (roots : List MNode) : MNode → Prop
  | .bool i => ∃ r, .bool r ∈ roots ∧ Reach s.mdd.arena r i
  | .value i => ∃ r, .value r ∈ roots ∧ Reach s.mtmdd.arena r i

theorem mem_broots {roots : List MNode} {r : Nat} : r ∈ Mtmdd2.broots roots ↔ .bool r ∈ roots := by
  induction roots with
  | nil => simp [Mtmdd2.broots]
  | cons x xs ih =>
    cases x <;> simp_all [Mtmdd2.broots]

theorem mem_vroots {roots : List MNode} {r : Nat} : r ∈ Mtmdd2.vroots roots ↔ .value r ∈ roots := by
  induction roots with
  | nil => simp [Mtmdd2.vroots]
  | cons x xs ih =>
    cases x <;> simp_all [Mtmdd2.vroots]

/-- **C33.** `gc(roots)` with roots in use never panics; afterwards every node reachable from a root
in the root's forest is in use and reads as before, and so do the Boolean terminals and the
undetermined value; every other node is free. -/
theorem C33_gc {s : Mtmdd2} (hs : s.Reachable) {roots : List MNode} (hr : ∀ r ∈ roots, s.MLive r) :
    ∃ n s', s.gc roots = some (n, s') ∧ s'.Reachable ∧
      (∀ x, s'.MLive x ↔ Kept s roots x ∨ x ∈ [.bool 0, .bool 1, .bool 2, .value 0]) ∧
      (∀ x, s'.MLive x → s.MLive x ∧ ∀ a u, s'.MEval a x u ↔ s.MEval a x u) ∧
      (∀ a, s'.ValidA a ↔ s.ValidA a) ∧
      n = (s'.mtmdd.arena.free.length, s'.mdd.arena.free.length) := by
  have inv := hs.inv
  obtain ⟨n, s', h1, h2, h3, h4, h5, h6, h7, h8, h9⟩ := Mtmdd2.gc_m inv hr
  refine ⟨n, s', h1, .gc roots hs hr h1, ?_, ?_, ?_, h9⟩
  · intro x
    cases x with
    | bool i =>
      show s'.mdd.arena.Live i ↔ _
      rw [h6]
      unfold Survives
      have hsl : i ∈ slots T3 ↔ i ∈ [0, 1, 2] := Iff.rfl
      rw [hsl]
      simp only [Kept, mem_broots, List.mem_cons, List.not_mem_nil, or_false, MNode.bool.injEq,
        reduceCtorEq]
      constructor
      · rintro (h | ⟨r, k1, _, k3⟩)
        · exact .inr h
        · exact .inl ⟨r, k1, k3⟩
      · rintro (⟨r, k1, k3⟩ | h)
        · exact .inr ⟨r, k1, (hr _ k1).1, k3⟩
        · exact .inl h
    | value i =>
      show s'.mtmdd.arena.Live i ↔ _
      rw [h7]
      unfold Survives
      have hsl : i ∈ slots (Option Int) ↔ i ∈ [0] := Iff.rfl
      rw [hsl]
      simp only [Kept, mem_vroots, List.mem_cons, List.not_mem_nil, or_false, MNode.value.injEq,
        reduceCtorEq, false_or]
      constructor
      · rintro (h | ⟨r, k1, _, k3⟩)
        · exact .inr h
        · exact .inl ⟨r, k1, k3⟩
      · rintro (⟨r, k1, k3⟩ | h)
        · exact .inr ⟨r, k1, (hr _ k1).1, k3⟩
        · exact .inl h
  · intro x hx
    have := same2 h2 h8.ext2 x hx
    exact ⟨this.1, fun a u => (this.2 a u).symm⟩
  · intro a
    unfold Mtmdd2.ValidA Arena.ValidA
    rw [h3]

/-- **C33, later operations.** Any operation of the two-forest manager after a collection, on
surviving operands, still computes from the readings the operands had before the collection. -/
theorem C33_then_op {s s' : Mtmdd2} (hs : s.Reachable) {roots : List MNode}
    (hr : ∀ r ∈ roots, s.MLive r) {n : Nat × Nat} (hg : s.gc roots = some (n, s')) (o : M2Bin)
    {f g : MNode} (lf : Kept s roots f) (lg : Kept s roots g) :
    ∃ r s'', o.run s' f g = some (r, s'') ∧ s''.Reachable ∧ s''.MLive r ∧
      ∀ a, s.ValidA a → ∀ x y, s.MEval a f x → s.MEval a g y →
        ∃ z, s''.MEval a r z ∧ o.Rel x y z := by
  obtain ⟨n', s1, h1, h2, h3, h4, h5, _⟩ := C33_gc hs hr
  rw [hg] at h1; cases h1
  have lf' := (h3 f).2 (.inl lf)
  have lg' := (h3 g).2 (.inl lg)
  obtain ⟨r, s'', k1, k2, k3, k4, k5⟩ := Mtmdd2.bin_ok h2.inv o lf' lg'
  refine ⟨r, s'', k1, .op (.bin o f g) h2 (by
    simp only [M2Op.args, List.mem_cons, List.not_mem_nil, or_false]
    rintro x (rfl | rfl) <;> assumption) trivial k1, k4, ?_⟩
  intro a ha x y hx hy
  have ha' : s''.ValidA a := k3.valid.2 ((h5 a).2 ha)
  obtain ⟨z, hz⟩ := Mtmdd2.mtotal k2 ha' k4
  exact ⟨z, hz, k5 a ha' z hz x y (((h4 f lf').2 a x).2 hx) (((h4 g lg').2 a y).2 hy)⟩

/-! ## C52 -/

/-- **C52.** No MDD operation overwrites a node in use. -/
theorem C52_mdd {s s' : Mdd} (hs : s.Reachable) (o : MddOp) (hl : ∀ i ∈ o.args, s.arena.Live i)
    {r : Nat} (h : o.run s = some (r, s')) :
    ∀ i, s.arena.Live i → s'.arena.Live i ∧ s'.arena.nodes[i]? = s.arena.nodes[i]? := by
  obtain ⟨r', s'', h1, _, h3, _⟩ := Mdd.op_ok hs.inv o hl
  rw [h] at h1; cases h1
  exact fun i hi => h3.keep i hi

/-- **C52.** No MTMDD operation overwrites a node in use. -/
theorem C52_mtmdd {s s' : Mtmdd} (hs : s.Reachable) (o : MtOp) (hl : ∀ i ∈ o.args, s.arena.Live i)
    {r : Nat} (h : o.run s = some (r, s')) :
    ∀ i, s.arena.Live i → s'.arena.Live i ∧ s'.arena.nodes[i]? = s.arena.nodes[i]? := by
  obtain ⟨r', s'', h1, _, h3, _⟩ := Mtmdd.op_ok hs.inv o hl
  rw [h] at h1; cases h1
  exact fun i hi => h3.keep i hi

/-- **C52.** No operation of the two-forest manager overwrites a node in use in either forest. -/
theorem C52_mtmdd2 {s s' : Mtmdd2} (hs : s.Reachable) (o : M2Op) (hl : ∀ x ∈ o.args, s.MLive x)
    (hk : o.Kinds) {r : MNode} (h : o.run s = some (r, s')) :
    (∀ i, s.mdd.arena.Live i → s'.mdd.arena.Live i ∧ s'.mdd.arena.nodes[i]? = s.mdd.arena.nodes[i]?) ∧
    (∀ i, s.mtmdd.arena.Live i →
      s'.mtmdd.arena.Live i ∧ s'.mtmdd.arena.nodes[i]? = s.mtmdd.arena.nodes[i]?) := by
  obtain ⟨r', s'', h1, _, h3, _⟩ := Mtmdd2.op_ok hs.inv o hl hk
  rw [h] at h1; cases h1
  exact ⟨fun i hi => h3.1.keep i hi, fun i hi => h3.2.keep i hi⟩

/-! ## Concrete cases -/

/-- Two variables: `x` of range 2 at level 0 and `y` of range 3 at level 1, with the value diagrams
of `x` (value node 3) and `y` (value node 5); value nodes 1, 2, 4 are the constants 0, 1, 2. -/
def demoM : Option Mtmdd2 :=
  (Mtmdd2.new.createHeader 0 "x" 2).bind fun p =>
  (p.2.createHeader 1 "y" 3).bind fun p =>
  (p.2.value 0).bind fun p =>
  (p.2.value 1).bind fun p =>
  (p.2.createNode 0 [.value 1, .value 2]).bind fun p =>
  (p.2.value 2).bind fun p =>
  (p.2.createNode 1 [.value 1, .value 2, .value 4]).map (·.2)

/-- The state of `demoM`. -/
def demoMS : Mtmdd2 := demoM.getD Mtmdd2.new

theorem demoMS_reachable : demoMS.Reachable ∧ demoMS.MLive (.value 2) ∧ demoMS.MLive (.value 3) ∧
    demoMS.MLive (.value 5) ∧ demoMS.mdd.arena.LevInj := by
  have l1 : ∀ (s : Mtmdd2) (c : MNode), s.mlevel c = none → ∀ n l, s.mlevel c = some l → l < n := by
    intro s c h n l h'; rw [h] at h'; cases h'
  refine ⟨?_, by decide +kernel, by decide +kernel, by decide +kernel, ?_⟩
  · refine .node (h := 1) (ch := [.value 1, .value 2, .value 4]) (r := .value 5) (hd := ⟨1, "y", 3⟩)
      (k := false)
      (.value 2 (r := .value 4) (.node (h := 0) (ch := [.value 1, .value 2]) (r := .value 3)
        (hd := ⟨0, "x", 2⟩) (k := false)
        (.value 1 (r := .value 2) (.value 0 (r := .value 1)
          (.header 1 "y" 3 (h := 1) (.header 0 "x" 2 (h := 0) .new (by decide) ?_ rfl) (by decide) ?_ rfl)
          rfl) rfl) rfl rfl ?_ rfl) rfl) rfl rfl ?_ rfl
    · intro hd h; cases h
    · intro hd h e
      have : hd = ⟨0, "x", 2⟩ := by
        rcases List.mem_cons.1 h with h | h
        · exact h
        · cases h
      subst this; cases e
    · intro c hc
      simp only [List.mem_cons, List.not_mem_nil, or_false] at hc
      rcases hc with rfl | rfl
      · exact ⟨rfl, by decide +kernel, l1 _ _ (by decide +kernel) _⟩
      · exact ⟨rfl, by decide +kernel, l1 _ _ (by decide +kernel) _⟩
    · intro c hc
      simp only [List.mem_cons, List.not_mem_nil, or_false] at hc
      rcases hc with rfl | rfl | rfl
      · exact ⟨rfl, by decide +kernel, l1 _ _ (by decide +kernel) _⟩
      · exact ⟨rfl, by decide +kernel, l1 _ _ (by decide +kernel) _⟩
      · exact ⟨rfl, by decide +kernel, l1 _ _ (by decide +kernel) _⟩
  · intro h h' hd hd' e1 e2 hl
    have k1 : h < 2 := (List.getElem?_eq_some_iff.1 e1).1
    have k2 : h' < 2 := (List.getElem?_eq_some_iff.1 e2).1
    match h, h', k1, k2 with
    | 0, 0, _, _ => rfl
    | 1, 1, _, _ => rfl
    | 0, 1, _, _ => cases e1; cases e2; cases hl
    | 1, 0, _, _ => cases e1; cases e2; cases hl

/-- **C31 fails.** `lte(x, 1)` for a two-state variable `x` is false at `x = 1`. -/
theorem C31_lte_not_le : ∃ (s : Mtmdd2) (f g : MNode) (r : MNode) (s' : Mtmdd2) (a : Nat → Nat),
    s.Reachable ∧ s.MLive f ∧ s.MLive g ∧ s.lte f g = some (r, s') ∧ s.ValidA a ∧
      s.MEval a f (.v (some 1)) ∧ s.MEval a g (.v (some 1)) ∧ s'.MEval a r (.b .zero) := by
  obtain ⟨h1, h2, h3, _, _⟩ := demoMS_reachable
  refine ⟨demoMS, .value 3, .value 2, .bool 4, _, fun _ => 1, h1, h3, h2, rfl, ?_, ?_, ?_, ?_⟩
  · intro hd hm
    have hm : hd ∈ ([⟨0, "x", 2⟩, ⟨1, "y", 3⟩] : List Header) := hm
    simp only [List.mem_cons, List.not_mem_nil, or_false] at hm
    rcases hm with rfl | rfl <;> decide
  · exact .nt (h := 0) (ch := [1, 2]) (hd := ⟨0, "x", 2⟩) (c := 2) rfl rfl rfl (.term rfl)
  · exact .term rfl
  · exact .nt (h := 0) (ch := [1, 0]) (hd := ⟨0, "x", 2⟩) (c := 0) rfl rfl rfl (.term rfl)

/-- C28, C29, C30, C33 apply to it: `x + y`, `y mod x`, `value(2)` (the existing node 4),
`x < y`, `ite(x < y, x, y)` are built; a collection keeping `y` only reclaims the rest and `value(1)`
is found again. -/
example :
    (demoMS.add (.value 3) (.value 5)).map (·.1) = some (.value 9) ∧
    ((MtOp.rem 5 3).run demoMS.mtmdd).map (·.1) = some 6 ∧
    (demoMS.value 2).map (·.1) = some (.value 4) ∧
    (demoMS.lt (.value 3) (.value 5)).map (·.1) = some (.bool 4) ∧
    ((demoMS.lt (.value 3) (.value 5)).bind fun p => (p.2.ite p.1 (.value 3) (.value 5)).map (·.1)) =
      some (.value 6) ∧
    (demoMS.gc [.value 5]).map (·.1) = some (1, 0) ∧
    ((demoMS.gc [.value 5]).bind fun p => (p.2.value 1).map (·.1)) = some (.value 2) ∧
    ((demoMS.gc []).bind fun p => (p.2.value 7).bind fun q => (q.2.value 7).map (fun t => (q.1, t.1))) =
      some (.value 5, .value 5) := by
  decide +kernel

end DD.Props
