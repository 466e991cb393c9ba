import Verif.Mtmdd2.Ops
import Verif.Mdd.Reach
import Verif.Mtmdd.Reach

/-!
# Reachable states of `mddcore::MtMdd2Manager<V>`, and what its operations compute
-/

set_option autoImplicit false
set_option linter.unusedSectionVars false
set_option linter.unusedVariables false

namespace DD
open Arena

/-- What a node reads as: a truth value or an integer value (`none` = undetermined). -/
inductive MVal where
  | b (t : T3)
  | v (t : Option Int)
  deriving DecidableEq

namespace Mtmdd2

/-- Node `x` reads as `u` at assignment `a`. -/
def MEval (s : Mtmdd2) (a : Nat → Nat) : MNode → MVal → Prop
  | .bool i, .b t => Eval s.mdd.arena a i t
  | .value i, .v t => Eval s.mtmdd.arena a i t
  | _, _ => False

/-- Node in use. -/
def MLive (s : Mtmdd2) : MNode → Prop
  | .bool i => s.mdd.arena.Live i
  | .value i => s.mtmdd.arena.Live i

instance (s : Mtmdd2) (x : MNode) : Decidable (s.MLive x) := by
  cases x <;> unfold MLive <;> infer_instance

/-- Top level of a node. -/
def mlevel (s : Mtmdd2) : MNode → Option Nat
  | .bool i => s.mdd.arena.level? i
  | .value i => s.mtmdd.arena.level? i

/-- The assignment respects the variables' ranges. -/
def ValidA (s : Mtmdd2) (a : Nat → Nat) : Prop := s.mdd.arena.ValidA a

/-- Kind of a node. -/
def _root_.DD.MNode.isBool : MNode → Bool
  | .bool _ => true
  | .value _ => false

end Mtmdd2

/-- The two-operand operations (/repo/mddcore/src/mtmdd2_ops.rs:36-291). -/
inductive M2Bin where
  | and | or | xor | add | sub | mul | div | max | min | eq | neq | lt | lte | gt | gte
  deriving DecidableEq, Repr

namespace M2Bin

/-- The call. -/
def run : M2Bin → Mtmdd2 → MNode → MNode → Option (MNode × Mtmdd2)
  | and => Mtmdd2.and
  | or => Mtmdd2.or
  | xor => Mtmdd2.xor
  | add => Mtmdd2.add
  | sub => Mtmdd2.sub
  | mul => Mtmdd2.mul
  | div => Mtmdd2.div
  | max => Mtmdd2.max
  | min => Mtmdd2.min
  | eq => Mtmdd2.eq
  | neq => Mtmdd2.neq
  | lt => Mtmdd2.lt
  | lte => Mtmdd2.lte
  | gt => Mtmdd2.gt
  | gte => Mtmdd2.gte

/-- Boolean operands, boolean result; undetermined for value operands. -/
def boolRel (F : Bool → Bool → Bool) (x y z : MVal) : Prop :=
  match x, y with
  | .b x, .b y => ∃ t, z = .b t ∧ lift2 F x y t
  | _, _ => z = .b .undet

/-- Value operands, value result; undetermined for boolean operands. -/
def valRel (tt : Int → Int → Option Int) (x y z : MVal) : Prop :=
  match x, y with
  | .v x, .v y => z = .v (Mtmdd.pt tt x y)
  | _, _ => z = .v none

/-- Comparison of values; `d` is the answer when an operand is undetermined. -/
def cmpV (p : Int → Int → Bool) (d : Bool) (x y : Option Int) : MVal :=
  match x, y with
  | some a, some b => .b (T3.ofBool (p a b))
  | _, _ => .b (T3.ofBool d)

/-- What one point of the result can be, given the operands at that point. -/
def Rel : M2Bin → MVal → MVal → MVal → Prop
  | and => boolRel (· && ·)
  | or => boolRel (· || ·)
  | xor => boolRel (· ^^ ·)
  | add => valRel (fun a b => some (a + b))
  | sub => valRel (fun a b => some (a - b))
  | mul => valRel (fun a b => some (a * b))
  | div => valRel (fun a b => if b = 0 then none else some (a.tdiv b))
  | max => valRel (fun a b => some (Max.max a b))
  | min => valRel (fun a b => some (Min.min a b))
  | eq => fun x y z =>
    match x, y with
    | .b x, .b y => ∃ t, z = .b t ∧ lift2 (fun a b => !(a ^^ b)) x y t
    | .v x, .v y => z = cmpV (fun a b => decide (a = b)) false x y
    | _, _ => z = .b .undet
  | neq => fun x y z =>
    match x, y with
    | .b x, .b y => ∃ t, z = .b t ∧ lift2 (· ^^ ·) x y t
    | .v x, .v y => z = cmpV (fun a b => !decide (a = b)) true x y
    | _, _ => z = .b .undet
  | lt => fun x y z =>
    match x, y with
    | .v x, .v y => z = cmpV (fun a b => decide (a < b)) false x y
    | _, _ => z = .b .undet
  | lte => fun x y z =>
    match x, y with
    | .v x, .v y => z = cmpV (fun a b => decide (a < b)) false x y ∨
        (z = .b .one ∧ ∃ c, x = some c ∧ y = some c)
    | _, _ => z = .b .undet
  | gt => fun x y z =>
    match x, y with
    | .v x, .v y => z = cmpV (fun a b => decide (b < a)) false x y
    | _, _ => z = .b .undet
  | gte => fun x y z =>
    match x, y with
    | .v x, .v y => z = cmpV (fun a b => !decide (a < b)) true x y
    | _, _ => z = .b .undet

end M2Bin

/-- What one point of `ite` can be. -/
def iteRel (x y w z : MVal) : Prop :=
  match x, y, w with
  | .b x, .b y, .b w => ∃ t, z = .b t ∧ liftIte x y w t
  | .b x, .v y, .v w => ∃ t, z = .v t ∧ Mtmdd2.iteR x y w t
  | .v _, .b _, .b _ => z = .b .undet
  | .v _, .v _, .v _ => z = .v none
  | _, _, _ => False

/-- What one point of `not` can be. -/
def notRel (x z : MVal) : Prop :=
  match x with
  | .b x => ∃ t, z = .b t ∧ lift1 (!·) x t
  | .v _ => z = .b .undet

namespace Mtmdd2

theorem MEval.det {s : Mtmdd2} {a : Nat → Nat} {x : MNode} {u u' : MVal} (h : s.MEval a x u)
    (h' : s.MEval a x u') : u = u' := by
  cases x <;> cases u <;> cases u' <;> first | exact h.elim | exact h'.elim | skip
  · rw [Eval.det (show Eval _ a _ _ from h) h']
  · rw [Eval.det (show Eval _ a _ _ from h) h']

theorem Inv.valid {s : Mtmdd2} (hs : Inv s) {a : Nat → Nat} :
    s.mtmdd.arena.ValidA a ↔ s.ValidA a := by
  unfold ValidA Arena.ValidA; rw [hs.hdr]

theorem mtotal {s : Mtmdd2} (hs : Inv s) {a : Nat → Nat} (ha : s.ValidA a) {x : MNode}
    (hx : s.MLive x) : ∃ u, s.MEval a x u := by
  cases x with
  | bool i => obtain ⟨t, ht⟩ := hs.b.wf.eval_total ha hx; exact ⟨.b t, ht⟩
  | value i => obtain ⟨t, ht⟩ := hs.v.wf.eval_total (hs.valid.2 ha) hx; exact ⟨.v t, ht⟩

/-- Both forests only grew, possibly with new headers. -/
def Ext2 (s s' : Mtmdd2) : Prop := Ext s.mdd.arena s'.mdd.arena ∧ Ext s.mtmdd.arena s'.mtmdd.arena

theorem St.ext2 {s s' : Mtmdd2} (h : St s s') : Ext2 s s' := ⟨h.1.toExt, h.2.toExt⟩

theorem mlive_ext {s s' : Mtmdd2} (e : Ext2 s s') {x : MNode} (hx : s.MLive x) : s'.MLive x := by
  cases x with
  | bool i => exact (e.1.keep i hx).1
  | value i => exact (e.2.keep i hx).1

theorem meval_ext {s s' : Mtmdd2} (hs : Inv s) (e : Ext2 s s') {x : MNode} (hx : s.MLive x)
    {a : Nat → Nat} {u : MVal} : s'.MEval a x u ↔ s.MEval a x u := by
  cases x <;> cases u
  · exact Iff.rfl
  · exact hs.v.wf.eval_ext e.2 hx
  · exact hs.b.wf.eval_ext e.1 hx
  · exact Iff.rfl

theorem St.valid {s s' : Mtmdd2} (h : St s s') {a : Nat → Nat} : s'.ValidA a ↔ s.ValidA a :=
  Arena.ValidA.step h.1

/-- An outcome: a node whose readings satisfy `Φ`; nothing else changes. -/
def MOk (s : Mtmdd2) (Φ : (Nat → Nat) → MVal → Prop) (res : Option (MNode × Mtmdd2)) : Prop :=
  ∃ r s', res = some (r, s') ∧ Inv s' ∧ St s s' ∧ s'.MLive r ∧
    ∀ a, s'.ValidA a → ∀ z, s'.MEval a r z → Φ a z

theorem MOk.mono {s : Mtmdd2} {Φ Ψ : (Nat → Nat) → MVal → Prop} {res : Option (MNode × Mtmdd2)}
    (h : MOk s Φ res) (hΦ : ∀ a, s.ValidA a → ∀ z, Φ a z → Ψ a z) : MOk s Ψ res := by
  obtain ⟨r, s', h1, h2, h3, h4, h5⟩ := h
  exact ⟨r, s', h1, h2, h3, h4, fun a ha z hz => hΦ a (h3.valid.1 ha) z (h5 a ha z hz)⟩

theorem MOk.ret {s : Mtmdd2} (hs : Inv s) {x : MNode} (hx : s.MLive x) :
    MOk s (fun a z => s.MEval a x z) (some (x, s)) :=
  ⟨x, s, rfl, hs, St.refl s, hx, fun _ _ _ h => h⟩

theorem tagB_ok {s : Mtmdd2} {k : Nat} {Φ : (Nat → Nat) → T3 → Prop} {res : Option (Nat × Mtmdd2)}
    (h : engB.Ok s k Φ res) : MOk s (fun a z => ∃ t, z = .b t ∧ Φ a t) (tagB res) := by
  obtain ⟨r, s', rfl, h2, h3, h4, _, h6⟩ := h
  refine ⟨.bool r, s', rfl, h2, h3, h4, fun a ha z hz => ?_⟩
  cases z with
  | b t => exact ⟨t, rfl, h6 a ha t hz⟩
  | v t => exact hz.elim

theorem tagV_ok {s : Mtmdd2} {k : Nat} {Φ : (Nat → Nat) → Option Int → Prop}
    {res : Option (Nat × Mtmdd2)}
    (h : engV.Ok s k Φ res) : MOk s (fun a z => ∃ t, z = .v t ∧ Φ a t) (tagV res) := by
  obtain ⟨r, s', rfl, h2, h3, h4, _, h6⟩ := h
  refine ⟨.value r, s', rfl, h2, h3, h4, fun a ha z hz => ?_⟩
  have h2 : Inv s' := h2
  cases z with
  | v t => exact ⟨t, rfl, h6 a (h2.valid.2 ha) t hz⟩
  | b t => exact hz.elim

theorem liftB_ok {s : Mtmdd2} (hs : Inv s) {Φ : (Nat → Nat) → T3 → Prop}
    {res : Option (Nat × Mdd)}
    (h : ∃ r s', res = some (r, s') ∧ Mdd.Inv s' ∧ Step s.mdd.arena s'.arena ∧ s'.arena.Live r ∧
      s'.arena.Sound Φ r) : MOk s (fun a z => ∃ t, z = .b t ∧ Φ a t) (s.liftB res) := by
  obtain ⟨r, s', rfl, h2, h3, h4, h6⟩ := h
  refine ⟨.bool r, { s with mdd := s' }, rfl, hs.extB h2 h3, ⟨h3, Step.refl _⟩, h4, fun a ha z hz => ?_⟩
  cases z with
  | b t => exact ⟨t, rfl, h6 a ha t hz⟩
  | v t => exact hz.elim

theorem liftV_ok {s : Mtmdd2} (hs : Inv s) {Φ : (Nat → Nat) → Option Int → Prop}
    {res : Option (Nat × Mtmdd)}
    (h : ∃ r s', res = some (r, s') ∧ Mtmdd.Inv s' ∧ Step s.mtmdd.arena s'.arena ∧ s'.arena.Live r ∧
      s'.arena.Sound Φ r) : MOk s (fun a z => ∃ t, z = .v t ∧ Φ a t) (s.liftV res) := by
  obtain ⟨r, s', rfl, h2, h3, h4, h6⟩ := h
  have hi := hs.extV h2 h3
  refine ⟨.value r, { s with mtmdd := s' }, rfl, hi, ⟨Step.refl _, h3⟩, h4, fun a ha z hz => ?_⟩
  cases z with
  | v t => exact ⟨t, rfl, h6 a (hi.valid.2 ha) t hz⟩
  | b t => exact hz.elim

theorem mlive_undetB {s : Mtmdd2} (hs : Inv s) (t : T3) : s.MLive (.bool t.slot) :=
  (Mdd.fixed hs.b t).1

theorem meval_constB {s : Mtmdd2} (hs : Inv s) {a : Nat → Nat} (t : T3) {u : MVal} :
    s.MEval a (.bool t.slot) u ↔ u = .b t := by
  cases u with
  | b t' =>
    show Eval _ _ _ _ ↔ _
    rw [eval_term_iff (Mdd.fixed hs.b t).2]
    simp
  | v t' => simp [MEval]

theorem meval_undetV {s : Mtmdd2} (hs : Inv s) {a : Nat → Nat} {u : MVal} :
    s.MEval a (.value Mtmdd.undet) u ↔ u = .v none := by
  cases u with
  | v t' =>
    show Eval _ _ _ _ ↔ _
    rw [eval_term_iff (Mtmdd.fixed hs.v).2]
    simp
  | b t' => simp [MEval]

theorem constB_m {s : Mtmdd2} (hs : Inv s) (t : T3) : MOk s (fun _ z => z = .b t) (some (.bool t.slot, s)) :=
  (MOk.ret hs (mlive_undetB hs t)).mono (fun _ _ _ h => (meval_constB hs t).1 h)

theorem undetV_m {s : Mtmdd2} (hs : Inv s) : MOk s (fun _ z => z = .v none) (some (.value Mtmdd.undet, s)) :=
  (MOk.ret (x := .value Mtmdd.undet) hs (Mtmdd.fixed hs.v).1).mono (fun _ _ _ h => (meval_undetV hs).1 h)

/-- A value terminal. -/
theorem value_m {s : Mtmdd2} (hs : Inv s) (v : Int) : MOk s (fun _ z => z = .v (some v)) (s.value v) := by
  obtain ⟨r, s', h1, h2, h3, h4, h5, _⟩ := Mtmdd.value_raw hs.v v
  refine (liftV_ok (Φ := fun _ z => z = some v) hs ⟨r, s', h1, h2, h3, h4, ?_⟩).mono ?_
  · intro a _ z hz; exact (eval_term_iff h5).1 hz
  · rintro a _ z ⟨t, rfl, rfl⟩; rfl

/-- Negating a result. -/
theorem thenNot_ok {s : Mtmdd2} {k : Nat} {Φ : (Nat → Nat) → T3 → Prop}
    {res : Option (Nat × Mtmdd2)} (h : engB.Ok s k Φ res) :
    MOk s (fun a z => ∃ t u, Φ a t ∧ z = .b u ∧ lift1 (!·) t u) (thenNot res) := by
  obtain ⟨r, s1, rfl, h2, h3, h4, _, h6⟩ := h
  have h2 : Inv s1 := h2
  have h3 : St s s1 := h3
  have h4 : s1.mdd.arena.Live r := h4
  obtain ⟨r', b', k1, k2, k3, k4, _, k6⟩ := Mdd.not_ok h2.b h4
  obtain ⟨q, s', m1, m2, m3, m4, m5⟩ := liftB_ok h2 ⟨r', b', k1, k2, k3, k4, k6⟩
  refine ⟨q, s', m1, m2, h3.trans m3, m4, fun a ha z hz => ?_⟩
  obtain ⟨u, rfl, hu⟩ := m5 a ha z hz
  have ha1 : s1.ValidA a := m3.valid.1 ha
  obtain ⟨t, ht⟩ := h2.b.wf.eval_total ha1 h4
  exact ⟨t, u, h6 a ha1 t ht, rfl, hu t ht⟩

/-- Readings of the two operands. -/
def Two (s : Mtmdd2) (P : MVal → MVal → MVal → Prop) (f g : MNode) (a : Nat → Nat) (z : MVal) : Prop :=
  ∀ x y, s.MEval a f x → s.MEval a g y → P x y z

theorem routeB_ok {s : Mtmdd2} (hs : Inv s) {op : Mdd → Nat → Nat → Option (Nat × Mdd)}
    {F : Bool → Bool → Bool}
    (hop : ∀ {s : Mdd}, Mdd.Inv s → ∀ {f g : Nat}, s.arena.Live f → s.arena.Live g →
      Mdd.eng.Ok s (Max.max (s.arena.rank f) (s.arena.rank g)) (Op2 (lift2 F) s.arena s.arena f g) (op s f g))
    {f g : MNode} (lf : s.MLive f) (lg : s.MLive g) :
    MOk s (s.Two (M2Bin.boolRel F) f g) (routeB op s f g) := by
  cases f <;> cases g
  · refine (constB_m hs .undet).mono ?_
    rintro a _ z rfl x y hx hy
    cases x <;> cases y <;> first | exact hx.elim | exact hy.elim | rfl
  · refine (constB_m hs .undet).mono ?_
    rintro a _ z rfl x y hx hy
    cases x <;> cases y <;> first | exact hx.elim | exact hy.elim | rfl
  · refine (constB_m hs .undet).mono ?_
    rintro a _ z rfl x y hx hy
    cases x <;> cases y <;> first | exact hx.elim | exact hy.elim | rfl
  · obtain ⟨r, b, h1, h2, h3, h4, _, h6⟩ := hop hs.b lf lg
    refine (liftB_ok hs ⟨r, b, h1, h2, h3, h4, h6⟩).mono ?_
    rintro a _ z ⟨t, rfl, ht⟩ x y hx hy
    cases x <;> cases y <;> first | exact hx.elim | exact hy.elim | skip
    exact ⟨t, rfl, ht _ _ hx hy⟩

theorem routeV_ok {s : Mtmdd2} (hs : Inv s) {op : Mtmdd → Nat → Nat → Option (Nat × Mtmdd)}
    {tt : Int → Int → Option Int}
    (hop : ∀ {s : Mtmdd}, Mtmdd.Inv s → ∀ {f g : Nat}, s.arena.Live f → s.arena.Live g →
      Mtmdd.eng.Ok s (Max.max (s.arena.rank f) (s.arena.rank g))
        (Op2 (Mtmdd.ptR tt) s.arena s.arena f g) (op s f g))
    {f g : MNode} (lf : s.MLive f) (lg : s.MLive g) :
    MOk s (s.Two (M2Bin.valRel tt) f g) (routeV op s f g) := by
  cases f <;> cases g
  · obtain ⟨r, b, h1, h2, h3, h4, _, h6⟩ := hop hs.v lf lg
    refine (liftV_ok hs ⟨r, b, h1, h2, h3, h4, h6⟩).mono ?_
    rintro a _ z ⟨t, rfl, ht⟩ x y hx hy
    cases x <;> cases y <;> first | exact hx.elim | exact hy.elim | skip
    have := ht _ _ hx hy
    exact congrArg MVal.v this
  · refine (undetV_m hs).mono ?_
    rintro a _ z rfl x y hx hy
    cases x <;> cases y <;> first | exact hx.elim | exact hy.elim | rfl
  · refine (undetV_m hs).mono ?_
    rintro a _ z rfl x y hx hy
    cases x <;> cases y <;> first | exact hx.elim | exact hy.elim | rfl
  · refine (undetV_m hs).mono ?_
    rintro a _ z rfl x y hx hy
    cases x <;> cases y <;> first | exact hx.elim | exact hy.elim | rfl

theorem cmpR_cmpV {p : Int → Int → Bool} {x y : Option Int} {t : T3} (h : cmpR p x y t) :
    MVal.b t = M2Bin.cmpV p false x y := by
  unfold cmpR at h
  subst h
  cases x <;> cases y <;> rfl

theorem cmpR_not {p : Int → Int → Bool} {x y : Option Int} {t u : T3} (h : cmpR p x y t)
    (hu : lift1 (!·) t u) : MVal.b u = M2Bin.cmpV (fun a b => !p a b) true x y := by
  unfold cmpR at h
  subst h
  cases x <;> cases y
  · rw [hu false rfl]; rfl
  · rw [hu false rfl]; rfl
  · rw [hu false rfl]; rfl
  · rw [hu _ rfl]; rfl

/-- `veq`/`vlt` returning the constant true means true at every point. -/
theorem lte_value {s : Mtmdd2} (hs : Inv s) {f g : Nat} (lf : s.mtmdd.arena.Live f)
    (lg : s.mtmdd.arena.Live g) :
    MOk s (s.Two (M2Bin.Rel .lte) (.value f) (.value g)) (s.lte (.value f) (.value g)) := by
  obtain ⟨r, s1, h1, h2, h3, h4, _, h6⟩ := veq_ok hs lf lg
  have h2 : Inv s1 := h2
  have h3 : St s s1 := h3
  unfold lte
  simp only [h1]
  split
  · rename_i e
    subst e
    refine ⟨.bool Mdd.one, s1, rfl, h2, h3, h4, fun a ha z hz x y hx hy => ?_⟩
    cases x <;> cases y <;> first | exact hx.elim | exact hy.elim | skip
    rename_i x y
    have hz' := (meval_constB h2 .one).1 hz
    subst hz'
    have : cmpR (fun a b => decide (a = b)) x y .one :=
      h6 a ha .one ((eval_term_iff (Mdd.fixed h2.b .one).2).2 rfl) x y hx hy
    unfold cmpR at this
    refine .inr ⟨rfl, ?_⟩
    cases x <;> cases y
    · cases this
    · cases this
    · cases this
    · rename_i x y
      have : T3.ofBool (decide (x = y)) = T3.ofBool true := this.symm
      have := T3.ofBool_inj this
      exact ⟨x, rfl, by rw [decide_eq_true_iff.1 this]⟩
  · obtain ⟨q, s', k1, k2, k3, k4, k5⟩ := tagB_ok (vlt_ok h2 (mlive_ext h3.ext2 (x := .value f) lf)
      (mlive_ext h3.ext2 (x := .value g) lg))
    refine ⟨q, s', k1, k2, h3.trans k3, k4, fun a ha z hz x y hx hy => ?_⟩
    obtain ⟨t, rfl, ht⟩ := k5 a ha z hz
    cases x <;> cases y <;> first | exact hx.elim | exact hy.elim | skip
    rename_i x y
    refine .inl (cmpR_cmpV (ht x y ?_ ?_))
    · exact (meval_ext hs h3.ext2 (x := .value f) lf (u := .v x)).2 hx
    · exact (meval_ext hs h3.ext2 (x := .value g) lg (u := .v y)).2 hy

/-- The two-operand operations. -/
theorem bin_ok {s : Mtmdd2} (hs : Inv s) (o : M2Bin) {f g : MNode} (lf : s.MLive f) (lg : s.MLive g) :
    MOk s (s.Two o.Rel f g) (o.run s f g) := by
  have und : ∀ {P : MVal → MVal → MVal → Prop},
      (∀ a x y, s.MEval a f x → s.MEval a g y → P x y (.b .undet)) →
      MOk s (s.Two P f g) (some (.bool Mdd.undet, s)) := by
    intro P hP
    refine (constB_m hs .undet).mono ?_
    rintro a _ z rfl x y hx hy
    exact hP a x y hx hy
  cases o with
  | and => exact routeB_ok hs Mdd.and_ok lf lg
  | or => exact routeB_ok hs Mdd.or_ok lf lg
  | xor => exact routeB_ok hs Mdd.xor_ok lf lg
  | add => exact routeV_ok hs Mtmdd.add_ok lf lg
  | sub => exact routeV_ok hs Mtmdd.sub_ok lf lg
  | mul => exact routeV_ok hs Mtmdd.mul_ok lf lg
  | div => exact routeV_ok hs Mtmdd.div_ok lf lg
  | max => exact routeV_ok hs Mtmdd.max_ok lf lg
  | min => exact routeV_ok hs Mtmdd.min_ok lf lg
  | eq =>
    cases f <;> cases g
    · refine (tagB_ok (veq_ok hs lf lg)).mono ?_
      rintro a _ z ⟨t, rfl, ht⟩ x y hx hy
      cases x <;> cases y <;> first | exact hx.elim | exact hy.elim | skip
      exact cmpR_cmpV (ht _ _ hx hy)
    · refine und ?_
      intro a x y hx hy
      cases x <;> cases y <;> first | exact hx.elim | exact hy.elim | rfl
    · refine und ?_
      intro a x y hx hy
      cases x <;> cases y <;> first | exact hx.elim | exact hy.elim | rfl
    · obtain ⟨r, b, h1, h2, h3, h4, _, h6⟩ := Mdd.xnor_ok hs.b lf lg
      refine (liftB_ok hs ⟨r, b, h1, h2, h3, h4, h6⟩).mono ?_
      rintro a _ z ⟨t, rfl, ht⟩ x y hx hy
      cases x <;> cases y <;> first | exact hx.elim | exact hy.elim | skip
      exact ⟨t, rfl, ht _ _ hx hy⟩
  | neq =>
    cases f <;> cases g
    · refine (thenNot_ok (veq_ok hs lf lg)).mono ?_
      rintro a _ z ⟨t, u, ht, rfl, hu⟩ x y hx hy
      cases x <;> cases y <;> first | exact hx.elim | exact hy.elim | skip
      exact cmpR_not (ht _ _ hx hy) hu
    · refine und ?_
      intro a x y hx hy
      cases x <;> cases y <;> first | exact hx.elim | exact hy.elim | rfl
    · refine und ?_
      intro a x y hx hy
      cases x <;> cases y <;> first | exact hx.elim | exact hy.elim | rfl
    · obtain ⟨r, b, h1, h2, h3, h4, _, h6⟩ := Mdd.xor_ok hs.b lf lg
      refine (liftB_ok hs ⟨r, b, h1, h2, h3, h4, h6⟩).mono ?_
      rintro a _ z ⟨t, rfl, ht⟩ x y hx hy
      cases x <;> cases y <;> first | exact hx.elim | exact hy.elim | skip
      exact ⟨t, rfl, ht _ _ hx hy⟩
  | lt =>
    cases f <;> cases g
    · refine (tagB_ok (vlt_ok hs lf lg)).mono ?_
      rintro a _ z ⟨t, rfl, ht⟩ x y hx hy
      cases x <;> cases y <;> first | exact hx.elim | exact hy.elim | skip
      exact cmpR_cmpV (ht _ _ hx hy)
    all_goals
      refine und ?_
      intro a x y hx hy
      cases x <;> cases y <;> first | exact hx.elim | exact hy.elim | rfl
  | lte =>
    cases f <;> cases g
    · exact lte_value hs lf lg
    all_goals
      refine und ?_
      intro a x y hx hy
      cases x <;> cases y <;> first | exact hx.elim | exact hy.elim | rfl
  | gt =>
    cases f <;> cases g
    · refine (tagB_ok (vlt_ok hs lg lf)).mono ?_
      rintro a _ z ⟨t, rfl, ht⟩ x y hx hy
      cases x <;> cases y <;> first | exact hx.elim | exact hy.elim | skip
      rename_i x y
      have := cmpR_cmpV (ht _ _ hy hx)
      show MVal.b t = _
      rw [this]
      cases x <;> cases y <;> rfl
    all_goals
      refine und ?_
      intro a x y hx hy
      cases x <;> cases y <;> first | exact hx.elim | exact hy.elim | rfl
  | gte =>
    cases f <;> cases g
    · refine (thenNot_ok (vlt_ok hs lf lg)).mono ?_
      rintro a _ z ⟨t, u, ht, rfl, hu⟩ x y hx hy
      cases x <;> cases y <;> first | exact hx.elim | exact hy.elim | skip
      exact cmpR_not (ht _ _ hx hy) hu
    all_goals
      refine und ?_
      intro a x y hx hy
      cases x <;> cases y <;> first | exact hx.elim | exact hy.elim | rfl

theorem not_m {s : Mtmdd2} (hs : Inv s) {f : MNode} (lf : s.MLive f) :
    MOk s (fun a z => ∀ x, s.MEval a f x → notRel x z) (s.not f) := by
  cases f with
  | value f =>
    refine (constB_m hs .undet).mono ?_
    rintro a _ z rfl x hx
    cases x <;> first | exact hx.elim | rfl
  | bool f =>
    obtain ⟨r, b, h1, h2, h3, h4, _, h6⟩ := Mdd.not_ok hs.b lf
    refine (liftB_ok hs ⟨r, b, h1, h2, h3, h4, h6⟩).mono ?_
    rintro a _ z ⟨t, rfl, ht⟩ x hx
    cases x <;> first | exact hx.elim | skip
    exact ⟨t, rfl, ht _ hx⟩

theorem ite_m {s : Mtmdd2} (hs : Inv s) {f g h : MNode} (lf : s.MLive f) (lg : s.MLive g)
    (lh : s.MLive h) (hk : g.isBool = h.isBool) :
    MOk s (fun a z => ∀ x y w, s.MEval a f x → s.MEval a g y → s.MEval a h w → iteRel x y w z)
      (s.ite f g h) := by
  cases g <;> cases h <;> first | (cases hk; done) | skip
  · cases f with
    | value f =>
      refine (undetV_m hs).mono ?_
      rintro a _ z rfl x y w hx hy hw
      cases x <;> cases y <;> cases w <;> first | exact hx.elim | exact hy.elim | exact hw.elim | rfl
    | bool f =>
      refine (tagV_ok (vite_ok hs lf lg lh)).mono ?_
      rintro a _ z ⟨t, rfl, ht⟩ x y w hx hy hw
      cases x <;> cases y <;> cases w <;> first | exact hx.elim | exact hy.elim | exact hw.elim | skip
      exact ⟨t, rfl, ht _ _ _ hx hy hw⟩
  · cases f with
    | value f =>
      refine (constB_m hs .undet).mono ?_
      rintro a _ z rfl x y w hx hy hw
      cases x <;> cases y <;> cases w <;> first | exact hx.elim | exact hy.elim | exact hw.elim | rfl
    | bool f =>
      obtain ⟨r, b, h1, h2, h3, h4, _, h6⟩ := Mdd.ite_ok hs.b lf lg lh
      refine (liftB_ok hs ⟨r, b, h1, h2, h3, h4, h6⟩).mono ?_
      rintro a _ z ⟨t, rfl, ht⟩ x y w hx hy hw
      cases x <;> cases y <;> cases w <;> first | exact hx.elim | exact hy.elim | exact hw.elim | skip
      exact ⟨t, rfl, ht _ _ _ hx hy hw⟩

/-- `create_node` on children of one kind. -/
theorem createNode_m {s : Mtmdd2} (hs : Inv s) {h : Nat} {ch : List MNode} {hd : Header} {k : Bool}
    (hh : s.mdd.arena.headers[h]? = some hd) (hl : ch.length = hd.edgeNum)
    (hk : ∀ c ∈ ch, c.isBool = k ∧ s.MLive c ∧ ∀ l, s.mlevel c = some l → l < hd.level) :
    MOk s (fun a z => ∃ c, ch[a hd.level]? = some c ∧ s.MEval a c z) (s.createNode h ch) ∧
      ∀ r s', s.createNode h ch = some (r, s') → r.isBool = k := by
  have hpos := hs.b.wf.pos hd (List.mem_of_getElem? hh)
  cases k with
  | true =>
    have hch : ∀ c ∈ ch, c = .bool (MNode.id c) := by
      intro c hc
      have := (hk c hc).1
      cases c with
      | bool i => rfl
      | value i => cases this
    obtain ⟨r, b, h1, h2, h3, h4, _, h6⟩ := Mdd.createNode_ok hs.b (ch := ch.map MNode.id) hh
      (by rw [List.length_map]; exact hl) (by
        intro c hc
        obtain ⟨x, hx, rfl⟩ := List.mem_map.1 hc
        have e := hch x hx
        have := (hk x hx).2
        rw [e] at this
        exact ⟨this.1, Bdd.rank_le_of_level this.2⟩)
    have hrun : s.createNode h ch = s.liftB (some (r, b)) := by
      cases hc : ch with
      | nil => rw [hc] at hl; simp at hl; omega
      | cons c cs =>
        rw [hc] at hch h1
        have := hch c List.mem_cons_self
        cases c with
        | value i => cases this
        | bool i => simp only [createNode, h1]
    rw [hrun]
    refine ⟨?_, fun r' s' e => by simp only [liftB, Option.some.injEq, Prod.mk.injEq] at e; rw [← e.1]; rfl⟩
    refine ⟨.bool r, { s with mdd := b }, rfl, hs.extB h2 h3, ⟨h3, Step.refl _⟩, h4, fun a ha z hz => ?_⟩
    cases z with
    | v t => exact hz.elim
    | b t =>
      obtain ⟨c, hc1, hc2⟩ := (h6 a t ha).1 hz
      rw [List.getElem?_map, Option.map_eq_some_iff] at hc1
      obtain ⟨x, hx, rfl⟩ := hc1
      refine ⟨x, hx, ?_⟩
      have hm := List.mem_of_getElem? hx
      have e := hch x hm
      have hlx := (hk x hm).2.1
      rw [e] at hlx ⊢
      exact (hs.b.wf.eval_ext h3.toExt hlx).1 hc2
  | false =>
    have hch : ∀ c ∈ ch, c = .value (MNode.id c) := by
      intro c hc
      have := (hk c hc).1
      cases c with
      | bool i => cases this
      | value i => rfl
    obtain ⟨r, b, h1, h2, h3, h4, _, h6⟩ := Mtmdd.createNode_ok hs.v (ch := ch.map MNode.id)
      (by rw [← hs.hdr]; exact hh)
      (by rw [List.length_map]; exact hl) (by
        intro c hc
        obtain ⟨x, hx, rfl⟩ := List.mem_map.1 hc
        have e := hch x hx
        have := (hk x hx).2
        rw [e] at this
        exact ⟨this.1, Bdd.rank_le_of_level this.2⟩)
    have hrun : s.createNode h ch = s.liftV (some (r, b)) := by
      cases hc : ch with
      | nil => rw [hc] at hl; simp at hl; omega
      | cons c cs =>
        rw [hc] at hch h1
        have := hch c List.mem_cons_self
        cases c with
        | bool i => cases this
        | value i => simp only [createNode, h1]
    rw [hrun]
    refine ⟨?_, fun r' s' e => by simp only [liftV, Option.some.injEq, Prod.mk.injEq] at e; rw [← e.1]; rfl⟩
    have hi := hs.extV h2 h3
    refine ⟨.value r, { s with mtmdd := b }, rfl, hi, ⟨Step.refl _, h3⟩, h4, fun a ha z hz => ?_⟩
    cases z with
    | b t => exact hz.elim
    | v t =>
      obtain ⟨c, hc1, hc2⟩ := (h6 a t (hi.valid.2 ha)).1 hz
      rw [List.getElem?_map, Option.map_eq_some_iff] at hc1
      obtain ⟨x, hx, rfl⟩ := hc1
      refine ⟨x, hx, ?_⟩
      have hm := List.mem_of_getElem? hx
      have e := hch x hm
      have hlx := (hk x hm).2.1
      rw [e] at hlx ⊢
      exact (hs.v.wf.eval_ext h3.toExt hlx).1 hc2

end Mtmdd2

/-- The operations of `MtMdd2Manager` on nodes; `vif`, and the operations of the two sub-managers
(reached through `mdd_mut()` and `mtmdd_mut()`), take plain ids. -/
inductive M2Op where
  | not (f : MNode)
  | bin (o : M2Bin) (f g : MNode)
  | ite (f g h : MNode)
  | vif (f g : Nat)
  | mdd (o : MddOp)
  | mt (o : MtOp)

namespace M2Op

/-- The call. -/
def run (s : Mtmdd2) : M2Op → Option (MNode × Mtmdd2)
  | not f => s.not f
  | bin o f g => o.run s f g
  | ite f g h => s.ite f g h
  | vif f g => Mtmdd2.tagV (s.vif f g)
  | mdd o => s.liftB (o.run s.mdd)
  | mt o => s.liftV (o.run s.mtmdd)

/-- Operand nodes. -/
def args : M2Op → List MNode
  | not f => [f]
  | bin _ f g => [f, g]
  | ite f g h => [f, g, h]
  | vif f g => [.bool f, .value g]
  | mdd o => o.args.map .bool
  | mt o => o.args.map .value

/-- The branches of `ite` are of the same kind (otherwise the code panics). -/
def Kinds : M2Op → Prop
  | ite _ g h => g.isBool = h.isBool
  | _ => True

end M2Op

namespace Mtmdd2

/-- States a client of the two-forest manager can reach (conditions as for `Mdd.Reachable`; children
of a node are of one kind). -/
inductive Reachable : Mtmdd2 → Prop
  | new : Reachable Mtmdd2.new
  | header {s s' : Mtmdd2} {h : Nat} (level : Nat) (label : String) (e : Nat) : Reachable s → 0 < e →
      (∀ hd ∈ s.mdd.arena.headers, hd.level = level → hd.edgeNum = e) →
      s.createHeader level label e = some (h, s') → Reachable s'
  | value {s s' : Mtmdd2} {r : MNode} (v : Int) : Reachable s → s.value v = some (r, s') → Reachable s'
  | node {s s' : Mtmdd2} {h : Nat} {r : MNode} {ch : List MNode} {hd : Header} {k : Bool} : Reachable s →
      s.mdd.arena.headers[h]? = some hd → ch.length = hd.edgeNum →
      (∀ c ∈ ch, c.isBool = k ∧ s.MLive c ∧ ∀ l, s.mlevel c = some l → l < hd.level) →
      s.createNode h ch = some (r, s') → Reachable s'
  | op {s s' : Mtmdd2} {r : MNode} (o : M2Op) : Reachable s → (∀ x ∈ o.args, s.MLive x) → o.Kinds →
      o.run s = some (r, s') → Reachable s'
  | gc {s s' : Mtmdd2} {n : Nat × Nat} (roots : List MNode) : Reachable s →
      (∀ r ∈ roots, s.MLive r) → s.gc roots = some (n, s') → Reachable s'
  | clear {s : Mtmdd2} : Reachable s → Reachable s.clearCache

/-- Any operation on live nodes succeeds and keeps the invariant. -/
theorem op_ok {s : Mtmdd2} (hs : Inv s) (o : M2Op) (hl : ∀ x ∈ o.args, s.MLive x) (hk : o.Kinds) :
    MOk s (fun _ _ => True) (o.run s) := by
  have tr : ∀ {Φ : (Nat → Nat) → MVal → Prop} {res : Option (MNode × Mtmdd2)}, MOk s Φ res →
      MOk s (fun _ _ => True) res := fun h => h.mono (fun _ _ _ _ => trivial)
  cases o with
  | not f => exact tr (not_m hs (hl f (by simp [M2Op.args])))
  | bin o f g => exact tr (bin_ok hs o (hl f (by simp [M2Op.args])) (hl g (by simp [M2Op.args])))
  | ite f g h =>
    exact tr (ite_m hs (hl f (by simp [M2Op.args])) (hl g (by simp [M2Op.args]))
      (hl h (by simp [M2Op.args])) hk)
  | vif f g =>
    exact tr (tagV_ok (vif_ok hs (hl (.bool f) (by simp [M2Op.args])) (hl (.value g) (by simp [M2Op.args]))))
  | mdd o =>
    exact tr (liftB_ok hs (Mdd.op_ok hs.b o (fun i hi => hl (.bool i) (List.mem_map.2 ⟨i, hi, rfl⟩))))
  | mt o =>
    exact tr (liftV_ok hs (Mtmdd.op_ok hs.v o (fun i hi => hl (.value i) (List.mem_map.2 ⟨i, hi, rfl⟩))))

theorem gc_m {s : Mtmdd2} (hs : Inv s) {roots : List MNode} (hr : ∀ r ∈ roots, s.MLive r) :
    ∃ n s', s.gc roots = some (n, s') ∧ Inv s' ∧
      s'.mdd.arena.headers = s.mdd.arena.headers ∧
      s'.mdd.arena.nodes = s.mdd.arena.nodes ∧ s'.mtmdd.arena.nodes = s.mtmdd.arena.nodes ∧
      (∀ i, s'.mdd.arena.Live i ↔ s.mdd.arena.Survives (broots roots) i) ∧
      (∀ i, s'.mtmdd.arena.Live i ↔ s.mtmdd.arena.Survives (vroots roots) i) ∧
      St s' s ∧ n = (s'.mtmdd.arena.free.length, s'.mdd.arena.free.length) := by
  obtain ⟨n, s', h1, h2, h3, h4, h5, h6, h7, h8, h9, _⟩ := gc_ok hs (roots := roots)
    (fun r h _ => hr _ h) (fun r h _ => hr _ h)
  exact ⟨n, s', h1, h2, h3, h4, h5, h6, h7, h8, h9⟩

theorem Reachable.inv {s : Mtmdd2} (h : Reachable s) : Inv s := by
  induction h with
  | new => exact inv_new
  | header l lab e _ he hc hst ih =>
    obtain ⟨s', h1, h2, _⟩ := createHeader_ok ih l lab e he hc
    rw [hst] at h1; cases h1
    exact h2
  | value v _ he ih =>
    obtain ⟨r, s', h1, h2, _⟩ := value_m ih v
    rw [he] at h1; cases h1
    exact h2
  | node _ hh hl hk he ih =>
    obtain ⟨⟨r, s', h1, h2, _⟩, _⟩ := createNode_m ih hh hl hk
    rw [he] at h1; cases h1
    exact h2
  | op o _ hl hk he ih =>
    obtain ⟨r, s', h1, h2, _⟩ := op_ok ih o hl hk
    rw [he] at h1; cases h1
    exact h2
  | gc roots _ hr he ih =>
    obtain ⟨n, s', h1, h2, _⟩ := gc_m ih hr
    rw [he] at h1; cases h1
    exact h2
  | clear _ ih => exact clearCache_inv ih

end Mtmdd2
end DD
