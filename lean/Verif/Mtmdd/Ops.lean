import Verif.Mtmdd.Model
import Verif.Core.PRec

/-!
# MTMDD operations: invariant and meaning
-/

set_option autoImplicit false
set_option linter.unusedSectionVars false
set_option linter.unusedVariables false

namespace DD
open Arena ComputeCache

namespace Mtmdd

/-- Pointwise binary operation: defined where both operands are and `tt` is. -/
def pt (tt : Int → Int → Option Int) (x y : Option Int) : Option Int :=
  match x, y with
  | some a, some b => tt a b
  | _, _ => none

/-- `pt` as a relation between the values read. -/
def ptR (tt : Int → Int → Option Int) (x y z : Option Int) : Prop := z = pt tt x y

/-- `replace`: the left value where determined, else the right. -/
def over (x y z : Option Int) : Prop := z = match x with | some a => some a | none => y

/-- The function on values behind an operation code. -/
def codeFn : Nat → Option (Int → Int → Option Int)
  | 0 => some (fun a b => some (a + b))
  | 1 => some (fun a b => some (a - b))
  | 2 => some (fun a b => some (a * b))
  | 3 => some (fun a b => if b = 0 then none else some (a.tdiv b))
  | 4 => some (fun a b => if b = 0 then none else some (a.tmod b))
  | 5 => some (fun a b => some (Min.min a b))
  | 6 => some (fun a b => some (Max.max a b))
  | _ => none

/-- The terminal/terminal arm behind each operation code. -/
abbrev Codes := Nat → Option (Int → Int → Option (Option Int))

/-- Arithmetic on mathematical integers. -/
def exactFn : Codes := fun op => (codeFn op).map total

/-- A binary operation at one point: undetermined if an operand is, else what the terminal arm returns. -/
def ptM (tt : Int → Int → Option (Option Int)) (x y z : Option Int) : Prop :=
  match x, y with
  | some a, some b => tt a b = some z
  | _, _ => z = none

/-- The terminal arm panics at this point. -/
def Over (tt : Int → Int → Option (Option Int)) (x y : Option Int) : Prop :=
  match x, y with
  | some a, some b => tt a b = none
  | _, _ => False

/-- What a cache entry `(op, f, g) ↦ r` promises. -/
def CodeReq (cf : Codes) (m : Arena (Option Int)) (op f g : Nat) (a : Nat → Nat) (z : Option Int) : Prop :=
  (∀ tt, cf op = some tt → Op2 (ptM tt) m m f g a z) ∧
  (op = opReplace → Op2 over m m f g a z)

/-- Admissible cache entry. -/
structure Good (cf : Codes) (m : Arena (Option Int)) (op f g r : Nat) : Prop where
  lf : m.Live f
  lg : m.Live g
  lr : m.Live r
  rk : m.rank r ≤ Max.max (m.rank f) (m.rank g)
  snd : m.Sound (CodeReq cf m op f g) r

/-- State invariant, for the arithmetic `cf`. -/
structure InvA (cf : Codes) (s : Mtmdd) : Prop where
  wf : WF RFull s.arena
  cache : CacheOK s.arena.nodes.length (Good cf s.arena) s.cache

/-- State invariant, exact arithmetic. -/
abbrev Inv : Mtmdd → Prop := InvA exactFn

variable {cf : Codes}

theorem CodeReq.iff_of_eval {m m' : Arena (Option Int)} {op f g : Nat} {a : Nat → Nat}
    {z : Option Int}
    (hf : ∀ t, Eval m' a f t ↔ Eval m a f t) (hg : ∀ t, Eval m' a g t ↔ Eval m a g t) :
    CodeReq cf m' op f g a z ↔ CodeReq cf m op f g a z := by
  unfold CodeReq Op2
  simp only [hf, hg]

theorem Good.ext {m m' : Arena (Option Int)} (wf : WF RFull m) (e : Ext m m') {op f g r : Nat}
    (h : Good cf m op f g r) : Good cf m' op f g r where
  lf := (e.keep _ h.lf).1
  lg := (e.keep _ h.lg).1
  lr := (e.keep _ h.lr).1
  rk := by rw [wf.rank_ext e h.lf, wf.rank_ext e h.lg, wf.rank_ext e h.lr]; exact h.rk
  snd := by
    intro a ha z hz
    have := wf.sound_ext e h.lr h.snd a ha z hz
    exact (CodeReq.iff_of_eval (fun t => wf.eval_ext e h.lf) (fun t => wf.eval_ext e h.lg)).2 this

/-- Replace the arena by an extension. -/
theorem InvA.ext {s : Mtmdd} (h : InvA cf s) {m : Arena (Option Int)} (wf : WF RFull m)
    (e : Ext s.arena m) :
    InvA cf { s with arena := m } where
  wf := wf
  cache := h.cache.mono e.len (fun _ _ _ _ g => g.ext h.wf e)

/-- The engine facts for MTMDD. -/
def engA (cf : Codes) : Eng Mtmdd (Option Int) where
  ar := arena
  Inv := InvA cf
  St a b := Step a.arena b.arena
  mkn := createNode
  refl s := Step.refl _
  trans _ _ _ h h' := h.trans h'
  toStep _ _ h := h
  toWF s h := h.wf
  mkOK := by
    intro s h ch hs g
    obtain ⟨r, m', h1, h2, h3, h4, -⟩ := createFull_raw hs.wf g
    exact ⟨r, { s with arena := m' }, by simp only [createNode, h1], hs.ext h2 h3.toExt, h3, h1⟩

/-- The engine facts, exact arithmetic. -/
abbrev eng : Eng Mtmdd (Option Int) := engA exactFn

/-- The operand view. -/
abbrev vwA (cf : Codes) : View (engA cf) (Option Int) := (engA cf).self

@[inherit_doc vwA] abbrev vw : View eng (Option Int) := vwA exactFn

theorem fixed {s : Mtmdd} (hs : InvA cf s) :
    s.arena.Live undet ∧ s.arena.nodes[undet]? = some (.term none) :=
  hs.wf.fixed_live (t := none) rfl

/-- The undetermined constant as outcome. -/
theorem undet_ok {s : Mtmdd} (hs : InvA cf s) {k : Nat} {Φ : (Nat → Nat) → Option Int → Prop}
    (h : ∀ a, s.arena.ValidA a → Φ a none) : (engA cf).Ok s k Φ (some (undet, s)) := by
  obtain ⟨h1, h2⟩ := fixed hs
  refine Eng.Ok.ret hs h1 ?_ ?_
  · show s.arena.rank _ ≤ k
    rw [rank_term h2]; omega
  · intro a ha z hz
    rw [(eval_term_iff h2).1 hz]
    exact h a ha

/-- `value(v)`: structural description. -/
theorem value_raw {s : Mtmdd} (hs : InvA cf s) (v : Int) :
    ∃ r s', s.value v = some (r, s') ∧ InvA cf s' ∧ Step s.arena s'.arena ∧ s'.arena.Live r ∧
      s'.arena.nodes[r]? = some (.term (some v)) ∧ (s.arena.Live r → s' = s) := by
  obtain ⟨i, m', h1, h2, h3, h4, h5, h6⟩ := mkNode_spec hs.wf (k := .term (some v)) rfl
  refine ⟨i, { s with arena := m' }, by simp only [value, h1], hs.ext h2 h3.toExt, h3, h4, h5, ?_⟩
  intro hl
  rw [h6 hl]

/-- A value terminal as outcome. -/
theorem value_ok {s : Mtmdd} (hs : InvA cf s) (v : Int) {k : Nat} {Φ : (Nat → Nat) → Option Int → Prop}
    (h : ∀ a, s.arena.ValidA a → Φ a (some v)) : (engA cf).Ok s k Φ (s.value v) := by
  obtain ⟨r, s', h1, h2, h3, h4, h5, -⟩ := value_raw hs v
  refine ⟨r, s', h1, h2, h3, h4, ?_, ?_⟩
  · show s'.arena.rank _ ≤ k
    rw [rank_term h5]; omega
  · intro a ha z hz
    rw [(eval_term_iff h5).1 hz]
    exact h a ((ValidA.step h3).1 ha)

theorem cachePut_inv {s : Mtmdd} (hs : InvA cf s) {op f g r : Nat} (h : Good cf s.arena op f g r) :
    InvA cf (cachePut op f g s r) :=
  { wf := hs.wf, cache := hs.cache.put h.lr.1 h }

/-- Memoisation with key `(op, f, g)`, for a requirement equivalent to what the code promises; the
result may also be left uncached. -/
theorem memo2_pok {s : Mtmdd} (hs : InvA cf s) {op f g : Nat} {Φ : (Nat → Nat) → Option Int → Prop}
    {B : Prop} {body : Mtmdd → Option (Nat × Mtmdd)} (lf : s.arena.Live f) (lg : s.arena.Live g)
    (hΦ : ∀ a z, CodeReq cf s.arena op f g a z ↔ Φ a z) (skip : Mtmdd → Bool)
    (hb : (engA cf).POk s (Max.max (s.arena.rank f) (s.arena.rank g)) Φ B (body s)) :
    (engA cf).POk s (Max.max (s.arena.rank f) (s.arena.rank g)) Φ B
      (memo (cacheGet op f g) (fun s r => if skip s then s else cachePut op f g s r) body s) := by
  apply Eng.memo_pok hs
  · intro x hx
    have := hs.cache.good _ _ _ _ hx
    exact ⟨this.lr, this.rk, fun a ha z hz => (hΦ a z).1 (this.snd a ha z hz)⟩
  · exact hb
  · intro s' r i' st lr rr sr
    have st' : Step s.arena s'.arena := st
    show InvA cf (if skip s' = true then s' else cachePut op f g s' r) ∧
      arena (if skip s' = true then s' else cachePut op f g s' r) = s'.arena ∧
      Step s'.arena (if skip s' = true then s' else cachePut op f g s' r).arena
    split
    · exact ⟨i', rfl, Step.refl _⟩
    · refine ⟨cachePut_inv i' ?_, rfl, Step.refl _⟩
      refine ⟨(st'.keep _ lf).1, (st'.keep _ lg).1, lr, ?_, ?_⟩
      · rw [hs.wf.rank_ext st'.toExt lf, hs.wf.rank_ext st'.toExt lg]; exact rr
      · intro a ha z hz
        rw [CodeReq.iff_of_eval (fun t => hs.wf.eval_ext st'.toExt lf)
          (fun t => hs.wf.eval_ext st'.toExt lg), hΦ]
        exact sr a ha z hz

theorem memo2_ok {s : Mtmdd} (hs : InvA cf s) {op f g : Nat} {Φ : (Nat → Nat) → Option Int → Prop}
    {body : Mtmdd → Option (Nat × Mtmdd)} (lf : s.arena.Live f) (lg : s.arena.Live g)
    (hΦ : ∀ a z, CodeReq cf s.arena op f g a z ↔ Φ a z) (skip : Mtmdd → Bool)
    (hb : (engA cf).Ok s (Max.max (s.arena.rank f) (s.arena.rank g)) Φ (body s)) :
    (engA cf).Ok s (Max.max (s.arena.rank f) (s.arena.rank g)) Φ
      (memo (cacheGet op f g) (fun s r => if skip s then s else cachePut op f g s r) body s) := by
  rcases memo2_pok hs lf lg hΦ skip (B := False) hb.pok with h | h
  · exact h.2.elim
  · exact h

/-- The arithmetic gives no meaning to the code of `replace`. -/
def Codes.Sane (cf : Codes) : Prop := cf opReplace = none

theorem exact_sane : exactFn.Sane := rfl

theorem codeReq_fn (hsn : cf.Sane) {m : Arena (Option Int)} {op f g : Nat} {tt : Int → Int → Option (Option Int)}
    (h : cf op = some tt) (a : Nat → Nat) (z : Option Int) :
    CodeReq cf m op f g a z ↔ Op2 (ptM tt) m m f g a z := by
  constructor
  · intro q; exact q.1 tt h
  · intro q
    refine ⟨fun tt' h' => ?_, fun h' => ?_⟩
    · rw [h] at h'; cases h'; exact q
    · rw [h', show cf opReplace = none from hsn] at h; cases h

theorem codeReq_replace (hsn : cf.Sane) {m : Arena (Option Int)} {f g : Nat} (a : Nat → Nat) (z : Option Int) :
    CodeReq cf m opReplace f g a z ↔ Op2 over m m f g a z := by
  have h : cf opReplace = none := hsn
  simp [CodeReq, h]

theorem rank_le_max_left {s : Mtmdd} {f g : Nat} :
    s.arena.rank f ≤ Max.max (s.arena.rank f) (s.arena.rank g) := Nat.le_max_left _ _

theorem rank_le_max_right {s : Mtmdd} {f g : Nat} :
    s.arena.rank g ≤ Max.max (s.arena.rank f) (s.arena.rank g) := Nat.le_max_right _ _

theorem pt_comm {tt : Int → Int → Option Int} (h : ∀ a b, tt a b = tt b a) (x y : Option Int) :
    pt tt x y = pt tt y x := by
  cases x <;> cases y <;> simp [pt, h]

/-! ## The arithmetic operations -/

theorem ptM_comm {tt : Int → Int → Option (Option Int)} (h : ∀ a b, tt a b = tt b a) {x y z : Option Int}
    (hz : ptM tt x y z) : ptM tt y x z := by
  cases x <;> cases y <;> first | exact hz | skip
  exact (h _ _).trans hz

theorem Over.symm {tt : Int → Int → Option (Option Int)} (h : ∀ a b, tt a b = tt b a) (x y : Option Int)
    (hz : Over tt x y) : Over tt y x := by
  cases x <;> cases y <;> first | exact hz | skip
  exact (h _ _).trans hz

/-- An operation run with a terminal arm `tt` that returns what the arithmetic prescribes (`ex`) or panics. -/
theorem binF_pok (hsn : cf.Sane) {op : Nat} {comm : Bool} {tt ex : Int → Int → Option (Option Int)}
    (hop : cf op = some ex) (hsub : ∀ x y z, tt x y = some z → ex x y = some z)
    (hcomm : comm = true → ∀ a b, tt a b = tt b a) (hcomm' : comm = true → ∀ a b, ex a b = ex b a) :
    ∀ n, View.PRec2 (vwA cf) (ptM ex) (Over tt) (binF op comm tt n) n := by
  intro n
  induction n with
  | zero => intro s f g _ _ _ h; omega
  | succ n ih =>
    intro s f0 g0 hs lf lg hr
    have hr' : Max.max (s.arena.rank f0) (s.arena.rank g0) < n + 1 := hr
    have main : ∀ f g, s.arena.Live f → s.arena.Live g →
        Max.max (s.arena.rank f) (s.arena.rank g) = Max.max (s.arena.rank f0) (s.arena.rank g0) →
        f = (if comm then Min.min f0 g0 else f0) → g = (if comm then Max.max f0 g0 else g0) →
        (engA cf).POk s (Max.max (s.arena.rank f) (s.arena.rank g)) (Op2 (ptM ex) s.arena s.arena f g)
          (s.arena.Hits (Over tt) f g) (binF op comm tt (n + 1) s (f0, g0)) := by
      intro f g lf lg hrk ef eg
      unfold binF
      simp only
      rw [← ef, ← eg]
      refine memo2_pok hs lf lg (fun a z => codeReq_fn hsn hop a z) (fun s => s.early tt f g) ?_
      obtain ⟨nf, hf⟩ := lf.node
      obtain ⟨ng, hg⟩ := lg.node
      simp only [node?, hf, hg]
      have hN : Max.max (s.arena.rank f) (s.arena.rank g) ≤ n := by omega
      cases nf with
      | term t =>
        cases t with
        | none =>
          refine .inr (undet_ok hs ?_)
          intro a _ x y hx hy
          rw [(eval_term_iff hf).1 hx]
          rfl
        | some u =>
          cases ng with
          | term t' =>
            cases t' with
            | none =>
              refine .inr (undet_ok hs ?_)
              intro a _ x y hx hy
              rw [(eval_term_iff hg).1 hy]
              cases x <;> rfl
            | some w =>
              have hv : ∀ a z, tt u w = some z → Op2 (ptM ex) s.arena s.arena f g a z := by
                intro a z hz x y hx hy
                rw [(eval_term_iff hf).1 hx, (eval_term_iff hg).1 hy]
                exact hsub _ _ _ hz
              simp only
              cases htt : tt u w with
              | none =>
                refine .inl ⟨rfl, ?_⟩
                exact ⟨fun _ => 0, _, _, fun hd hh => hs.wf.pos hd hh, .term hf, .term hg, htt⟩
              | some v =>
                cases v with
                | none => exact .inr (undet_ok hs (fun a _ => hv a _ htt))
                | some v => exact .inr (value_ok hs v (fun a _ => hv a _ htt))
          | nt hg' cg =>
            obtain ⟨hd, _, _, hrk', _⟩ := hs.wf.nt lg hg
            have hlt : s.arena.rank f < s.arena.rank g := by rw [rank_term hf]; omega
            exact View.armR_pok ih hs lf lg hg hlt hN
      | nt hf' cf =>
        cases ng with
        | nt hg' cg => exact View.arms2_pok ih hs lf lg hf hg (Or.inl rfl) hN
        | term t' =>
          cases t' with
          | none =>
            refine .inr (undet_ok hs ?_)
            intro a _ x y hx hy
            rw [(eval_term_iff hg).1 hy]
            cases x <;> rfl
          | some w =>
            obtain ⟨hd, _, _, hrk', _⟩ := hs.wf.nt lf hf
            have hlt : s.arena.rank g < s.arena.rank f := by rw [rank_term hg]; omega
            exact View.armL_pok ih hs lf lg hf hlt hN
    show (engA cf).POk s (Max.max (s.arena.rank f0) (s.arena.rank g0))
      (Op2 (ptM ex) s.arena s.arena f0 g0) (s.arena.Hits (Over tt) f0 g0) _
    cases hc : comm with
    | false =>
      rw [hc] at main
      exact main f0 g0 lf lg rfl rfl rfl
    | true =>
      rw [hc] at main
      by_cases hle : f0 ≤ g0
      · exact main f0 g0 lf lg rfl (by simp; omega) (by simp; omega)
      · have := main g0 f0 lg lf (by omega) (by simp; omega) (by simp; omega)
        refine this.mono (by omega) ?_ (Hits.symm (Over.symm (hcomm hc)))
        intro a _ z hz x y hx hy
        exact ptM_comm (hcomm' hc) (hz y x hy hx)

theorem bin_pok (hsn : cf.Sane) {op : Nat} {comm : Bool} {tt ex : Int → Int → Option (Option Int)}
    (hop : cf op = some ex) (hsub : ∀ x y z, tt x y = some z → ex x y = some z)
    (hcomm : comm = true → ∀ a b, tt a b = tt b a) (hcomm' : comm = true → ∀ a b, ex a b = ex b a) {s : Mtmdd} (hs : InvA cf s) {f g : Nat}
    (lf : s.arena.Live f) (lg : s.arena.Live g) :
    (engA cf).POk s (Max.max (s.arena.rank f) (s.arena.rank g)) (Op2 (ptM ex) s.arena s.arena f g)
      (s.arena.Hits (Over tt) f g) (bin op comm tt s f g) :=
  binF_pok hsn hop hsub hcomm hcomm' _ s f g hs lf lg (Nat.lt_succ_self _)

theorem ptM_total {tt : Int → Int → Option Int} {x y z : Option Int} : ptM (total tt) x y z ↔ ptR tt x y z := by
  cases x <;> cases y <;> simp [ptM, ptR, pt, total, eq_comm]

theorem bin_ok {op : Nat} {comm : Bool} {tt : Int → Int → Option Int} (hop : codeFn op = some tt)
    (hcomm : comm = true → ∀ a b, tt a b = tt b a) {s : Mtmdd} (hs : Inv s) {f g : Nat}
    (lf : s.arena.Live f) (lg : s.arena.Live g) :
    eng.Ok s (Max.max (s.arena.rank f) (s.arena.rank g)) (Op2 (ptR tt) s.arena s.arena f g)
      (bin op comm (total tt) s f g) := by
  rcases bin_pok exact_sane (tt := total tt) (op := op) (by simp [exactFn, hop]) (fun _ _ _ h => h)
    (fun h a b => by simp only [total, hcomm h a b]) (fun h a b => by simp only [total, hcomm h a b]) hs lf lg with ⟨_, a, x, y, _, _, _, h⟩ | h
  · cases x <;> cases y <;> cases h
  · exact h.mono (Nat.le_refl _) (fun a _ z hz x y hx hy => ptM_total.1 (hz x y hx hy))

theorem no_comm {p : Prop} (h : false = true) : p := by cases h

theorem add_ok {s : Mtmdd} (hs : Inv s) {f g : Nat} (lf : s.arena.Live f) (lg : s.arena.Live g) :
    eng.Ok s (Max.max (s.arena.rank f) (s.arena.rank g))
      (Op2 (ptR (fun a b => some (a + b))) s.arena s.arena f g) (s.add f g) :=
  bin_ok rfl (fun _ a b => by rw [Int.add_comm]) hs lf lg

theorem sub_ok {s : Mtmdd} (hs : Inv s) {f g : Nat} (lf : s.arena.Live f) (lg : s.arena.Live g) :
    eng.Ok s (Max.max (s.arena.rank f) (s.arena.rank g))
      (Op2 (ptR (fun a b => some (a - b))) s.arena s.arena f g) (s.sub f g) :=
  bin_ok rfl no_comm hs lf lg

theorem mul_ok {s : Mtmdd} (hs : Inv s) {f g : Nat} (lf : s.arena.Live f) (lg : s.arena.Live g) :
    eng.Ok s (Max.max (s.arena.rank f) (s.arena.rank g))
      (Op2 (ptR (fun a b => some (a * b))) s.arena s.arena f g) (s.mul f g) :=
  bin_ok rfl (fun _ a b => by rw [Int.mul_comm]) hs lf lg

theorem div_ok {s : Mtmdd} (hs : Inv s) {f g : Nat} (lf : s.arena.Live f) (lg : s.arena.Live g) :
    eng.Ok s (Max.max (s.arena.rank f) (s.arena.rank g))
      (Op2 (ptR (fun a b => if b = 0 then none else some (a.tdiv b))) s.arena s.arena f g)
      (s.div f g) :=
  bin_ok rfl no_comm hs lf lg

theorem rem_ok {s : Mtmdd} (hs : Inv s) {f g : Nat} (lf : s.arena.Live f) (lg : s.arena.Live g) :
    eng.Ok s (Max.max (s.arena.rank f) (s.arena.rank g))
      (Op2 (ptR (fun a b => if b = 0 then none else some (a.tmod b))) s.arena s.arena f g)
      (s.rem f g) :=
  bin_ok rfl no_comm hs lf lg

theorem min_ok {s : Mtmdd} (hs : Inv s) {f g : Nat} (lf : s.arena.Live f) (lg : s.arena.Live g) :
    eng.Ok s (Max.max (s.arena.rank f) (s.arena.rank g))
      (Op2 (ptR (fun a b => some (Min.min a b))) s.arena s.arena f g) (s.min f g) :=
  bin_ok rfl (fun _ a b => by rw [Int.min_comm]) hs lf lg

theorem max_ok {s : Mtmdd} (hs : Inv s) {f g : Nat} (lf : s.arena.Live f) (lg : s.arena.Live g) :
    eng.Ok s (Max.max (s.arena.rank f) (s.arena.rank g))
      (Op2 (ptR (fun a b => some (Max.max a b))) s.arena s.arena f g) (s.max f g) :=
  bin_ok rfl (fun _ a b => by rw [Int.max_comm]) hs lf lg

/-! ## replace -/

theorem replaceF_ok (hsn : cf.Sane) : ∀ n, View.Rec2 (vwA cf) (vwA cf) over (replaceF n) n := by
  intro n
  induction n with
  | zero => intro s f g _ _ _ h; omega
  | succ n ih =>
    intro s f g hs lf lg hr
    have lf' : s.arena.Live f := lf
    have lg' : s.arena.Live g := lg
    have hr' : Max.max (s.arena.rank f) (s.arena.rank g) < n + 1 := hr
    unfold replaceF
    refine memo2_ok hs lf lg (fun a z => codeReq_replace hsn a z) (fun _ => false) ?_
    obtain ⟨nf, hf⟩ := lf'.node
    obtain ⟨ng, hg⟩ := lg'.node
    simp only [node?, hf, hg]
    have hN : Max.max (s.arena.rank f) (s.arena.rank g) ≤ n := by omega
    have undR : s.arena.nodes[g]? = some (.term none) →
        (engA cf).Ok s (Max.max (s.arena.rank f) (s.arena.rank g)) (Op2 over s.arena s.arena f g)
          (some (f, s)) := by
      intro hn
      refine Eng.Ok.ret hs lf' rank_le_max_left ?_
      intro a ha z hz x y hx hy
      rw [(eval_term_iff hn).1 hy, Eval.det hz hx]
      unfold over
      cases x <;> rfl
    cases nf with
    | term t =>
      cases t with
      | none =>
        refine Eng.Ok.ret hs lg' rank_le_max_right ?_
        intro a ha z hz x y hx hy
        rw [(eval_term_iff hf).1 hx, Eval.det hz hy]
        rfl
      | some u =>
        have cst : (engA cf).Ok s (Max.max (s.arena.rank f) (s.arena.rank g))
            (Op2 over s.arena s.arena f g) (some (f, s)) := by
          refine Eng.Ok.ret hs lf' rank_le_max_left ?_
          intro a ha z hz x y hx hy
          rw [Eval.det hz hx, (eval_term_iff hf).1 hx]
          rfl
        cases ng with
        | nt _ _ => exact cst
        | term w =>
          cases w with
          | none => exact undR hg
          | some _ => exact cst
    | nt hf' cf =>
      cases ng with
      | nt hg' cg => exact View.arms2_ok (vwA _) (vwA _) ih hs lf lg hf hg (Or.inl rfl) hN
      | term w =>
        cases w with
        | none => exact undR hg
        | some _ =>
          obtain ⟨hd, _, _, hrk, _⟩ := hs.wf.nt lf' hf
          have hlt : s.arena.rank g < s.arena.rank f := by rw [rank_term hg]; omega
          exact View.armL_ok (vwA _) (vwA _) ih hs lf lg hf hlt hN

theorem replace_okA (hsn : cf.Sane) {s : Mtmdd} (hs : InvA cf s) {f g : Nat} (lf : s.arena.Live f)
    (lg : s.arena.Live g) :
    (engA cf).Ok s (Max.max (s.arena.rank f) (s.arena.rank g)) (Op2 over s.arena s.arena f g)
      (s.replace f g) :=
  replaceF_ok hsn _ s f g hs lf lg (Nat.lt_succ_self _)

theorem replace_ok {s : Mtmdd} (hs : Inv s) {f g : Nat} (lf : s.arena.Live f)
    (lg : s.arena.Live g) :
    eng.Ok s (Max.max (s.arena.rank f) (s.arena.rank g)) (Op2 over s.arena s.arena f g)
      (s.replace f g) := replace_okA exact_sane hs lf lg

/-! ## Construction, headers, collection -/

theorem inv_new : InvA cf Mtmdd.new where
  wf := by
    refine
      { free_lt := by simp [Mtmdd.new]
        free_nodup := by simp [Mtmdd.new]
        ut_nodup := AMap.nodup_empty
        ut_fixed := by intro t i _; rfl
        find_iff := ?_
        hdr := ?_
        kid := ?_
        red := ?_
        arity := by simp [Mtmdd.new]
        pos := by simp [Mtmdd.new] }
    · intro k i
      cases k with
      | nt h ch =>
        simp only [find, Mtmdd.new, AMap.get_empty, Live]
        constructor
        · intro h; cases h
        · rintro ⟨⟨h1, _⟩, h2⟩
          match i, h1 with
          | 0, _ => simp at h2
      | term t =>
        cases t with
        | none =>
          simp only [find, Mtmdd.new, Live, fix, Option.some_or]
          constructor
          · intro h
            cases h
            simp
          · rintro ⟨⟨h1, _⟩, h2⟩
            match i, h1 with
            | 0, _ => rfl
        | some v =>
          simp only [find, Mtmdd.new, Live, fix, Option.none_or, AMap.get_empty]
          constructor
          · intro h; cases h
          · rintro ⟨⟨h1, _⟩, h2⟩
            match i, h1 with
            | 0, _ => simp at h2
    all_goals
      rintro i h ch ⟨h1, _⟩ h2
      match i, h1 with
      | 0, _ => simp [Mtmdd.new] at h2
  cache := CacheOK.new _ _

/-- `create_header` with a legal edge count. -/
theorem createHeader_inv {s : Mtmdd} (hs : InvA cf s) (l : Nat) (lab : String) (e : Nat) (he : 0 < e)
    (hc : ∀ hd ∈ s.arena.headers, hd.level = l → hd.edgeNum = e) :
    InvA cf (s.createHeader l lab e).2 ∧ Ext s.arena (s.createHeader l lab e).2.arena ∧
      (s.createHeader l lab e).2.arena.headers[(s.createHeader l lab e).1]? = some ⟨l, lab, e⟩ ∧
      (s.createHeader l lab e).2.arena.headers = s.arena.headers ++ [⟨l, lab, e⟩] ∧
      (s.createHeader l lab e).2.arena.nodes = s.arena.nodes ∧
      (∀ i, (s.createHeader l lab e).2.arena.Live i ↔ s.arena.Live i) := by
  obtain ⟨h1, h2, h3, h4, h5⟩ := createHeader_spec hs.wf l lab e he hc
  exact ⟨hs.ext h1 h2, h2, h3, rfl, h5, h4⟩

theorem clearCache_inv {s : Mtmdd} (hs : InvA cf s) : InvA cf s.clearCache where
  wf := hs.wf
  cache := hs.cache.clear

/-- `create_node` on legal arguments. -/
theorem createNode_ok {s : Mtmdd} (hs : InvA cf s) {h : Nat} {ch : List Nat} {hd : Header}
    (hh : s.arena.headers[h]? = some hd) (hl : ch.length = hd.edgeNum)
    (hk : ∀ c ∈ ch, s.arena.Live c ∧ s.arena.rank c ≤ hd.level) :
    ∃ r s', s.createNode h ch = some (r, s') ∧ InvA cf s' ∧ Step s.arena s'.arena ∧
      s'.arena.Live r ∧ s'.arena.rank r ≤ hd.level + 1 ∧
      ∀ a z, s'.arena.ValidA a →
        (Eval s'.arena a r z ↔ ∃ c, ch[a hd.level]? = some c ∧ Eval s'.arena a c z) := by
  obtain ⟨r, m', h1, h2, h3, h4, h5, h6⟩ := createFull_spec hs.wf hh hl hk
  exact ⟨r, { s with arena := m' }, by simp only [createNode, h1], hs.ext h2 h3.toExt, h3, h4, h5, h6⟩

/-- Collection keeps the invariant; survivors are what is reachable. -/
theorem gc_ok {s : Mtmdd} (hs : InvA cf s) {roots : List Nat}
    (hr : ∀ r ∈ roots, r < s.arena.nodes.length → s.arena.Live r) :
    ∃ n s', s.gc roots = some (n, s') ∧ InvA cf s' ∧ s'.arena.headers = s.arena.headers ∧
      s'.arena.nodes = s.arena.nodes ∧ (∀ i, s'.arena.Live i ↔ s.arena.Survives roots i) ∧
      Step s'.arena s.arena ∧ n = s'.arena.free.length ∧
      (∀ op f g r, s'.cache.get op f g = some r ↔ s.cache.get op f g = some r ∧
        s'.arena.Live f ∧ s'.arena.Live g ∧ s'.arena.Live r) := by
  obtain ⟨l, m', h1, h2, h3, h4, h5, h6, h7, h8⟩ := gcA_spec hs.wf hr
  have hl : ∀ i, l[i]? = some true ↔ m'.Live i := fun i => (h6 i).trans (h7 i).symm
  have hrank : ∀ i, m'.rank i = s.arena.rank i := by
    intro i; simp [rank, level?, h3, h4]
  obtain ⟨c, hc1, hc2⟩ := (hs.cache.mono (N' := m'.nodes.length) (Nat.le_of_eq (by rw [h4])) fun _ _ _ _ g => g).retainBy (Good' := Good cf m')
    (ids := fun s => [s.k1, s.k2, s.val]) (live := l)
    (by
      intro k0 k1 k2 v g i hi
      rw [h5]
      simp at hi
      rcases hi with rfl | rfl | rfl
      · exact g.lf.1
      · exact g.lg.1
      · exact g.lr.1)
    (by
      intro k0 k1 k2 v g hi
      have a1 := (hl k1).1 (hi k1 (by simp))
      have a2 := (hl k2).1 (hi k2 (by simp))
      have a3 := (hl v).1 (hi v (by simp))
      refine ⟨a1, a2, a3, by rw [hrank, hrank, hrank]; exact g.rk, ?_⟩
      intro a ha z hz
      have := g.snd a ((ValidA.step h8).2 ha) z ((h2.eval_ext h8.toExt a3).2 hz)
      exact (CodeReq.iff_of_eval (fun t => h2.eval_ext h8.toExt a1)
        (fun t => h2.eval_ext h8.toExt a2)).1 this)
  refine ⟨m'.free.length, ⟨m', c⟩, ?_, ⟨h2, hc2⟩, h3, h4, h7, h8, rfl, ?_⟩
  · unfold gc
    simp only [h1]
    rw [show s.cache.retainLive l = some c from hc1]
  · intro op f g r
    rw [get_retainBy hc1]
    simp [hl]

end Mtmdd
end DD
