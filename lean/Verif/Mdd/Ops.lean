import Verif.Mdd.Model

/-!
# MDD operations: invariant and meaning
-/

set_option autoImplicit false
set_option linter.unusedSectionVars false

namespace DD
open Arena ComputeCache

namespace Mdd

/-- `replace`: the left value where determined, else the right. -/
def over (x y z : T3) : Prop := z = if x = .undet then y else x

/-- What a cache entry `(op, f, g) ↦ r` promises. -/
def CodeReq (m : Arena T3) (op f g : Nat) (a : Nat → Nat) (z : T3) : Prop :=
  (op = opAnd → Op2 (lift2 (· && ·)) m m f g a z) ∧
  (op = opOr → Op2 (lift2 (· || ·)) m m f g a z) ∧
  (op = opXor → Op2 (lift2 (· ^^ ·)) m m f g a z) ∧
  (op = opNot → Op1 (lift1 (!·)) m f a z) ∧
  (op = opReplace → Op2 over m m f g a z)

/-- Admissible cache entry. -/
structure Good (m : Arena T3) (op f g r : Nat) : Prop where
  lf : m.Live f
  lg : m.Live g
  lr : m.Live r
  rk : m.rank r ≤ max (m.rank f) (m.rank g)
  snd : m.Sound (CodeReq m op f g) r

/-- Admissible ite-cache entry. -/
structure IteGood (m : Arena T3) (f g h r : Nat) : Prop where
  lf : m.Live f
  lg : m.Live g
  lh : m.Live h
  lr : m.Live r
  rk : m.rank r ≤ max (m.rank f) (max (m.rank g) (m.rank h))
  snd : m.Sound (Op3 liftIte m m m f g h) r

/-- State invariant. -/
structure Inv (s : Mdd) : Prop where
  wf : WF RFull s.arena
  cache : CacheOK s.arena.nodes.length (Good s.arena) s.cache
  ite : CacheOK s.arena.nodes.length (IteGood s.arena) s.iteCache

theorem CodeReq.iff_of_eval {m m' : Arena T3} {op f g : Nat} {a : Nat → Nat} {z : T3}
    (hf : ∀ t, Eval m' a f t ↔ Eval m a f t) (hg : ∀ t, Eval m' a g t ↔ Eval m a g t) :
    CodeReq m' op f g a z ↔ CodeReq m op f g a z := by
  unfold CodeReq Op2 Op1
  simp only [hf, hg]

theorem Good.ext {m m' : Arena T3} (wf : WF RFull m) (e : Ext m m') {op f g r : Nat}
    (h : Good m op f g r) : Good m' op f g r where
  lf := (e.keep _ h.lf).1
  lg := (e.keep _ h.lg).1
  lr := (e.keep _ h.lr).1
  rk := by rw [wf.rank_ext e h.lf, wf.rank_ext e h.lg, wf.rank_ext e h.lr]; exact h.rk
  snd := by
    intro a ha z hz
    have := wf.sound_ext e h.lr h.snd a ha z hz
    exact (CodeReq.iff_of_eval (fun t => wf.eval_ext e h.lf) (fun t => wf.eval_ext e h.lg)).2 this

theorem IteGood.ext {m m' : Arena T3} (wf : WF RFull m) (e : Ext m m') {f g h r : Nat}
    (q : IteGood m f g h r) : IteGood m' f g h r where
  lf := (e.keep _ q.lf).1
  lg := (e.keep _ q.lg).1
  lh := (e.keep _ q.lh).1
  lr := (e.keep _ q.lr).1
  rk := by
    rw [wf.rank_ext e q.lf, wf.rank_ext e q.lg, wf.rank_ext e q.lh, wf.rank_ext e q.lr]
    exact q.rk
  snd := by
    intro a ha z hz
    have := wf.sound_ext e q.lr q.snd a ha z hz
    unfold Op3 at this ⊢
    simpa only [wf.eval_ext e q.lf, wf.eval_ext e q.lg, wf.eval_ext e q.lh] using this

/-- Replace the arena by an extension. -/
theorem Inv.ext {s : Mdd} (h : Inv s) {m : Arena T3} (wf : WF RFull m)
    (e : Ext s.arena m) :
    Inv { s with arena := m } where
  wf := wf
  cache := h.cache.mono e.len (fun _ _ _ _ g => g.ext h.wf e)
  ite := h.ite.mono e.len (fun _ _ _ _ g => g.ext h.wf e)

/-- The engine facts for MDD. -/
def eng : Eng Mdd T3 where
  ar := arena
  Inv := Inv
  St a b := Step a.arena b.arena
  mkn := createNode
  refl s := Step.refl _
  trans _ _ _ h h' := h.trans h'
  toStep _ _ h := h
  toWF s h := h.wf
  mkOK := by
    intro s h ch hs g
    obtain ⟨r, m', h1, h2, h3, h4, -⟩ := createFull_raw hs.wf g
    exact ⟨r, { s with arena := m' }, by simp only [createNode, h1], hs.ext h2 h3.toExt, h3, h1⟩

/-- The operand view. -/
abbrev vw : View eng T3 := eng.self

theorem fixed {s : Mdd} (hs : Inv s) (t : T3) :
    s.arena.Live t.slot ∧ s.arena.nodes[t.slot]? = some (.term t) :=
  hs.wf.fixed_live (t := t) rfl

/-- A constant as outcome. -/
theorem const_ok {s : Mdd} (hs : Inv s) (t : T3) {k : Nat} {Φ : (Nat → Nat) → T3 → Prop}
    (h : ∀ a, s.arena.ValidA a → Φ a t) : eng.Ok s k Φ (some (t.slot, s)) := by
  obtain ⟨h1, h2⟩ := fixed hs t
  refine Eng.Ok.ret hs h1 ?_ ?_
  · show s.arena.rank _ ≤ k
    rw [rank_term h2]; omega
  · intro a ha z hz
    rw [(eval_term_iff h2).1 hz]
    exact h a ha

theorem cachePut_inv {s : Mdd} (hs : Inv s) {op f g r : Nat} (h : Good s.arena op f g r) :
    Inv (cachePut op f g s r) :=
  { wf := hs.wf, cache := hs.cache.put h.lr.1 h, ite := hs.ite }

theorem iteCachePut_inv {s : Mdd} (hs : Inv s) {f g h r : Nat} (q : IteGood s.arena f g h r) :
    Inv (iteCachePut f g h s r) :=
  { wf := hs.wf, cache := hs.cache, ite := hs.ite.put q.lr.1 q }

/-- Memoisation with key `(op, f, g)`, for a requirement equivalent to what the code promises. -/
theorem memo2_ok {s : Mdd} (hs : Inv s) {op f g : Nat} {Φ : (Nat → Nat) → T3 → Prop}
    {body : Mdd → Option (Nat × Mdd)} (lf : s.arena.Live f) (lg : s.arena.Live g)
    (hΦ : ∀ a z, CodeReq s.arena op f g a z ↔ Φ a z)
    (hb : eng.Ok s (max (s.arena.rank f) (s.arena.rank g)) Φ (body s)) :
    eng.Ok s (max (s.arena.rank f) (s.arena.rank g)) Φ
      (memo (cacheGet op f g) (cachePut op f g) body s) := by
  apply Eng.memo_ok hs
  · intro x hx
    have := hs.cache.good _ _ _ _ hx
    exact ⟨this.lr, this.rk, fun a ha z hz => (hΦ a z).1 (this.snd a ha z hz)⟩
  · exact hb
  · intro s' r i' st lr rr sr
    have st' : Step s.arena s'.arena := st
    refine ⟨cachePut_inv i' ?_, rfl, Step.refl _⟩
    refine ⟨(st'.keep _ lf).1, (st'.keep _ lg).1, lr, ?_, ?_⟩
    · rw [hs.wf.rank_ext st'.toExt lf, hs.wf.rank_ext st'.toExt lg]; exact rr
    · intro a ha z hz
      rw [CodeReq.iff_of_eval (fun t => hs.wf.eval_ext st'.toExt lf)
        (fun t => hs.wf.eval_ext st'.toExt lg), hΦ]
      exact sr a ha z hz

theorem codeReq_not {m : Arena T3} {f : Nat} (a : Nat → Nat) (z : T3) :
    CodeReq m opNot f 0 a z ↔ Op1 (lift1 (!·)) m f a z := by
  simp [CodeReq, opAnd, opOr, opXor, opNot, opReplace]

theorem codeReq_and {m : Arena T3} {f g : Nat} (a : Nat → Nat) (z : T3) :
    CodeReq m opAnd f g a z ↔ Op2 (lift2 (· && ·)) m m f g a z := by
  simp [CodeReq, opAnd, opOr, opXor, opNot, opReplace]

theorem codeReq_or {m : Arena T3} {f g : Nat} (a : Nat → Nat) (z : T3) :
    CodeReq m opOr f g a z ↔ Op2 (lift2 (· || ·)) m m f g a z := by
  simp [CodeReq, opAnd, opOr, opXor, opNot, opReplace]

theorem codeReq_xor {m : Arena T3} {f g : Nat} (a : Nat → Nat) (z : T3) :
    CodeReq m opXor f g a z ↔ Op2 (lift2 (· ^^ ·)) m m f g a z := by
  simp [CodeReq, opAnd, opOr, opXor, opNot, opReplace]

theorem codeReq_replace {m : Arena T3} {f g : Nat} (a : Nat → Nat) (z : T3) :
    CodeReq m opReplace f g a z ↔ Op2 over m m f g a z := by
  simp [CodeReq, opAnd, opOr, opXor, opNot, opReplace]

/-! ## not -/

theorem notF_ok : ∀ n, View.Rec1 vw (lift1 (!·)) (notF n) n := by
  intro n
  induction n with
  | zero => intro s f _ _ h; omega
  | succ n ih =>
    intro s f hs lf hr
    have lf' : s.arena.Live f := lf
    have hz : s.arena.Live 0 ∧ s.arena.nodes[0]? = some (.term .zero) := fixed hs .zero
    have hmax : max (s.arena.rank f) (s.arena.rank 0) = s.arena.rank f := by
      have : s.arena.rank 0 = 0 := rank_term hz.2
      omega
    show eng.Ok s (s.arena.rank f) _ _
    rw [← hmax]
    unfold notF
    apply memo2_ok hs lf' hz.1 (fun a z => codeReq_not a z)
    rw [hmax]
    obtain ⟨nd, hn⟩ := lf'.node
    simp only [node?, hn]
    cases nd with
    | nt h ch => exact View.arm1_ok vw ih hs lf hn (Nat.le_of_lt_succ hr)
    | term t =>
      cases t with
      | zero =>
        refine const_ok hs .one ?_
        intro a _ x hx b hb
        rw [(eval_term_iff hn).1 hx] at hb
        cases b <;> simp [T3.ofBool] at hb ⊢
      | one =>
        refine const_ok hs .zero ?_
        intro a _ x hx b hb
        rw [(eval_term_iff hn).1 hx] at hb
        cases b <;> simp [T3.ofBool] at hb ⊢
      | undet =>
        refine const_ok hs .undet ?_
        intro a _ x hx b hb
        rw [(eval_term_iff hn).1 hx] at hb
        cases b <;> simp [T3.ofBool] at hb

theorem not_ok {s : Mdd} (hs : Inv s) {f : Nat} (lf : s.arena.Live f) :
    eng.Ok s (s.arena.rank f) (Op1 (lift1 (!·)) s.arena f) (s.not f) :=
  notF_ok _ s f hs lf (Nat.lt_succ_self _)

/-! ## Binary operations -/

/-- Common frame of the commutative binary operations. -/
theorem bin_frame {op : Nat} {F : Bool → Bool → Bool} (hcomm : ∀ a b, F a b = F b a)
    (hcode : ∀ (m : Arena T3) f g a z, CodeReq m op f g a z ↔ Op2 (lift2 F) m m f g a z)
    {s : Mdd} (hs : Inv s) {f0 g0 : Nat} (lf : s.arena.Live f0) (lg : s.arena.Live g0)
    {body : Mdd → Option (Nat × Mdd)}
    (hb : ∀ f g, s.arena.Live f → s.arena.Live g →
      Max.max (s.arena.rank f) (s.arena.rank g) = Max.max (s.arena.rank f0) (s.arena.rank g0) →
      f = min f0 g0 → g = max f0 g0 →
      eng.Ok s (max (s.arena.rank f) (s.arena.rank g)) (Op2 (lift2 F) s.arena s.arena f g)
        (body s)) :
    eng.Ok s (max (s.arena.rank f0) (s.arena.rank g0)) (Op2 (lift2 F) s.arena s.arena f0 g0)
      (memo (cacheGet op (min f0 g0) (max f0 g0)) (cachePut op (min f0 g0) (max f0 g0)) body s) := by
  by_cases hle : f0 ≤ g0
  · have hb' := hb f0 g0 lf lg rfl (by omega) (by omega)
    rw [Nat.min_eq_left hle, Nat.max_eq_right hle]
    exact memo2_ok hs lf lg (hcode _ _ _) hb'
  · have hb' := hb g0 f0 lg lf (by omega) (by omega) (by omega)
    rw [Nat.min_eq_right (show g0 ≤ f0 by omega), Nat.max_eq_left (show g0 ≤ f0 by omega)]
    have := memo2_ok (Φ := Op2 (lift2 F) s.arena s.arena g0 f0) hs lg lf (hcode _ _ _) hb'
    refine this.mono (by omega) ?_
    intro a _ z hz x y hx hy
    exact lift2_comm hcomm (hz y x hy hx)

theorem rank_le_max_left {s : Mdd} {f g : Nat} :
    s.arena.rank f ≤ max (s.arena.rank f) (s.arena.rank g) := Nat.le_max_left _ _

theorem rank_le_max_right {s : Mdd} {f g : Nat} :
    s.arena.rank g ≤ max (s.arena.rank f) (s.arena.rank g) := Nat.le_max_right _ _

/-- Returning the right operand when the left is a constant. -/
theorem retR_ok {F : Bool → Bool → Bool} {s : Mdd} (hs : Inv s) {f g : Nat} {b : Bool}
    (lg : s.arena.Live g) (hn : s.arena.nodes[f]? = some (.term (T3.ofBool b)))
    (hF : ∀ c, F b c = c) :
    eng.Ok s (max (s.arena.rank f) (s.arena.rank g)) (Op2 (lift2 F) s.arena s.arena f g)
      (some (g, s)) := by
  refine Eng.Ok.ret hs lg rank_le_max_right ?_
  intro a ha z hz x y hx hy b' c hb hc
  rw [(eval_term_iff hn).1 hx] at hb
  rw [← T3.ofBool_inj hb, hF, ← hc]
  exact Eval.det hz hy

/-- Returning the left operand when the right is a constant. -/
theorem retL_ok {F : Bool → Bool → Bool} {s : Mdd} (hs : Inv s) {f g : Nat} {b : Bool}
    (lf : s.arena.Live f) (hn : s.arena.nodes[g]? = some (.term (T3.ofBool b)))
    (hF : ∀ c, F c b = c) :
    eng.Ok s (max (s.arena.rank f) (s.arena.rank g)) (Op2 (lift2 F) s.arena s.arena f g)
      (some (f, s)) := by
  refine Eng.Ok.ret hs lf rank_le_max_left ?_
  intro a ha z hz x y hx hy b' c hb hc
  rw [(eval_term_iff hn).1 hy] at hc
  rw [← T3.ofBool_inj hc, hF, ← hb]
  exact Eval.det hz hx

/-- Returning a constant because the left operand absorbs. -/
theorem absL_ok {F : Bool → Bool → Bool} {s : Mdd} (hs : Inv s) {f g : Nat} {b d : Bool} {k : Nat}
    (hn : s.arena.nodes[f]? = some (.term (T3.ofBool b)))
    (hF : ∀ c, F b c = d) :
    eng.Ok s k (Op2 (lift2 F) s.arena s.arena f g) (some ((T3.ofBool d).slot, s)) := by
  refine const_ok hs (T3.ofBool d) ?_
  intro a ha x y hx hy b' c hb hc
  rw [(eval_term_iff hn).1 hx] at hb
  rw [← T3.ofBool_inj hb, hF]

theorem absR_ok {F : Bool → Bool → Bool} {s : Mdd} (hs : Inv s) {f g : Nat} {b d : Bool} {k : Nat}
    (hn : s.arena.nodes[g]? = some (.term (T3.ofBool b)))
    (hF : ∀ c, F c b = d) :
    eng.Ok s k (Op2 (lift2 F) s.arena s.arena f g) (some ((T3.ofBool d).slot, s)) := by
  refine const_ok hs (T3.ofBool d) ?_
  intro a ha x y hx hy b' c hb hc
  rw [(eval_term_iff hn).1 hy] at hc
  rw [← T3.ofBool_inj hc, hF]

theorem ofBool_ne_undet (b : Bool) : T3.undet ≠ T3.ofBool b := by cases b <;> decide

/-- An undetermined operand: nothing is promised. -/
theorem undL_ok {F : Bool → Bool → Bool} {s : Mdd} (hs : Inv s) {f g : Nat} {k : Nat}
    (hn : s.arena.nodes[f]? = some (.term .undet)) :
    eng.Ok s k (Op2 (lift2 F) s.arena s.arena f g) (some (undet, s)) := by
  refine const_ok hs .undet ?_
  intro a ha x y hx hy b' c hb hc
  rw [(eval_term_iff hn).1 hx] at hb
  exact absurd hb (ofBool_ne_undet _)

theorem undR_ok {F : Bool → Bool → Bool} {s : Mdd} (hs : Inv s) {f g : Nat} {k : Nat}
    (hn : s.arena.nodes[g]? = some (.term .undet)) :
    eng.Ok s k (Op2 (lift2 F) s.arena s.arena f g) (some (undet, s)) := by
  refine const_ok hs .undet ?_
  intro a ha x y hx hy b' c hb hc
  rw [(eval_term_iff hn).1 hy] at hc
  exact absurd hc (ofBool_ne_undet _)

theorem same_ok {F : Bool → Bool → Bool} {s : Mdd} (hs : Inv s) {f : Nat}
    (lf : s.arena.Live f) (hF : ∀ c, F c c = c) :
    eng.Ok s (max (s.arena.rank f) (s.arena.rank f)) (Op2 (lift2 F) s.arena s.arena f f)
      (some (f, s)) := by
  refine Eng.Ok.ret hs lf rank_le_max_left ?_
  intro a ha z hz x y hx hy b c hb hc
  have := Eval.det hx hy
  subst this
  have hbc : b = c := T3.ofBool_inj (hb.symm.trans hc)
  rw [← hbc, hF, ← hb]
  exact Eval.det hz hx

theorem andF_ok : ∀ n, View.Rec2 vw vw (lift2 (· && ·)) (andF n) n := by
  intro n
  induction n with
  | zero => intro s f g _ _ _ h; omega
  | succ n ih =>
    intro s f0 g0 hs lf lg hr
    have hr' : Max.max (s.arena.rank f0) (s.arena.rank g0) < n + 1 := hr
    unfold andF
    refine bin_frame Bool.and_comm (fun _ _ _ _ _ => codeReq_and _ _) hs lf lg ?_
    intro f g lf lg hrk ef eg
    rw [← ef, ← eg]
    obtain ⟨nf, hf⟩ := lf.node
    obtain ⟨ng, hg⟩ := lg.node
    simp only [node?, hf, hg]
    have hN : Max.max (s.arena.rank f) (s.arena.rank g) ≤ n := by omega
    cases nf with
    | nt hf' cf =>
      cases ng with
      | nt hg' cg =>
        simp only
        split
        · rename_i e
          subst e
          exact same_ok hs lf (by simp)
        · exact View.arms2_ok vw vw ih hs lf lg hf hg (Or.inr rfl) hN
      | term t =>
        cases t with
        | zero => exact absR_ok (b := false) (d := false) hs hg (by simp)
        | one => exact retL_ok (b := true) hs lf hg (by simp)
        | undet => exact undR_ok hs hg
    | term t =>
      cases t with
      | undet => exact undL_ok hs hf
      | zero =>
        cases ng with
        | nt _ _ => exact absL_ok (b := false) (d := false) hs hf (by simp)
        | term u =>
          cases u with
          | zero => exact absL_ok (b := false) (d := false) hs hf (by simp)
          | one => exact absL_ok (b := false) (d := false) hs hf (by simp)
          | undet => exact undR_ok hs hg
      | one =>
        cases ng with
        | nt _ _ => exact retR_ok (b := true) hs lg hf (by simp)
        | term u =>
          cases u with
          | zero => exact retR_ok (b := true) hs lg hf (by simp)
          | one => exact retR_ok (b := true) hs lg hf (by simp)
          | undet => exact undR_ok hs hg

theorem and_ok {s : Mdd} (hs : Inv s) {f g : Nat} (lf : s.arena.Live f) (lg : s.arena.Live g) :
    eng.Ok s (max (s.arena.rank f) (s.arena.rank g))
      (Op2 (lift2 (· && ·)) s.arena s.arena f g) (s.and f g) :=
  andF_ok _ s f g hs lf lg (Nat.lt_succ_self _)

theorem orF_ok : ∀ n, View.Rec2 vw vw (lift2 (· || ·)) (orF n) n := by
  intro n
  induction n with
  | zero => intro s f g _ _ _ h; omega
  | succ n ih =>
    intro s f0 g0 hs lf lg hr
    have hr' : Max.max (s.arena.rank f0) (s.arena.rank g0) < n + 1 := hr
    unfold orF
    refine bin_frame Bool.or_comm (fun _ _ _ _ _ => codeReq_or _ _) hs lf lg ?_
    intro f g lf lg hrk ef eg
    rw [← ef, ← eg]
    obtain ⟨nf, hf⟩ := lf.node
    obtain ⟨ng, hg⟩ := lg.node
    simp only [node?, hf, hg]
    have hN : Max.max (s.arena.rank f) (s.arena.rank g) ≤ n := by omega
    cases nf with
    | nt hf' cf =>
      cases ng with
      | nt hg' cg =>
        simp only
        split
        · rename_i e
          subst e
          exact same_ok hs lf (by simp)
        · exact View.arms2_ok vw vw ih hs lf lg hf hg (Or.inr rfl) hN
      | term t =>
        cases t with
        | zero => exact retL_ok (b := false) hs lf hg (by simp)
        | one => exact absR_ok (b := true) (d := true) hs hg (by simp)
        | undet => exact undR_ok hs hg
    | term t =>
      cases t with
      | undet => exact undL_ok hs hf
      | zero =>
        cases ng with
        | nt _ _ => exact retR_ok (b := false) hs lg hf (by simp)
        | term u =>
          cases u with
          | zero => exact retR_ok (b := false) hs lg hf (by simp)
          | one => exact retR_ok (b := false) hs lg hf (by simp)
          | undet => exact undR_ok hs hg
      | one =>
        cases ng with
        | nt _ _ => exact absL_ok (b := true) (d := true) hs hf (by simp)
        | term u =>
          cases u with
          | zero => exact absL_ok (b := true) (d := true) hs hf (by simp)
          | one => exact absL_ok (b := true) (d := true) hs hf (by simp)
          | undet => exact undR_ok hs hg

theorem or_ok {s : Mdd} (hs : Inv s) {f g : Nat} (lf : s.arena.Live f) (lg : s.arena.Live g) :
    eng.Ok s (max (s.arena.rank f) (s.arena.rank g))
      (Op2 (lift2 (· || ·)) s.arena s.arena f g) (s.or f g) :=
  orF_ok _ s f g hs lf lg (Nat.lt_succ_self _)

theorem xor_notR {s : Mdd} (hs : Inv s) {f g : Nat} (lg : s.arena.Live g)
    (hn : s.arena.nodes[f]? = some (.term .one)) :
    eng.Ok s (max (s.arena.rank f) (s.arena.rank g))
      (Op2 (lift2 (· ^^ ·)) s.arena s.arena f g) (s.not g) := by
  refine (not_ok hs lg).mono (Nat.le_max_right _ _) ?_
  intro a _ z hz x y hx hy b c hb hc
  rw [(eval_term_iff hn).1 hx] at hb
  have : b = true := (T3.ofBool_inj (a := true) hb).symm
  rw [this]
  show z = T3.ofBool (true ^^ c)
  rw [Bool.true_xor]
  exact hz y hy c hc

theorem xor_notL {s : Mdd} (hs : Inv s) {f g : Nat} (lf : s.arena.Live f)
    (hn : s.arena.nodes[g]? = some (.term .one)) :
    eng.Ok s (max (s.arena.rank f) (s.arena.rank g))
      (Op2 (lift2 (· ^^ ·)) s.arena s.arena f g) (s.not f) := by
  refine (not_ok hs lf).mono (Nat.le_max_left _ _) ?_
  intro a _ z hz x y hx hy b c hb hc
  rw [(eval_term_iff hn).1 hy] at hc
  have : c = true := (T3.ofBool_inj (a := true) hc).symm
  rw [this]
  show z = T3.ofBool (b ^^ true)
  rw [Bool.xor_true]
  exact hz x hx b hb

theorem xor_same {s : Mdd} (hs : Inv s) {f k : Nat} :
    eng.Ok s k (Op2 (lift2 (· ^^ ·)) s.arena s.arena f f) (some (zero, s)) := by
  refine const_ok hs .zero ?_
  intro a ha x y hx hy b c hb hc
  have := Eval.det hx hy
  subst this
  have hbc : b = c := T3.ofBool_inj (hb.symm.trans hc)
  rw [hbc]
  show T3.zero = T3.ofBool (c ^^ c)
  rw [Bool.xor_self]
  rfl

theorem xorF_ok : ∀ n, View.Rec2 vw vw (lift2 (· ^^ ·)) (xorF n) n := by
  intro n
  induction n with
  | zero => intro s f g _ _ _ h; omega
  | succ n ih =>
    intro s f0 g0 hs lf lg hr
    have hr' : Max.max (s.arena.rank f0) (s.arena.rank g0) < n + 1 := hr
    unfold xorF
    refine bin_frame Bool.xor_comm (fun _ _ _ _ _ => codeReq_xor _ _) hs lf lg ?_
    intro f g lf lg hrk ef eg
    rw [← ef, ← eg]
    obtain ⟨nf, hf⟩ := lf.node
    obtain ⟨ng, hg⟩ := lg.node
    simp only [node?, hf, hg]
    have hN : Max.max (s.arena.rank f) (s.arena.rank g) ≤ n := by omega
    cases nf with
    | nt hf' cf =>
      cases ng with
      | nt hg' cg =>
        simp only
        split
        · rename_i e
          subst e
          exact xor_same hs
        · exact View.arms2_ok vw vw ih hs lf lg hf hg (Or.inr rfl) hN
      | term t =>
        cases t with
        | zero => exact retL_ok (b := false) hs lf hg (by simp)
        | one => exact xor_notL hs lf hg
        | undet => exact undR_ok hs hg
    | term t =>
      cases t with
      | undet => exact undL_ok hs hf
      | zero =>
        cases ng with
        | nt _ _ => exact retR_ok (b := false) hs lg hf (by simp)
        | term u =>
          cases u with
          | zero => exact retR_ok (b := false) hs lg hf (by simp)
          | one => exact retR_ok (b := false) hs lg hf (by simp)
          | undet => exact undR_ok hs hg
      | one =>
        cases ng with
        | nt _ _ => exact xor_notR hs lg hf
        | term u =>
          cases u with
          | zero => exact xor_notR hs lg hf
          | one => exact xor_notR hs lg hf
          | undet => exact undR_ok hs hg

theorem xor_ok {s : Mdd} (hs : Inv s) {f g : Nat} (lf : s.arena.Live f) (lg : s.arena.Live g) :
    eng.Ok s (max (s.arena.rank f) (s.arena.rank g))
      (Op2 (lift2 (· ^^ ·)) s.arena s.arena f g) (s.xor f g) :=
  xorF_ok _ s f g hs lf lg (Nat.lt_succ_self _)

/-! ## replace -/

theorem replaceF_ok : ∀ n, View.Rec2 vw vw over (replaceF n) n := by
  intro n
  induction n with
  | zero => intro s f g _ _ _ h; omega
  | succ n ih =>
    intro s f g hs lf lg hr
    have lf' : s.arena.Live f := lf
    have lg' : s.arena.Live g := lg
    have hr' : Max.max (s.arena.rank f) (s.arena.rank g) < n + 1 := hr
    unfold replaceF
    refine memo2_ok hs lf lg (fun a z => codeReq_replace a z) ?_
    obtain ⟨nf, hf⟩ := lf'.node
    obtain ⟨ng, hg⟩ := lg'.node
    simp only [node?, hf, hg]
    have hN : Max.max (s.arena.rank f) (s.arena.rank g) ≤ n := by omega
    have cst : ∀ t : T3, t ≠ .undet → s.arena.nodes[f]? = some (.term t) →
        eng.Ok s (max (s.arena.rank f) (s.arena.rank g)) (Op2 over s.arena s.arena f g)
          (some (t.slot, s)) := by
      intro t ht hn
      refine const_ok hs t ?_
      intro a ha x y hx hy
      rw [(eval_term_iff hn).1 hx]
      simp [over, ht]
    have undR : s.arena.nodes[g]? = some (.term .undet) →
        eng.Ok s (max (s.arena.rank f) (s.arena.rank g)) (Op2 over s.arena s.arena f g)
          (some (f, s)) := by
      intro hn
      refine Eng.Ok.ret hs lf' rank_le_max_left ?_
      intro a ha z hz x y hx hy
      rw [(eval_term_iff hn).1 hy, Eval.det hz hx]
      unfold over; split
      · assumption
      · rfl
    have spl : ∀ t, s.arena.nodes[g]? = some (.term t) → ∀ h ch,
        s.arena.nodes[f]? = some (.nt h ch) →
        eng.Ok s (max (s.arena.rank f) (s.arena.rank g)) (Op2 over s.arena s.arena f g)
          (branchS createNode (replaceF n) s h (ch.map (fun x => (x, g)))) := by
      intro t ht h ch hn
      obtain ⟨hd, _, _, hrk, _⟩ := hs.wf.nt lf' hn
      have hlt : s.arena.rank g < s.arena.rank f := by rw [rank_term ht]; omega
      exact View.armL_ok vw vw ih hs lf lg hn hlt hN
    cases nf with
    | term t =>
      cases t with
      | undet =>
        refine Eng.Ok.ret hs lg' rank_le_max_right ?_
        intro a ha z hz x y hx hy
        rw [(eval_term_iff hf).1 hx, Eval.det hz hy]
        simp [over]
      | zero =>
        cases ng with
        | nt _ _ => exact cst .zero (by decide) hf
        | term u =>
          cases u with
          | undet => exact undR hg
          | zero => exact cst .zero (by decide) hf
          | one => exact cst .zero (by decide) hf
      | one =>
        cases ng with
        | nt _ _ => exact cst .one (by decide) hf
        | term u =>
          cases u with
          | undet => exact undR hg
          | zero => exact cst .one (by decide) hf
          | one => exact cst .one (by decide) hf
    | nt hf' cf =>
      cases ng with
      | nt hg' cg => exact View.arms2_ok vw vw ih hs lf lg hf hg (Or.inr rfl) hN
      | term u =>
        cases u with
        | undet => exact undR hg
        | zero => exact spl _ hg _ _ hf
        | one => exact spl _ hg _ _ hf

theorem replace_ok {s : Mdd} (hs : Inv s) {f g : Nat} (lf : s.arena.Live f) (lg : s.arena.Live g) :
    eng.Ok s (max (s.arena.rank f) (s.arena.rank g)) (Op2 over s.arena s.arena f g)
      (s.replace f g) :=
  replaceF_ok _ s f g hs lf lg (Nat.lt_succ_self _)

/-! ## Derived connectives -/

theorem then_not {s : Mdd} (hs : Inv s) {f g : Nat} {k : Nat}
    {F G : Bool → Bool → Bool} (hG : ∀ a b, G a b = !F a b) {res : Option (Nat × Mdd)}
    (h : eng.Ok s k (Op2 (lift2 F) s.arena s.arena f g) res) :
    ∃ r s1, res = some (r, s1) ∧ eng.Ok s k (Op2 (lift2 G) s.arena s.arena f g) (s1.not r) := by
  obtain ⟨r, s1, rfl, h2, h3, h4, h5, h6⟩ := h
  refine ⟨r, s1, rfl, View.ok_st h3 ((not_ok h2 h4).mono h5 ?_)⟩
  intro a ha z hz x y hx hy b c hb hc
  obtain ⟨t, ht⟩ := h2.wf.eval_total ha h4
  have := h6 a ha t ht x y hx hy b c hb hc
  rw [hG]
  exact hz t ht _ this

theorem nand_ok {s : Mdd} (hs : Inv s) {f g : Nat} (lf : s.arena.Live f) (lg : s.arena.Live g) :
    eng.Ok s (max (s.arena.rank f) (s.arena.rank g))
      (Op2 (lift2 (fun a b => !(a && b))) s.arena s.arena f g) (s.nand f g) := by
  obtain ⟨r, s1, h1, h2⟩ := then_not (G := _) hs (fun _ _ => rfl) (and_ok hs lf lg)
  unfold nand
  simp only [h1]
  exact h2

theorem nor_ok {s : Mdd} (hs : Inv s) {f g : Nat} (lf : s.arena.Live f) (lg : s.arena.Live g) :
    eng.Ok s (max (s.arena.rank f) (s.arena.rank g))
      (Op2 (lift2 (fun a b => !(a || b))) s.arena s.arena f g) (s.nor f g) := by
  obtain ⟨r, s1, h1, h2⟩ := then_not (G := _) hs (fun _ _ => rfl) (or_ok hs lf lg)
  unfold nor
  simp only [h1]
  exact h2

theorem xnor_ok {s : Mdd} (hs : Inv s) {f g : Nat} (lf : s.arena.Live f) (lg : s.arena.Live g) :
    eng.Ok s (max (s.arena.rank f) (s.arena.rank g))
      (Op2 (lift2 (fun a b => !(a ^^ b))) s.arena s.arena f g) (s.xnor f g) := by
  obtain ⟨r, s1, h1, h2⟩ := then_not (G := _) hs (fun _ _ => rfl) (xor_ok hs lf lg)
  unfold xnor
  simp only [h1]
  exact h2

theorem imp_ok {s : Mdd} (hs : Inv s) {f g : Nat} (lf : s.arena.Live f) (lg : s.arena.Live g) :
    eng.Ok s (max (s.arena.rank f) (s.arena.rank g))
      (Op2 (lift2 (fun a b => !a || b)) s.arena s.arena f g) (s.imp f g) := by
  unfold imp
  obtain ⟨r, s1, h1, h2, h3, h4, h5, h6⟩ := not_ok hs lf
  have h3' : Step s.arena s1.arena := h3
  have h4' : s1.arena.Live r := h4
  have h5' : s1.arena.rank r ≤ s.arena.rank f := h5
  have lg1 := (h3'.keep _ lg).1
  have rg1 := hs.wf.rank_ext h3'.toExt lg
  simp only [h1]
  refine View.ok_st h3 ((or_ok h2 h4 lg1).mono (by omega) ?_)
  intro a ha z hz x y hx hy b c hb hc
  obtain ⟨t, ht⟩ := h2.wf.eval_total ha h4
  exact hz t y ht ((hs.wf.eval_ext h3'.toExt lg).2 hy) _ _ (h6 a ha t ht x hx b hb) hc

/-! ## if-then-else -/

theorem iteF_ok : ∀ n, View.Rec3 vw vw vw liftIte (iteF n) n := by
  intro n
  induction n with
  | zero => intro s f g h _ _ _ _ h; omega
  | succ n ih =>
    intro s f g h hs lf lg lh hr
    have lf' : s.arena.Live f := lf
    have lg' : s.arena.Live g := lg
    have lh' : s.arena.Live h := lh
    have hr' : Max.max (s.arena.rank f) (Max.max (s.arena.rank g) (s.arena.rank h)) < n + 1 := hr
    show eng.Ok s (max (s.arena.rank f) (max (s.arena.rank g) (s.arena.rank h)))
      (Op3 liftIte s.arena s.arena s.arena f g h) _
    unfold iteF
    obtain ⟨nf, hf⟩ := lf'.node
    simp only [node?, hf]
    cases nf with
    | term t =>
      cases t with
      | one =>
        refine Eng.Ok.ret hs lg' (show s.arena.rank g ≤ _ by omega) ?_
        intro a ha z hz x y w hx hy hw
        rw [(eval_term_iff hf).1 hx]
        exact ⟨fun _ => Eval.det hz hy, fun h => (by cases h)⟩
      | zero =>
        refine Eng.Ok.ret hs lh' (show s.arena.rank h ≤ _ by omega) ?_
        intro a ha z hz x y w hx hy hw
        rw [(eval_term_iff hf).1 hx]
        exact ⟨fun h => (by cases h), fun _ => Eval.det hz hw⟩
      | undet =>
        refine const_ok hs .undet ?_
        intro a ha x y w hx hy hw
        rw [(eval_term_iff hf).1 hx]
        exact ⟨fun h => (by cases h), fun h => (by cases h)⟩
    | nt hf' cf =>
      by_cases hgh : g = h
      · simp only [hgh, if_true]
        refine Eng.Ok.ret hs lh' (show s.arena.rank h ≤ _ by omega) ?_
        intro a ha z hz x y w hx hy hw
        exact ⟨fun _ => Eval.det hz hy, fun _ => Eval.det hz hw⟩
      · simp only [hgh, if_false]
        apply Eng.memo_ok hs
        · intro x hx
          have := hs.ite.good _ _ _ _ hx
          exact ⟨this.lr, this.rk, this.snd⟩
        · obtain ⟨hd, hh, hl, hrk, hlv, _, _⟩ := hs.wf.nt lf' hf
          simp only [hlv]
          obtain ⟨t1, t2, t3⟩ := topLevel_ge s.arena [g, h] hd.level
          generalize s.arena.topLevel hd.level [g, h] = top at *
          have hex : ∃ x ∈ [f, g, h], s.arena.level? x = some top := by
            rcases t3 with t3 | ⟨x, hx, t3⟩
            · exact ⟨f, List.mem_cons_self, by rw [hlv, t3]⟩
            · exact ⟨x, List.mem_cons_of_mem _ hx, t3⟩
          obtain ⟨hx, hdx, e1, e2, e3⟩ := hs.wf.topHeader_spec (by simp [lf', lg', lh']) hex
          simp only [e1]
          refine View.arm3_ok vw vw vw ih hs lf lg lh e2 e3 ?_ (t2 g (by simp)) (t2 h (by simp))
            ?_ (Nat.le_of_lt_succ hr)
          · show s.arena.rank f ≤ _
            omega
          · obtain ⟨x, hx, hlx⟩ := hex
            have := rank_eq_of_level hlx
            simp at hx
            rcases hx with rfl | rfl | rfl
            · exact Or.inl this
            · exact Or.inr (Or.inl this)
            · exact Or.inr (Or.inr this)
        · intro s' r i' st lr rr sr
          have st' : Step s.arena s'.arena := st
          refine ⟨iteCachePut_inv i' ?_, rfl, Step.refl _⟩
          refine ⟨(st'.keep _ lf').1, (st'.keep _ lg').1, (st'.keep _ lh').1, lr, ?_, ?_⟩
          · rw [hs.wf.rank_ext st'.toExt lf', hs.wf.rank_ext st'.toExt lg',
              hs.wf.rank_ext st'.toExt lh']; exact rr
          · intro a ha z hz
            have := sr a ha z hz
            unfold Op3 at this ⊢
            simpa only [hs.wf.eval_ext st'.toExt lf', hs.wf.eval_ext st'.toExt lg',
              hs.wf.eval_ext st'.toExt lh'] using this

theorem ite_ok {s : Mdd} (hs : Inv s) {f g h : Nat} (lf : s.arena.Live f) (lg : s.arena.Live g)
    (lh : s.arena.Live h) :
    eng.Ok s (max (s.arena.rank f) (max (s.arena.rank g) (s.arena.rank h)))
      (Op3 liftIte s.arena s.arena s.arena f g h) (s.ite f g h) :=
  iteF_ok _ s f g h hs lf lg lh (Nat.lt_succ_self _)

/-! ## Construction, headers, collection -/

theorem inv_new : Inv Mdd.new where
  wf := by
    refine
      { free_lt := by simp [Mdd.new]
        free_nodup := by simp [Mdd.new]
        ut_nodup := AMap.nodup_empty
        ut_fixed := by intro t i _; rfl
        find_iff := ?_
        hdr := ?_
        kid := ?_
        red := ?_
        arity := by simp [Mdd.new]
        pos := by simp [Mdd.new] }
    · intro k i
      cases k with
      | nt h ch =>
        simp only [find, Mdd.new, AMap.get_empty, Live]
        constructor
        · intro h; cases h
        · rintro ⟨⟨h1, _⟩, h2⟩
          match i, h1 with
          | 0, _ => simp at h2
          | 1, _ => simp at h2
          | 2, _ => simp at h2
      | term t =>
        simp only [find, Mdd.new, Live, fix, Option.some_or]
        constructor
        · intro h
          cases h
          cases t <;> simp [T3.slot]
        · rintro ⟨⟨h1, _⟩, h2⟩
          match i, h1 with
          | 0, _ => simp at h2; subst h2; rfl
          | 1, _ => simp at h2; subst h2; rfl
          | 2, _ => simp at h2; subst h2; rfl
    all_goals
      rintro i h ch ⟨h1, _⟩ h2
      match i, h1 with
      | 0, _ => simp [Mdd.new] at h2
      | 1, _ => simp [Mdd.new] at h2
      | 2, _ => simp [Mdd.new] at h2
  cache := CacheOK.new _ _
  ite := CacheOK.new _ _

/-- `create_header` with a legal edge count. -/
theorem createHeader_inv {s : Mdd} (hs : Inv s) (l : Nat) (lab : String) (e : Nat) (he : 0 < e)
    (hc : ∀ hd ∈ s.arena.headers, hd.level = l → hd.edgeNum = e) :
    Inv (s.createHeader l lab e).2 ∧ Ext s.arena (s.createHeader l lab e).2.arena ∧
      (s.createHeader l lab e).2.arena.headers[(s.createHeader l lab e).1]? = some ⟨l, lab, e⟩ ∧
      (s.createHeader l lab e).2.arena.headers = s.arena.headers ++ [⟨l, lab, e⟩] ∧
      (s.createHeader l lab e).2.arena.nodes = s.arena.nodes ∧
      (∀ i, (s.createHeader l lab e).2.arena.Live i ↔ s.arena.Live i) := by
  obtain ⟨h1, h2, h3, h4, h5⟩ := createHeader_spec hs.wf l lab e he hc
  exact ⟨hs.ext h1 h2, h2, h3, rfl, h5, h4⟩

theorem clearCache_inv {s : Mdd} (hs : Inv s) : Inv s.clearCache where
  wf := hs.wf
  cache := hs.cache.clear
  ite := hs.ite.clear

/-- `create_node` on legal arguments. -/
theorem createNode_ok {s : Mdd} (hs : Inv s) {h : Nat} {ch : List Nat} {hd : Header}
    (hh : s.arena.headers[h]? = some hd) (hl : ch.length = hd.edgeNum)
    (hk : ∀ c ∈ ch, s.arena.Live c ∧ s.arena.rank c ≤ hd.level) :
    ∃ r s', s.createNode h ch = some (r, s') ∧ Inv s' ∧ Step s.arena s'.arena ∧
      s'.arena.Live r ∧ s'.arena.rank r ≤ hd.level + 1 ∧
      ∀ a z, s'.arena.ValidA a →
        (Eval s'.arena a r z ↔ ∃ c, ch[a hd.level]? = some c ∧ Eval s'.arena a c z) := by
  obtain ⟨r, m', h1, h2, h3, h4, h5, h6⟩ := createFull_spec hs.wf hh hl hk
  exact ⟨r, { s with arena := m' }, by simp only [createNode, h1], hs.ext h2 h3.toExt, h3, h4, h5, h6⟩

/-- Collection keeps the invariant; survivors are what is reachable. -/
theorem gc_ok {s : Mdd} (hs : Inv s) {roots : List Nat}
    (hr : ∀ r ∈ roots, r < s.arena.nodes.length → s.arena.Live r) :
    ∃ n s', s.gc roots = some (n, s') ∧ Inv s' ∧ s'.arena.headers = s.arena.headers ∧
      s'.arena.nodes = s.arena.nodes ∧ (∀ i, s'.arena.Live i ↔ s.arena.Survives roots i) ∧
      Step s'.arena s.arena ∧ n = s'.arena.free.length ∧
      (∀ op f g r, s'.cache.get op f g = some r ↔ s.cache.get op f g = some r ∧
        s'.arena.Live f ∧ s'.arena.Live g ∧ s'.arena.Live r) ∧
      (∀ f g h r, s'.iteCache.get f g h = some r ↔ s.iteCache.get f g h = some r ∧
        s'.arena.Live f ∧ s'.arena.Live g ∧ s'.arena.Live h ∧ s'.arena.Live r) := by
  obtain ⟨l, m', h1, h2, h3, h4, h5, h6, h7, h8⟩ := gcA_spec hs.wf hr
  have hl : ∀ i, l[i]? = some true ↔ m'.Live i := fun i => (h6 i).trans (h7 i).symm
  have hrank : ∀ i, m'.rank i = s.arena.rank i := by
    intro i; simp [rank, level?, h3, h4]
  obtain ⟨c, hc1, hc2⟩ := (hs.cache.mono (N' := m'.nodes.length) (Nat.le_of_eq (by rw [h4])) fun _ _ _ _ g => g).retainBy (Good' := Good m')
    (ids := fun s => [s.k1, s.k2, s.val]) (live := l)
    (by
      intro k0 k1 k2 v g i hi
      rw [h5]
      simp at hi
      rcases hi with rfl | rfl | rfl
      · exact g.lf.1
      · exact g.lg.1
      · exact g.lr.1)
    (by
      intro k0 k1 k2 v g hi
      have a1 := (hl k1).1 (hi k1 (by simp))
      have a2 := (hl k2).1 (hi k2 (by simp))
      have a3 := (hl v).1 (hi v (by simp))
      refine ⟨a1, a2, a3, by rw [hrank, hrank, hrank]; exact g.rk, ?_⟩
      intro a ha z hz
      have := g.snd a ((ValidA.step h8).2 ha) z ((h2.eval_ext h8.toExt a3).2 hz)
      exact (CodeReq.iff_of_eval (fun t => h2.eval_ext h8.toExt a1)
        (fun t => h2.eval_ext h8.toExt a2)).1 this)
  obtain ⟨ic, hi1, hi2⟩ := (hs.ite.mono (N' := m'.nodes.length) (Nat.le_of_eq (by rw [h4])) fun _ _ _ _ g => g).retainBy (Good' := IteGood m')
    (ids := fun s => [s.k0, s.k1, s.k2, s.val]) (live := l)
    (by
      intro k0 k1 k2 v g i hi
      rw [h5]
      simp at hi
      rcases hi with rfl | rfl | rfl | rfl
      · exact g.lf.1
      · exact g.lg.1
      · exact g.lh.1
      · exact g.lr.1)
    (by
      intro k0 k1 k2 v g hi
      have a0 := (hl k0).1 (hi k0 (by simp))
      have a1 := (hl k1).1 (hi k1 (by simp))
      have a2 := (hl k2).1 (hi k2 (by simp))
      have a3 := (hl v).1 (hi v (by simp))
      refine ⟨a0, a1, a2, a3, by rw [hrank, hrank, hrank, hrank]; exact g.rk, ?_⟩
      intro a ha z hz
      have := g.snd a ((ValidA.step h8).2 ha) z ((h2.eval_ext h8.toExt a3).2 hz)
      unfold Op3 at this ⊢
      simpa only [h2.eval_ext h8.toExt a0, h2.eval_ext h8.toExt a1,
        h2.eval_ext h8.toExt a2] using this)
  refine ⟨m'.free.length, ⟨m', c, ic⟩, ?_, ⟨h2, hc2, hi2⟩, h3, h4, h7,
    h8, rfl, ?_, ?_⟩
  · unfold gc
    simp only [h1]
    rw [show s.cache.retainLive l = some c from hc1, show s.iteCache.retainLive3 l = some ic from hi1]
  · intro op f g r
    rw [get_retainBy hc1]
    simp [hl]
  · intro f g h r
    rw [get_retainBy hi1]
    simp [hl]

end Mdd
end DD
