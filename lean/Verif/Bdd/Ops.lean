import Verif.Bdd.Model

/-!
# BDD operations: invariant and meaning
-/

set_option autoImplicit false
set_option linter.unusedSectionVars false

namespace DD
open Arena ComputeCache

namespace Bdd

/-- What a cache entry `(op, f, g) ↦ r` promises. -/
def CodeReq (m : Arena T3) (op f g : Nat) (a : Nat → Nat) (z : T3) : Prop :=
  (op = opAnd → Op2 (lift2 (· && ·)) m m f g a z) ∧
  (op = opOr → Op2 (lift2 (· || ·)) m m f g a z) ∧
  (op = opXor → Op2 (lift2 (· ^^ ·)) m m f g a z) ∧
  (op = opNot → Op1 (lift1 (!·)) m f a z)

/-- Admissible cache entry. -/
structure Good (m : Arena T3) (op f g r : Nat) : Prop where
  lf : m.Live f
  lg : m.Live g
  lr : m.Live r
  rk : m.rank r ≤ max (m.rank f) (m.rank g)
  snd : m.Sound (CodeReq m op f g) r

/-- Admissible ite-cache entry. -/
structure IteGood (m : Arena T3) (f g h r : Nat) : Prop where
  lf : m.Live f
  lg : m.Live g
  lh : m.Live h
  lr : m.Live r
  rk : m.rank r ≤ max (m.rank f) (max (m.rank g) (m.rank h))
  snd : m.Sound (Op3 liftIte m m m f g h) r

/-- State invariant. -/
structure Inv (s : Bdd) : Prop where
  wf : WF RFull s.arena
  two : ∀ hd ∈ s.arena.headers, hd.edgeNum = 2
  cache : CacheOK s.arena.nodes.length (Good s.arena) s.cache
  ite : CacheOK s.arena.nodes.length (IteGood s.arena) s.iteCache

theorem CodeReq.iff_of_eval {m m' : Arena T3} {op f g : Nat} {a : Nat → Nat} {z : T3}
    (hf : ∀ t, Eval m' a f t ↔ Eval m a f t) (hg : ∀ t, Eval m' a g t ↔ Eval m a g t) :
    CodeReq m' op f g a z ↔ CodeReq m op f g a z := by
  unfold CodeReq Op2 Op1
  simp only [hf, hg]

theorem Good.ext {m m' : Arena T3} (wf : WF RFull m) (e : Ext m m') {op f g r : Nat}
    (h : Good m op f g r) : Good m' op f g r where
  lf := (e.keep _ h.lf).1
  lg := (e.keep _ h.lg).1
  lr := (e.keep _ h.lr).1
  rk := by rw [wf.rank_ext e h.lf, wf.rank_ext e h.lg, wf.rank_ext e h.lr]; exact h.rk
  snd := by
    intro a ha z hz
    have := wf.sound_ext e h.lr h.snd a ha z hz
    exact (CodeReq.iff_of_eval (fun t => wf.eval_ext e h.lf) (fun t => wf.eval_ext e h.lg)).2 this

theorem IteGood.ext {m m' : Arena T3} (wf : WF RFull m) (e : Ext m m') {f g h r : Nat}
    (q : IteGood m f g h r) : IteGood m' f g h r where
  lf := (e.keep _ q.lf).1
  lg := (e.keep _ q.lg).1
  lh := (e.keep _ q.lh).1
  lr := (e.keep _ q.lr).1
  rk := by
    rw [wf.rank_ext e q.lf, wf.rank_ext e q.lg, wf.rank_ext e q.lh, wf.rank_ext e q.lr]
    exact q.rk
  snd := by
    intro a ha z hz
    have := wf.sound_ext e q.lr q.snd a ha z hz
    unfold Op3 at this ⊢
    simpa only [wf.eval_ext e q.lf, wf.eval_ext e q.lg, wf.eval_ext e q.lh] using this

/-- Replace the arena by an extension. -/
theorem Inv.ext {s : Bdd} (h : Inv s) {m : Arena T3} (wf : WF RFull m)
    (two : ∀ hd ∈ m.headers, hd.edgeNum = 2) (e : Ext s.arena m) :
    Inv { s with arena := m } where
  wf := wf
  two := two
  cache := h.cache.mono e.len (fun _ _ _ _ g => g.ext h.wf e)
  ite := h.ite.mono e.len (fun _ _ _ _ g => g.ext h.wf e)

theorem createNode_eq (s : Bdd) (h low high : Nat) :
    s.createNode h low high =
      (s.arena.createFull h [low, high]).map (fun p => (p.1, { s with arena := p.2 })) := by
  unfold createNode createFull
  by_cases hlh : low = high
  · simp [hlh]
  · simp only [hlh, if_false, List.all_cons, decide_true, decide_false, List.all_nil]
    simp only [Bool.and_true, Bool.and_false, Bool.false_eq_true, if_false]
    cases s.arena.mkNode (.nt h [low, high]) <;> rfl

/-- The engine facts for BDD. -/
def eng : Eng Bdd T3 where
  ar := arena
  Inv := Inv
  St a b := Step a.arena b.arena
  mkn := mkn
  refl s := Step.refl _
  trans _ _ _ h h' := h.trans h'
  toStep _ _ h := h
  toWF s h := h.wf
  mkOK := by
    intro s h ch hs g
    obtain ⟨r, m', h1, h2, h3, h4, -⟩ := createFull_raw hs.wf g
    obtain ⟨hd, hh, hl, hk⟩ := g
    rw [hs.two hd (List.mem_of_getElem? hh)] at hl
    match ch, hl with
    | [lo, hi], _ =>
      refine ⟨r, { s with arena := m' }, ?_, ?_, h3, h1⟩
      · simp only [mkn, createNode_eq, h1, Option.map_some]
      · exact hs.ext h2 (by rw [h3.heq]; exact hs.two) h3.toExt

/-- The operand view. -/
abbrev vw : View eng T3 := eng.self

theorem fixed {s : Bdd} (hs : Inv s) (t : T3) :
    s.arena.Live t.slot ∧ s.arena.nodes[t.slot]? = some (.term t) :=
  hs.wf.fixed_live (t := t) rfl

/-- A constant as outcome. -/
theorem const_ok {s : Bdd} (hs : Inv s) (t : T3) {k : Nat} {Φ : (Nat → Nat) → T3 → Prop}
    (h : ∀ a, s.arena.ValidA a → Φ a t) : eng.Ok s k Φ (some (t.slot, s)) := by
  obtain ⟨h1, h2⟩ := fixed hs t
  refine Eng.Ok.ret hs h1 ?_ ?_
  · show s.arena.rank _ ≤ k
    rw [rank_term h2]; omega
  · intro a ha z hz
    rw [(eval_term_iff h2).1 hz]
    exact h a ha

theorem cachePut_inv {s : Bdd} (hs : Inv s) {op f g r : Nat} (h : Good s.arena op f g r) :
    Inv (cachePut op f g s r) :=
  { wf := hs.wf, two := hs.two, cache := hs.cache.put h.lr.1 h, ite := hs.ite }

theorem iteCachePut_inv {s : Bdd} (hs : Inv s) {f g h r : Nat} (q : IteGood s.arena f g h r) :
    Inv (iteCachePut f g h s r) :=
  { wf := hs.wf, two := hs.two, cache := hs.cache, ite := hs.ite.put q.lr.1 q }

/-- Memoisation with key `(op, f, g)`, for a requirement equivalent to what the code promises. -/
theorem memo2_ok {s : Bdd} (hs : Inv s) {op f g : Nat} {Φ : (Nat → Nat) → T3 → Prop}
    {body : Bdd → Option (Nat × Bdd)} (lf : s.arena.Live f) (lg : s.arena.Live g)
    (hΦ : ∀ a z, CodeReq s.arena op f g a z ↔ Φ a z)
    (hb : eng.Ok s (max (s.arena.rank f) (s.arena.rank g)) Φ (body s)) :
    eng.Ok s (max (s.arena.rank f) (s.arena.rank g)) Φ
      (memo (cacheGet op f g) (cachePut op f g) body s) := by
  apply Eng.memo_ok hs
  · intro x hx
    have := hs.cache.good _ _ _ _ hx
    exact ⟨this.lr, this.rk, fun a ha z hz => (hΦ a z).1 (this.snd a ha z hz)⟩
  · exact hb
  · intro s' r i' st lr rr sr
    have st' : Step s.arena s'.arena := st
    refine ⟨cachePut_inv i' ?_, rfl, Step.refl _⟩
    refine ⟨(st'.keep _ lf).1, (st'.keep _ lg).1, lr, ?_, ?_⟩
    · rw [hs.wf.rank_ext st'.toExt lf, hs.wf.rank_ext st'.toExt lg]; exact rr
    · intro a ha z hz
      rw [CodeReq.iff_of_eval (fun t => hs.wf.eval_ext st'.toExt lf)
        (fun t => hs.wf.eval_ext st'.toExt lg), hΦ]
      exact sr a ha z hz

theorem codeReq_not {m : Arena T3} {f : Nat} (a : Nat → Nat) (z : T3) :
    CodeReq m opNot f 0 a z ↔ Op1 (lift1 (!·)) m f a z := by
  simp [CodeReq, opAnd, opOr, opXor, opNot]

theorem codeReq_and {m : Arena T3} {f g : Nat} (a : Nat → Nat) (z : T3) :
    CodeReq m opAnd f g a z ↔ Op2 (lift2 (· && ·)) m m f g a z := by
  simp [CodeReq, opAnd, opOr, opXor, opNot]

theorem codeReq_or {m : Arena T3} {f g : Nat} (a : Nat → Nat) (z : T3) :
    CodeReq m opOr f g a z ↔ Op2 (lift2 (· || ·)) m m f g a z := by
  simp [CodeReq, opAnd, opOr, opXor, opNot]

theorem codeReq_xor {m : Arena T3} {f g : Nat} (a : Nat → Nat) (z : T3) :
    CodeReq m opXor f g a z ↔ Op2 (lift2 (· ^^ ·)) m m f g a z := by
  simp [CodeReq, opAnd, opOr, opXor, opNot]

/-! ## not -/

theorem notF_ok : ∀ n, View.Rec1 vw (lift1 (!·)) (notF n) n := by
  intro n
  induction n with
  | zero => intro s f _ _ h; omega
  | succ n ih =>
    intro s f hs lf hr
    have lf' : s.arena.Live f := lf
    have hz : s.arena.Live 0 ∧ s.arena.nodes[0]? = some (.term .zero) := fixed hs .zero
    have hmax : max (s.arena.rank f) (s.arena.rank 0) = s.arena.rank f := by
      have : s.arena.rank 0 = 0 := rank_term hz.2
      omega
    show eng.Ok s (s.arena.rank f) _ _
    rw [← hmax]
    unfold notF
    apply memo2_ok hs lf' hz.1 (fun a z => codeReq_not a z)
    rw [hmax]
    obtain ⟨nd, hn⟩ := lf'.node
    simp only [node?, hn]
    cases nd with
    | nt h ch => exact View.arm1_ok vw ih hs lf hn (Nat.le_of_lt_succ hr)
    | term t =>
      cases t with
      | zero =>
        refine const_ok hs .one ?_
        intro a _ x hx b hb
        rw [(eval_term_iff hn).1 hx] at hb
        cases b <;> simp [T3.ofBool] at hb ⊢
      | one =>
        refine const_ok hs .zero ?_
        intro a _ x hx b hb
        rw [(eval_term_iff hn).1 hx] at hb
        cases b <;> simp [T3.ofBool] at hb ⊢
      | undet =>
        refine const_ok hs .undet ?_
        intro a _ x hx b hb
        rw [(eval_term_iff hn).1 hx] at hb
        cases b <;> simp [T3.ofBool] at hb

theorem not_ok {s : Bdd} (hs : Inv s) {f : Nat} (lf : s.arena.Live f) :
    eng.Ok s (s.arena.rank f) (Op1 (lift1 (!·)) s.arena f) (s.not f) :=
  notF_ok _ s f hs lf (Nat.lt_succ_self _)

/-! ## Binary operations -/

/-- Common frame of the commutative binary operations. -/
theorem bin_frame {op : Nat} {F : Bool → Bool → Bool} (hcomm : ∀ a b, F a b = F b a)
    (hcode : ∀ (m : Arena T3) f g a z, CodeReq m op f g a z ↔ Op2 (lift2 F) m m f g a z)
    {s : Bdd} (hs : Inv s) {f0 g0 : Nat} (lf : s.arena.Live f0) (lg : s.arena.Live g0)
    {body : Bdd → Option (Nat × Bdd)}
    (hb : ∀ f g, s.arena.Live f → s.arena.Live g →
      Max.max (s.arena.rank f) (s.arena.rank g) = Max.max (s.arena.rank f0) (s.arena.rank g0) →
      f = min f0 g0 → g = max f0 g0 →
      eng.Ok s (max (s.arena.rank f) (s.arena.rank g)) (Op2 (lift2 F) s.arena s.arena f g)
        (body s)) :
    eng.Ok s (max (s.arena.rank f0) (s.arena.rank g0)) (Op2 (lift2 F) s.arena s.arena f0 g0)
      (memo (cacheGet op (min f0 g0) (max f0 g0)) (cachePut op (min f0 g0) (max f0 g0)) body s) := by
  by_cases hle : f0 ≤ g0
  · have hb' := hb f0 g0 lf lg rfl (by omega) (by omega)
    rw [Nat.min_eq_left hle, Nat.max_eq_right hle]
    exact memo2_ok hs lf lg (hcode _ _ _) hb'
  · have hb' := hb g0 f0 lg lf (by omega) (by omega) (by omega)
    rw [Nat.min_eq_right (show g0 ≤ f0 by omega), Nat.max_eq_left (show g0 ≤ f0 by omega)]
    have := memo2_ok (Φ := Op2 (lift2 F) s.arena s.arena g0 f0) hs lg lf (hcode _ _ _) hb'
    refine this.mono (by omega) ?_
    intro a _ z hz x y hx hy
    exact lift2_comm hcomm (hz y x hy hx)

theorem rank_le_max_left {s : Bdd} {f g : Nat} :
    s.arena.rank f ≤ max (s.arena.rank f) (s.arena.rank g) := Nat.le_max_left _ _

theorem rank_le_max_right {s : Bdd} {f g : Nat} :
    s.arena.rank g ≤ max (s.arena.rank f) (s.arena.rank g) := Nat.le_max_right _ _

/-- Returning the right operand when the left is a constant. -/
theorem retR_ok {F : Bool → Bool → Bool} {s : Bdd} (hs : Inv s) {f g : Nat} {b : Bool}
    (lg : s.arena.Live g) (hn : s.arena.nodes[f]? = some (.term (T3.ofBool b)))
    (hF : ∀ c, F b c = c) :
    eng.Ok s (max (s.arena.rank f) (s.arena.rank g)) (Op2 (lift2 F) s.arena s.arena f g)
      (some (g, s)) := by
  refine Eng.Ok.ret hs lg rank_le_max_right ?_
  intro a ha z hz x y hx hy b' c hb hc
  rw [(eval_term_iff hn).1 hx] at hb
  rw [← T3.ofBool_inj hb, hF, ← hc]
  exact Eval.det hz hy

/-- Returning the left operand when the right is a constant. -/
theorem retL_ok {F : Bool → Bool → Bool} {s : Bdd} (hs : Inv s) {f g : Nat} {b : Bool}
    (lf : s.arena.Live f) (hn : s.arena.nodes[g]? = some (.term (T3.ofBool b)))
    (hF : ∀ c, F c b = c) :
    eng.Ok s (max (s.arena.rank f) (s.arena.rank g)) (Op2 (lift2 F) s.arena s.arena f g)
      (some (f, s)) := by
  refine Eng.Ok.ret hs lf rank_le_max_left ?_
  intro a ha z hz x y hx hy b' c hb hc
  rw [(eval_term_iff hn).1 hy] at hc
  rw [← T3.ofBool_inj hc, hF, ← hb]
  exact Eval.det hz hx

/-- Returning a constant because the left operand absorbs. -/
theorem absL_ok {F : Bool → Bool → Bool} {s : Bdd} (hs : Inv s) {f g : Nat} {b d : Bool} {k : Nat}
    (hn : s.arena.nodes[f]? = some (.term (T3.ofBool b)))
    (hF : ∀ c, F b c = d) :
    eng.Ok s k (Op2 (lift2 F) s.arena s.arena f g) (some ((T3.ofBool d).slot, s)) := by
  refine const_ok hs (T3.ofBool d) ?_
  intro a ha x y hx hy b' c hb hc
  rw [(eval_term_iff hn).1 hx] at hb
  rw [← T3.ofBool_inj hb, hF]

theorem absR_ok {F : Bool → Bool → Bool} {s : Bdd} (hs : Inv s) {f g : Nat} {b d : Bool} {k : Nat}
    (hn : s.arena.nodes[g]? = some (.term (T3.ofBool b)))
    (hF : ∀ c, F c b = d) :
    eng.Ok s k (Op2 (lift2 F) s.arena s.arena f g) (some ((T3.ofBool d).slot, s)) := by
  refine const_ok hs (T3.ofBool d) ?_
  intro a ha x y hx hy b' c hb hc
  rw [(eval_term_iff hn).1 hy] at hc
  rw [← T3.ofBool_inj hc, hF]

theorem ofBool_ne_undet (b : Bool) : T3.undet ≠ T3.ofBool b := by cases b <;> decide

/-- An undetermined operand: nothing is promised. -/
theorem undL_ok {F : Bool → Bool → Bool} {s : Bdd} (hs : Inv s) {f g : Nat} {k : Nat}
    (hn : s.arena.nodes[f]? = some (.term .undet)) :
    eng.Ok s k (Op2 (lift2 F) s.arena s.arena f g) (some (undet, s)) := by
  refine const_ok hs .undet ?_
  intro a ha x y hx hy b' c hb hc
  rw [(eval_term_iff hn).1 hx] at hb
  exact absurd hb (ofBool_ne_undet _)

theorem undR_ok {F : Bool → Bool → Bool} {s : Bdd} (hs : Inv s) {f g : Nat} {k : Nat}
    (hn : s.arena.nodes[g]? = some (.term .undet)) :
    eng.Ok s k (Op2 (lift2 F) s.arena s.arena f g) (some (undet, s)) := by
  refine const_ok hs .undet ?_
  intro a ha x y hx hy b' c hb hc
  rw [(eval_term_iff hn).1 hy] at hc
  exact absurd hc (ofBool_ne_undet _)

theorem same_ok {F : Bool → Bool → Bool} {s : Bdd} (hs : Inv s) {f : Nat}
    (lf : s.arena.Live f) (hF : ∀ c, F c c = c) :
    eng.Ok s (max (s.arena.rank f) (s.arena.rank f)) (Op2 (lift2 F) s.arena s.arena f f)
      (some (f, s)) := by
  refine Eng.Ok.ret hs lf rank_le_max_left ?_
  intro a ha z hz x y hx hy b c hb hc
  have := Eval.det hx hy
  subst this
  have hbc : b = c := T3.ofBool_inj (hb.symm.trans hc)
  rw [← hbc, hF, ← hb]
  exact Eval.det hz hx

theorem andF_ok : ∀ n, View.Rec2 vw vw (lift2 (· && ·)) (andF n) n := by
  intro n
  induction n with
  | zero => intro s f g _ _ _ h; omega
  | succ n ih =>
    intro s f0 g0 hs lf lg hr
    have hr' : Max.max (s.arena.rank f0) (s.arena.rank g0) < n + 1 := hr
    unfold andF
    by_cases hfg : f0 = g0
    · simp only [hfg, if_true]
      exact same_ok hs lg (by simp)
    simp only [hfg, if_false]
    refine bin_frame Bool.and_comm (fun _ _ _ _ _ => codeReq_and _ _) hs lf lg ?_
    rintro f g lf lg hrk rfl rfl
    obtain ⟨nf, hf⟩ := lf.node
    obtain ⟨ng, hg⟩ := lg.node
    simp only [node?, hf, hg]
    have hN : Max.max (s.arena.rank (min f0 g0)) (s.arena.rank (max f0 g0)) ≤ n := by omega
    cases nf with
    | nt hf' cf =>
      cases ng with
      | nt hg' cg => exact View.arms2_ok vw vw ih hs lf lg hf hg (Or.inl rfl) hN
      | term t =>
        cases t with
        | zero => exact absR_ok (b := false) (d := false) hs hg (by simp)
        | one => exact retL_ok (b := true) hs lf hg (by simp)
        | undet => exact undR_ok hs hg
    | term t =>
      cases t with
      | one => exact retR_ok (b := true) hs lg hf (by simp)
      | zero =>
        cases ng with
        | nt _ _ => exact absL_ok (b := false) (d := false) hs hf (by simp)
        | term u =>
          cases u with
          | one => exact retL_ok (b := true) hs lf hg (by simp)
          | zero => exact absL_ok (b := false) (d := false) hs hf (by simp)
          | undet => exact absL_ok (b := false) (d := false) hs hf (by simp)
      | undet =>
        cases ng with
        | nt _ _ => exact undL_ok hs hf
        | term u =>
          cases u with
          | one => exact retL_ok (b := true) hs lf hg (by simp)
          | zero => exact absR_ok (b := false) (d := false) hs hg (by simp)
          | undet => exact undL_ok hs hf

theorem and_ok {s : Bdd} (hs : Inv s) {f g : Nat} (lf : s.arena.Live f) (lg : s.arena.Live g) :
    eng.Ok s (max (s.arena.rank f) (s.arena.rank g))
      (Op2 (lift2 (· && ·)) s.arena s.arena f g) (s.and f g) :=
  andF_ok _ s f g hs lf lg (Nat.lt_succ_self _)

theorem orF_ok : ∀ n, View.Rec2 vw vw (lift2 (· || ·)) (orF n) n := by
  intro n
  induction n with
  | zero => intro s f g _ _ _ h; omega
  | succ n ih =>
    intro s f0 g0 hs lf lg hr
    have hr' : Max.max (s.arena.rank f0) (s.arena.rank g0) < n + 1 := hr
    unfold orF
    by_cases hfg : f0 = g0
    · simp only [hfg, if_true]
      exact same_ok hs lg (by simp)
    simp only [hfg, if_false]
    refine bin_frame Bool.or_comm (fun _ _ _ _ _ => codeReq_or _ _) hs lf lg ?_
    rintro f g lf lg hrk rfl rfl
    obtain ⟨nf, hf⟩ := lf.node
    obtain ⟨ng, hg⟩ := lg.node
    simp only [node?, hf, hg]
    have hN : Max.max (s.arena.rank (min f0 g0)) (s.arena.rank (max f0 g0)) ≤ n := by omega
    cases nf with
    | nt hf' cf =>
      cases ng with
      | nt hg' cg => exact View.arms2_ok vw vw ih hs lf lg hf hg (Or.inl rfl) hN
      | term t =>
        cases t with
        | zero => exact retL_ok (b := false) hs lf hg (by simp)
        | one => exact absR_ok (b := true) (d := true) hs hg (by simp)
        | undet => exact undR_ok hs hg
    | term t =>
      cases t with
      | zero => exact retR_ok (b := false) hs lg hf (by simp)
      | one =>
        cases ng with
        | nt _ _ => exact absL_ok (b := true) (d := true) hs hf (by simp)
        | term u =>
          cases u with
          | zero => exact retL_ok (b := false) hs lf hg (by simp)
          | one => exact absL_ok (b := true) (d := true) hs hf (by simp)
          | undet => exact absL_ok (b := true) (d := true) hs hf (by simp)
      | undet =>
        cases ng with
        | nt _ _ => exact undL_ok hs hf
        | term u =>
          cases u with
          | zero => exact retL_ok (b := false) hs lf hg (by simp)
          | one => exact absR_ok (b := true) (d := true) hs hg (by simp)
          | undet => exact undL_ok hs hf

theorem or_ok {s : Bdd} (hs : Inv s) {f g : Nat} (lf : s.arena.Live f) (lg : s.arena.Live g) :
    eng.Ok s (max (s.arena.rank f) (s.arena.rank g))
      (Op2 (lift2 (· || ·)) s.arena s.arena f g) (s.or f g) :=
  orF_ok _ s f g hs lf lg (Nat.lt_succ_self _)

theorem xorF_ok : ∀ n, View.Rec2 vw vw (lift2 (· ^^ ·)) (xorF n) n := by
  intro n
  induction n with
  | zero => intro s f g _ _ _ h; omega
  | succ n ih =>
    intro s f0 g0 hs lf lg hr
    have hr' : Max.max (s.arena.rank f0) (s.arena.rank g0) < n + 1 := hr
    have notR : ∀ {f g : Nat}, s.arena.Live g → s.arena.nodes[f]? = some (.term .one) →
        eng.Ok s (max (s.arena.rank f) (s.arena.rank g))
          (Op2 (lift2 (· ^^ ·)) s.arena s.arena f g) (s.not g) := by
      intro f g lg hn
      refine (not_ok hs lg).mono (Nat.le_max_right _ _) ?_
      intro a _ z hz x y hx hy b c hb hc
      rw [(eval_term_iff hn).1 hx] at hb
      have : b = true := (T3.ofBool_inj (a := true) hb).symm
      rw [this]
      show z = T3.ofBool (true ^^ c)
      rw [Bool.true_xor]
      exact hz y hy c hc
    have notL : ∀ {f g : Nat}, s.arena.Live f → s.arena.nodes[g]? = some (.term .one) →
        eng.Ok s (max (s.arena.rank f) (s.arena.rank g))
          (Op2 (lift2 (· ^^ ·)) s.arena s.arena f g) (s.not f) := by
      intro f g lf hn
      refine (not_ok hs lf).mono (Nat.le_max_left _ _) ?_
      intro a _ z hz x y hx hy b c hb hc
      rw [(eval_term_iff hn).1 hy] at hc
      have : c = true := (T3.ofBool_inj (a := true) hc).symm
      rw [this]
      show z = T3.ofBool (b ^^ true)
      rw [Bool.xor_true]
      exact hz x hx b hb
    unfold xorF
    by_cases hfg : f0 = g0
    · simp only [hfg, if_true]
      subst hfg
      split
      · rename_i hu
        refine const_ok hs .undet ?_
        intro a ha x y hx hy b c hb hc
        rw [hu] at hx
        rw [(eval_term_iff (fixed hs .undet).2).1 hx] at hb
        exact absurd hb (ofBool_ne_undet _)
      · refine const_ok hs .zero ?_
        intro a ha x y hx hy b c hb hc
        have := Eval.det hx hy
        subst this
        have hbc : b = c := T3.ofBool_inj (hb.symm.trans hc)
        rw [hbc]
        show T3.zero = T3.ofBool (c ^^ c)
        rw [Bool.xor_self]
        rfl
    simp only [hfg, if_false]
    refine bin_frame Bool.xor_comm (fun _ _ _ _ _ => codeReq_xor _ _) hs lf lg ?_
    rintro f g lf lg hrk rfl rfl
    obtain ⟨nf, hf⟩ := lf.node
    obtain ⟨ng, hg⟩ := lg.node
    simp only [node?, hf, hg]
    have hN : Max.max (s.arena.rank (min f0 g0)) (s.arena.rank (max f0 g0)) ≤ n := by omega
    cases nf with
    | nt hf' cf =>
      cases ng with
      | nt hg' cg => exact View.arms2_ok vw vw ih hs lf lg hf hg (Or.inl rfl) hN
      | term t =>
        cases t with
        | zero => exact retL_ok (b := false) hs lf hg (by simp)
        | one => exact notL lf hg
        | undet => exact undR_ok hs hg
    | term t =>
      cases t with
      | zero => exact retR_ok (b := false) hs lg hf (by simp)
      | one =>
        cases ng with
        | nt _ _ => exact notR lg hf
        | term u =>
          cases u with
          | zero => exact retL_ok (b := false) hs lf hg (by simp)
          | one => exact notR lg hf
          | undet => exact notR lg hf
      | undet =>
        cases ng with
        | nt _ _ => exact undL_ok hs hf
        | term u =>
          cases u with
          | zero => exact retL_ok (b := false) hs lf hg (by simp)
          | one => exact notL lf hg
          | undet => exact undL_ok hs hf

theorem xor_ok {s : Bdd} (hs : Inv s) {f g : Nat} (lf : s.arena.Live f) (lg : s.arena.Live g) :
    eng.Ok s (max (s.arena.rank f) (s.arena.rank g))
      (Op2 (lift2 (· ^^ ·)) s.arena s.arena f g) (s.xor f g) :=
  xorF_ok _ s f g hs lf lg (Nat.lt_succ_self _)

/-! ## Derived connectives -/

theorem then_not {s : Bdd} (hs : Inv s) {f g : Nat} {k : Nat}
    {F G : Bool → Bool → Bool} (hG : ∀ a b, G a b = !F a b) {res : Option (Nat × Bdd)}
    (h : eng.Ok s k (Op2 (lift2 F) s.arena s.arena f g) res) :
    ∃ r s1, res = some (r, s1) ∧ eng.Ok s k (Op2 (lift2 G) s.arena s.arena f g) (s1.not r) := by
  obtain ⟨r, s1, rfl, h2, h3, h4, h5, h6⟩ := h
  refine ⟨r, s1, rfl, View.ok_st h3 ((not_ok h2 h4).mono h5 ?_)⟩
  intro a ha z hz x y hx hy b c hb hc
  obtain ⟨t, ht⟩ := h2.wf.eval_total ha h4
  have := h6 a ha t ht x y hx hy b c hb hc
  rw [hG]
  exact hz t ht _ this

theorem nand_ok {s : Bdd} (hs : Inv s) {f g : Nat} (lf : s.arena.Live f) (lg : s.arena.Live g) :
    eng.Ok s (max (s.arena.rank f) (s.arena.rank g))
      (Op2 (lift2 (fun a b => !(a && b))) s.arena s.arena f g) (s.nand f g) := by
  obtain ⟨r, s1, h1, h2⟩ := then_not (G := _) hs (fun _ _ => rfl) (and_ok hs lf lg)
  unfold nand
  simp only [h1]
  exact h2

theorem nor_ok {s : Bdd} (hs : Inv s) {f g : Nat} (lf : s.arena.Live f) (lg : s.arena.Live g) :
    eng.Ok s (max (s.arena.rank f) (s.arena.rank g))
      (Op2 (lift2 (fun a b => !(a || b))) s.arena s.arena f g) (s.nor f g) := by
  obtain ⟨r, s1, h1, h2⟩ := then_not (G := _) hs (fun _ _ => rfl) (or_ok hs lf lg)
  unfold nor
  simp only [h1]
  exact h2

theorem xnor_ok {s : Bdd} (hs : Inv s) {f g : Nat} (lf : s.arena.Live f) (lg : s.arena.Live g) :
    eng.Ok s (max (s.arena.rank f) (s.arena.rank g))
      (Op2 (lift2 (fun a b => !(a ^^ b))) s.arena s.arena f g) (s.xnor f g) := by
  obtain ⟨r, s1, h1, h2⟩ := then_not (G := _) hs (fun _ _ => rfl) (xor_ok hs lf lg)
  unfold xnor
  simp only [h1]
  exact h2

theorem imp_ok {s : Bdd} (hs : Inv s) {f g : Nat} (lf : s.arena.Live f) (lg : s.arena.Live g) :
    eng.Ok s (max (s.arena.rank f) (s.arena.rank g))
      (Op2 (lift2 (fun a b => !a || b)) s.arena s.arena f g) (s.imp f g) := by
  unfold imp
  obtain ⟨r, s1, h1, h2, h3, h4, h5, h6⟩ := not_ok hs lf
  have h3' : Step s.arena s1.arena := h3
  have h4' : s1.arena.Live r := h4
  have h5' : s1.arena.rank r ≤ s.arena.rank f := h5
  have lg1 := (h3'.keep _ lg).1
  have rg1 := hs.wf.rank_ext h3'.toExt lg
  simp only [h1]
  refine View.ok_st h3 ((or_ok h2 h4 lg1).mono (by omega) ?_)
  intro a ha z hz x y hx hy b c hb hc
  obtain ⟨t, ht⟩ := h2.wf.eval_total ha h4
  exact hz t y ht ((hs.wf.eval_ext h3'.toExt lg).2 hy) _ _ (h6 a ha t ht x hx b hb) hc

/-! ## if-then-else -/

theorem iteF_ok : ∀ n, View.Rec3 vw vw vw liftIte (iteF n) n := by
  intro n
  induction n with
  | zero => intro s f g h _ _ _ _ h; omega
  | succ n ih =>
    intro s f g h hs lf lg lh hr
    have lf' : s.arena.Live f := lf
    have lg' : s.arena.Live g := lg
    have lh' : s.arena.Live h := lh
    have hr' : Max.max (s.arena.rank f) (Max.max (s.arena.rank g) (s.arena.rank h)) < n + 1 := hr
    show eng.Ok s (max (s.arena.rank f) (max (s.arena.rank g) (s.arena.rank h)))
      (Op3 liftIte s.arena s.arena s.arena f g h) _
    unfold iteF
    obtain ⟨nf, hf⟩ := lf'.node
    simp only [node?, hf]
    cases nf with
    | term t =>
      cases t with
      | one =>
        refine Eng.Ok.ret hs lg' (show s.arena.rank g ≤ _ by omega) ?_
        intro a ha z hz x y w hx hy hw
        rw [(eval_term_iff hf).1 hx]
        exact ⟨fun _ => Eval.det hz hy, fun h => (by cases h)⟩
      | zero =>
        refine Eng.Ok.ret hs lh' (show s.arena.rank h ≤ _ by omega) ?_
        intro a ha z hz x y w hx hy hw
        rw [(eval_term_iff hf).1 hx]
        exact ⟨fun h => (by cases h), fun _ => Eval.det hz hw⟩
      | undet =>
        refine const_ok hs .undet ?_
        intro a ha x y w hx hy hw
        rw [(eval_term_iff hf).1 hx]
        exact ⟨fun h => (by cases h), fun h => (by cases h)⟩
    | nt hf' cf =>
      by_cases hgh : g = h
      · simp only [hgh, if_true]
        refine Eng.Ok.ret hs lh' (show s.arena.rank h ≤ _ by omega) ?_
        intro a ha z hz x y w hx hy hw
        exact ⟨fun _ => Eval.det hz hy, fun _ => Eval.det hz hw⟩
      · simp only [hgh, if_false]
        apply Eng.memo_ok hs
        · intro x hx
          have := hs.ite.good _ _ _ _ hx
          exact ⟨this.lr, this.rk, this.snd⟩
        · obtain ⟨hd, hh, hl, hrk, hlv, _, _⟩ := hs.wf.nt lf' hf
          simp only [hlv]
          obtain ⟨t1, t2, t3⟩ := topLevel_ge s.arena [g, h] hd.level
          generalize s.arena.topLevel hd.level [g, h] = top at *
          have hex : ∃ x ∈ [f, g, h], s.arena.level? x = some top := by
            rcases t3 with t3 | ⟨x, hx, t3⟩
            · exact ⟨f, List.mem_cons_self, by rw [hlv, t3]⟩
            · exact ⟨x, List.mem_cons_of_mem _ hx, t3⟩
          obtain ⟨hx, hdx, e1, e2, e3⟩ := hs.wf.topHeader_spec (by simp [lf', lg', lh']) hex
          simp only [e1]
          refine View.arm3_ok vw vw vw ih hs lf lg lh e2 e3 ?_ (t2 g (by simp)) (t2 h (by simp))
            ?_ (Nat.le_of_lt_succ hr)
          · show s.arena.rank f ≤ _
            omega
          · obtain ⟨x, hx, hlx⟩ := hex
            have := rank_eq_of_level hlx
            simp at hx
            rcases hx with rfl | rfl | rfl
            · exact Or.inl this
            · exact Or.inr (Or.inl this)
            · exact Or.inr (Or.inr this)
        · intro s' r i' st lr rr sr
          have st' : Step s.arena s'.arena := st
          refine ⟨iteCachePut_inv i' ?_, rfl, Step.refl _⟩
          refine ⟨(st'.keep _ lf').1, (st'.keep _ lg').1, (st'.keep _ lh').1, lr, ?_, ?_⟩
          · rw [hs.wf.rank_ext st'.toExt lf', hs.wf.rank_ext st'.toExt lg',
              hs.wf.rank_ext st'.toExt lh']; exact rr
          · intro a ha z hz
            have := sr a ha z hz
            unfold Op3 at this ⊢
            simpa only [hs.wf.eval_ext st'.toExt lf', hs.wf.eval_ext st'.toExt lg',
              hs.wf.eval_ext st'.toExt lh'] using this

theorem ite_ok {s : Bdd} (hs : Inv s) {f g h : Nat} (lf : s.arena.Live f) (lg : s.arena.Live g)
    (lh : s.arena.Live h) :
    eng.Ok s (max (s.arena.rank f) (max (s.arena.rank g) (s.arena.rank h)))
      (Op3 liftIte s.arena s.arena s.arena f g h) (s.ite f g h) :=
  iteF_ok _ s f g h hs lf lg lh (Nat.lt_succ_self _)

/-! ## Construction, headers, collection -/

theorem inv_new : Inv Bdd.new where
  wf := by
    refine
      { free_lt := by simp [Bdd.new]
        free_nodup := by simp [Bdd.new]
        ut_nodup := AMap.nodup_empty
        ut_fixed := by intro t i _; rfl
        find_iff := ?_
        hdr := ?_
        kid := ?_
        red := ?_
        arity := by simp [Bdd.new]
        pos := by simp [Bdd.new] }
    · intro k i
      cases k with
      | nt h ch =>
        simp only [find, Bdd.new, AMap.get_empty, Live]
        constructor
        · intro h; cases h
        · rintro ⟨⟨h1, _⟩, h2⟩
          match i, h1 with
          | 0, _ => simp at h2
          | 1, _ => simp at h2
          | 2, _ => simp at h2
      | term t =>
        simp only [find, Bdd.new, Live, fix, Option.some_or]
        constructor
        · intro h
          cases h
          cases t <;> simp [T3.slot]
        · rintro ⟨⟨h1, _⟩, h2⟩
          match i, h1 with
          | 0, _ => simp at h2; subst h2; rfl
          | 1, _ => simp at h2; subst h2; rfl
          | 2, _ => simp at h2; subst h2; rfl
    all_goals
      rintro i h ch ⟨h1, _⟩ h2
      match i, h1 with
      | 0, _ => simp [Bdd.new] at h2
      | 1, _ => simp [Bdd.new] at h2
      | 2, _ => simp [Bdd.new] at h2
  two := by simp [Bdd.new]
  cache := CacheOK.new _ _
  ite := CacheOK.new _ _

theorem createHeader_inv {s : Bdd} (hs : Inv s) (l : Nat) (lab : String) :
    Inv (s.createHeader l lab).2 ∧ Ext s.arena (s.createHeader l lab).2.arena ∧
      (s.createHeader l lab).2.arena.headers[(s.createHeader l lab).1]? = some ⟨l, lab, 2⟩ ∧
      (s.createHeader l lab).2.arena.headers = s.arena.headers ++ [⟨l, lab, 2⟩] ∧
      (s.createHeader l lab).2.arena.nodes = s.arena.nodes ∧
      (∀ i, (s.createHeader l lab).2.arena.Live i ↔ s.arena.Live i) := by
  obtain ⟨h1, h2, h3, h4, h5⟩ := createHeader_spec hs.wf l lab 2 (by omega)
    (fun hd hm _ => hs.two hd hm)
  have hh : (s.createHeader l lab).2.arena.headers = s.arena.headers ++ [⟨l, lab, 2⟩] := rfl
  refine ⟨hs.ext h1 ?_ h2, h2, h3, hh, h5, h4⟩
  intro hd hm
  simp only [createHeader, List.mem_append, List.mem_singleton] at hm
  rcases hm with hm | rfl
  · exact hs.two hd hm
  · rfl

theorem clearCache_inv {s : Bdd} (hs : Inv s) : Inv s.clearCache where
  wf := hs.wf
  two := hs.two
  cache := hs.cache.clear
  ite := hs.ite.clear

theorem mkn_eq (s : Bdd) (h low high : Nat) : s.mkn h [low, high] = s.createNode h low high := rfl

/-- `create_node` on legal arguments. -/
theorem createNode_ok {s : Bdd} (hs : Inv s) {h low high : Nat} {hd : Header}
    (hh : s.arena.headers[h]? = some hd) (hl : s.arena.Live low) (hr : s.arena.rank low ≤ hd.level)
    (hl' : s.arena.Live high) (hr' : s.arena.rank high ≤ hd.level) :
    ∃ r s', s.createNode h low high = some (r, s') ∧ Inv s' ∧ Step s.arena s'.arena ∧
      s'.arena.Live r ∧ s'.arena.rank r ≤ hd.level + 1 ∧
      ∀ a z, s'.arena.ValidA a →
        (Eval s'.arena a r z ↔ Eval s'.arena a (if a hd.level = 0 then low else high) z) := by
  have hk : ∀ c ∈ [low, high], s.arena.Live c ∧ s.arena.rank c ≤ hd.level := by
    simp [hl, hr, hl', hr']
  have h2 := hs.two hd (List.mem_of_getElem? hh)
  obtain ⟨r, m', h1, h2, h3, h4, h5, h6⟩ := createFull_spec hs.wf hh
    (ch := [low, high]) (by simp [h2]) hk
  refine ⟨r, { s with arena := m' }, by rw [createNode_eq, h1]; rfl,
    hs.ext h2 (by rw [h3.heq]; exact hs.two) h3.toExt, h3, h4, h5, ?_⟩
  intro a z ha
  have hlt : a hd.level < 2 := by
    have := ha hd (List.mem_of_getElem? (h3.hdr _ _ hh))
    omega
  simp only
  rw [h6 a z ha]
  have hcase : a hd.level = 0 ∨ a hd.level = 1 := by omega
  rcases hcase with h | h <;> simp [h]

/-- Collection keeps the invariant; survivors are what is reachable. -/
theorem gc_ok {s : Bdd} (hs : Inv s) {roots : List Nat}
    (hr : ∀ r ∈ roots, r < s.arena.nodes.length → s.arena.Live r) :
    ∃ n s', s.gc roots = some (n, s') ∧ Inv s' ∧ s'.arena.headers = s.arena.headers ∧
      s'.arena.nodes = s.arena.nodes ∧ (∀ i, s'.arena.Live i ↔ s.arena.Survives roots i) ∧
      Step s'.arena s.arena ∧ n = s'.arena.free.length ∧
      (∀ op f g r, s'.cache.get op f g = some r ↔ s.cache.get op f g = some r ∧
        s'.arena.Live f ∧ s'.arena.Live g ∧ s'.arena.Live r) ∧
      (∀ f g h r, s'.iteCache.get f g h = some r ↔ s.iteCache.get f g h = some r ∧
        s'.arena.Live f ∧ s'.arena.Live g ∧ s'.arena.Live h ∧ s'.arena.Live r) := by
  obtain ⟨l, m', h1, h2, h3, h4, h5, h6, h7, h8⟩ := gcA_spec hs.wf hr
  have hl : ∀ i, l[i]? = some true ↔ m'.Live i := fun i => (h6 i).trans (h7 i).symm
  have hrank : ∀ i, m'.rank i = s.arena.rank i := by
    intro i; simp [rank, level?, h3, h4]
  obtain ⟨c, hc1, hc2⟩ := (hs.cache.mono (N' := m'.nodes.length) (Nat.le_of_eq (by rw [h4])) fun _ _ _ _ g => g).retainBy (Good' := Good m')
    (ids := fun s => [s.k1, s.k2, s.val]) (live := l)
    (by
      intro k0 k1 k2 v g i hi
      rw [h5]
      simp at hi
      rcases hi with rfl | rfl | rfl
      · exact g.lf.1
      · exact g.lg.1
      · exact g.lr.1)
    (by
      intro k0 k1 k2 v g hi
      have a1 := (hl k1).1 (hi k1 (by simp))
      have a2 := (hl k2).1 (hi k2 (by simp))
      have a3 := (hl v).1 (hi v (by simp))
      refine ⟨a1, a2, a3, by rw [hrank, hrank, hrank]; exact g.rk, ?_⟩
      intro a ha z hz
      have := g.snd a ((ValidA.step h8).2 ha) z ((h2.eval_ext h8.toExt a3).2 hz)
      exact (CodeReq.iff_of_eval (fun t => h2.eval_ext h8.toExt a1)
        (fun t => h2.eval_ext h8.toExt a2)).1 this)
  obtain ⟨ic, hi1, hi2⟩ := (hs.ite.mono (N' := m'.nodes.length) (Nat.le_of_eq (by rw [h4])) fun _ _ _ _ g => g).retainBy (Good' := IteGood m')
    (ids := fun s => [s.k0, s.k1, s.k2, s.val]) (live := l)
    (by
      intro k0 k1 k2 v g i hi
      rw [h5]
      simp at hi
      rcases hi with rfl | rfl | rfl | rfl
      · exact g.lf.1
      · exact g.lg.1
      · exact g.lh.1
      · exact g.lr.1)
    (by
      intro k0 k1 k2 v g hi
      have a0 := (hl k0).1 (hi k0 (by simp))
      have a1 := (hl k1).1 (hi k1 (by simp))
      have a2 := (hl k2).1 (hi k2 (by simp))
      have a3 := (hl v).1 (hi v (by simp))
      refine ⟨a0, a1, a2, a3, by rw [hrank, hrank, hrank, hrank]; exact g.rk, ?_⟩
      intro a ha z hz
      have := g.snd a ((ValidA.step h8).2 ha) z ((h2.eval_ext h8.toExt a3).2 hz)
      unfold Op3 at this ⊢
      simpa only [h2.eval_ext h8.toExt a0, h2.eval_ext h8.toExt a1,
        h2.eval_ext h8.toExt a2] using this)
  refine ⟨m'.free.length, ⟨m', c, ic⟩, ?_, ⟨h2, by rw [h3]; exact hs.two, hc2, hi2⟩, h3, h4, h7,
    h8, rfl, ?_, ?_⟩
  · unfold gc
    simp only [h1]
    rw [show s.cache.retainLive l = some c from hc1, show s.iteCache.retainLive3 l = some ic from hi1]
  · intro op f g r
    rw [get_retainBy hc1]
    simp [hl]
  · intro f g h r
    rw [get_retainBy hi1]
    simp [hl]

end Bdd
end DD
