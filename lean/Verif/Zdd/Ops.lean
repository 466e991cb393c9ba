import Verif.Zdd.Model
import Verif.Zdd.TopAlone

/-!
# ZDD operations: invariant and meaning
-/

set_option autoImplicit false
set_option linter.unusedSectionVars false
set_option linter.unusedVariables false

namespace DD
open Arena

namespace Zdd

/-- The family of a node: assignments (level ↦ 0/1) leading to `One`. -/
def Fam (m : Arena T3) (i : Nat) (a : Nat → Nat) : Prop := Lab m i a .one

/-- No assignment leads to `Undet`. -/
def Cl (m : Arena T3) (i : Nat) : Prop := ∀ a, ¬ Lab m i a .undet

/-- Pointwise maximum (union of sets). -/
def sup (a b : Nat → Nat) : Nat → Nat := fun l => max (a l) (b l)

/-- No member of one family is a proper subset of a member of the other. -/
def XAnti (F G : (Nat → Nat) → Prop) : Prop :=
  ∀ a b, F a → G b → ((∀ l, a l ≤ b l) ∨ ∀ l, b l ≤ a l) → a = b

/-- Requirement on the result of a pointwise operation. -/
def PReq (c : Prop → Prop → Prop) (m : Arena T3) (f g r : Nat) : Prop :=
  Cl m f → Cl m g → Cl m r ∧ ∀ a, Fam m r a ↔ c (Fam m f a) (Fam m g a)

/-- Requirement on the result of `product`. -/
def XReq (m : Arena T3) (f g r : Nat) : Prop :=
  Cl m f → Cl m g → Cl m r ∧ ∀ a, Fam m r a ↔ ∃ b d, Fam m f b ∧ Fam m g d ∧ a = sup b d

/-- What `intersect` computes on families. -/
def IPart (m : Arena T3) (f g r : Nat) : Prop :=
  Cl m f → Cl m g → Cl m r ∧ ∀ a, Fam m r a ↔ Inter (Fam m f) (Fam m g) a

/-- What `intersect` guarantees. -/
def IReq (m : Arena T3) (f g r : Nat) : Prop :=
  (f = undet → r = g) ∧ (g = undet → r = f) ∧ (f = g → r = f) ∧ IPart m f g r

/-- The family that `divide` computes. -/
def DVal (m : Arena T3) (f g r : Nat) : Prop :=
  Cl m f → Cl m g → ∀ n, m.rank f ≤ n → m.rank g ≤ n →
    IsQuo (Fam m r) (Cl m r) (r = undet) (quo n (Fam m f) (Fam m g))

/-- What `divide` guarantees. -/
def DReq (m : Arena T3) (f g r : Nat) : Prop :=
  (g = one → r = f) ∧ (g = zero → r = undet) ∧
  (∀ hf hg f0 f1, m.nodes[f]? = some (.nt hf [f0, f1]) → m.nodes[g]? = some (.nt hg [zero, one]) →
    m.level? f = m.level? g → r = f1) ∧
  (f = g → Cl m f → r = if f = zero then undet else one) ∧ DVal m f g r

/-- Union of truth values. -/
def cUnion (p q : Prop) : Prop := p ∨ q
/-- Difference of truth values. -/
def cDiff (p q : Prop) : Prop := p ∧ ¬ q

/-- What a cache entry `(op, f, g) ↦ r` promises. -/
def CodeReq (m : Arena T3) (op f g r : Nat) : Prop :=
  (op = opIntersect → IReq m f g r) ∧
  (op = opUnion → PReq cUnion m f g r) ∧
  (op = opSetdiff → PReq cDiff m f g r) ∧
  (op = opProduct → XReq m f g r) ∧
  (op = opDivision → DReq m f g r)

/-- Admissible cache entry. -/
structure Good (m : Arena T3) (op f g r : Nat) : Prop where
  lf : m.Live f
  lg : m.Live g
  lr : m.Live r
  rk : m.rank r ≤ max (m.rank f) (m.rank g)
  snd : CodeReq m op f g r

/-- State invariant. -/
structure Inv (s : Zdd) : Prop where
  wf : WF RZ s.arena
  two : ∀ hd ∈ s.arena.headers, hd.edgeNum = 2
  cache : HCache.OK (Good s.arena) s.cache

theorem level_keep {T : Type} [DecidableEq T] [Fixed T] {R : List Nat → Prop} {m m' : Arena T}
    (wf : WF R m) (e : Ext m m') {i : Nat} (hi : m.Live i) : m'.level? i = m.level? i :=
  wf.level_ext e hi

theorem codeReq_ext {m m' : Arena T3} (wf : WF RZ m) (e : Ext m m') {op f g r : Nat}
    (lf : m.Live f) (lg : m.Live g) (lr : m.Live r) : CodeReq m' op f g r ↔ CodeReq m op f g r := by
  have h1 : Fam m' f = Fam m f := funext fun a => propext (wf.lab_ext e lf)
  have h2 : Fam m' g = Fam m g := funext fun a => propext (wf.lab_ext e lg)
  have h3 : Fam m' r = Fam m r := funext fun a => propext (wf.lab_ext e lr)
  unfold CodeReq IReq IPart PReq XReq DReq DVal
  rw [h1, h2, h3]
  unfold Cl
  simp only [wf.lab_ext e lf, wf.lab_ext e lg, wf.lab_ext e lr, (e.keep _ lf).2, (e.keep _ lg).2,
    wf.level_ext e lf, wf.level_ext e lg, wf.rank_ext e lf, wf.rank_ext e lg]

theorem Good.ext {m m' : Arena T3} (wf : WF RZ m) (e : Ext m m') {op f g r : Nat}
    (h : Good m op f g r) : Good m' op f g r where
  lf := (e.keep _ h.lf).1
  lg := (e.keep _ h.lg).1
  lr := (e.keep _ h.lr).1
  rk := by rw [wf.rank_ext e h.lf, wf.rank_ext e h.lg, wf.rank_ext e h.lr]; exact h.rk
  snd := (codeReq_ext wf e h.lf h.lg h.lr).2 h.snd

/-- Replace the arena by an extension. -/
theorem Inv.ext {s : Zdd} (h : Inv s) {m : Arena T3} (wf : WF RZ m)
    (two : ∀ hd ∈ m.headers, hd.edgeNum = 2) (e : Ext s.arena m) :
    Inv { s with arena := m } where
  wf := wf
  two := two
  cache := h.cache.mono (fun _ _ _ _ g => g.ext h.wf e)

theorem createNode_eq (s : Zdd) (h low high : Nat) :
    s.createNode h low high =
      (s.arena.createZ h [low, high]).map (fun p => (p.1, { s with arena := p.2 })) := by
  unfold createNode createZ
  by_cases hz : high = zero
  · have : high = 0 := hz
    simp [this, zero]
  · have : high ≠ 0 := hz
    simp only [zero, this, if_false, List.all_cons, decide_false, List.all_nil, Bool.false_and,
      Bool.false_eq_true]
    cases s.arena.mkNode (.nt h [low, high]) <;> rfl

/-- `i` reads like `lo` without, and like `hi` with, the element `l`. -/
def Split (m : Arena T3) (l i lo hi : Nat) : Prop :=
  ∀ a z, z ≠ .zero →
    (Lab m i a z ↔ (a l = 0 ∧ Lab m lo a z) ∨ (a l = 1 ∧ Lab m hi (upd a l 0) z))

theorem fixed {s : Zdd} (hs : Inv s) (t : T3) :
    s.arena.Live t.slot ∧ s.arena.nodes[t.slot]? = some (.term t) :=
  hs.wf.fixed_live (t := t) rfl

theorem split_of {m : Arena T3} {l i lo hi : Nat}
    (h : ∀ a z, z ≠ .zero → (Lab m i a z ↔ ∃ c, [lo, hi][a l]? = some c ∧ Lab m c (upd a l 0) z)) :
    Split m l i lo hi := by
  intro a z hz
  rw [h a z hz]
  constructor
  · rintro ⟨c, hc, he⟩
    match ha : a l with
    | 0 =>
      rw [ha] at hc
      simp at hc
      subst hc
      rw [upd_id ha] at he
      exact Or.inl ⟨rfl, he⟩
    | 1 =>
      rw [ha] at hc
      simp at hc
      subst hc
      exact Or.inr ⟨rfl, he⟩
    | n + 2 =>
      rw [ha] at hc
      simp at hc
  · rintro (⟨ha, he⟩ | ⟨ha, he⟩)
    · exact ⟨lo, by rw [ha]; rfl, by rw [upd_id ha]; exact he⟩
    · exact ⟨hi, by rw [ha]; rfl, he⟩

theorem split_nt {m : Arena T3} (wf : WF RZ m) {i h lo hi : Nat} {hd : Header} (li : m.Live i)
    (hn : m.nodes[i]? = some (.nt h [lo, hi])) (hh : m.headers[h]? = some hd) :
    Split m hd.level i lo hi :=
  split_of (fun a z _ => wf.lab_nt_iff li hn hh)

theorem split_below {m : Arena T3} (wf : WF RZ m) {i l : Nat} (li : m.Live i) (hr : m.rank i ≤ l) :
    Split m l i i zero := by
  intro a z hz
  obtain ⟨_, hn0⟩ := wf.fixed_live (t := T3.zero) rfl
  constructor
  · intro h; exact Or.inl ⟨wf.lab_supp h li l hr, h⟩
  · rintro (⟨_, h⟩ | ⟨_, h⟩)
    · exact h
    · exact absurd ((lab_term_iff hn0).1 h).2 hz

theorem split_ext {m m' : Arena T3} (wf : WF RZ m) (e : Ext m m') {l i lo hi : Nat} (li : m.Live i)
    (l0 : m.Live lo) (l1 : m.Live hi) : Split m' l i lo hi ↔ Split m l i lo hi := by
  unfold Split
  simp only [wf.lab_ext e li, wf.lab_ext e l0, wf.lab_ext e l1]

/-- `create_node` on legal arguments. -/
theorem createNode_ok {s : Zdd} (hs : Inv s) {h low high : Nat} {hd : Header}
    (hh : s.arena.headers[h]? = some hd) (hl : s.arena.Live low) (hr : s.arena.rank low ≤ hd.level)
    (hl' : s.arena.Live high) (hr' : s.arena.rank high ≤ hd.level) :
    ∃ r s', s.createNode h low high = some (r, s') ∧ Inv s' ∧ Step s.arena s'.arena ∧
      s'.arena.Live r ∧ s'.arena.rank r ≤ hd.level + 1 ∧ Split s'.arena hd.level r low high := by
  have hk : ∀ c ∈ [low, high], s.arena.Live c ∧ s.arena.rank c ≤ hd.level := by
    simp [hl, hr, hl', hr']
  have h2 := hs.two hd (List.mem_of_getElem? hh)
  obtain ⟨r, m', h1, h2, h3, h4, h5, h6⟩ := createZ_spec hs.wf (d := T3.zero) rfl hh
    (ch := [low, high]) (by simp [h2]) hk
  exact ⟨r, { s with arena := m' }, by rw [createNode_eq, h1]; rfl,
    hs.ext h2 (by rw [h3.heq]; exact hs.two) h3.toExt, h3, h4, h5, split_of h6⟩

/-- A result for operands `f`, `g`. -/
def Ok2 (Q : Arena T3 → Nat → Nat → Nat → Prop) (s : Zdd) (f g : Nat) (res : Option (Nat × Zdd)) :
    Prop :=
  ∃ r s', res = some (r, s') ∧ Inv s' ∧ Step s.arena s'.arena ∧ s'.arena.Live r ∧
    s'.arena.rank r ≤ max (s.arena.rank f) (s.arena.rank g) ∧ Q s'.arena f g r

/-- A requirement that only depends on the live part. -/
def Stable (Q : Arena T3 → Nat → Nat → Nat → Prop) : Prop :=
  ∀ {m m' : Arena T3} {f g r : Nat}, WF RZ m → Ext m m' → m.Live f → m.Live g → m.Live r →
    (Q m' f g r ↔ Q m f g r)

theorem stable_preq (c : Prop → Prop → Prop) : Stable (PReq c) := by
  intro m m' f g r wf e lf lg lr
  unfold PReq Cl Fam
  simp only [wf.lab_ext e lf, wf.lab_ext e lg, wf.lab_ext e lr]

theorem stable_xreq : Stable XReq := by
  intro m m' f g r wf e lf lg lr
  unfold XReq Cl Fam
  simp only [wf.lab_ext e lf, wf.lab_ext e lg, wf.lab_ext e lr]

theorem stable_ireq : Stable IReq := by
  intro m m' f g r wf e lf lg lr
  have h1 : Fam m' f = Fam m f := funext fun a => propext (wf.lab_ext e lf)
  have h2 : Fam m' g = Fam m g := funext fun a => propext (wf.lab_ext e lg)
  unfold IReq IPart
  rw [h1, h2]
  unfold Cl Fam
  simp only [wf.lab_ext e lf, wf.lab_ext e lg, wf.lab_ext e lr]

theorem stable_dreq : Stable DReq := by
  intro m m' f g r wf e lf lg lr
  have h1 : Fam m' f = Fam m f := funext fun a => propext (wf.lab_ext e lf)
  have h2 : Fam m' g = Fam m g := funext fun a => propext (wf.lab_ext e lg)
  have h3 : Fam m' r = Fam m r := funext fun a => propext (wf.lab_ext e lr)
  unfold DReq DVal
  rw [h1, h2, h3]
  unfold Cl
  simp only [wf.lab_ext e lf, wf.lab_ext e lg, wf.lab_ext e lr, (e.keep _ lf).2, (e.keep _ lg).2,
    wf.level_ext e lf, wf.level_ext e lg, wf.rank_ext e lf, wf.rank_ext e lg]

/-- A node already present as result. -/
theorem Ok2.ret {Q : Arena T3 → Nat → Nat → Nat → Prop} {s : Zdd} (hs : Inv s) {f g r : Nat}
    (lr : s.arena.Live r) (hr : s.arena.rank r ≤ max (s.arena.rank f) (s.arena.rank g))
    (hq : Q s.arena f g r) : Ok2 Q s f g (some (r, s)) :=
  ⟨r, s, rfl, hs, Step.refl _, lr, hr, hq⟩

theorem Ok2.const {Q : Arena T3 → Nat → Nat → Nat → Prop} {s : Zdd} (hs : Inv s) {f g : Nat} (t : T3)
    (hq : Q s.arena f g t.slot) : Ok2 Q s f g (some (t.slot, s)) := by
  obtain ⟨h1, h2⟩ := fixed hs t
  exact .ret hs h1 (by rw [rank_term h2]; omega) hq

/-- Recursive calls meet their requirement. -/
def Rec (Q : Arena T3 → Nat → Nat → Nat → Prop) (rec : Zdd → Nat × Nat → Option (Nat × Zdd)) (n : Nat) :
    Prop :=
  ∀ s f g, Inv s → s.arena.Live f → s.arena.Live g → Max.max (s.arena.rank f) (s.arena.rank g) < n →
    Ok2 Q s f g (rec s (f, g))

theorem cachePut_inv {s : Zdd} (hs : Inv s) {op f g r : Nat} (h : Good s.arena op f g r) :
    Inv (cachePut op f g s r) :=
  { wf := hs.wf, two := hs.two, cache := hs.cache.put h }

theorem memo_ok {Q : Arena T3 → Nat → Nat → Nat → Prop} (hQ : Stable Q) {s : Zdd} (hs : Inv s)
    {op f g : Nat} {body : Zdd → Option (Nat × Zdd)} (lf : s.arena.Live f) (lg : s.arena.Live g)
    (hc : ∀ m r, CodeReq m op f g r ↔ Q m f g r) (hb : Ok2 Q s f g (body s)) :
    Ok2 Q s f g (memo (cacheGet op f g) (cachePut op f g) body s) := by
  unfold memo
  cases hg : cacheGet op f g s with
  | some x =>
    have := hs.cache.good _ _ _ _ hg
    exact .ret hs this.lr this.rk ((hc _ _).1 this.snd)
  | none =>
    obtain ⟨r, s', h1, h2, h3, h4, h5, h6⟩ := hb
    simp only [h1]
    refine ⟨r, _, rfl, cachePut_inv h2 ⟨(h3.keep _ lf).1, (h3.keep _ lg).1, h4, ?_, (hc _ _).2 h6⟩,
      h3, h4, h5, h6⟩
    rw [hs.wf.rank_ext h3.toExt lf, hs.wf.rank_ext h3.toExt lg]; exact h5

theorem codeReq_intersect {m : Arena T3} {f g r : Nat} :
    CodeReq m opIntersect f g r ↔ IReq m f g r := by
  simp [CodeReq, opIntersect, opUnion, opSetdiff, opProduct, opDivision]

theorem codeReq_union {m : Arena T3} {f g r : Nat} :
    CodeReq m opUnion f g r ↔ PReq cUnion m f g r := by
  simp [CodeReq, opIntersect, opUnion, opSetdiff, opProduct, opDivision]

theorem codeReq_setdiff {m : Arena T3} {f g r : Nat} :
    CodeReq m opSetdiff f g r ↔ PReq cDiff m f g r := by
  simp [CodeReq, opIntersect, opUnion, opSetdiff, opProduct, opDivision]

theorem codeReq_product {m : Arena T3} {f g r : Nat} :
    CodeReq m opProduct f g r ↔ XReq m f g r := by
  simp [CodeReq, opIntersect, opUnion, opSetdiff, opProduct, opDivision]

theorem codeReq_divide {m : Arena T3} {f g r : Nat} :
    CodeReq m opDivision f g r ↔ DReq m f g r := by
  simp [CodeReq, opIntersect, opUnion, opSetdiff, opProduct, opDivision]

/-- One recursive call, then a node. -/
theorem lowS_ok {Q : Arena T3 → Nat → Nat → Nat → Prop} (hQ : Stable Q)
    {rec : Zdd → Nat × Nat → Option (Nat × Zdd)} {s : Zdd} {h p q hi : Nat} {hd : Header}
    (hs : Inv s) (lp : s.arena.Live p) (lq : s.arena.Live q)
    (hrec : Ok2 Q s p q (rec s (p, q))) (hh : s.arena.headers[h]? = some hd)
    (hpq : max (s.arena.rank p) (s.arena.rank q) ≤ hd.level)
    (lh : s.arena.Live hi) (rh : s.arena.rank hi ≤ hd.level) :
    ∃ lo r s', lowS rec s h (p, q) hi = some (r, s') ∧ Inv s' ∧ Step s.arena s'.arena ∧
      s'.arena.Live r ∧ s'.arena.rank r ≤ hd.level + 1 ∧ s'.arena.Live lo ∧
      s'.arena.rank lo ≤ hd.level ∧ Q s'.arena p q lo ∧ Split s'.arena hd.level r lo hi := by
  obtain ⟨lo, s1, h1, h2, h3, h4, h5, h6⟩ := hrec
  have r1 := hs.wf.rank_ext h3.toExt lh
  obtain ⟨r, s2, g1, g2, g3, g4, g5, g6⟩ := createNode_ok h2 (h3.hdr _ _ hh) h4 (by omega)
    (h3.keep _ lh).1 (by omega)
  refine ⟨lo, r, s2, by simp only [lowS, h1, g1], g2, h3.trans g3, g4, g5, (g3.keep _ h4).1, ?_, ?_, g6⟩
  · rw [h2.wf.rank_ext g3.toExt h4]; omega
  · exact (hQ h2.wf g3.toExt (h3.keep _ lp).1 (h3.keep _ lq).1 h4).2 h6

/-- Two recursive calls, then a node. -/
theorem bothS_ok {Q : Arena T3 → Nat → Nat → Nat → Prop} (hQ : Stable Q)
    {rec : Zdd → Nat × Nat → Option (Nat × Zdd)} {s : Zdd} {h p q p' q' : Nat} {hd : Header}
    (hs : Inv s) (lp : s.arena.Live p) (lq : s.arena.Live q) (lp' : s.arena.Live p')
    (lq' : s.arena.Live q')
    (hrec : ∀ s1, Inv s1 → Step s.arena s1.arena → Ok2 Q s1 p q (rec s1 (p, q)))
    (hrec' : ∀ s1, Inv s1 → Step s.arena s1.arena → Ok2 Q s1 p' q' (rec s1 (p', q')))
    (hh : s.arena.headers[h]? = some hd)
    (hpq : max (s.arena.rank p) (s.arena.rank q) ≤ hd.level)
    (hpq' : max (s.arena.rank p') (s.arena.rank q') ≤ hd.level) :
    ∃ lo hi r s', bothS rec s h (p, q) (p', q') = some (r, s') ∧ Inv s' ∧ Step s.arena s'.arena ∧
      s'.arena.Live r ∧ s'.arena.rank r ≤ hd.level + 1 ∧ s'.arena.Live lo ∧
      s'.arena.rank lo ≤ hd.level ∧ s'.arena.Live hi ∧ s'.arena.rank hi ≤ hd.level ∧
      Q s'.arena p q lo ∧ Q s'.arena p' q' hi ∧ Split s'.arena hd.level r lo hi := by
  obtain ⟨lo, s1, h1, h2, h3, h4, h5, h6⟩ := hrec s hs (Step.refl _)
  obtain ⟨hi, s2, k1, k2, k3, k4, k5, k6⟩ := hrec' s1 h2 h3
  have r1 := hs.wf.rank_ext h3.toExt lp'
  have r2 := hs.wf.rank_ext h3.toExt lq'
  have r3 := h2.wf.rank_ext k3.toExt h4
  have l1 := (k3.keep _ h4).1
  obtain ⟨r, s3, g1, g2, g3, g4, g5, g6⟩ := createNode_ok k2 ((h3.trans k3).hdr _ _ hh) l1 (by omega)
    k4 (by omega)
  refine ⟨lo, hi, r, s3, by simp only [bothS, h1, k1, g1], g2, (h3.trans k3).trans g3, g4, g5,
    (g3.keep _ l1).1, ?_, (g3.keep _ k4).1, ?_, ?_, ?_, g6⟩
  · rw [k2.wf.rank_ext g3.toExt l1]; omega
  · rw [k2.wf.rank_ext g3.toExt k4]; omega
  · exact (hQ h2.wf (k3.trans g3).toExt (h3.keep _ lp).1 (h3.keep _ lq).1 h4).2 h6
  · have e := (h3.trans k3)
    exact (hQ k2.wf g3.toExt (e.keep _ lp').1 (e.keep _ lq').1 k4).2 k6

/-! ## Combining the two cofactors -/

theorem Split.cl_lo {m : Arena T3} (wf : WF RZ m) {l i lo hi : Nat} (h : Split m l i lo hi)
    (ll : m.Live lo) (rl : m.rank lo ≤ l) (hc : Cl m i) : Cl m lo := by
  intro a ha
  exact hc a ((h a .undet (by decide)).2 (Or.inl ⟨wf.lab_supp ha ll l rl, ha⟩))

theorem Split.up {m : Arena T3} (wf : WF RZ m) {l i lo hi : Nat} (h : Split m l i lo hi)
    (ll : m.Live hi) (rl : m.rank hi ≤ l) {a : Nat → Nat} {z : T3} (hz : z ≠ .zero)
    (ha : Lab m hi a z) : Lab m i (upd a l 1) z := by
  refine (h _ z hz).2 (Or.inr ⟨upd_self _ _ _, ?_⟩)
  rw [upd_upd, upd_id (wf.lab_supp ha ll l rl)]
  exact ha

theorem Split.cl_hi {m : Arena T3} (wf : WF RZ m) {l i lo hi : Nat} (h : Split m l i lo hi)
    (ll : m.Live hi) (rl : m.rank hi ≤ l) (hc : Cl m i) : Cl m hi :=
  fun a ha => hc _ (h.up wf ll rl (by decide) ha)

theorem Split.cl {m : Arena T3} {l i lo hi : Nat} (h : Split m l i lo hi)
    (h0 : Cl m lo) (h1 : Cl m hi) : Cl m i := by
  intro a ha
  rcases (h a .undet (by decide)).1 ha with ⟨_, h⟩ | ⟨_, h⟩
  · exact h0 _ h
  · exact h1 _ h

/-- Both cofactors known to sit below level `l`. -/
structure Kids (m : Arena T3) (l i lo hi : Nat) : Prop where
  split : Split m l i lo hi
  l0 : m.Live lo
  r0 : m.rank lo ≤ l
  l1 : m.Live hi
  r1 : m.rank hi ≤ l

theorem Kids.ext {m m' : Arena T3} (wf : WF RZ m) (e : Ext m m') {l i lo hi : Nat} (li : m.Live i)
    (h : Kids m l i lo hi) : Kids m' l i lo hi where
  split := (split_ext wf e li h.l0 h.l1).2 h.split
  l0 := (e.keep _ h.l0).1
  r0 := by rw [wf.rank_ext e h.l0]; exact h.r0
  l1 := (e.keep _ h.l1).1
  r1 := by rw [wf.rank_ext e h.l1]; exact h.r1

theorem kids_below {m : Arena T3} (wf : WF RZ m) {i l : Nat} (li : m.Live i) (hr : m.rank i ≤ l) :
    Kids m l i i zero := by
  obtain ⟨h0, hn0⟩ := wf.fixed_live (t := T3.zero) rfl
  exact ⟨split_below wf li hr, li, hr, h0, by rw [show zero = T3.zero.slot from rfl, rank_term hn0]; omega⟩

theorem pt_comb {c : Prop → Prop → Prop} (hc : ¬ c False False) {m : Arena T3} (wf : WF RZ m)
    {l f f0 f1 g g0 g1 r lo hi : Nat} (kf : Kids m l f f0 f1) (kg : Kids m l g g0 g1)
    (kr : Split m l r lo hi) (h0 : PReq c m f0 g0 lo) (h1 : PReq c m f1 g1 hi) :
    PReq c m f g r := by
  intro cf cg
  obtain ⟨p0, q0⟩ := h0 (kf.split.cl_lo wf kf.l0 kf.r0 cf) (kg.split.cl_lo wf kg.l0 kg.r0 cg)
  obtain ⟨p1, q1⟩ := h1 (kf.split.cl_hi wf kf.l1 kf.r1 cf) (kg.split.cl_hi wf kg.l1 kg.r1 cg)
  refine ⟨kr.cl p0 p1, fun a => ?_⟩
  unfold Fam at *
  rw [kr a .one (by decide), kf.split a .one (by decide), kg.split a .one (by decide), q0, q1]
  by_cases h0 : a l = 0
  · simp [h0]
  · by_cases h1 : a l = 1
    · simp [h1]
    · simp [h0, h1, hc]

section terminals
variable {m : Arena T3} {i : Nat}

theorem not_cl (h : m.nodes[i]? = some (.term .undet)) : ¬ Cl m i := fun hc => hc _ (.term h)

theorem fam_zero (h : m.nodes[i]? = some (.term .zero)) (a : Nat → Nat) : Fam m i a ↔ False := by
  unfold Fam
  rw [lab_term_iff h]
  simp

theorem fam_one (h : m.nodes[i]? = some (.term .one)) (a : Nat → Nat) :
    Fam m i a ↔ a = fun _ => 0 := by
  unfold Fam
  rw [lab_term_iff h]
  simp

theorem cl_zero (h : m.nodes[i]? = some (.term .zero)) : Cl m i := by
  intro a; rw [lab_term_iff h]; simp

theorem cl_one (h : m.nodes[i]? = some (.term .one)) : Cl m i := by
  intro a; rw [lab_term_iff h]; simp

end terminals

/-- Non-terminal facts in the form used below. -/
theorem nt2 {s : Zdd} (hs : Inv s) {i h : Nat} {ch : List Nat} (li : s.arena.Live i)
    (hn : s.arena.nodes[i]? = some (.nt h ch)) :
    ∃ c0 c1 hd, ch = [c0, c1] ∧ s.arena.headers[h]? = some hd ∧ s.arena.rank i = hd.level + 1 ∧
      s.arena.level? i = some hd.level ∧ Kids s.arena hd.level i c0 c1 := by
  obtain ⟨hd, hh, hl, hr, hlev, hp, hk⟩ := hs.wf.nt li hn
  rw [hs.two hd (List.mem_of_getElem? hh)] at hl
  match ch, hl with
  | [c0, c1], _ =>
    obtain ⟨a1, a2⟩ := hk c0 (by simp)
    obtain ⟨b1, b2⟩ := hk c1 (by simp)
    exact ⟨c0, c1, hd, rfl, hh, hr, hlev, split_nt hs.wf li hn hh, a1, a2, b1, b2⟩

/-- Result of an arm that rebuilds a node from cofactor results. -/
theorem pt_arm {c : Prop → Prop → Prop} (hc : ¬ c False False) {s s' : Zdd} (hs : Inv s) (hs' : Inv s')
    (st : Step s.arena s'.arena) {l f f0 f1 g g0 g1 r lo hi : Nat} (lf : s.arena.Live f)
    (lg : s.arena.Live g) (kf : Kids s.arena l f f0 f1) (kg : Kids s.arena l g g0 g1)
    (kr : Split s'.arena l r lo hi) (h0 : PReq c s'.arena f0 g0 lo) (h1 : PReq c s'.arena f1 g1 hi) :
    PReq c s'.arena f g r :=
  pt_comb hc hs'.wf (kf.ext hs.wf st.toExt lf) (kg.ext hs.wf st.toExt lg) kr h0 h1

theorem node_eq {m : Arena T3} {i : Nat} {x : Node T3} (h : m.nodes[i]? = some x) :
    m.node? i = some x := h

/-! ## union -/

theorem preq_union_zeroR {m : Arena T3} (wf : WF RZ m) (f : Nat) : PReq cUnion m f zero f := by
  obtain ⟨_, hn⟩ := wf.fixed_live (t := T3.zero) rfl
  intro cf _
  refine ⟨cf, fun a => ?_⟩
  unfold cUnion
  rw [show zero = T3.zero.slot from rfl, fam_zero hn]
  simp

theorem preq_union_zeroL {m : Arena T3} (wf : WF RZ m) (f : Nat) : PReq cUnion m zero f f := by
  obtain ⟨_, hn⟩ := wf.fixed_live (t := T3.zero) rfl
  intro _ cf
  refine ⟨cf, fun a => ?_⟩
  unfold cUnion
  rw [show zero = T3.zero.slot from rfl, fam_zero hn]
  simp

/-- The arm "low child by recursion, high child of `f` kept". -/
theorem lowF_ok {c : Prop → Prop → Prop} (hc : ¬ c False False)
    (hzero : ∀ {m : Arena T3}, WF RZ m → ∀ f, PReq c m f zero f)
    {rec : Zdd → Nat × Nat → Option (Nat × Zdd)} {n : Nat} (ih : Rec (PReq c) rec n)
    {s : Zdd} (hs : Inv s) {f g h f0 f1 : Nat} {hd : Header} (lf : s.arena.Live f) (lg : s.arena.Live g)
    (hn : s.arena.nodes[f]? = some (.nt h [f0, f1])) (hh : s.arena.headers[h]? = some hd)
    (hr : s.arena.rank f = hd.level + 1) (kf : Kids s.arena hd.level f f0 f1)
    (hg : s.arena.rank g ≤ hd.level) (hf : Max.max (s.arena.rank f) (s.arena.rank g) < n + 1) :
    Ok2 (PReq c) s f g (lowS rec s h (f0, g) f1) := by
  have r0 := kf.r0
  obtain ⟨lo, r, s', h1, h2, h3, h4, h5, h6, h7, h8, h9⟩ := lowS_ok (stable_preq c) hs kf.l0 lg
    (ih s f0 g hs kf.l0 lg (by omega)) hh (by omega) kf.l1 kf.r1
  exact ⟨r, s', h1, h2, h3, h4, by omega,
    pt_arm hc hs h2 h3 lf lg kf (kids_below hs.wf lg hg) h9 h8 (hzero h2.wf f1)⟩

/-- The arm "low child by recursion, high child of `g` kept". -/
theorem lowG_ok {c : Prop → Prop → Prop} (hc : ¬ c False False)
    (hzero : ∀ {m : Arena T3}, WF RZ m → ∀ f, PReq c m zero f f)
    {rec : Zdd → Nat × Nat → Option (Nat × Zdd)} {n : Nat} (ih : Rec (PReq c) rec n)
    {s : Zdd} (hs : Inv s) {f g h g0 g1 : Nat} {hd : Header} (lf : s.arena.Live f) (lg : s.arena.Live g)
    (hn : s.arena.nodes[g]? = some (.nt h [g0, g1])) (hh : s.arena.headers[h]? = some hd)
    (hr : s.arena.rank g = hd.level + 1) (kg : Kids s.arena hd.level g g0 g1)
    (hg : s.arena.rank f ≤ hd.level) (hf : Max.max (s.arena.rank f) (s.arena.rank g) < n + 1) :
    Ok2 (PReq c) s f g (lowS rec s h (f, g0) g1) := by
  have r0 := kg.r0
  obtain ⟨lo, r, s', h1, h2, h3, h4, h5, h6, h7, h8, h9⟩ := lowS_ok (stable_preq c) hs lf kg.l0
    (ih s f g0 hs lf kg.l0 (by omega)) hh (by omega) kg.l1 kg.r1
  exact ⟨r, s', h1, h2, h3, h4, by omega,
    pt_arm hc hs h2 h3 lf lg (kids_below hs.wf lf hg) kg h9 h8 (hzero h2.wf g1)⟩

/-- The equal-level arm of a pointwise operation. -/
theorem both_ok {c : Prop → Prop → Prop} (hc : ¬ c False False)
    {rec : Zdd → Nat × Nat → Option (Nat × Zdd)} {n : Nat} (ih : Rec (PReq c) rec n)
    {s : Zdd} (hs : Inv s) {f g h f0 f1 g0 g1 : Nat} {hd : Header} (lf : s.arena.Live f)
    (lg : s.arena.Live g) (hh : s.arena.headers[h]? = some hd)
    (hr : s.arena.rank f = hd.level + 1) (hr' : s.arena.rank g = hd.level + 1)
    (kf : Kids s.arena hd.level f f0 f1) (kg : Kids s.arena hd.level g g0 g1)
    (hf : Max.max (s.arena.rank f) (s.arena.rank g) < n + 1) :
    Ok2 (PReq c) s f g (bothS rec s h (f0, g0) (f1, g1)) := by
  have r0 := kf.r0
  have r1 := kf.r1
  have r2 := kg.r0
  have r3 := kg.r1
  obtain ⟨lo, hi, r, s', h1, h2, h3, h4, h5, -, -, -, -, h8, h8', h9⟩ := bothS_ok (stable_preq c) hs
    kf.l0 kg.l0 kf.l1 kg.l1
    (fun s1 i1 st => ih s1 f0 g0 i1 (st.keep _ kf.l0).1 (st.keep _ kg.l0).1 (by
      rw [hs.wf.rank_ext st.toExt kf.l0, hs.wf.rank_ext st.toExt kg.l0]; omega))
    (fun s1 i1 st => ih s1 f1 g1 i1 (st.keep _ kf.l1).1 (st.keep _ kg.l1).1 (by
      rw [hs.wf.rank_ext st.toExt kf.l1, hs.wf.rank_ext st.toExt kg.l1]; omega))
    hh (by omega) (by omega)
  exact ⟨r, s', h1, h2, h3, h4, by omega, pt_arm hc hs h2 h3 lf lg kf kg h9 h8 h8'⟩

theorem byLevel_eq {α : Type} {m : Arena T3} {f g lf lg : Nat} (hf : m.level? f = some lf)
    (hg : m.level? g = some lg) (x y z : Option α) :
    byLevel m f g x y z = if lf > lg then x else if lf < lg then y else z := by
  unfold byLevel; rw [hf, hg]

theorem unionF_ok : ∀ n, Rec (PReq cUnion) (unionF n) n := by
  intro n
  induction n with
  | zero => intro s f g _ _ _ h; omega
  | succ n ih =>
    intro s f g hs lf lg hr
    unfold unionF
    by_cases hfg : f = g
    · subst hfg
      simp only [if_true]
      refine .ret hs lf (by omega) (fun cf _ => ⟨cf, fun a => ?_⟩)
      unfold cUnion; simp
    simp only [hfg, if_false]
    apply memo_ok (stable_preq _) hs lf lg (fun m r => codeReq_union)
    obtain ⟨nf, hnf⟩ := lf.node
    obtain ⟨ng, hng⟩ := lg.node
    have hc : ¬ cUnion False False := by simp [cUnion]
    obtain ⟨_, hz⟩ := fixed hs .zero
    obtain ⟨lo, ho⟩ := fixed hs .one
    rw [node_eq hnf, node_eq hng]
    have rf : ∀ t, nf = .term t → s.arena.rank f = 0 := fun t h => rank_term (h ▸ hnf)
    have rg : ∀ t, ng = .term t → s.arena.rank g = 0 := fun t h => rank_term (h ▸ hng)
    cases nf with
    | term t =>
      have rf := rf t rfl
      cases t with
      | undet =>
        exact .ret hs lf (by omega) (fun cf _ => absurd cf (not_cl hnf))
      | zero =>
        cases ng with
        | term t' =>
          cases t' with
          | undet => exact .ret hs lg (by omega) (fun _ cg => absurd cg (not_cl hng))
          | zero => exact absurd (hs.wf.uniq lf lg hnf hng) hfg
          | one =>
            refine .ret hs lg (by omega) (fun _ cg => ⟨cg, fun a => ?_⟩)
            unfold cUnion; rw [fam_zero hnf]; simp
        | nt h ch =>
          refine .ret hs lg (by omega) (fun _ cg => ⟨cg, fun a => ?_⟩)
          unfold cUnion; rw [fam_zero hnf]; simp
      | one =>
        have hf1 : f = one := hs.wf.uniq lf lo hnf ho
        cases ng with
        | term t' =>
          cases t' with
          | undet => exact .ret hs lg (by omega) (fun _ cg => absurd cg (not_cl hng))
          | zero =>
            refine .ret hs lf (by omega) (fun cf _ => ⟨cf, fun a => ?_⟩)
            unfold cUnion; rw [fam_zero hng]; simp
          | one => exact absurd (hs.wf.uniq lf lg hnf hng) hfg
        | nt h ch =>
          obtain ⟨c0, c1, hd, rfl, hh, hrk, hlev, kg⟩ := nt2 hs lg hng
          subst hf1
          exact lowG_ok hc preq_union_zeroL ih hs lf lg hng hh hrk kg (by omega) hr
    | nt hf cf =>
      obtain ⟨f0, f1, hdf, rfl, hhf, hrf, hlf, kf⟩ := nt2 hs lf hnf
      cases ng with
      | term t' =>
        have rg := rg t' rfl
        cases t' with
        | undet => exact .ret hs lg (by omega) (fun _ cg => absurd cg (not_cl hng))
        | zero =>
          refine .ret hs lf (by omega) (fun cf _ => ⟨cf, fun a => ?_⟩)
          unfold cUnion; rw [fam_zero hng]; simp
        | one =>
          have hg1 : g = one := hs.wf.uniq lg lo hng ho
          subst hg1
          exact lowF_ok hc preq_union_zeroR ih hs lf lg hnf hhf hrf kf (by omega) hr
      | nt hg cg =>
        obtain ⟨g0, g1, hdg, rfl, hhg, hrg, hlg, kg⟩ := nt2 hs lg hng
        simp only [byLevel_eq hlf hlg]
        by_cases h1 : hdf.level > hdg.level
        · simp only [h1, if_true]
          exact lowF_ok hc preq_union_zeroR ih hs lf lg hnf hhf hrf kf (by omega) hr
        · by_cases h2 : hdf.level < hdg.level
          · simp only [h1, h2, if_true, if_false]
            exact lowG_ok hc preq_union_zeroL ih hs lf lg hng hhg hrg kg (by omega) hr
          · simp only [h1, h2, if_false]
            have he : hdg.level = hdf.level := by omega
            rw [he] at kg hrg
            exact both_ok hc ih hs lf lg hhf hrf hrg kf kg hr

theorem union_ok {s : Zdd} (hs : Inv s) {f g : Nat} (lf : s.arena.Live f) (lg : s.arena.Live g) :
    Ok2 (PReq cUnion) s f g (s.union f g) := unionF_ok _ s f g hs lf lg (by omega)

/-! ## setdiff -/

theorem preq_diff_zeroR {m : Arena T3} (wf : WF RZ m) (f : Nat) : PReq cDiff m f zero f := by
  obtain ⟨_, hn⟩ := wf.fixed_live (t := T3.zero) rfl
  intro cf _
  refine ⟨cf, fun a => ?_⟩
  unfold cDiff
  rw [show zero = T3.zero.slot from rfl, fam_zero hn]
  simp

theorem preq_diff_zeroL {m : Arena T3} (wf : WF RZ m) (f : Nat) : PReq cDiff m zero f zero := by
  obtain ⟨_, hn⟩ := wf.fixed_live (t := T3.zero) rfl
  intro cf _
  refine ⟨cf, fun a => ?_⟩
  unfold cDiff
  rw [show zero = T3.zero.slot from rfl, fam_zero hn]
  simp

/-- The arm that descends `g`'s low edge only. -/
theorem dropG_ok {c : Prop → Prop → Prop} (hc : ¬ c False False)
    (hzero : ∀ {m : Arena T3}, WF RZ m → ∀ f, PReq c m zero f zero)
    {rec : Zdd → Nat × Nat → Option (Nat × Zdd)} {n : Nat} (ih : Rec (PReq c) rec n)
    {s : Zdd} (hs : Inv s) {f g g0 g1 l : Nat} (lf : s.arena.Live f) (lg : s.arena.Live g)
    (hr : s.arena.rank g = l + 1) (kg : Kids s.arena l g g0 g1)
    (hg : s.arena.rank f ≤ l) (hf : Max.max (s.arena.rank f) (s.arena.rank g) < n + 1) :
    Ok2 (PReq c) s f g (rec s (f, g0)) := by
  have r0 := kg.r0
  obtain ⟨r, s', h1, h2, h3, h4, h5, h6⟩ := ih s f g0 hs lf kg.l0 (by omega)
  exact ⟨r, s', h1, h2, h3, h4, by omega,
    pt_arm hc hs h2 h3 lf lg (kids_below hs.wf lf hg) kg (split_below h2.wf h4 (by omega)) h6
      (hzero h2.wf g1)⟩

theorem setdiffF_ok : ∀ n, Rec (PReq cDiff) (setdiffF n) n := by
  intro n
  induction n with
  | zero => intro s f g _ _ _ h; omega
  | succ n ih =>
    intro s f g hs lf lg hr
    obtain ⟨lz, hz⟩ := fixed hs .zero
    obtain ⟨lo, ho⟩ := fixed hs .one
    obtain ⟨lu, hu⟩ := fixed hs .undet
    unfold setdiffF
    by_cases hfg : f = g
    · subst hfg
      simp only [if_true]
      by_cases hfu : f = undet
      · simp only [hfu, if_true]
        exact .const hs .undet (fun cf _ => absurd cf (not_cl hu))
      · simp only [hfu, if_false]
        refine .const hs .zero (fun cf _ => ⟨cl_zero hz, fun a => ?_⟩)
        rw [fam_zero hz]; simp [cDiff]
    simp only [hfg, if_false]
    apply memo_ok (stable_preq _) hs lf lg (fun m r => codeReq_setdiff)
    obtain ⟨nf, hnf⟩ := lf.node
    obtain ⟨ng, hng⟩ := lg.node
    have hc : ¬ cDiff False False := by simp [cDiff]
    rw [node_eq hnf, node_eq hng]
    have rf : ∀ t, nf = .term t → s.arena.rank f = 0 := fun t h => rank_term (h ▸ hnf)
    have rg : ∀ t, ng = .term t → s.arena.rank g = 0 := fun t h => rank_term (h ▸ hng)
    cases nf with
    | term t =>
      have rf := rf t rfl
      cases t with
      | undet => exact .const hs .undet (fun cf _ => absurd cf (not_cl hnf))
      | zero =>
        have hret : Ok2 (PReq cDiff) s f g (some (zero, s)) := by
          refine .const hs .zero (fun cf _ => ⟨cl_zero hz, fun a => ?_⟩)
          unfold cDiff; rw [fam_zero hnf, fam_zero hz]; simp
        cases ng with
        | term t' =>
          cases t' with
          | undet => exact .ret hs lf (by omega) (fun _ cg => absurd cg (not_cl hng))
          | zero => exact hret
          | one => exact hret
        | nt h ch => exact hret
      | one =>
        have hf1 : f = one := hs.wf.uniq lf lo hnf ho
        cases ng with
        | term t' =>
          cases t' with
          | undet => exact .ret hs lf (by omega) (fun _ cg => absurd cg (not_cl hng))
          | zero =>
            refine .ret hs lf (by omega) (fun cf _ => ⟨cf, fun a => ?_⟩)
            unfold cDiff; rw [fam_zero hng]; simp
          | one => exact absurd (hs.wf.uniq lf lg hnf hng) hfg
        | nt h ch =>
          obtain ⟨c0, c1, hd, rfl, hh, hrk, hlev, kg⟩ := nt2 hs lg hng
          subst hf1
          exact dropG_ok hc preq_diff_zeroL ih hs lf lg hrk kg (by omega) hr
    | nt hf cf =>
      obtain ⟨f0, f1, hdf, rfl, hhf, hrf, hlf, kf⟩ := nt2 hs lf hnf
      cases ng with
      | term t' =>
        have rg := rg t' rfl
        cases t' with
        | undet => exact .ret hs lf (by omega) (fun _ cg => absurd cg (not_cl hng))
        | zero =>
          refine .ret hs lf (by omega) (fun cf _ => ⟨cf, fun a => ?_⟩)
          unfold cDiff; rw [fam_zero hng]; simp
        | one =>
          have hg1 : g = one := hs.wf.uniq lg lo hng ho
          subst hg1
          exact lowF_ok hc preq_diff_zeroR ih hs lf lg hnf hhf hrf kf (by omega) hr
      | nt hg cg =>
        obtain ⟨g0, g1, hdg, rfl, hhg, hrg, hlg, kg⟩ := nt2 hs lg hng
        simp only [byLevel_eq hlf hlg]
        by_cases h1 : hdf.level > hdg.level
        · simp only [h1, if_true]
          exact lowF_ok hc preq_diff_zeroR ih hs lf lg hnf hhf hrf kf (by omega) hr
        · by_cases h2 : hdf.level < hdg.level
          · simp only [h1, h2, if_true, if_false]
            exact dropG_ok hc preq_diff_zeroL ih hs lf lg hrg kg (by omega) hr
          · simp only [h1, h2, if_false]
            have he : hdg.level = hdf.level := by omega
            rw [he] at kg hrg
            exact both_ok hc ih hs lf lg hhf hrf hrg kf kg hr

theorem setdiff_ok {s : Zdd} (hs : Inv s) {f g : Nat} (lf : s.arena.Live f) (lg : s.arena.Live g) :
    Ok2 (PReq cDiff) s f g (s.setdiff f g) := setdiffF_ok _ s f g hs lf lg (by omega)

/-! ## intersect -/

theorem upd_inj {a b : Nat → Nat} {l : Nat} (ha : a l = 0) (hb : b l = 0)
    (h : upd a l 1 = upd b l 1) : a = b := by
  have := congrArg (fun x => upd x l 0) h
  simpa only [upd_upd, upd_id ha, upd_id hb] using this

/-- A node other than the empty family has a path to another terminal. -/
theorem lab_nonempty {s : Zdd} (hs : Inv s) : ∀ n i, s.arena.rank i ≤ n → s.arena.Live i → i ≠ zero →
    ∃ a t, t ≠ T3.zero ∧ Lab s.arena i a t := by
  intro n
  induction n with
  | zero =>
    intro i hr li hi
    obtain ⟨x, hx⟩ := li.node
    cases x with
    | term t =>
      refine ⟨_, t, ?_, .term hx⟩
      rintro rfl
      exact hi (hs.wf.uniq li (fixed hs .zero).1 hx (fixed hs .zero).2)
    | nt h ch =>
      obtain ⟨hd, h1, _, h3, _⟩ := hs.wf.nt li hx
      omega
  | succ n ih =>
    intro i hr li hi
    obtain ⟨x, hx⟩ := li.node
    cases x with
    | term t =>
      refine ⟨_, t, ?_, .term hx⟩
      rintro rfl
      exact hi (hs.wf.uniq li (fixed hs .zero).1 hx (fixed hs .zero).2)
    | nt h ch =>
      obtain ⟨hd, h1, h2, h3, _, _, hk⟩ := hs.wf.nt li hx
      obtain ⟨c, hc, hne⟩ := hs.wf.red _ _ _ li hx
      have hc' := List.mem_of_mem_tail hc
      obtain ⟨k1, k2⟩ := hk c hc'
      obtain ⟨a, t, ht, he⟩ := ih c (by omega) k1 hne
      obtain ⟨k, hk⟩ := List.mem_iff_getElem?.1 hc'
      exact ⟨_, t, ht, .nt hx h1 hk he⟩

/-- A non-terminal without undetermined part has a member with its level. -/
theorem fam_uses {s : Zdd} (hs : Inv s) {f h l : Nat} {ch : List Nat} (lf : s.arena.Live f)
    (hn : s.arena.nodes[f]? = some (.nt h ch)) (hl : s.arena.level? f = some l) (hc : Cl s.arena f) :
    Uses l (Fam s.arena f) := by
  obtain ⟨hd, h1, h2, h3, hlv, _, hk⟩ := hs.wf.nt lf hn
  rw [hlv] at hl
  cases hl
  obtain ⟨c, hc', hne⟩ := hs.wf.red _ _ _ lf hn
  obtain ⟨k, hk'⟩ := List.mem_iff_getElem?.1 hc'
  rw [List.getElem?_tail] at hk'
  obtain ⟨k1, k2⟩ := hk c (List.mem_of_mem_tail hc')
  obtain ⟨a, t, ht, he⟩ := lab_nonempty hs _ c (Nat.le_refl _) k1 hne
  have hlab := Lab.nt hn h1 hk' he
  refine ⟨upd a hd.level (k + 1), ?_, fun e => ?_⟩
  · match t, ht with
    | .one, _ => exact hlab
    | .undet, _ => exact absurd hlab (hc _)
  · rw [upd_self] at e
    omega

theorem fam_ne {s : Zdd} (hs : Inv s) {f h : Nat} {ch : List Nat} (lf : s.arena.Live f)
    (hn : s.arena.nodes[f]? = some (.nt h ch)) (hc : Cl s.arena f) :
    ∃ b, Fam s.arena f b ∧ b ≠ fun _ => 0 := by
  obtain ⟨hd, _, _, _, hlv, _⟩ := hs.wf.nt lf hn
  obtain ⟨b, h1, h2⟩ := fam_uses hs lf hn hlv hc
  exact ⟨b, h1, fun e => h2 (by rw [e])⟩

theorem int_comb {m : Arena T3} (wf : WF RZ m)
    {l f f0 f1 g g0 g1 r lo hi : Nat} (kf : Kids m l f f0 f1) (kg : Kids m l g g0 g1)
    (nf : Cl m f → ∃ b, Fam m f b ∧ b ≠ fun _ => 0) (ng : Cl m g → ∃ b, Fam m g b ∧ b ≠ fun _ => 0)
    (kr : Split m l r lo hi) (h0 : IPart m f0 g0 lo) (h1 : IPart m f1 g1 hi) : IPart m f g r := by
  intro cf cg
  obtain ⟨p0, q0⟩ := h0 (kf.split.cl_lo wf kf.l0 kf.r0 cf) (kg.split.cl_lo wf kg.l0 kg.r0 cg)
  obtain ⟨p1, q1⟩ := h1 (kf.split.cl_hi wf kf.l1 kf.r1 cf) (kg.split.cl_hi wf kg.l1 kg.r1 cg)
  have supp : ∀ {i}, m.Live i → m.rank i ≤ l → ∀ a, Fam m i a → ∀ x, l ≤ x → a x = 0 :=
    fun li hr a ha x hx => wf.lab_supp ha li x (by omega)
  exact ⟨kr.cl p0 p1, inter_step (supp kf.l0 kf.r0) (supp kf.l1 kf.r1) (fun a => kf.split a .one (by decide))
    (supp kg.l0 kg.r0) (supp kg.l1 kg.r1) (fun a => kg.split a .one (by decide))
    (R0 := Fam m lo) (R1 := Fam m hi) (fun a => kr a .one (by decide)) (nf cf) (ng cg) q0 q1⟩

theorem ipart_zeroL {m : Arena T3} (wf : WF RZ m) (f : Nat) : IPart m zero f zero := by
  obtain ⟨_, hn⟩ := wf.fixed_live (t := T3.zero) rfl
  have e : ∀ a, ¬ Fam m zero a := fun a => (fam_zero hn a).1
  intro cf _
  exact ⟨cf, fun a => iff_of_false (e a) (inter_emptyL e a)⟩

theorem ipart_zeroR {m : Arena T3} (wf : WF RZ m) (f : Nat) : IPart m f zero zero := by
  obtain ⟨_, hn⟩ := wf.fixed_live (t := T3.zero) rfl
  have e : ∀ a, ¬ Fam m zero a := fun a => (fam_zero hn a).1
  intro _ cf
  exact ⟨cf, fun a => iff_of_false (e a) (fun h => inter_emptyL e a ((inter_comm a).1 h))⟩

theorem ne_ext {s s' : Zdd} (hs : Inv s) (st : Step s.arena s'.arena) {f : Nat} (lf : s.arena.Live f)
    (nf : Cl s.arena f → ∃ b, Fam s.arena f b ∧ b ≠ fun _ => 0) (hc : Cl s'.arena f) :
    ∃ b, Fam s'.arena f b ∧ b ≠ fun _ => 0 := by
  obtain ⟨b, h1, h2⟩ := nf (fun a ha => hc a ((hs.wf.lab_ext st.toExt lf).2 ha))
  exact ⟨b, (hs.wf.lab_ext st.toExt lf).2 h1, h2⟩

theorem int_arm {s s' : Zdd} (hs : Inv s) (hs' : Inv s')
    (st : Step s.arena s'.arena) {l f f0 f1 g g0 g1 r lo hi : Nat} (lf : s.arena.Live f)
    (lg : s.arena.Live g) (kf : Kids s.arena l f f0 f1) (kg : Kids s.arena l g g0 g1)
    (nf : Cl s.arena f → ∃ b, Fam s.arena f b ∧ b ≠ fun _ => 0)
    (ng : Cl s.arena g → ∃ b, Fam s.arena g b ∧ b ≠ fun _ => 0)
    (hfu : f ≠ undet) (hgu : g ≠ undet) (hfg : f ≠ g)
    (kr : Split s'.arena l r lo hi) (h0 : IPart s'.arena f0 g0 lo) (h1 : IPart s'.arena f1 g1 hi) :
    IReq s'.arena f g r :=
  ⟨fun h => absurd h hfu, fun h => absurd h hgu, fun h => absurd h hfg,
    int_comb hs'.wf (kf.ext hs.wf st.toExt lf) (kg.ext hs.wf st.toExt lg) (ne_ext hs st lf nf)
      (ne_ext hs st lg ng) kr h0 h1⟩

theorem ne_undet {s : Zdd} (hs : Inv s) {f : Nat} {x : Node T3} (hn : s.arena.nodes[f]? = some x)
    (hx : x ≠ .term .undet) : f ≠ undet := by
  intro h
  rw [h, show undet = T3.undet.slot from rfl, (fixed hs .undet).2] at hn
  exact hx (Option.some.inj hn).symm

theorem intersectF_ok : ∀ n, Rec IReq (intersectF n) n := by
  intro n
  induction n with
  | zero => intro s f g _ _ _ h; omega
  | succ n ih =>
    intro s f g hs lf lg hr
    obtain ⟨lz, hz⟩ := fixed hs .zero
    obtain ⟨lo, ho⟩ := fixed hs .one
    obtain ⟨lu, hu⟩ := fixed hs .undet
    unfold intersectF
    by_cases hfg : f = g
    · subst hfg
      simp only [if_true]
      exact .ret hs lf (by omega) ⟨fun _ => rfl, fun _ => rfl, fun _ => rfl,
        fun cf _ => ⟨cf, fun a => inter_self a⟩⟩
    simp only [hfg, if_false]
    apply memo_ok stable_ireq hs lf lg (fun m r => codeReq_intersect)
    obtain ⟨nf, hnf⟩ := lf.node
    obtain ⟨ng, hng⟩ := lg.node
    rw [node_eq hnf, node_eq hng]
    have rf : ∀ t, nf = .term t → s.arena.rank f = 0 := fun t h => rank_term (h ▸ hnf)
    have rg : ∀ t, ng = .term t → s.arena.rank g = 0 := fun t h => rank_term (h ▸ hng)
    by_cases hfu : nf = .term .undet
    · subst hfu
      exact .ret hs lg (by omega) ⟨fun _ => rfl,
        fun h => absurd ((hs.wf.uniq lf lu hnf hu).trans h.symm) hfg, fun h => absurd h hfg,
        fun cf _ => absurd cf (not_cl hnf)⟩
    have fu := ne_undet hs hnf hfu
    by_cases hgu : ng = .term .undet
    · subst hgu
      have hret : Ok2 IReq s f g (some (f, s)) := .ret hs lf (by omega) ⟨fun h => absurd h fu,
        fun _ => rfl, fun h => absurd h hfg, fun _ cg => absurd cg (not_cl hng)⟩
      cases nf with
      | nt h ch => exact hret
      | term t =>
        cases t with
        | undet => exact absurd rfl hfu
        | zero => exact hret
        | one => exact hret
    have gu := ne_undet hs hng hgu
    -- `Zero` on either side
    have hzL : s.arena.nodes[f]? = some (.term .zero) → Ok2 IReq s f g (some (zero, s)) := by
      intro h
      have hf0 : f = zero := hs.wf.uniq lf lz h hz
      refine .const hs .zero ⟨fun h => absurd h fu, fun h => absurd h gu, fun h => absurd h hfg, ?_⟩
      subst hf0
      exact ipart_zeroL hs.wf g
    have hzR : s.arena.nodes[g]? = some (.term .zero) → Ok2 IReq s f g (some (zero, s)) := by
      intro h
      have hf0 : g = zero := hs.wf.uniq lg lz h hz
      refine .const hs .zero ⟨fun h => absurd h fu, fun h => absurd h gu, fun h => absurd h hfg, ?_⟩
      subst hf0
      exact ipart_zeroR hs.wf f
    -- `One` on either side
    have hoL : s.arena.nodes[f]? = some (.term .one) → Ok2 IReq s f g (some (g, s)) := by
      intro h
      refine .ret hs lg (by omega) ⟨fun h => absurd h fu, fun h => absurd h gu, fun h => absurd h hfg, ?_⟩
      exact fun _ cg => ⟨cg, inter_baseL (fam_one h) (fun a ha => hs.wf.lab_supp ha lg)⟩
    have hoR : s.arena.nodes[g]? = some (.term .one) → Ok2 IReq s f g (some (f, s)) := by
      intro h
      refine .ret hs lf (by omega) ⟨fun h => absurd h fu, fun h => absurd h gu, fun h => absurd h hfg, ?_⟩
      exact fun cf _ => ⟨cf, fun a =>
        (inter_baseL (fam_one h) (fun a ha => hs.wf.lab_supp ha lf) a).trans (inter_comm a)⟩
    cases nf with
    | term t =>
      cases t with
      | undet => exact absurd rfl hfu
      | zero =>
        cases ng with
        | nt h ch => exact hzL hnf
        | term t' =>
          cases t' with
          | undet => exact absurd rfl hgu
          | zero => exact hzL hnf
          | one => exact hzL hnf
      | one =>
        cases ng with
        | nt h ch => exact hoL hnf
        | term t' =>
          cases t' with
          | undet => exact absurd rfl hgu
          | zero => exact hzR hng
          | one => exact hoL hnf
    | nt hf cf =>
      obtain ⟨f0, f1, hdf, rfl, hhf, hrf, hlf, kf⟩ := nt2 hs lf hnf
      cases ng with
      | term t' =>
        cases t' with
        | undet => exact absurd rfl hgu
        | zero => exact hzR hng
        | one => exact hoR hng
      | nt hg cg =>
        obtain ⟨g0, g1, hdg, rfl, hhg, hrg, hlg, kg⟩ := nt2 hs lg hng
        have r0 := kf.r0
        have r1 := kf.r1
        have r2 := kg.r0
        have r3 := kg.r1
        simp only [byLevel_eq hlf hlg]
        by_cases h1 : hdf.level > hdg.level
        · simp only [h1, if_true]
          obtain ⟨r, s', k1, k2, k3, k4, k5, k6⟩ := ih s f0 g hs kf.l0 lg (by omega)
          exact ⟨r, s', k1, k2, k3, k4, by omega,
            int_arm hs k2 k3 lf lg kf (kids_below hs.wf lg (by omega)) (fam_ne hs lf hnf) (fam_ne hs lg hng) fu gu hfg
              (split_below k2.wf k4 (l := hdf.level) (by omega)) k6.2.2.2 (ipart_zeroR k2.wf f1)⟩
        · by_cases h2 : hdf.level < hdg.level
          · simp only [h1, h2, if_true, if_false]
            obtain ⟨r, s', k1, k2, k3, k4, k5, k6⟩ := ih s f g0 hs lf kg.l0 (by omega)
            exact ⟨r, s', k1, k2, k3, k4, by omega,
              int_arm hs k2 k3 lf lg (kids_below hs.wf lf (by omega)) kg (fam_ne hs lf hnf) (fam_ne hs lg hng) fu gu hfg
                (split_below k2.wf k4 (l := hdg.level) (by omega)) k6.2.2.2 (ipart_zeroL k2.wf g1)⟩
          · simp only [h1, h2, if_false]
            have he : hdg.level = hdf.level := by omega
            rw [he] at kg hrg
            obtain ⟨lo, hi, r, s', h1, h2, h3, h4, h5, -, -, -, -, h8, h8', h9⟩ :=
              bothS_ok stable_ireq hs kf.l0 kg.l0 kf.l1 kg.l1
                (fun s1 i1 st => ih s1 f0 g0 i1 (st.keep _ kf.l0).1 (st.keep _ kg.l0).1 (by
                  rw [hs.wf.rank_ext st.toExt kf.l0, hs.wf.rank_ext st.toExt kg.l0]; omega))
                (fun s1 i1 st => ih s1 f1 g1 i1 (st.keep _ kf.l1).1 (st.keep _ kg.l1).1 (by
                  rw [hs.wf.rank_ext st.toExt kf.l1, hs.wf.rank_ext st.toExt kg.l1]; omega))
                hhf (by omega) (by omega)
            exact ⟨r, s', h1, h2, h3, h4, by omega,
              int_arm hs h2 h3 lf lg kf kg (fam_ne hs lf hnf) (fam_ne hs lg hng) fu gu hfg h9 h8.2.2.2 h8'.2.2.2⟩

theorem intersect_ok {s : Zdd} (hs : Inv s) {f g : Nat} (lf : s.arena.Live f) (lg : s.arena.Live g) :
    Ok2 IReq s f g (s.intersect f g) := intersectF_ok _ s f g hs lf lg (by omega)

end Zdd
end DD
