import Verif.Zmdd.Model

/-!
# ZMDD operations: invariant and meaning
-/

set_option autoImplicit false
set_option linter.unusedSectionVars false
set_option linter.unusedVariables false

namespace DD
open Arena ComputeCache

namespace Zmdd

/-- The connective behind an operation code: 0 is intersection, anything else difference. -/
def conn (op : Nat) (p q : Prop) : Prop := if op = 0 then p ∧ q else p ∧ ¬ q

theorem conn_int (p q : Prop) : conn opIntersect p q ↔ p ∧ q := by simp [conn, opIntersect]

theorem conn_diff (p q : Prop) : conn opSetdiff p q ↔ p ∧ ¬ q := by simp [conn, opSetdiff]

theorem conn_congr {op : Nat} {p q p' q' : Prop} (hp : p ↔ p') (hq : q ↔ q') :
    conn op p q ↔ conn op p' q' := by unfold conn; split <;> rw [hp, hq]

/-- Labelled membership required of the result of an operation. -/
def Req (m : Arena (Option Int)) (op f g : Nat) (a : Nat → Nat) (v : Int) : Prop :=
  conn op (Lab m f a (some v)) (Lab m g a (some v))

/-- Admissible cache entry. -/
structure Good (m : Arena (Option Int)) (op f g r : Nat) : Prop where
  lf : m.Live f
  lg : m.Live g
  lr : m.Live r
  rk : m.rank r ≤ Max.max (m.rank f) (m.rank g)
  snd : ∀ a v, Lab m r a (some v) ↔ Req m op f g a v

/-- State invariant. -/
structure Inv (s : Zmdd) : Prop where
  wf : WF RZ s.arena
  cache : CacheOK s.arena.nodes.length (Good s.arena) s.cache

theorem Req.ext {m m' : Arena (Option Int)} (wf : WF RZ m) (e : Ext m m') {op f g : Nat}
    (hf : m.Live f) (hg : m.Live g) {a : Nat → Nat} {v : Int} :
    Req m' op f g a v ↔ Req m op f g a v :=
  conn_congr (wf.lab_ext e hf) (wf.lab_ext e hg)

theorem Good.ext {m m' : Arena (Option Int)} (wf : WF RZ m) (e : Ext m m') {op f g r : Nat}
    (h : Good m op f g r) : Good m' op f g r where
  lf := (e.keep _ h.lf).1
  lg := (e.keep _ h.lg).1
  lr := (e.keep _ h.lr).1
  rk := by rw [wf.rank_ext e h.lf, wf.rank_ext e h.lg, wf.rank_ext e h.lr]; exact h.rk
  snd := by
    intro a v
    rw [wf.lab_ext e h.lr, Req.ext wf e h.lf h.lg]
    exact h.snd a v

/-- Replace the arena by an extension. -/
theorem Inv.ext {s : Zmdd} (h : Inv s) {m : Arena (Option Int)} (wf : WF RZ m)
    (e : Ext s.arena m) : Inv { s with arena := m } where
  wf := wf
  cache := h.cache.mono e.len (fun _ _ _ _ g => g.ext h.wf e)

/-- Outcome: a live node of rank at most `k` with exactly the labelled members `P`. -/
def Ok (s : Zmdd) (k : Nat) (P : (Nat → Nat) → Int → Prop) (res : Option (Nat × Zmdd)) : Prop :=
  ∃ r s', res = some (r, s') ∧ Inv s' ∧ Step s.arena s'.arena ∧ s'.arena.Live r ∧
    s'.arena.rank r ≤ k ∧ ∀ a v, Lab s'.arena r a (some v) ↔ P a v

theorem Ok.mono {s : Zmdd} {k k' : Nat} {P Q : (Nat → Nat) → Int → Prop} {res : Option (Nat × Zmdd)}
    (h : Ok s k P res) (hk : k ≤ k') (hq : ∀ a v, P a v ↔ Q a v) : Ok s k' Q res := by
  obtain ⟨r, s', h1, h2, h3, h4, h5, h6⟩ := h
  exact ⟨r, s', h1, h2, h3, h4, by omega, fun a v => (h6 a v).trans (hq a v)⟩

theorem Ok.ret {s : Zmdd} (hs : Inv s) {k r : Nat} (hl : s.arena.Live r) (hr : s.arena.rank r ≤ k) :
    Ok s k (fun a v => Lab s.arena r a (some v)) (some (r, s)) :=
  ⟨r, s, rfl, hs, Step.refl _, hl, hr, fun _ _ => Iff.rfl⟩

theorem fixed {s : Zmdd} (hs : Inv s) :
    s.arena.Live undet ∧ s.arena.nodes[undet]? = some (.term none) :=
  hs.wf.fixed_live (t := none) rfl

/-- The empty family as outcome. -/
theorem undet_ok {s : Zmdd} (hs : Inv s) {k : Nat} : Ok s k (fun _ _ => False) (some (undet, s)) := by
  obtain ⟨h1, h2⟩ := fixed hs
  refine (Ok.ret hs h1 ?_).mono (Nat.le_refl _) ?_
  · rw [rank_term h2]; omega
  · intro a v
    rw [lab_term_iff h2]
    simp

/-- `value(v)`: structural description. -/
theorem value_raw {s : Zmdd} (hs : Inv s) (v : Int) :
    ∃ r s', s.value v = some (r, s') ∧ Inv s' ∧ Step s.arena s'.arena ∧ s'.arena.Live r ∧
      s'.arena.nodes[r]? = some (.term (some v)) ∧ (s.arena.Live r → s' = s) := by
  obtain ⟨i, m', h1, h2, h3, h4, h5, h6⟩ := mkNode_spec hs.wf (k := .term (some v)) rfl
  refine ⟨i, { s with arena := m' }, by simp only [value, h1], hs.ext h2 h3.toExt, h3, h4, h5, ?_⟩
  intro hl
  rw [h6 hl]

/-- A value terminal as outcome: the zero vector with label `v`. -/
theorem value_ok {s : Zmdd} (hs : Inv s) (v : Int) {k : Nat} :
    Ok s k (fun a w => a = (fun _ => 0) ∧ w = v) (s.value v) := by
  obtain ⟨r, s', h1, h2, h3, h4, h5, -⟩ := value_raw hs v
  refine ⟨r, s', h1, h2, h3, h4, ?_, ?_⟩
  · rw [rank_term h5]; omega
  · intro a w
    rw [lab_term_iff h5]
    simp

/-- `create_node` on legal arguments: the labelled members, in terms of the state before. -/
theorem createNode_ok {s : Zmdd} (hs : Inv s) {h : Nat} {ch : List Nat} {hd : Header}
    (hh : s.arena.headers[h]? = some hd) (hl : ch.length = hd.edgeNum)
    (hk : ∀ c ∈ ch, s.arena.Live c ∧ s.arena.rank c ≤ hd.level) :
    Ok s (hd.level + 1)
      (fun a v => ∃ c, ch[a hd.level]? = some c ∧ Lab s.arena c (upd a hd.level 0) (some v))
      (s.createNode h ch) := by
  have hne : ch ≠ [] := by
    rintro rfl
    have := hs.wf.pos hd (List.mem_of_getElem? hh)
    simp at hl
    omega
  obtain ⟨r, m', h1, h2, h3, h4, h5, h6⟩ := createZ_spec hs.wf (d := none) rfl hh hl hk
  refine ⟨r, { s with arena := m' }, ?_, hs.ext h2 h3.toExt, h3, h4, h5, ?_⟩
  · simp only [createNode, hne, if_false, h1]
  · intro a v
    show Lab m' r a (some v) ↔ _
    rw [h6 a (some v) (by simp)]
    constructor
    · rintro ⟨c, hc, he⟩
      exact ⟨c, hc, (hs.wf.lab_ext h3.toExt (hk c (List.mem_of_getElem? hc)).1).1 he⟩
    · rintro ⟨c, hc, he⟩
      exact ⟨c, hc, (hs.wf.lab_ext h3.toExt (hk c (List.mem_of_getElem? hc)).1).2 he⟩

/-- Recursing on a list of cofactors. -/
theorem branch_ok {α : Type} {rec : Zmdd → α → Option (Nat × Zmdd)} {s : Zmdd} (hs : Inv s)
    {h : Nat} {hd : Header} (hh : s.arena.headers[h]? = some hd) {args : List α}
    (hlen : args.length = hd.edgeNum) {Φ : α → (Nat → Nat) → Int → Prop}
    (ih : ∀ s1 x, Inv s1 → Step s.arena s1.arena → x ∈ args → Ok s1 hd.level (Φ x) (rec s1 x)) :
    Ok s (hd.level + 1) (fun a v => ∃ x, args[a hd.level]? = some x ∧ Φ x (upd a hd.level 0) v)
      (branchS createNode rec s h args) := by
  obtain ⟨rs, s1, h1, h2, h3, h4, h5⟩ := mapS_spec (f := rec) (Inv := Inv)
    (P := fun a b => Step a.arena b.arena) (fun _ => Step.refl _) (fun _ _ _ h h' => h.trans h')
    (Q := fun s x r => s.arena.Live r ∧ s.arena.rank r ≤ hd.level ∧
      ∀ a v, Lab s.arena r a (some v) ↔ Φ x a v)
    (by
      rintro s s' x r hi e ⟨q1, q2, q3⟩
      refine ⟨(e.keep r q1).1, by rw [hi.wf.rank_ext e.toExt q1]; exact q2, ?_⟩
      intro a v
      rw [hi.wf.lab_ext e.toExt q1]
      exact q3 a v)
    args s hs
    (by
      intro s1 x i1 p1 hx
      obtain ⟨r, s2, g1, g2, g3, g4, g5, g6⟩ := ih s1 x i1 p1 hx
      exact ⟨r, s2, g1, g2, g3, g4, g5, g6⟩)
  have hh1 : s1.arena.headers[h]? = some hd := h3.hdr _ _ hh
  have arg : ∀ (j : Nat) c, rs[j]? = some c → ∃ x, args[j]? = some x := by
    intro j c hj
    have hjl : j < args.length := by rw [← h4]; exact (List.getElem?_eq_some_iff.1 hj).1
    exact ⟨_, List.getElem?_eq_getElem hjl⟩
  have hkids : ∀ c ∈ rs, s1.arena.Live c ∧ s1.arena.rank c ≤ hd.level := by
    intro c hc
    obtain ⟨j, hj⟩ := List.mem_iff_getElem?.1 hc
    obtain ⟨x, hx⟩ := arg j c hj
    have := h5 j x c hx hj
    exact ⟨this.1, this.2.1⟩
  obtain ⟨r, s2, g1, g2, g3, g4, g5, g6⟩ := createNode_ok h2 hh1 (by rw [h4, hlen]) hkids
  refine ⟨r, s2, ?_, g2, h3.trans g3, g4, g5, ?_⟩
  · simp [branchS, h1, g1]
  · intro a v
    rw [g6]
    constructor
    · rintro ⟨c, hc, he⟩
      obtain ⟨x, hx⟩ := arg _ c hc
      exact ⟨x, hx, ((h5 _ x c hx hc).2.2 _ v).1 he⟩
    · rintro ⟨x, hx, he⟩
      have hjl : a hd.level < rs.length := by rw [h4]; exact (List.getElem?_eq_some_iff.1 hx).1
      have hc := List.getElem?_eq_getElem hjl
      exact ⟨_, hc, ((h5 _ x _ hx hc).2.2 _ v).2 he⟩

/-- Reading a non-terminal where its own level has state 0. -/
theorem lab_first {s : Zmdd} (hs : Inv s) {f h c : Nat} {cs : List Nat} {hd : Header} {a : Nat → Nat}
    {z : Option Int} (lf : s.arena.Live f) (hf : s.arena.nodes[f]? = some (.nt h (c :: cs)))
    (hh : s.arena.headers[h]? = some hd) (ha : a hd.level = 0) :
    Lab s.arena f a z ↔ Lab s.arena c a z := by
  rw [hs.wf.lab_nt_iff lf hf hh, ha, upd_id ha]
  simp

/-- A live non-terminal has a first child. -/
theorem first_kid {s : Zmdd} (hs : Inv s) {f h : Nat} {ch : List Nat} (lf : s.arena.Live f)
    (hf : s.arena.nodes[f]? = some (.nt h ch)) : ∃ c cs, ch = c :: cs := by
  obtain ⟨hd, hh, hl, _⟩ := hs.wf.nt lf hf
  have := hs.wf.pos hd (List.mem_of_getElem? hh)
  cases ch with
  | nil => simp at hl; omega
  | cons c cs => exact ⟨c, cs, rfl⟩

/-- Rewriting the 0-edge. -/
theorem onFirst_ok {rec : Zmdd → Nat → Option (Nat × Zmdd)} {s : Zmdd} (hs : Inv s)
    {f h : Nat} {ch : List Nat} {hd : Header} (lf : s.arena.Live f)
    (hf : s.arena.nodes[f]? = some (.nt h ch)) (hh : s.arena.headers[h]? = some hd)
    {P : (Nat → Nat) → Int → Prop}
    (ih : ∀ c, ch.head? = some c → Ok s hd.level P (rec s c)) :
    Ok s (hd.level + 1) (fun a v => (a hd.level = 0 ∧ P a v) ∨
      (a hd.level ≠ 0 ∧ Lab s.arena f a (some v))) (onFirst rec s h ch) := by
  obtain ⟨hd', hh', hl, hr, _, hpos, hk⟩ := hs.wf.nt lf hf
  rw [hh] at hh'; cases hh'
  obtain ⟨c, cs, rfl⟩ := first_kid hs lf hf
  obtain ⟨r, s1, h1, h2, h3, h4, h5, h6⟩ := ih c rfl
  obtain ⟨r', s2, g1, g2, g3, g4, g5, g6⟩ := createNode_ok h2 (h3.hdr _ _ hh) (ch := r :: cs)
    (by simpa using hl) (by
      intro x hx
      rcases List.mem_cons.1 hx with rfl | hx
      · exact ⟨h4, h5⟩
      · have := hk x (List.mem_cons_of_mem _ hx)
        exact ⟨(h3.keep _ this.1).1, by rw [hs.wf.rank_ext h3.toExt this.1]; exact this.2⟩)
  refine ⟨r', s2, by simp only [onFirst, h1, g1], g2, h3.trans g3, g4, g5, ?_⟩
  intro a v
  rw [g6]
  show (∃ c, (r :: cs)[a hd.level]? = some c ∧ Lab s1.arena c (upd a hd.level 0) (some v)) ↔
    ((a hd.level = 0 ∧ P a v) ∨ (a hd.level ≠ 0 ∧ Lab s.arena f a (some v)))
  rw [hs.wf.lab_nt_iff lf hf hh]
  by_cases hz : a hd.level = 0
  · rw [upd_id hz]
    simp [hz, h6]
  · obtain ⟨j, hj⟩ := Nat.exists_eq_succ_of_ne_zero hz
    simp only [hz, false_and, false_or, ne_eq, not_false_eq_true, true_and]
    rw [hj]
    simp only [Nat.succ_eq_add_one, List.getElem?_cons_succ]
    constructor
    · rintro ⟨x, hx, he⟩
      exact ⟨x, hx, (hs.wf.lab_ext h3.toExt
        (hk x (List.mem_cons_of_mem _ (List.mem_of_getElem? hx))).1).1 he⟩
    · rintro ⟨x, hx, he⟩
      exact ⟨x, hx, (hs.wf.lab_ext h3.toExt
        (hk x (List.mem_cons_of_mem _ (List.mem_of_getElem? hx))).1).2 he⟩

theorem cachePut_inv {s : Zmdd} (hs : Inv s) {op f g r : Nat} (h : Good s.arena op f g r) :
    Inv (cachePut op f g s r) :=
  { wf := hs.wf, cache := hs.cache.put h.lr.1 h }

/-- Memoisation with key `(op, f, g)`. -/
theorem memo_ok {s : Zmdd} (hs : Inv s) {op f g : Nat} {body : Zmdd → Option (Nat × Zmdd)}
    (lf : s.arena.Live f) (lg : s.arena.Live g)
    (hb : Ok s (Max.max (s.arena.rank f) (s.arena.rank g)) (Req s.arena op f g) (body s)) :
    Ok s (Max.max (s.arena.rank f) (s.arena.rank g)) (Req s.arena op f g)
      (memo (cacheGet op f g) (cachePut op f g) body s) := by
  unfold memo
  cases hg : cacheGet op f g s with
  | some x =>
    have := hs.cache.good _ _ _ _ hg
    exact (Ok.ret hs this.lr this.rk).mono (Nat.le_refl _) this.snd
  | none =>
    obtain ⟨r, s', h1, h2, h3, h4, h5, h6⟩ := hb
    simp only [h1]
    refine ⟨r, _, rfl, cachePut_inv h2 ⟨(h3.keep _ lf).1, (h3.keep _ lg).1, h4, ?_, ?_⟩, h3, h4, h5, h6⟩
    · rw [hs.wf.rank_ext h3.toExt lf, hs.wf.rank_ext h3.toExt lg]; exact h5
    · intro a v
      rw [h6 a v, Req.ext hs.wf h3.toExt lf lg]

/-- Specification of the recursive calls below rank sum `n`. -/
def Rec2 (op : Nat) (rec : Zmdd → Nat × Nat → Option (Nat × Zmdd)) (n : Nat) : Prop :=
  ∀ s f g, Inv s → s.arena.Live f → s.arena.Live g → Max.max (s.arena.rank f) (s.arena.rank g) < n →
    Ok s (Max.max (s.arena.rank f) (s.arena.rank g)) (Req s.arena op f g) (rec s (f, g))

/-- The equal-level arm. -/
theorem zip_ok {op : Nat} {rec : Zmdd → Nat × Nat → Option (Nat × Zmdd)} {n : Nat}
    (ih : Rec2 op rec n) {s : Zmdd} (hs : Inv s) {f g hf hg : Nat} {cf cg : List Nat} {hdf hdg : Header}
    (lf : s.arena.Live f) (lg : s.arena.Live g) (nf : s.arena.nodes[f]? = some (.nt hf cf))
    (ng : s.arena.nodes[g]? = some (.nt hg cg)) (hhf : s.arena.headers[hf]? = some hdf)
    (hhg : s.arena.headers[hg]? = some hdg) (hlev : hdf.level = hdg.level)
    (hn : Max.max (s.arena.rank f) (s.arena.rank g) ≤ n) :
    Ok s (Max.max (s.arena.rank f) (s.arena.rank g)) (Req s.arena op f g)
      (branchS createNode rec s hf (cf.zip cg)) := by
  obtain ⟨hd, hh, l1, r1, _, _, k1⟩ := hs.wf.nt lf nf
  rw [hhf] at hh; cases hh
  obtain ⟨hd, hh, l2, r2, _, _, k2⟩ := hs.wf.nt lg ng
  rw [hhg] at hh; cases hh
  have har : hdf.edgeNum = hdg.edgeNum := hs.wf.arity _ (List.mem_of_getElem? hhf) _
    (List.mem_of_getElem? hhg) hlev
  have hlen : (cf.zip cg).length = hdf.edgeNum := by rw [List.length_zip]; omega
  refine (branch_ok hs hhf hlen (Φ := fun p a v => Req s.arena op p.1 p.2 a v) ?_).mono (by omega) ?_
  · rintro s1 ⟨x, y⟩ i1 st hm
    obtain ⟨j, hj⟩ := List.mem_iff_getElem?.1 hm
    rw [List.getElem?_zip_eq_some] at hj
    obtain ⟨a1, a2⟩ := k1 x (List.mem_of_getElem? hj.1)
    obtain ⟨b1, b2⟩ := k2 y (List.mem_of_getElem? hj.2)
    have e1 := hs.wf.rank_ext st.toExt a1
    have e2 := hs.wf.rank_ext st.toExt b1
    have := ih s1 x y i1 (st.keep _ a1).1 (st.keep _ b1).1 (by omega)
    exact this.mono (by omega) (fun a v => Req.ext hs.wf st.toExt a1 b1)
  · intro a v
    unfold Req
    rw [conn_congr (hs.wf.lab_nt_iff lf nf hhf) (hs.wf.lab_nt_iff lg ng hhg), ← hlev]
    by_cases hj : a hdf.level < hdf.edgeNum
    · have e1 : cf[a hdf.level]? = some (cf[a hdf.level]'(by omega)) := List.getElem?_eq_getElem _
      have e2 : cg[a hdf.level]? = some (cg[a hdf.level]'(by omega)) := List.getElem?_eq_getElem _
      generalize cf[a hdf.level]'(by omega) = x at e1
      generalize cg[a hdf.level]'(by omega) = y at e2
      have e3 : (cf.zip cg)[a hdf.level]? = some (x, y) := by
        rw [List.getElem?_zip_eq_some]; exact ⟨e1, e2⟩
      rw [e1, e2, e3]
      simp
    · have e1 : cf[a hdf.level]? = none := List.getElem?_eq_none (by omega)
      have e2 : cg[a hdf.level]? = none := List.getElem?_eq_none (by omega)
      have e3 : (cf.zip cg)[a hdf.level]? = none := List.getElem?_eq_none (by omega)
      rw [e1, e2, e3]
      unfold conn
      split <;> simp

/-- The second operand alone has the top variable: descend its 0-edge. -/
theorem right_ok {op : Nat} {rec : Zmdd → Nat × Nat → Option (Nat × Zmdd)} {n : Nat}
    (ih : Rec2 op rec n) {s : Zmdd} (hs : Inv s) {f g hg : Nat} {cg : List Nat}
    (lf : s.arena.Live f) (lg : s.arena.Live g) (ng : s.arena.nodes[g]? = some (.nt hg cg))
    (hlt : s.arena.rank f < s.arena.rank g) (hn : Max.max (s.arena.rank f) (s.arena.rank g) ≤ n) :
    Ok s (Max.max (s.arena.rank f) (s.arena.rank g)) (Req s.arena op f g)
      (first (fun s c => rec s (f, c)) s cg) := by
  obtain ⟨hd, hh, l2, r2, _, _, k2⟩ := hs.wf.nt lg ng
  obtain ⟨c, cs, rfl⟩ := first_kid hs lg ng
  obtain ⟨b1, b2⟩ := k2 c List.mem_cons_self
  refine (ih s f c hs lf b1 (by omega)).mono (by omega) ?_
  intro a v
  have key : Lab s.arena f a (some v) → (Lab s.arena g a (some v) ↔ Lab s.arena c a (some v)) :=
    fun h => lab_first hs lg ng hh (hs.wf.lab_supp h lf _ (by omega))
  unfold Req conn
  split
  · constructor
    · rintro ⟨p, q⟩; exact ⟨p, (key p).2 q⟩
    · rintro ⟨p, q⟩; exact ⟨p, (key p).1 q⟩
  · constructor
    · rintro ⟨p, q⟩; exact ⟨p, fun h => q ((key p).1 h)⟩
    · rintro ⟨p, q⟩; exact ⟨p, fun h => q ((key p).2 h)⟩

/-- Intersection when the first operand alone has the top variable. -/
theorem left_int_ok {rec : Zmdd → Nat × Nat → Option (Nat × Zmdd)} {n : Nat}
    (ih : Rec2 opIntersect rec n) {s : Zmdd} (hs : Inv s) {f g hf : Nat} {cf : List Nat}
    (lf : s.arena.Live f) (lg : s.arena.Live g) (nf : s.arena.nodes[f]? = some (.nt hf cf))
    (hlt : s.arena.rank g < s.arena.rank f) (hn : Max.max (s.arena.rank f) (s.arena.rank g) ≤ n) :
    Ok s (Max.max (s.arena.rank f) (s.arena.rank g)) (Req s.arena opIntersect f g)
      (first (fun s c => rec s (c, g)) s cf) := by
  obtain ⟨hd, hh, l2, r2, _, _, k2⟩ := hs.wf.nt lf nf
  obtain ⟨c, cs, rfl⟩ := first_kid hs lf nf
  obtain ⟨b1, b2⟩ := k2 c List.mem_cons_self
  refine (ih s c g hs b1 lg (by omega)).mono (by omega) ?_
  intro a v
  have key : Lab s.arena g a (some v) → (Lab s.arena f a (some v) ↔ Lab s.arena c a (some v)) :=
    fun h => lab_first hs lf nf hh (hs.wf.lab_supp h lg _ (by omega))
  unfold Req
  rw [conn_int, conn_int]
  constructor
  · rintro ⟨p, q⟩; exact ⟨(key q).2 p, q⟩
  · rintro ⟨p, q⟩; exact ⟨(key q).1 p, q⟩

/-- Difference when the first operand alone has the top variable. -/
theorem left_diff_ok {rec : Zmdd → Nat × Nat → Option (Nat × Zmdd)} {n : Nat}
    (ih : Rec2 opSetdiff rec n) {s : Zmdd} (hs : Inv s) {f g hf : Nat} {cf : List Nat}
    (lf : s.arena.Live f) (lg : s.arena.Live g) (nf : s.arena.nodes[f]? = some (.nt hf cf))
    (hlt : s.arena.rank g < s.arena.rank f) (hn : Max.max (s.arena.rank f) (s.arena.rank g) ≤ n) :
    Ok s (Max.max (s.arena.rank f) (s.arena.rank g)) (Req s.arena opSetdiff f g)
      (onFirst (fun s c => rec s (c, g)) s hf cf) := by
  obtain ⟨hd, hh, l2, r2, _, _, k2⟩ := hs.wf.nt lf nf
  obtain ⟨c, cs, rfl⟩ := first_kid hs lf nf
  obtain ⟨b1, b2⟩ := k2 c List.mem_cons_self
  refine (onFirst_ok (P := Req s.arena opSetdiff c g) hs lf nf hh ?_).mono (by omega) ?_
  · intro c' hc'
    simp only [List.head?_cons, Option.some.injEq] at hc'
    subst hc'
    exact (ih s c g hs b1 lg (by omega)).mono (by omega) (fun _ _ => Iff.rfl)
  · intro a v
    unfold Req
    rw [conn_diff, conn_diff]
    by_cases ha : a hd.level = 0
    · rw [lab_first hs lf nf hh ha]
      simp [ha]
    · have : ¬ Lab s.arena g a (some v) := fun h => ha (hs.wf.lab_supp h lg _ (by omega))
      simp [ha, this]

theorem rank_pos_of_nt {s : Zmdd} (hs : Inv s) {f h : Nat} {ch : List Nat} (lf : s.arena.Live f)
    (hf : s.arena.nodes[f]? = some (.nt h ch)) : 0 < s.arena.rank f := by
  obtain ⟨hd, _, _, hr, _⟩ := hs.wf.nt lf hf
  omega

theorem intersectF_ok : ∀ n, Rec2 opIntersect (intersectF n) n := by
  intro n
  induction n with
  | zero => intro s f g _ _ _ h; omega
  | succ n ih =>
    intro s f0 g0 hs lf0 lg0 hr0
    have main : ∀ f g, s.arena.Live f → s.arena.Live g →
        Max.max (s.arena.rank f) (s.arena.rank g) = Max.max (s.arena.rank f0) (s.arena.rank g0) →
        f = Min.min f0 g0 → g = Max.max f0 g0 →
        Ok s (Max.max (s.arena.rank f) (s.arena.rank g)) (Req s.arena opIntersect f g)
          (intersectF (n + 1) s (f0, g0)) := by
      intro f g lf lg hrk ef eg
      unfold intersectF
      simp only
      rw [← ef, ← eg]
      refine memo_ok hs lf lg ?_
      obtain ⟨nf, hf⟩ := lf.node
      obtain ⟨ng, hg⟩ := lg.node
      simp only [node?, hf, hg]
      have hN : Max.max (s.arena.rank f) (s.arena.rank g) ≤ n := by omega
      have dead1 : nf = .term none → ∀ a v, False ↔ Req s.arena opIntersect f g a v := by
        rintro rfl a v
        unfold Req
        rw [conn_int, lab_term_iff hf]
        simp
      have dead2 : ng = .term none → ∀ a v, False ↔ Req s.arena opIntersect f g a v := by
        rintro rfl a v
        unfold Req
        rw [conn_int, lab_term_iff hg]
        simp
      cases nf with
      | term t =>
        cases t with
        | none => exact (undet_ok hs).mono (Nat.le_refl _) (dead1 rfl)
        | some u =>
          cases ng with
          | term t' =>
            cases t' with
            | none => exact (undet_ok hs).mono (Nat.le_refl _) (dead2 rfl)
            | some w =>
              simp only
              by_cases huw : u = w
              · rw [if_pos huw]
                refine (value_ok hs u).mono (Nat.le_refl _) ?_
                intro a v
                unfold Req
                rw [conn_int, lab_term_iff hf, lab_term_iff hg, huw]
                simp
              · rw [if_neg huw]
                refine (undet_ok hs).mono (Nat.le_refl _) ?_
                intro a v
                unfold Req
                rw [conn_int, lab_term_iff hf, lab_term_iff hg]
                simp only [Option.some.injEq]
                constructor
                · exact False.elim
                · rintro ⟨⟨_, h1⟩, _, h2⟩
                  exact huw (h1.symm.trans h2)
          | nt hg' cg =>
            have := rank_pos_of_nt hs lg hg
            exact right_ok ih hs lf lg hg (by rw [rank_term hf]; omega) hN
      | nt hf' cf =>
        cases ng with
        | term t' =>
          cases t' with
          | none => exact (undet_ok hs).mono (Nat.le_refl _) (dead2 rfl)
          | some w =>
            have := rank_pos_of_nt hs lf hf
            exact left_int_ok ih hs lf lg hf (by rw [rank_term hg]; omega) hN
        | nt hg' cg =>
          obtain ⟨hdf, hhf, _, r1, e1, _⟩ := hs.wf.nt lf hf
          obtain ⟨hdg, hhg, _, r2, e2, _⟩ := hs.wf.nt lg hg
          simp only [intersectNN, e1, e2]
          by_cases c1 : hdf.level > hdg.level
          · rw [if_pos c1]
            exact left_int_ok ih hs lf lg hf (by omega) hN
          · rw [if_neg c1]
            by_cases c2 : hdf.level < hdg.level
            · rw [if_pos c2]
              exact right_ok ih hs lf lg hg (by omega) hN
            · rw [if_neg c2]
              exact zip_ok ih hs lf lg hf hg hhf hhg (by omega) hN
    by_cases hle : f0 ≤ g0
    · exact main f0 g0 lf0 lg0 rfl (Nat.min_eq_left hle).symm (Nat.max_eq_right hle).symm
    · refine (main g0 f0 lg0 lf0 (Nat.max_comm _ _) (Nat.min_eq_right (by omega)).symm
        (Nat.max_eq_left (by omega)).symm).mono (by omega) ?_
      intro a v
      unfold Req
      rw [conn_int, conn_int]
      exact And.comm

/-- `intersect` on live operands. -/
theorem intersect_ok {s : Zmdd} (hs : Inv s) {f g : Nat} (lf : s.arena.Live f) (lg : s.arena.Live g) :
    Ok s (Max.max (s.arena.rank f) (s.arena.rank g))
      (fun a v => Lab s.arena f a (some v) ∧ Lab s.arena g a (some v)) (s.intersect f g) :=
  (intersectF_ok _ s f g hs lf lg (Nat.lt_succ_self _)).mono (Nat.le_refl _)
    (fun _ _ => conn_int _ _)

theorem setdiffF_ok : ∀ n, Rec2 opSetdiff (setdiffF n) n := by
  intro n
  induction n with
  | zero => intro s f g _ _ _ h; omega
  | succ n ih =>
    intro s f g hs lf lg hr0
    unfold setdiffF
    refine memo_ok hs lf lg ?_
    obtain ⟨nf, hf⟩ := lf.node
    obtain ⟨ng, hg⟩ := lg.node
    simp only [node?, hf, hg]
    have hN : Max.max (s.arena.rank f) (s.arena.rank g) ≤ n := by omega
    have keep : ng = .term none → Ok s (Max.max (s.arena.rank f) (s.arena.rank g))
        (Req s.arena opSetdiff f g) (some (f, s)) := by
      rintro rfl
      refine (Ok.ret hs lf (Nat.le_max_left _ _)).mono (Nat.le_refl _) ?_
      intro a v
      unfold Req
      rw [conn_diff, lab_term_iff hg]
      simp
    cases nf with
    | term t =>
      cases t with
      | none =>
        refine (undet_ok hs).mono (Nat.le_refl _) ?_
        intro a v
        unfold Req
        rw [conn_diff, lab_term_iff hf]
        simp
      | some u =>
        cases ng with
        | term t' =>
          cases t' with
          | none => exact keep rfl
          | some w =>
            simp only
            by_cases huw : u ≠ w
            · rw [if_pos huw]
              refine (value_ok hs u).mono (Nat.le_refl _) ?_
              intro a v
              unfold Req
              rw [conn_diff, lab_term_iff hf, lab_term_iff hg]
              simp only [Option.some.injEq]
              constructor
              · rintro ⟨h1, h2⟩; exact ⟨⟨h1, h2⟩, fun q => huw (h2.symm.trans q.2)⟩
              · exact fun q => q.1
            · rw [if_neg huw]
              have huw : u = w := Classical.not_not.1 huw
              refine (undet_ok hs).mono (Nat.le_refl _) ?_
              intro a v
              unfold Req
              rw [conn_diff, lab_term_iff hf, lab_term_iff hg, huw]
              simp
        | nt hg' cg =>
          have := rank_pos_of_nt hs lg hg
          exact right_ok ih hs lf lg hg (by rw [rank_term hf]; omega) hN
    | nt hf' cf =>
      cases ng with
      | term t' =>
        cases t' with
        | none => exact keep rfl
        | some w =>
          have := rank_pos_of_nt hs lf hf
          exact left_diff_ok ih hs lf lg hf (by rw [rank_term hg]; omega) hN
      | nt hg' cg =>
        obtain ⟨hdf, hhf, _, r1, e1, _⟩ := hs.wf.nt lf hf
        obtain ⟨hdg, hhg, _, r2, e2, _⟩ := hs.wf.nt lg hg
        simp only [setdiffNN, e1, e2]
        by_cases c1 : hdf.level > hdg.level
        · rw [if_pos c1]
          exact left_diff_ok ih hs lf lg hf (by omega) hN
        · rw [if_neg c1]
          by_cases c2 : hdf.level < hdg.level
          · rw [if_pos c2]
            exact right_ok ih hs lf lg hg (by omega) hN
          · rw [if_neg c2]
            exact zip_ok ih hs lf lg hf hg hhf hhg (by omega) hN

/-- `setdiff` on live operands. -/
theorem setdiff_ok {s : Zmdd} (hs : Inv s) {f g : Nat} (lf : s.arena.Live f) (lg : s.arena.Live g) :
    Ok s (Max.max (s.arena.rank f) (s.arena.rank g))
      (fun a v => Lab s.arena f a (some v) ∧ ¬ Lab s.arena g a (some v)) (s.setdiff f g) :=
  (setdiffF_ok _ s f g hs lf lg (Nat.lt_succ_self _)).mono (Nat.le_refl _)
    (fun _ _ => conn_diff _ _)

/-- Members after `set_baseline(f, v)`. -/
def Based (m : Arena (Option Int)) (f : Nat) (v : Int) (a : Nat → Nat) (w : Int) : Prop :=
  Lab m f a (some w) ∨ (a = (fun _ => 0) ∧ w = v ∧ ∀ u, ¬ Lab m f (fun _ => 0) (some u))

theorem setBaselineF_ok (v : Int) : ∀ n s f, Inv s → s.arena.Live f → s.arena.rank f < n →
    Ok s (s.arena.rank f) (Based s.arena f v) (setBaselineF v n s f) := by
  intro n
  induction n with
  | zero => intro s f _ _ h; omega
  | succ n ih =>
    intro s f hs lf hr
    unfold setBaselineF
    obtain ⟨nf, hf⟩ := lf.node
    simp only [node?, hf]
    cases nf with
    | term t =>
      cases t with
      | none =>
        refine (value_ok hs v).mono (Nat.le_refl _) ?_
        intro a w
        unfold Based
        simp [lab_term_iff hf]
      | some u =>
        refine (Ok.ret hs lf (Nat.le_refl _)).mono (Nat.le_refl _) ?_
        intro a w
        unfold Based
        simp only [lab_term_iff hf, Option.some.injEq, true_and]
        constructor
        · exact Or.inl
        · rintro (h | ⟨_, _, h⟩)
          · exact h
          · exact absurd rfl (h u)
    | nt h ch =>
      obtain ⟨hd, hh, hl, hrk, _, hpos, hk⟩ := hs.wf.nt lf hf
      obtain ⟨c, cs, rfl⟩ := first_kid hs lf hf
      obtain ⟨b1, b2⟩ := hk c List.mem_cons_self
      refine (onFirst_ok (P := Based s.arena c v) hs lf hf hh ?_).mono (by omega) ?_
      · intro c' hc'
        simp only [List.head?_cons, Option.some.injEq] at hc'
        subst hc'
        exact (ih s c hs b1 (by omega)).mono b2 (fun _ _ => Iff.rfl)
      · intro a w
        unfold Based
        have hz : ∀ u, Lab s.arena f (fun _ => 0) (some u) ↔ Lab s.arena c (fun _ => 0) (some u) :=
          fun u => lab_first hs lf hf hh rfl
        simp only [hz]
        by_cases ha : a hd.level = 0
        · rw [lab_first hs lf hf hh ha]
          simp [ha]
        · have : a ≠ fun _ => 0 := fun e => ha (by rw [e])
          simp [ha, this]

/-- `set_baseline` on a live node. -/
theorem setBaseline_ok {s : Zmdd} (hs : Inv s) {f : Nat} (lf : s.arena.Live f) (v : Int) :
    Ok s (s.arena.rank f) (Based s.arena f v) (s.setBaseline f v) :=
  setBaselineF_ok v _ s f hs lf (Nat.lt_succ_self _)

theorem inv_new : Inv Zmdd.new where
  wf := by
    refine
      { free_lt := by simp [Zmdd.new]
        free_nodup := by simp [Zmdd.new]
        ut_nodup := AMap.nodup_empty
        ut_fixed := by intro t i _; rfl
        find_iff := ?_
        hdr := ?_
        kid := ?_
        red := ?_
        arity := by simp [Zmdd.new]
        pos := by simp [Zmdd.new] }
    · intro k i
      cases k with
      | nt h ch =>
        simp only [find, Zmdd.new, AMap.get_empty, Live]
        constructor
        · intro h; cases h
        · rintro ⟨⟨h1, _⟩, h2⟩
          match i, h1 with
          | 0, _ => simp at h2
      | term t =>
        cases t with
        | none =>
          simp only [find, Zmdd.new, Live, fix, Option.some_or]
          constructor
          · intro h
            cases h
            simp
          · rintro ⟨⟨h1, _⟩, h2⟩
            match i, h1 with
            | 0, _ => rfl
        | some v =>
          simp only [find, Zmdd.new, Live, fix, Option.none_or, AMap.get_empty]
          constructor
          · intro h; cases h
          · rintro ⟨⟨h1, _⟩, h2⟩
            match i, h1 with
            | 0, _ => simp at h2
    all_goals
      rintro i h ch ⟨h1, _⟩ h2
      match i, h1 with
      | 0, _ => simp [Zmdd.new] at h2
  cache := CacheOK.new _ _

/-- `create_header` with a legal edge count. -/
theorem createHeader_inv {s : Zmdd} (hs : Inv s) (l : Nat) (lab : String) (e : Nat) (he : 0 < e)
    (hc : ∀ hd ∈ s.arena.headers, hd.level = l → hd.edgeNum = e) :
    Inv (s.createHeader l lab e).2 ∧ Ext s.arena (s.createHeader l lab e).2.arena ∧
      (s.createHeader l lab e).2.arena.headers[(s.createHeader l lab e).1]? = some ⟨l, lab, e⟩ ∧
      (s.createHeader l lab e).2.arena.headers = s.arena.headers ++ [⟨l, lab, e⟩] ∧
      (s.createHeader l lab e).2.arena.nodes = s.arena.nodes ∧
      (∀ i, (s.createHeader l lab e).2.arena.Live i ↔ s.arena.Live i) := by
  obtain ⟨h1, h2, h3, h4, h5⟩ := createHeader_spec hs.wf l lab e he hc
  exact ⟨hs.ext h1 h2, h2, h3, rfl, h5, h4⟩

theorem clearCache_inv {s : Zmdd} (hs : Inv s) : Inv s.clearCache where
  wf := hs.wf
  cache := hs.cache.clear

/-- Collection keeps the invariant; survivors are what is reachable. -/
theorem gc_ok {s : Zmdd} (hs : Inv s) {roots : List Nat}
    (hr : ∀ r ∈ roots, r < s.arena.nodes.length → s.arena.Live r) :
    ∃ n s', s.gc roots = some (n, s') ∧ Inv s' ∧ s'.arena.headers = s.arena.headers ∧
      s'.arena.nodes = s.arena.nodes ∧ (∀ i, s'.arena.Live i ↔ s.arena.Survives roots i) ∧
      Step s'.arena s.arena ∧ n = s'.arena.free.length ∧
      (∀ op f g r, s'.cache.get op f g = some r ↔ s.cache.get op f g = some r ∧
        s'.arena.Live f ∧ s'.arena.Live g ∧ s'.arena.Live r) := by
  obtain ⟨l, m', h1, h2, h3, h4, h5, h6, h7, h8⟩ := gcA_spec hs.wf hr
  have hl : ∀ i, l[i]? = some true ↔ m'.Live i := fun i => (h6 i).trans (h7 i).symm
  have hrank : ∀ i, m'.rank i = s.arena.rank i := by
    intro i; simp [rank, level?, h3, h4]
  obtain ⟨c, hc1, hc2⟩ := (hs.cache.mono (N' := m'.nodes.length) (Nat.le_of_eq (by rw [h4])) fun _ _ _ _ g => g).retainBy (Good' := Good m')
    (ids := fun s => [s.k1, s.k2, s.val]) (live := l)
    (by
      intro k0 k1 k2 v g i hi
      rw [h5]
      simp at hi
      rcases hi with rfl | rfl | rfl
      · exact g.lf.1
      · exact g.lg.1
      · exact g.lr.1)
    (by
      intro k0 k1 k2 v g hi
      have a1 := (hl k1).1 (hi k1 (by simp))
      have a2 := (hl k2).1 (hi k2 (by simp))
      have a3 := (hl v).1 (hi v (by simp))
      refine ⟨a1, a2, a3, by rw [hrank, hrank, hrank]; exact g.rk, ?_⟩
      intro a v
      have := g.snd a v
      rwa [h2.lab_ext h8.toExt a3, Req.ext h2 h8.toExt a1 a2] at this)
  refine ⟨m'.free.length, ⟨m', c⟩, ?_, ⟨h2, hc2⟩, h3, h4, h7, h8, rfl, ?_⟩
  · unfold gc
    simp only [h1]
    rw [show s.cache.retainLive l = some c from hc1]
  · intro op f g r
    rw [get_retainBy hc1]
    simp [hl]

end Zmdd
end DD
