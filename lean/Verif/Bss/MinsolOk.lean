import Verif.Bss.Minsol
import Verif.Core.SemZ
import Verif.Bss.DenCases

/-!
# Correctness of `minsol` and `without`

A node of the BDD arena read with zero-suppressed semantics (`Lab`) stands for a family of sets of levels.
-/

set_option autoImplicit false
set_option linter.unusedSectionVars false
set_option linter.unusedVariables false

namespace DD
open Arena

/-- `a` with level `l` set to `b`. -/
def setB (a : Nat → Bool) (l : Nat) (b : Bool) : Nat → Bool := fun x => if x = l then b else a x

theorem setB_self (a : Nat → Bool) (l : Nat) (b : Bool) : setB a l b l = b := by simp [setB]
theorem setB_ne (a : Nat → Bool) {l x : Nat} (b : Bool) (h : x ≠ l) : setB a l b x = a x := by simp [setB, h]
theorem setB_id {a : Nat → Bool} {l : Nat} {b : Bool} (h : a l = b) : setB a l b = a := by
  funext x; simp only [setB]; split
  · rename_i e; rw [e, h]
  · rfl
theorem setB_setB (a : Nat → Bool) (l : Nat) (b c : Bool) : setB (setB a l b) l c = setB a l c := by
  funext x; simp only [setB]; split <;> rfl

theorem bl_setB (a : Nat → Bool) (l : Nat) (b : Bool) : bl (setB a l b) = upd (bl a) l b.toNat := by
  funext x; simp only [bl, setB, upd]; split <;> rfl

theorem bl_inj {a b : Nat → Bool} (h : bl a = bl b) : a = b := by
  funext x
  have := congrFun h x
  simp only [bl] at this
  revert this; cases a x <;> cases b x <;> simp

theorem bl_eq_zero_iff {a : Nat → Bool} : bl a = (fun _ => 0) ↔ ∀ l, a l = false := by
  constructor
  · intro h l
    have := congrFun h l
    simp only [bl] at this
    revert this; cases a l <;> simp
  · intro h; funext l; simp [bl, h l]

theorem leB.refl (a : Nat → Bool) : leB a a := fun _ h => h
theorem leB.trans {a b c : Nat → Bool} (h : leB a b) (h' : leB b c) : leB a c := fun l hl => h' l (h l hl)
theorem leB.antisymm {a b : Nat → Bool} (h : leB a b) (h' : leB b a) : a = b := by
  funext l
  have h1 := h l; have h2 := h' l
  revert h1 h2; cases a l <;> cases b l <;> simp
theorem leB.setB {a b : Nat → Bool} (h : leB a b) (l : Nat) (v : Bool) : leB (setB a l v) (setB b l v) := by
  intro x; simp only [DD.setB]; split
  · exact id
  · exact h x
theorem leB_set_false (a : Nat → Bool) (l : Nat) : leB (setB a l false) a := by
  intro x; simp only [DD.setB]; split
  · intro h; cases h
  · exact id
theorem leB_set_true (a : Nat → Bool) (l : Nat) : leB a (setB a l true) := by
  intro x; simp only [DD.setB]; split
  · exact fun _ => rfl
  · exact id

/-- No proper inclusions inside the family. -/
def Anti (P : (Nat → Bool) → Prop) : Prop := ∀ a b, P a → P b → leB a b → a = b

/-- `a` is a minimal solution. -/
def MinS (F : BFun) (a : Nat → Bool) : Prop := F a = true ∧ ∀ b, leB b a → F b = true → b = a

theorem minS_anti (F : BFun) : Anti (MinS F) := fun a b ha hb h => hb.2 a h ha.1

theorem cof_setB (F : BFun) (l : Nat) (b : Bool) (a : Nat → Bool) : F.cof l b a = F (setB a l b) := rfl

theorem mono_split (F : BFun) (l : Nat) : MonoB F ↔ MonoB (F.cof l false) ∧ MonoB (F.cof l true) ∧
    ∀ a, F.cof l false a = true → F.cof l true a = true := by
  constructor
  · intro h
    refine ⟨fun a b hab => h _ _ (hab.setB l false), fun a b hab => h _ _ (hab.setB l true), fun a => h _ _ ?_⟩
    intro x; simp only [setB]; split
    · exact fun _ => rfl
    · exact id
  · rintro ⟨h0, h1, h2⟩ a b hab ha
    have hset : leB (setB a l (a l)) a := by rw [setB_id rfl]; exact leB.refl _
    cases hbl : b l with
    | false =>
      have hal : a l = false := by
        cases hh : a l with
        | false => rfl
        | true => rw [hab l hh] at hbl; cases hbl
      have := h0 a b hab (by rw [cof_setB, setB_id hal]; exact ha)
      rwa [cof_setB, setB_id hbl] at this
    | true =>
      have : F.cof l true a = true := by
        cases hh : a l with
        | false => exact h2 a (by rw [cof_setB, setB_id hh]; exact ha)
        | true => rw [cof_setB, setB_id hh]; exact ha
      have := h1 a b hab this
      rwa [cof_setB, setB_id hbl] at this

/-- A minimal solution of a monotone function is one of the low cofactor without the variable, or one of the
high cofactor, not a solution of the low one, with the variable. -/
theorem minS_split {F : BFun} {l : Nat} (hm : MonoB F) (a : Nat → Bool) :
    MinS F a ↔ (a l = false ∧ a l = false ∧ MinS (F.cof l false) a) ∨
      (a l = true ∧ MinS (F.cof l true) (setB a l false) ∧ F.cof l false (setB a l false) = false) := by
  have key : ∀ {v : Bool}, MinS F a → a l = v → ∀ b, leB b (setB a l false) → F.cof l v b = true →
      b = setB a l false := by
    intro v h hv b hb hF
    have hbl : b l = false := by
      cases hh : b l with
      | false => rfl
      | true => have := hb l hh; rw [setB_self] at this; cases this
    have := h.2 (setB b l v) (by
      intro x hx
      by_cases hxl : x = l
      · subst hxl; rw [setB_self] at hx; rw [hv, hx]
      · rw [setB_ne _ _ hxl] at hx
        have := hb x hx
        rwa [setB_ne _ _ hxl] at this) hF
    rw [← this, setB_setB, setB_id hbl]
  constructor
  · intro h
    cases hal : a l with
    | false =>
      refine Or.inl ⟨rfl, rfl, by rw [cof_setB, setB_id hal]; exact h.1, fun b hb hF => ?_⟩
      have := key h hal b (by rw [setB_id hal]; exact hb) hF
      rwa [setB_id hal] at this
    | true =>
      refine Or.inr ⟨rfl, ⟨?_, key h hal⟩, ?_⟩
      · rw [cof_setB, setB_setB, setB_id hal]; exact h.1
      · cases hh : F.cof l false (setB a l false) with
        | false => rfl
        | true =>
          rw [cof_setB, setB_setB] at hh
          have := congrFun (h.2 _ (leB_set_false a l) hh) l
          rw [setB_self, hal] at this; cases this
  · rintro (⟨hal, -, h⟩ | ⟨hal, h, h0⟩)
    · refine ⟨by have := h.1; rwa [cof_setB, setB_id hal] at this, fun b hb hF => ?_⟩
      have hbl : b l = false := by
        cases hh : b l with
        | false => rfl
        | true => rw [hb l hh] at hal; cases hal
      exact h.2 b hb (by rw [cof_setB, setB_id hbl]; exact hF)
    · refine ⟨by have := h.1; rwa [cof_setB, setB_setB, setB_id hal] at this, fun b hb hF => ?_⟩
      cases hbl : b l with
      | true =>
        have := h.2 (setB b l false) (hb.setB l false) (by rw [cof_setB, setB_setB, setB_id hbl]; exact hF)
        have h2 := congrArg (fun c => setB c l true) this
        simp only [setB_setB] at h2
        rwa [setB_id hbl, setB_id hal] at h2
      | false =>
        exfalso
        have : F (setB a l false) = true := by
          refine hm b _ ?_ hF
          intro x hx
          by_cases hxl : x = l
          · subst hxl; rw [hbl] at hx; cases hx
          · rw [setB_ne _ _ hxl]; exact hb x hx
        rw [cof_setB, setB_setB, this] at h0; cases h0

/-! ## Families in the BDD arena -/

/-- Node `i` is live and, read with zero-suppressed semantics, is the family `P`. -/
structure FDen (m : Arena T3) (i : Nat) (P : (Nat → Bool) → Prop) : Prop where
  live : m.Live i
  mem : ∀ a, Lab m i (bl a) .one ↔ P a
  cl : ∀ a, ¬ Lab m i a .undet

section
variable {R : List Nat → Prop} {m m' : Arena T3} {i : Nat} {P Q : (Nat → Bool) → Prop}

theorem FDen.ext (wf : WF R m) (e : Ext m m') (h : FDen m i P) : FDen m' i P :=
  ⟨(e.keep _ h.live).1, fun a => (wf.lab_ext e h.live).trans (h.mem a),
    fun a ha => h.cl a ((wf.lab_ext e h.live).1 ha)⟩

theorem FDen.back (wf : WF R m) (e : Ext m m') (hl : m.Live i) (h : FDen m' i P) : FDen m i P :=
  ⟨hl, fun a => (wf.lab_ext e hl).symm.trans (h.mem a), fun a ha => h.cl a ((wf.lab_ext e hl).2 ha)⟩

theorem FDen.congr (h : FDen m i P) (e : ∀ a, P a ↔ Q a) : FDen m i Q :=
  ⟨h.live, fun a => (h.mem a).trans (e a), h.cl⟩

theorem FDen.iff (h : FDen m i P) (h' : FDen m i Q) (a : Nat → Bool) : P a ↔ Q a :=
  (h.mem a).symm.trans (h'.mem a)

theorem FDen.supp (wf : WF R m) (h : FDen m i P) {a : Nat → Bool} (ha : P a) {l : Nat} (hl : m.rank i ≤ l) :
    a l = false := by
  have := wf.lab_supp ((h.mem a).2 ha) h.live l hl
  simp only [bl] at this
  revert this; cases a l <;> simp

/-- A path read with zero-suppressed semantics is also one read with BDD semantics. -/
theorem lab_eval (wf : WF R m) {a : Nat → Nat} {t : T3} (hl : m.Live i) (h : Lab m i a t) : Eval m a i t := by
  induction h with
  | term hn => exact .term hn
  | @nt i h ch hd k c a t hn hh hc hsub ih =>
    obtain ⟨hd', hh', -, hr, -, -, hk⟩ := wf.nt hl hn
    rw [hh] at hh'; cases hh'
    obtain ⟨h1, h2⟩ := hk c (List.mem_of_getElem? hc)
    refine .nt hn hh (by rw [upd_self]; exact hc) ?_
    exact wf.eval_congr h1 (fun l hl => (upd_ne _ _ (by omega)).symm) (ih h1)

end

namespace Bdd

/-- What a live node looks like in terms of its family. -/
inductive FCase (s : Bdd) (i : Nat) (P : (Nat → Bool) → Prop) : Prop
  | zero : s.arena.node? i = some (.term .zero) → s.arena.rank i = 0 → (∀ a, ¬ P a) → FCase s i P
  | one : s.arena.node? i = some (.term .one) → s.arena.rank i = 0 → (∀ a, P a ↔ ∀ l, a l = false) → FCase s i P
  | node (h lo hi : Nat) (hd : Header) : s.arena.node? i = some (.nt h [lo, hi]) →
      s.arena.headers[h]? = some hd → s.arena.level? i = some hd.level → s.arena.rank i = hd.level + 1 →
      s.arena.rank lo ≤ hd.level → s.arena.rank hi ≤ hd.level →
      FDen s.arena lo (fun a => a hd.level = false ∧ P a) →
      FDen s.arena hi (fun a => a hd.level = false ∧ P (setB a hd.level true)) → FCase s i P

theorem fden_cases {s : Bdd} (hs : Inv s) {i : Nat} {P : (Nat → Bool) → Prop} (h : FDen s.arena i P) :
    FCase s i P := by
  obtain ⟨n, hn⟩ := h.live.node
  cases n with
  | term t =>
    cases t with
    | undet => exact absurd (.term hn) (h.cl _)
    | zero =>
      refine .zero hn (rank_term hn) fun a ha => ?_
      have := ((lab_term_iff hn).1 ((h.mem a).2 ha)).2
      cases this
    | one =>
      refine .one hn (rank_term hn) fun a => ?_
      rw [← h.mem a, lab_term_iff hn, bl_eq_zero_iff]
      simp
  | nt hh ch =>
    obtain ⟨hd, h1, h2, hr, -, -, hk⟩ := hs.wf.nt h.live hn
    rw [hs.two hd (List.mem_of_getElem? h1)] at h2
    match ch, h2 with
    | [lo, hi], _ =>
      have k0 := hk lo (by simp)
      have k1 := hk hi (by simp)
      refine .node hh lo hi hd hn h1 (level?_nt hn h1) hr k0.2 k1.2 ⟨k0.1, fun a => ?_, fun a ha => ?_⟩
        ⟨k1.1, fun a => ?_, fun a ha => ?_⟩
      · constructor
        · intro hL
          have h0 := hs.wf.lab_supp hL k0.1 _ k0.2
          have hal : a hd.level = false := by
            simp only [bl] at h0; revert h0; cases a hd.level <;> simp
          refine ⟨hal, (h.mem a).1 ((hs.wf.lab_nt_iff h.live hn h1).2 ⟨lo, by rw [h0]; rfl, ?_⟩)⟩
          rw [upd_id h0]; exact hL
        · rintro ⟨hal, hP⟩
          have h0 : bl a hd.level = 0 := by simp [bl, hal]
          obtain ⟨c, hc, hL⟩ := (hs.wf.lab_nt_iff h.live hn h1).1 ((h.mem a).2 hP)
          rw [h0] at hc; simp at hc; subst hc
          rwa [upd_id h0] at hL
      · exact h.cl _ (.nt (k := 0) hn h1 rfl ha)
      · constructor
        · intro hL
          have h0 := hs.wf.lab_supp hL k1.1 _ k1.2
          have hal : a hd.level = false := by
            simp only [bl] at h0; revert h0; cases a hd.level <;> simp
          refine ⟨hal, (h.mem _).1 ((hs.wf.lab_nt_iff h.live hn h1).2 ⟨hi, ?_, ?_⟩)⟩
          · rw [bl_setB, upd_self]; rfl
          · rw [bl_setB, upd_upd, upd_id h0]; exact hL
        · rintro ⟨hal, hP⟩
          have h0 : bl a hd.level = 0 := by simp [bl, hal]
          obtain ⟨c, hc, hL⟩ := (hs.wf.lab_nt_iff h.live hn h1).1 ((h.mem _).2 hP)
          rw [bl_setB, upd_self] at hc; simp at hc; subst hc
          rwa [bl_setB, upd_upd, upd_id h0] at hL
      · exact h.cl _ (.nt (k := 1) hn h1 rfl ha)

/-- Result of a computation that must produce a node for the family `P`. -/
theorem fden_zero {s : Bdd} (hs : Inv s) {P : (Nat → Bool) → Prop} (h : ∀ a, ¬ P a) : FDen s.arena zero P := by
  obtain ⟨l, hn⟩ := fixed hs .zero
  refine ⟨l, fun a => ⟨fun hL => ?_, fun hP => absurd hP (h a)⟩, fun a hL => ?_⟩
  · have := ((lab_term_iff hn).1 hL).2; cases this
  · have := ((lab_term_iff hn).1 hL).2; cases this

theorem fden_one {s : Bdd} (hs : Inv s) {P : (Nat → Bool) → Prop} (h : ∀ a, P a ↔ ∀ l, a l = false) :
    FDen s.arena one P := by
  obtain ⟨l, hn⟩ := fixed hs .one
  refine ⟨l, fun a => ?_, fun a hL => ?_⟩
  · rw [lab_term_iff (show s.arena.nodes[one]? = _ from hn), bl_eq_zero_iff, h a]; simp
  · have := ((lab_term_iff hn).1 hL).2; cases this

theorem createNode_fden {s : Bdd} (hs : Inv s) {h low high : Nat} {hd : Header} {P Q : (Nat → Bool) → Prop}
    (hh : s.arena.headers[h]? = some hd) (hl : FDen s.arena low P) (hr : s.arena.rank low ≤ hd.level)
    (hl' : FDen s.arena high Q) (hr' : s.arena.rank high ≤ hd.level) (hdis : ∀ a, P a → Q a → False) :
    ∃ r s', s.createNode h low high = some (r, s') ∧ Inv s' ∧ Step s.arena s'.arena ∧
      s'.arena.rank r ≤ hd.level + 1 ∧
      FDen s'.arena r (fun a => (a hd.level = false ∧ P a) ∨ (a hd.level = true ∧ Q (setB a hd.level false))) := by
  have h2 := hs.two hd (List.mem_of_getElem? hh)
  have hk : ∀ c ∈ [low, high], s.arena.Live c ∧ s.arena.rank c ≤ hd.level := by
    simp [hl.live, hr, hl'.live, hr']
  obtain ⟨r, m', h1, h2, h3, h4, h5, -⟩ := createFull_raw hs.wf (h := h) (ch := [low, high])
    ⟨hd, hh, by simp [h2], hk⟩
  have hi : Inv { s with arena := m' } := hs.ext h2 (by rw [h3.heq]; exact hs.two) h3.toExt
  refine ⟨r, { s with arena := m' }, by rw [createNode_eq, h1]; rfl, hi, h3, ?_, h4, ?_, ?_⟩
  · rcases h5 with ⟨_, hm, rfl⟩ | ⟨_, hn⟩
    · have := (hk r hm).2; show _ ≤ _; simp only; omega
    · exact Nat.le_of_eq (rank_nt hn (h3.hdr _ _ hh))
  · intro a
    rcases h5 with ⟨hall, hm, rfl⟩ | ⟨_, hn⟩
    · have e0 : low = r := hall low (by simp)
      have e1 : high = r := hall high (by simp)
      subst e0; subst e1
      have : ∀ a, ¬ P a := fun a ha => hdis a ha ((hl.iff hl' a).1 ha)
      have hq : ∀ a, ¬ Q a := fun a ha => this a ((hl.iff hl' a).2 ha)
      rw [hl.mem a]
      constructor
      · intro h; exact absurd h (this a)
      · rintro (⟨_, h⟩ | ⟨_, h⟩)
        · exact absurd h (this a)
        · exact absurd h (hq _)
    · have d0 := hl.ext hs.wf h3.toExt
      have d1 := hl'.ext hs.wf h3.toExt
      rw [h2.lab_nt_iff h4 hn (h3.hdr _ _ hh)]
      have hb : upd (bl a) hd.level 0 = bl (setB a hd.level false) := by rw [bl_setB]; rfl
      rw [hb]
      cases hal : a hd.level with
      | false =>
        have : bl a hd.level = 0 := by simp [bl, hal]
        rw [this, setB_id hal]
        simp [d0.mem a]
      | true =>
        have : bl a hd.level = 1 := by simp [bl, hal]
        rw [this]
        simp [d1.mem]
  · intro a
    rcases h5 with ⟨hall, hm, rfl⟩ | ⟨_, hn⟩
    · have e0 : low = r := hall low (by simp)
      subst e0; exact hl.cl a
    · have d0 := hl.ext hs.wf h3.toExt
      have d1 := hl'.ext hs.wf h3.toExt
      intro hL
      obtain ⟨c, hc, hL⟩ := (h2.lab_nt_iff h4 hn (h3.hdr _ _ hh)).1 hL
      have := List.mem_of_getElem? hc
      simp at this
      rcases this with rfl | rfl
      · exact d0.cl _ hL
      · exact d1.cl _ hL

/-! ## `without` -/

/-- Fact recorded by the memo of `without`. -/
structure WEntry (m : Arena T3) (f g r : Nat) : Prop where
  lf : m.Live f
  lg : m.Live g
  lr : m.Live r
  rk : m.rank r ≤ m.rank f
  val : ∀ P G, Anti P → FDen m f P → Den m g G → FDen m r (fun a => P a ∧ G a = false)

/-- The memo of `without` holds only correct results. -/
def WOk (m : Arena T3) (c : WCache) : Prop := ∀ f g r, c.get (f, g) = some r → WEntry m f g r

theorem WEntry.ext {R : List Nat → Prop} {m m' : Arena T3} (wf : WF R m) (e : Ext m m') {f g r : Nat}
    (h : WEntry m f g r) : WEntry m' f g r where
  lf := (e.keep _ h.lf).1
  lg := (e.keep _ h.lg).1
  lr := (e.keep _ h.lr).1
  rk := by rw [wf.rank_ext e h.lf, wf.rank_ext e h.lr]; exact h.rk
  val P G ha hf hg := (h.val P G ha (hf.back wf e h.lf) (hg.back wf e h.lg)).ext wf e

theorem WOk.ext {R : List Nat → Prop} {m m' : Arena T3} (wf : WF R m) (e : Ext m m') {c : WCache}
    (h : WOk m c) : WOk m' c := fun f g r hc => (h f g r hc).ext wf e

theorem WOk.empty (m : Arena T3) : WOk m AMap.empty := fun f g r h => by simp at h

/-- Result of `without`. -/
def WRes (s : Bdd) (f : Nat) (P : (Nat → Bool) → Prop) (G : BFun) (res : Option (Nat × Bdd × WCache)) : Prop :=
  ∃ r s' c', res = some (r, s', c') ∧ Inv s' ∧ Step s.arena s'.arena ∧ WOk s'.arena c' ∧
    s'.arena.rank r ≤ s.arena.rank f ∧ FDen s'.arena r (fun a => P a ∧ G a = false)

theorem _root_.DD.Anti.lo {P : (Nat → Bool) → Prop} (h : Anti P) (l : Nat) : Anti (fun a => a l = false ∧ P a) :=
  fun a b ha hb hab => h a b ha.2 hb.2 hab

theorem _root_.DD.Anti.hi {P : (Nat → Bool) → Prop} (h : Anti P) (l : Nat) :
    Anti (fun a => a l = false ∧ P (setB a l true)) := by
  intro a b ha hb hab
  have := congrArg (fun c => setB c l false) (h _ _ ha.2 hb.2 (hab.setB l true))
  simp only [setB_setB] at this
  rwa [setB_id ha.1, setB_id hb.1] at this

theorem _root_.DD.Anti.disj {P : (Nat → Bool) → Prop} (h : Anti P) {l : Nat} {a : Nat → Bool} (h0 : a l = false)
    (hP : P a) (h1 : P (setB a l true)) : False := by
  have := congrFun (h a _ hP h1 (leB_set_true a l)) l
  rw [setB_self, h0] at this; cases this

theorem withoutNode_ok {rec : Bdd → Nat → Nat → WCache → Option (Nat × Bdd × WCache)} {s : Bdd} (hs : Inv s)
    {h f0 g0 f1 g1 f : Nat} {hd : Header} {P : (Nat → Bool) → Prop} {G G0 G1 : BFun} {c : WCache}
    (hP : Anti P) (hh : s.arena.headers[h]? = some hd) (hf : s.arena.rank f = hd.level + 1)
    (r0 : s.arena.rank f0 ≤ hd.level) (r1 : s.arena.rank f1 ≤ hd.level)
    (d1 : FDen s.arena f1 (fun a => a hd.level = false ∧ P (setB a hd.level true)))
    (dg : Den s.arena g1 G1) (hc : WOk s.arena c)
    (hG0 : ∀ a, a hd.level = false → G0 a = G a) (hG1 : ∀ a, a hd.level = true → G1 (setB a hd.level false) = G a)
    (hrec0 : WRes s f0 (fun a => a hd.level = false ∧ P a) G0 (rec s f0 g0 c))
    (hrec1 : ∀ s1 c1, Inv s1 → Step s.arena s1.arena → WOk s1.arena c1 →
      WRes s1 f1 (fun a => a hd.level = false ∧ P (setB a hd.level true)) G1 (rec s1 f1 g1 c1)) :
    WRes s f P G (withoutNode rec s h f0 g0 f1 g1 c) := by
  obtain ⟨lo, s1, c1, e1, i1, st1, w1, k1, v1⟩ := hrec0
  obtain ⟨hi, s2, c2, e2, i2, st2, w2, k2, v2⟩ := hrec1 s1 c1 i1 st1 w1
  have hlo := v1.ext i1.wf st2.toExt
  obtain ⟨r, s3, e3, i3, st3, k3, v3⟩ := createNode_fden i2 ((st1.trans st2).hdr _ _ hh) hlo
    (by rw [i1.wf.rank_ext st2.toExt v1.live]; omega) v2
    (by rw [hs.wf.rank_ext st1.toExt d1.live] at k2; omega)
    (fun a ha hb => hP.disj ha.1.1 ha.1.2 hb.1.2)
  refine ⟨r, s3, c2, by simp only [withoutNode, e1, e2, e3], i3, (st1.trans st2).trans st3,
    w2.ext i2.wf st3.toExt, by omega, v3.congr fun a => ?_⟩
  cases hal : a hd.level with
  | false => simp [hal, hG0 a hal]
  | true => simp [hal, hG1 a hal, setB_self, setB_setB, setB_id hal]

theorem without_ok : ∀ n (s : Bdd) (f g : Nat) (c : WCache) (P : (Nat → Bool) → Prop) (G : BFun), Inv s →
    s.arena.LevInj → WOk s.arena c → Anti P → FDen s.arena f P → Den s.arena g G →
    Max.max (s.arena.rank f) (s.arena.rank g) < n → WRes s f P G (withoutF n s f g c) := by
  intro n
  induction n with
  | zero => intro _ _ _ _ _ _ _ _ _ _ _ _ h; omega
  | succ n ih =>
    intro s f g c P G hs inj hc hP hf hg hn
    unfold withoutF
    cases hget : c.get (f, g) with
    | some r =>
      have := hc f g r hget
      exact ⟨r, s, c, rfl, hs, Step.refl _, hc, this.rk, this.val P G hP hf hg⟩
    | none =>
      have main : WRes s f P G (withoutArms (withoutF n) s f g c) := by
        have retz : (∀ a, ¬ (P a ∧ G a = false)) → WRes s f P G (some (zero, s, c)) := fun h =>
          ⟨zero, s, c, rfl, hs, Step.refl _, hc,
            by rw [rank_term (show s.arena.nodes[zero]? = _ from (fixed hs .zero).2)]; omega, fden_zero hs h⟩
        unfold withoutArms
        rcases den_cases hs inj hg with ⟨b, hng, -, hG⟩ | ⟨h', g0, g1, hd', hng, hh', hlg, dg0, dg1, -⟩
        · cases b with
          | false =>
            have retf : WRes s f P G (some (f, s, c)) :=
              ⟨f, s, c, rfl, hs, Step.refl _, hc, Nat.le_refl _, hf.congr fun a => by simp [hG a]⟩
            rcases fden_cases hs hf with ⟨hnf, -, hPz⟩ | ⟨hnf, -, hPo⟩ |
              ⟨h, f0, f1, hd, hnf, hh, hlf, hr, r0, r1, d0, d1⟩
            · simp only [hnf, hng]; exact retz fun a ha => hPz a ha.1
            · simp only [hnf, hng]; exact retf
            · simp only [hnf, hng]; exact retf
          | true =>
            have retz' := retz (fun a ha => by rw [hG a] at ha; exact absurd ha.2 (by decide))
            rcases fden_cases hs hf with ⟨hnf, -, hPz⟩ | ⟨hnf, -, hPo⟩ |
              ⟨h, f0, f1, hd, hnf, hh, hlf, hr, r0, r1, d0, d1⟩ <;>
            · simp only [hnf, hng]; exact retz'
        · obtain ⟨hd2, hh2, -, hrg, -, -, hkg⟩ := hs.wf.nt hg.live hng
          rw [hh'] at hh2; cases hh2
          have rg0 := (hkg g0 (by simp)).2
          have rg1 := (hkg g1 (by simp)).2
          have skip : (∀ a, P a → a hd'.level = false) → Max.max (s.arena.rank f) (s.arena.rank g0) < n →
              WRes s f P G (withoutF n s f g0 c) := by
            intro hPl hlt
            obtain ⟨r, s', c', e1, i1, st1, w1, k1, v1⟩ := ih s f g0 c P _ hs inj hc hP hf dg0 hlt
            refine ⟨r, s', c', e1, i1, st1, w1, k1, v1.congr fun a => ?_⟩
            constructor
            · rintro ⟨h1, h2⟩
              rw [cof_setB, setB_id (hPl a h1)] at h2
              exact ⟨h1, h2⟩
            · rintro ⟨h1, h2⟩
              refine ⟨h1, ?_⟩
              rw [cof_setB, setB_id (hPl a h1)]
              exact h2
          rcases fden_cases hs hf with ⟨hnf, -, hPz⟩ | ⟨hnf, hr, hPo⟩ |
            ⟨h, f0, f1, hd, hnf, hh, hlf, hr, r0, r1, d0, d1⟩
          · simp only [hnf, hng]; exact retz fun a ha => hPz a ha.1
          · simp only [hnf, hng]
            exact skip (fun a ha => (hPo a).1 ha _) (by omega)
          · simp only [hnf, hng]
            by_cases hfg : f = g
            · rw [if_pos hfg]
              refine retz fun a ha => ?_
              have e1 := lab_eval hs.wf hf.live ((hf.mem a).2 ha.1)
              rw [hfg] at e1
              have e2 := hg.val a
              rw [ha.2] at e2
              have := e1.det e2
              cases this
            · simp only [hfg, if_false, hlf, hlg]
              by_cases hgt : hd'.level < hd.level
              · simp only [gt_iff_lt, hgt, if_true]
                refine withoutNode_ok hs hP hh hr r0 r1 d1 hg hc (fun _ _ => rfl) (fun a _ => ?_)
                  (ih _ _ _ _ _ _ hs inj hc (hP.lo _) d0 hg (by omega)) (fun s1 c1 i1 st1 w1 => ?_)
                · exact den_congr hs hg fun l hl => setB_ne _ _ (by omega)
                · exact ih _ _ _ _ _ _ i1 (by unfold LevInj; rw [st1.heq]; exact inj) w1 (hP.hi _)
                    (d1.ext hs.wf st1.toExt) (hg.ext hs.wf st1.toExt)
                    (by rw [hs.wf.rank_ext st1.toExt d1.live, hs.wf.rank_ext st1.toExt hg.live]; omega)
              · simp only [gt_iff_lt, hgt, if_false]
                by_cases hlt : hd.level < hd'.level
                · simp only [hlt, if_true]
                  exact skip (fun a ha => hf.supp hs.wf ha (by omega)) (by omega)
                · simp only [hlt, if_false]
                  have hleq : hd'.level = hd.level := by omega
                  rw [hleq] at dg0 dg1
                  refine withoutNode_ok hs hP hh hr r0 r1 d1 dg1 hc (fun a ha => ?_) (fun a ha => ?_)
                    (ih _ _ _ _ _ _ hs inj hc (hP.lo _) d0 dg0 (by omega)) (fun s1 c1 i1 st1 w1 => ?_)
                  · rw [cof_setB, setB_id ha]
                  · rw [cof_setB, setB_setB, setB_id ha]
                  · exact ih _ _ _ _ _ _ i1 (by unfold LevInj; rw [st1.heq]; exact inj) w1 (hP.hi _)
                      (d1.ext hs.wf st1.toExt) (dg1.ext hs.wf st1.toExt)
                      (by rw [hs.wf.rank_ext st1.toExt d1.live, hs.wf.rank_ext st1.toExt dg1.live]; omega)
      obtain ⟨r, s', c', e1, i1, st1, w1, k1, v1⟩ := main
      simp only [e1]
      refine ⟨r, s', c'.insert (f, g) r, rfl, i1, st1, ?_, k1, v1⟩
      intro f' g' r' hget'
      rw [AMap.get_insert] at hget'
      split at hget'
      · rename_i heq
        cases heq
        cases hget'
        refine ⟨(st1.keep _ hf.live).1, (st1.keep _ hg.live).1, v1.live, ?_, fun P' G' _ hf' hg' => ?_⟩
        · rw [hs.wf.rank_ext st1.toExt hf.live]; exact k1
        · have hG := hg'.fun_eq (hg.ext hs.wf st1.toExt)
          subst hG
          exact v1.congr fun a => by rw [hf'.iff (hf.ext hs.wf st1.toExt) a]
      · exact w1 f' g' r' hget'

/-! ## `minsol` -/

/-- Fact recorded by the memo of `minsol`. -/
structure MEntry (m : Arena T3) (f : Nat) (x : Option Nat) : Prop where
  lf : m.Live f
  lr : ∀ r, x = some r → m.Live r ∧ m.rank r ≤ m.rank f
  val : ∀ F, Den m f F → (x = none → ¬ MonoB F) ∧ ∀ r, x = some r → MonoB F ∧ FDen m r (MinS F)

/-- The memo of `minsol` holds only correct results. -/
def MOk (m : Arena T3) (c : MCache) : Prop := ∀ f x, c.get f = some x → MEntry m f x

theorem MEntry.ext {R : List Nat → Prop} {m m' : Arena T3} (wf : WF R m) (e : Ext m m') {f : Nat}
    {x : Option Nat} (h : MEntry m f x) : MEntry m' f x where
  lf := (e.keep _ h.lf).1
  lr r hr := ⟨(e.keep _ (h.lr r hr).1).1, by
    rw [wf.rank_ext e h.lf, wf.rank_ext e (h.lr r hr).1]; exact (h.lr r hr).2⟩
  val F hF := by
    obtain ⟨h1, h2⟩ := h.val F (hF.back wf e h.lf)
    exact ⟨h1, fun r hr => ⟨(h2 r hr).1, (h2 r hr).2.ext wf e⟩⟩

theorem MOk.ext {R : List Nat → Prop} {m m' : Arena T3} (wf : WF R m) (e : Ext m m') {c : MCache}
    (h : MOk m c) : MOk m' c := fun f x hc => (h f x hc).ext wf e

/-- Invariant of the state of `minsol`. -/
structure MInv (st : MinSt) : Prop where
  inv : Inv st.dd
  inj : st.dd.arena.LevInj
  c1 : MOk st.dd.arena st.c1
  c2 : WOk st.dd.arena st.c2

/-- Result of `minsol`. -/
def MRes (st : MinSt) (f : Nat) (F : BFun) (res : Option (Option Nat × MinSt)) : Prop :=
  ∃ x st', res = some (x, st') ∧ MInv st' ∧ Step st.dd.arena st'.dd.arena ∧
    (x = none → ¬ MonoB F) ∧
    ∀ r, x = some r → MonoB F ∧ FDen st'.dd.arena r (MinS F) ∧ st'.dd.arena.rank r ≤ st.dd.arena.rank f

theorem minsolF_ok : ∀ n (st : MinSt) (f : Nat) (F : BFun), MInv st → Den st.dd.arena f F →
    st.dd.arena.rank f < n → MRes st f F (minsolF n st f) := by
  intro n
  induction n with
  | zero => intro _ _ _ _ _ h; omega
  | succ n ih =>
    intro st f F hst hf hn
    have hs := hst.inv
    unfold minsolF
    cases hget : st.c1.get f with
    | some x =>
      have := hst.c1 f x hget
      have hv := this.val F hf
      exact ⟨x, st, rfl, hst, Step.refl _, hv.1, fun r hr => ⟨(hv.2 r hr).1, (hv.2 r hr).2, (this.lr r hr).2⟩⟩
    | none =>
      have main : MRes st f F (minsolArms (minsolF n) st f) := by
        unfold minsolArms
        rcases den_cases hs hst.inj hf with ⟨b, hnf, -, hF⟩ | ⟨h, f0, f1, hd, hnf, hh, hlf, d0, d1, htop⟩
        · have hm : MonoB F := fun a b _ h => by rw [hF] at h ⊢; exact h
          cases b with
          | false =>
            simp only [hnf, T3.ofBool]
            refine ⟨_, st, rfl, hst, Step.refl _, fun h => (by cases h), fun r hr => ?_⟩
            cases hr
            refine ⟨hm, fden_zero hs fun a ha => ?_, ?_⟩
            · have := ha.1; rw [hF] at this; cases this
            · rw [rank_term (show st.dd.arena.nodes[zero]? = _ from (fixed hs .zero).2)]; omega
          | true =>
            simp only [hnf, T3.ofBool]
            refine ⟨_, st, rfl, hst, Step.refl _, fun h => (by cases h), fun r hr => ?_⟩
            cases hr
            refine ⟨hm, fden_one hs fun a => ?_, ?_⟩
            · constructor
              · intro ha l
                have := ha.2 (fun _ => false) (fun l h => (by cases h)) (hF _)
                exact (congrFun this l).symm
              · intro ha
                refine ⟨hF a, fun b hb _ => ?_⟩
                funext l
                rw [ha l]
                cases hbl : b l with
                | false => rfl
                | true => have := hb l hbl; rw [ha l] at this; cases this
            · rw [rank_term (show st.dd.arena.nodes[one]? = _ from (fixed hs .one).2)]; omega
        · simp only [hnf]
          obtain ⟨hd2, hh2, -, hr, -, -, hk⟩ := hs.wf.nt hf.live hnf
          rw [hh] at hh2; cases hh2
          have r0 := (hk f0 (by simp)).2
          have r1 := (hk f1 (by simp)).2
          unfold minsolNt
          obtain ⟨x0, st1, e1, i1, t1, n1, v1⟩ := ih st f0 _ hst d0 (by omega)
          simp only [e1]
          cases x0 with
          | none =>
            exact ⟨none, st1, rfl, i1, t1, fun _ hm => n1 rfl ((mono_split F hd.level).1 hm).1,
              fun r hr => (by cases hr)⟩
          | some low =>
            obtain ⟨m0, fd0, k0⟩ := v1 low rfl
            have d1' := d1.ext hs.wf t1.toExt
            obtain ⟨x1, st2, e2, i2, t2, n2, v2⟩ := ih st1 f1 _ i1 d1'
              (by rw [hs.wf.rank_ext t1.toExt d1.live]; omega)
            simp only [e2]
            cases x1 with
            | none =>
              exact ⟨none, st2, rfl, i2, t1.trans t2, fun _ hm => n2 rfl ((mono_split F hd.level).1 hm).2.1,
                fun r hr => (by cases hr)⟩
            | some hsrc =>
              obtain ⟨m1, fd1, k1⟩ := v2 hsrc rfl
              have t12 := t1.trans t2
              have d02 := d0.ext hs.wf t12.toExt
              have d12 := d1.ext hs.wf t12.toExt
              obtain ⟨r, dd, e3, i3, t3, dr⟩ := and_den i2.inv d02 d12
              have inj3 : dd.arena.LevInj := by unfold LevInj; rw [t3.heq]; exact i2.inj
              have t13 := t12.trans t3
              have d03 := d0.ext hs.wf t13.toExt
              simp only [e3]
              by_cases hne : r = f0
              · have hle : ∀ a, F.cof hd.level false a = true → F.cof hd.level true a = true := by
                  intro a ha
                  have := congrFun ((hne ▸ dr).fun_eq d03) a
                  rw [ha] at this
                  simpa using this
                have hm : MonoB F := (mono_split F hd.level).2 ⟨m0, m1, hle⟩
                simp only [hne, ne_eq, not_true_eq_false, if_false]
                have fd1' := fd1.ext i2.inv.wf t3.toExt
                obtain ⟨high, s4, c4, e4, i4, t4, w4, k4, v4⟩ := without_ok _ dd hsrc f0 st2.c2 _ _ i3 inj3
                  (i2.c2.ext i2.inv.wf t3.toExt) (minS_anti _) fd1' d03 (Nat.lt_succ_self _)
                have e4' : dd.without hsrc f0 st2.c2 = some (high, s4, c4) := e4
                simp only [e4']
                have t14 := t13.trans t4
                have fd0' := fd0.ext i1.inv.wf ((t2.trans t3).trans t4).toExt
                have klow : s4.arena.rank low ≤ hd.level := by
                  rw [i1.inv.wf.rank_ext ((t2.trans t3).trans t4).toExt fd0.live]; omega
                have khigh : s4.arena.rank high ≤ hd.level := by
                  rw [i2.inv.wf.rank_ext t3.toExt fd1.live] at k4
                  rw [hs.wf.rank_ext t1.toExt d1.live] at k1
                  omega
                obtain ⟨r', s5, e5, i5, t5, k5, v5⟩ := createNode_fden i4 (t14.hdr _ _ hh) fd0' klow v4 khigh
                  (fun a ha hb => by have := ha.1; rw [hb.2] at this; cases this)
                simp only [e5]
                have tt := t14.trans t5
                have st25 := (t3.trans t4).trans t5
                refine ⟨some r', _, rfl, ⟨i5, ?_, ?_, ?_⟩, tt, fun h => (by cases h), fun r0' hr0 => ?_⟩
                · unfold LevInj; rw [tt.heq]; exact hst.inj
                · exact i2.c1.ext i2.inv.wf st25.toExt
                · exact w4.ext i4.wf t5.toExt
                · cases hr0
                  refine ⟨hm, v5.congr fun a => ?_, by show s5.arena.rank _ ≤ _; omega⟩
                  rw [minS_split (l := hd.level) hm a]
                  simp only [and_self_left]
              · simp only [ne_eq, hne, not_false_eq_true, if_true]
                refine ⟨none, _, rfl, ⟨i3, inj3, i2.c1.ext i2.inv.wf t3.toExt, i2.c2.ext i2.inv.wf t3.toExt⟩,
                  t13, fun _ hm => hne ?_, fun r hr => (by cases hr)⟩
                refine canon i3 inj3 (dr.congr fun a => ?_) d03
                have := ((mono_split F hd.level).1 hm).2.2 a
                revert this
                cases F.cof hd.level false a <;> cases F.cof hd.level true a <;> simp
      obtain ⟨x, st', e1, i1, t1, n1, v1⟩ := main
      simp only [e1]
      refine ⟨x, _, rfl, ⟨i1.inv, i1.inj, ?_, i1.c2⟩, t1, n1, v1⟩
      intro f' x' hget'
      rw [AMap.get_insert] at hget'
      split at hget'
      · rename_i heq
        cases heq
        cases hget'
        refine ⟨(t1.keep _ hf.live).1, fun r hr => ⟨(v1 r hr).2.1.live, ?_⟩, fun F' hF' => ?_⟩
        · rw [hs.wf.rank_ext t1.toExt hf.live]; exact (v1 r hr).2.2
        · have := hF'.fun_eq (hf.ext hs.wf t1.toExt)
          subst this
          exact ⟨n1, fun r hr => ⟨(v1 r hr).1, (v1 r hr).2.1⟩⟩
      · exact i1.c1 f' x' hget'

/-- `minsol` returns `none` exactly on functions that are not monotone, and otherwise a node whose
family is the set of minimal solutions. -/
theorem minsol_ok {s : Bdd} (hs : Inv s) (inj : s.arena.LevInj) {f : Nat} {F : BFun} (hf : Den s.arena f F) :
    ∃ x s', s.minsol f = some (x, s') ∧ Inv s' ∧ Step s.arena s'.arena ∧ (x = none → ¬ MonoB F) ∧
      ∀ r, x = some r → MonoB F ∧ FDen s'.arena r (MinS F) := by
  obtain ⟨x, st', e1, i1, t1, n1, v1⟩ := minsolF_ok (s.arena.rank f + 1) ⟨s, AMap.empty, AMap.empty⟩ f F
    ⟨hs, inj, fun f x h => (by simp at h), WOk.empty _⟩ hf (Nat.lt_succ_self _)
  exact ⟨x, st'.dd, by simp only [minsol, e1, Option.map_some], i1.inv, t1, n1,
    fun r hr => ⟨(v1 r hr).1, (v1 r hr).2.1⟩⟩

end Bdd
end DD
