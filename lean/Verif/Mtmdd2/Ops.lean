import Verif.Mtmdd2.Model
import Verif.Mdd.Ops
import Verif.Mtmdd.Ops

/-!
# MTMDD2 operations: invariant and meaning
-/

set_option autoImplicit false
set_option linter.unusedSectionVars false
set_option linter.unusedVariables false

namespace DD
open Arena ComputeCache

namespace Mtmdd2

/-- Comparison of the values read: false as soon as one side is undetermined. -/
def cmpR (p : Int → Int → Bool) (x y : Option Int) (z : T3) : Prop :=
  z = match x, y with
    | some a, some b => T3.ofBool (p a b)
    | _, _ => .zero

/-- `vif`: the value where the condition is true, else undetermined. -/
def ifR (x : T3) (y z : Option Int) : Prop := z = if x = .one then y else none

/-- `vite`: the selected branch where the condition is determined. -/
def iteR (x : T3) (y w z : Option Int) : Prop := (x = .one → z = y) ∧ (x = .zero → z = w)

/-- The comparison behind an operation code. -/
def cmpFn : Nat → Option (Int → Int → Bool)
  | 0 => some (fun a b => decide (a = b))
  | 1 => some (fun a b => decide (a < b))
  | _ => none

/-- Promise of a `bcache` entry. -/
def BReq (v : Arena (Option Int)) (op f g : Nat) (a : Nat → Nat) (z : T3) : Prop :=
  ∀ p, cmpFn op = some p → Op2 (cmpR p) v v f g a z

/-- Admissible `bcache` entry. -/
structure BGood (b : Arena T3) (v : Arena (Option Int)) (op f g r : Nat) : Prop where
  lf : v.Live f
  lg : v.Live g
  lr : b.Live r
  rk : b.rank r ≤ Max.max (v.rank f) (v.rank g)
  snd : b.Sound (BReq v op f g) r

/-- Admissible `vcache` entry. -/
structure VGood (b : Arena T3) (v : Arena (Option Int)) (op f g r : Nat) : Prop where
  code : op = opIf
  lf : b.Live f
  lg : v.Live g
  lr : v.Live r
  rk : v.rank r ≤ Max.max (b.rank f) (v.rank g)
  snd : v.Sound (Op2 ifR b v f g) r

/-- Admissible `vite_cache` entry. -/
structure IGood (b : Arena T3) (v : Arena (Option Int)) (f g h r : Nat) : Prop where
  lf : b.Live f
  lg : v.Live g
  lh : v.Live h
  lr : v.Live r
  rk : v.rank r ≤ Max.max (b.rank f) (Max.max (v.rank g) (v.rank h))
  snd : v.Sound (Op3 iteR b v v f g h) r

/-- State invariant. -/
structure Inv (s : Mtmdd2) : Prop where
  b : Mdd.Inv s.mdd
  v : Mtmdd.Inv s.mtmdd
  hdr : s.mdd.arena.headers = s.mtmdd.arena.headers
  bc : CacheOK s.mdd.arena.nodes.length (BGood s.mdd.arena s.mtmdd.arena) s.bcache
  vc : CacheOK s.mtmdd.arena.nodes.length (VGood s.mdd.arena s.mtmdd.arena) s.vcache
  ic : CacheOK s.mtmdd.arena.nodes.length (IGood s.mdd.arena s.mtmdd.arena) s.viteCache

section ext
variable {b b' : Arena T3} {v v' : Arena (Option Int)} {R R' : List Nat → Prop}

theorem BReq.iff_of_eval {v v' : Arena (Option Int)} {op f g : Nat} {a : Nat → Nat} {z : T3}
    (hf : ∀ t, Eval v' a f t ↔ Eval v a f t) (hg : ∀ t, Eval v' a g t ↔ Eval v a g t) :
    BReq v' op f g a z ↔ BReq v op f g a z := by
  unfold BReq Op2
  simp only [hf, hg]

theorem BGood.ext (wb : WF R b) (wv : WF R' v) (eb : Ext b b') (ev : Ext v v') {op f g r : Nat}
    (h : BGood b v op f g r) : BGood b' v' op f g r where
  lf := (ev.keep _ h.lf).1
  lg := (ev.keep _ h.lg).1
  lr := (eb.keep _ h.lr).1
  rk := by rw [wv.rank_ext ev h.lf, wv.rank_ext ev h.lg, wb.rank_ext eb h.lr]; exact h.rk
  snd := by
    intro a ha z hz
    have := wb.sound_ext eb h.lr h.snd a ha z hz
    exact (BReq.iff_of_eval (fun t => wv.eval_ext ev h.lf) (fun t => wv.eval_ext ev h.lg)).2 this

theorem VGood.ext (wb : WF R b) (wv : WF R' v) (eb : Ext b b') (ev : Ext v v') {op f g r : Nat}
    (h : VGood b v op f g r) : VGood b' v' op f g r where
  code := h.code
  lf := (eb.keep _ h.lf).1
  lg := (ev.keep _ h.lg).1
  lr := (ev.keep _ h.lr).1
  rk := by rw [wb.rank_ext eb h.lf, wv.rank_ext ev h.lg, wv.rank_ext ev h.lr]; exact h.rk
  snd := by
    intro a ha z hz
    have := wv.sound_ext ev h.lr h.snd a ha z hz
    unfold Op2 at this ⊢
    simpa only [wb.eval_ext eb h.lf, wv.eval_ext ev h.lg] using this

theorem IGood.ext (wb : WF R b) (wv : WF R' v) (eb : Ext b b') (ev : Ext v v') {f g k r : Nat}
    (h : IGood b v f g k r) : IGood b' v' f g k r where
  lf := (eb.keep _ h.lf).1
  lg := (ev.keep _ h.lg).1
  lh := (ev.keep _ h.lh).1
  lr := (ev.keep _ h.lr).1
  rk := by
    rw [wb.rank_ext eb h.lf, wv.rank_ext ev h.lg, wv.rank_ext ev h.lh, wv.rank_ext ev h.lr]
    exact h.rk
  snd := by
    intro a ha z hz
    have := wv.sound_ext ev h.lr h.snd a ha z hz
    unfold Op3 at this ⊢
    simpa only [wb.eval_ext eb h.lf, wv.eval_ext ev h.lg, wv.eval_ext ev h.lh] using this

end ext

/-- Move both forests on. -/
theorem Inv.ext {s : Mtmdd2} (hs : Inv s) {b : Mdd} {v : Mtmdd} (ib : Mdd.Inv b) (iv : Mtmdd.Inv v)
    (hh : b.arena.headers = v.arena.headers) (eb : Ext s.mdd.arena b.arena)
    (ev : Ext s.mtmdd.arena v.arena) : Inv { s with mdd := b, mtmdd := v } where
  b := ib
  v := iv
  hdr := hh
  bc := hs.bc.mono eb.len (fun _ _ _ _ g => g.ext hs.b.wf hs.v.wf eb ev)
  vc := hs.vc.mono ev.len (fun _ _ _ _ g => g.ext hs.b.wf hs.v.wf eb ev)
  ic := hs.ic.mono ev.len (fun _ _ _ _ g => g.ext hs.b.wf hs.v.wf eb ev)

theorem Ext.rfl' {T : Type} (m : Arena T) : Ext m m := (Step.refl m).toExt

/-- Move the boolean forest on. -/
theorem Inv.extB {s : Mtmdd2} (hs : Inv s) {b : Mdd} (ib : Mdd.Inv b)
    (e : Step s.mdd.arena b.arena) : Inv { s with mdd := b } :=
  hs.ext ib hs.v (by rw [e.heq]; exact hs.hdr) e.toExt (Ext.rfl' _)

/-- Move the value forest on. -/
theorem Inv.extV {s : Mtmdd2} (hs : Inv s) {v : Mtmdd} (iv : Mtmdd.Inv v)
    (e : Step s.mtmdd.arena v.arena) : Inv { s with mtmdd := v } :=
  hs.ext hs.b iv (by rw [e.heq]; exact hs.hdr) (Ext.rfl' _) e.toExt

/-- Both forests only grew. -/
def St (a b : Mtmdd2) : Prop :=
  Step a.mdd.arena b.mdd.arena ∧ Step a.mtmdd.arena b.mtmdd.arena

theorem St.refl (s : Mtmdd2) : St s s := ⟨Step.refl _, Step.refl _⟩
theorem St.trans {a b c : Mtmdd2} (h : St a b) (h' : St b c) : St a c :=
  ⟨h.1.trans h'.1, h.2.trans h'.2⟩

/-- The engine facts for results in the boolean forest. -/
def engB : Eng Mtmdd2 T3 where
  ar s := s.mdd.arena
  Inv := Inv
  St := St
  mkn := mkB
  refl := St.refl
  trans _ _ _ h h' := h.trans h'
  toStep _ _ h := h.1
  toWF s h := h.b.wf
  mkOK := by
    intro s h ch hs g
    obtain ⟨r, b', h1, h2, h3, h4⟩ := Mdd.eng.mkOK s.mdd h ch hs.b g
    have h1' : s.mdd.createNode h ch = some (r, b') := h1
    exact ⟨r, { s with mdd := b' }, by simp only [mkB, h1'], hs.extB h2 h3, ⟨h3, Step.refl _⟩, h4⟩

/-- The engine facts for results in the value forest. -/
def engV : Eng Mtmdd2 (Option Int) where
  ar s := s.mtmdd.arena
  Inv := Inv
  St := St
  mkn := mkV
  refl := St.refl
  trans _ _ _ h h' := h.trans h'
  toStep _ _ h := h.2
  toWF s h := h.v.wf
  mkOK := by
    intro s h ch hs g
    obtain ⟨r, b', h1, h2, h3, h4⟩ := Mtmdd.eng.mkOK s.mtmdd h ch hs.v g
    have h1' : s.mtmdd.createNode h ch = some (r, b') := h1
    exact ⟨r, { s with mtmdd := b' }, by simp only [mkV, h1'], hs.extV h2 h3, ⟨Step.refl _, h3⟩, h4⟩

/-- Value operands of an operation with boolean result. -/
def vVB : View engB (Option Int) where
  ar s := s.mtmdd.arena
  R := RFull
  toStep _ _ h := h.2
  toWF s h := h.v.wf
  hdrs s h := h.hdr.symm

/-- Boolean operands of an operation with value result. -/
def vBV : View engV T3 where
  ar s := s.mdd.arena
  R := RFull
  toStep _ _ h := h.1
  toWF s h := h.b.wf
  hdrs s h := h.hdr

/-- Value operands of an operation with value result. -/
abbrev vVV : View engV (Option Int) := engV.self

/-- A boolean constant as outcome. -/
theorem constB_ok {s : Mtmdd2} (hs : Inv s) (t : T3) {k : Nat} {Φ : (Nat → Nat) → T3 → Prop}
    (h : ∀ a, s.mdd.arena.ValidA a → Φ a t) : engB.Ok s k Φ (some (t.slot, s)) := by
  obtain ⟨h1, h2⟩ := Mdd.fixed hs.b t
  refine Eng.Ok.ret hs h1 ?_ ?_
  · show s.mdd.arena.rank _ ≤ k
    rw [rank_term h2]; omega
  · intro a ha z hz
    rw [(eval_term_iff h2).1 hz]
    exact h a ha

/-- The undetermined value as outcome. -/
theorem undetV_ok {s : Mtmdd2} (hs : Inv s) {k : Nat} {Φ : (Nat → Nat) → Option Int → Prop}
    (h : ∀ a, s.mtmdd.arena.ValidA a → Φ a none) : engV.Ok s k Φ (some (Mtmdd.undet, s)) := by
  obtain ⟨h1, h2⟩ := Mtmdd.fixed hs.v
  refine Eng.Ok.ret hs h1 ?_ ?_
  · show s.mtmdd.arena.rank _ ≤ k
    rw [rank_term h2]; omega
  · intro a ha z hz
    rw [(eval_term_iff h2).1 hz]
    exact h a ha

/-! ## Comparisons -/

theorem bReq_iff {v : Arena (Option Int)} {op f g : Nat} {p : Int → Int → Bool}
    (h : cmpFn op = some p) (a : Nat → Nat) (z : T3) :
    BReq v op f g a z ↔ Op2 (cmpR p) v v f g a z := by
  constructor
  · intro q; exact q p h
  · intro q p' h'; rw [h] at h'; cases h'; exact q

theorem cmpF_ok {op : Nat} {p : Int → Int → Bool} (hop : cmpFn op = some p) :
    ∀ n, View.Rec2 vVB vVB (cmpR p) (cmpF op p n) n := by
  intro n
  induction n with
  | zero => intro s f g _ _ _ h; omega
  | succ n ih =>
    intro s f g hs lf lg hr
    have hs' : Inv s := hs
    have lf' : s.mtmdd.arena.Live f := lf
    have lg' : s.mtmdd.arena.Live g := lg
    have hr' : Max.max (s.mtmdd.arena.rank f) (s.mtmdd.arena.rank g) < n + 1 := hr
    have hN : Max.max (s.mtmdd.arena.rank f) (s.mtmdd.arena.rank g) ≤ n := by omega
    have body : engB.Ok s (Max.max (s.mtmdd.arena.rank f) (s.mtmdd.arena.rank g))
        (Op2 (cmpR p) s.mtmdd.arena s.mtmdd.arena f g)
        (match s.mtmdd.arena.node? f, s.mtmdd.arena.node? g with
          | some (.term none), some _ => some (Mdd.zero, s)
          | some _, some (.term none) => some (Mdd.zero, s)
          | some (.term (some a)), some (.term (some b)) =>
            if p a b then some (Mdd.one, s) else some (Mdd.zero, s)
          | some (.term (some _)), some (.nt hg cg) =>
            branchS mkB (cmpF op p n) s hg (cg.map (fun y => (f, y)))
          | some (.nt hf cf), some (.term (some _)) =>
            branchS mkB (cmpF op p n) s hf (cf.map (fun x => (x, g)))
          | some (.nt hf cf), some (.nt hg cg) =>
            arms2 mkB (cmpF op p n) s (s.mtmdd.arena.level? f) (s.mtmdd.arena.level? g)
              hf f hf cf g hg cg
          | _, _ => none) := by
      obtain ⟨nf, hf⟩ := lf'.node
      obtain ⟨ng, hg⟩ := lg'.node
      simp only [node?, hf, hg]
      cases nf with
      | term t =>
        cases t with
        | none =>
          refine constB_ok hs .zero ?_
          intro a _ x y hx hy
          rw [(eval_term_iff hf).1 hx]
          rfl
        | some u =>
          cases ng with
          | term t' =>
            cases t' with
            | none =>
              refine constB_ok hs .zero ?_
              intro a _ x y hx hy
              rw [(eval_term_iff hg).1 hy]
              cases x <;> rfl
            | some w =>
              simp only
              split
              · rename_i hp
                refine constB_ok hs .one ?_
                intro a _ x y hx hy
                rw [(eval_term_iff hf).1 hx, (eval_term_iff hg).1 hy]
                simp [cmpR, hp, T3.ofBool]
              · rename_i hp
                refine constB_ok hs .zero ?_
                intro a _ x y hx hy
                rw [(eval_term_iff hf).1 hx, (eval_term_iff hg).1 hy]
                simp [cmpR, hp, T3.ofBool]
          | nt hg' cg =>
            obtain ⟨hd, _, _, hrk', _⟩ := hs'.v.wf.nt lg' hg
            have hlt : s.mtmdd.arena.rank f < s.mtmdd.arena.rank g := by rw [rank_term hf]; omega
            exact View.armR_ok vVB vVB ih hs lf lg hg hlt hN
      | nt hf' cf =>
        cases ng with
        | nt hg' cg => exact View.arms2_ok vVB vVB ih hs lf lg hf hg (Or.inl rfl) hN
        | term t' =>
          cases t' with
          | none =>
            refine constB_ok hs .zero ?_
            intro a _ x y hx hy
            rw [(eval_term_iff hg).1 hy]
            cases x <;> rfl
          | some w =>
            obtain ⟨hd, _, _, hrk', _⟩ := hs'.v.wf.nt lf' hf
            have hlt : s.mtmdd.arena.rank g < s.mtmdd.arena.rank f := by rw [rank_term hg]; omega
            exact View.armL_ok vVB vVB ih hs lf lg hf hlt hN
    unfold cmpF
    apply Eng.memo_ok hs
    · intro x hx
      have := hs'.bc.good _ _ _ _ hx
      exact ⟨this.lr, this.rk, fun a ha z hz => (bReq_iff hop a z).1 (this.snd a ha z hz)⟩
    · exact body
    · intro s' r i' st lr rr sr
      have i'' : Inv s' := i'
      have st' : St s s' := st
      refine ⟨⟨i''.b, i''.v, i''.hdr, i''.bc.put lr.1 ?_, i''.vc, i''.ic⟩, rfl, St.refl _⟩
      refine ⟨(st'.2.keep _ lf').1, (st'.2.keep _ lg').1, lr, ?_, ?_⟩
      · rw [hs'.v.wf.rank_ext st'.2.toExt lf', hs'.v.wf.rank_ext st'.2.toExt lg']; exact rr
      · intro a ha z hz
        rw [BReq.iff_of_eval (fun t => hs'.v.wf.eval_ext st'.2.toExt lf')
          (fun t => hs'.v.wf.eval_ext st'.2.toExt lg'), bReq_iff hop]
        exact sr a ha z hz

theorem veq_ok {s : Mtmdd2} (hs : Inv s) {f g : Nat} (lf : s.mtmdd.arena.Live f)
    (lg : s.mtmdd.arena.Live g) :
    engB.Ok s (Max.max (s.mtmdd.arena.rank f) (s.mtmdd.arena.rank g))
      (Op2 (cmpR (fun a b => decide (a = b))) s.mtmdd.arena s.mtmdd.arena f g) (s.veq f g) :=
  cmpF_ok rfl _ s f g hs lf lg (Nat.lt_succ_self _)

theorem vlt_ok {s : Mtmdd2} (hs : Inv s) {f g : Nat} (lf : s.mtmdd.arena.Live f)
    (lg : s.mtmdd.arena.Live g) :
    engB.Ok s (Max.max (s.mtmdd.arena.rank f) (s.mtmdd.arena.rank g))
      (Op2 (cmpR (fun a b => decide (a < b))) s.mtmdd.arena s.mtmdd.arena f g) (s.vlt f g) :=
  cmpF_ok rfl _ s f g hs lf lg (Nat.lt_succ_self _)

/-! ## Selection -/

theorem vifF_ok : ∀ n, View.Rec2 vBV vVV ifR (vifF n) n := by
  intro n
  induction n with
  | zero => intro s f g _ _ _ h; omega
  | succ n ih =>
    intro s f g hs lf lg hr
    have hs' : Inv s := hs
    have lf' : s.mdd.arena.Live f := lf
    have lg' : s.mtmdd.arena.Live g := lg
    have hr' : Max.max (s.mdd.arena.rank f) (s.mtmdd.arena.rank g) < n + 1 := hr
    have hN : Max.max (s.mdd.arena.rank f) (s.mtmdd.arena.rank g) ≤ n := by omega
    have und : s.mtmdd.arena.nodes[g]? = some (.term none) →
        engV.Ok s (Max.max (s.mdd.arena.rank f) (s.mtmdd.arena.rank g))
        (Op2 ifR s.mdd.arena s.mtmdd.arena f g) (some (Mtmdd.undet, s)) := by
      intro hg
      refine undetV_ok hs ?_
      intro a _ x y hx hy
      rw [(eval_term_iff hg).1 hy]
      unfold ifR; split <;> rfl
    have non : ∀ t : T3, t ≠ .one → s.mdd.arena.nodes[f]? = some (.term t) →
        engV.Ok s (Max.max (s.mdd.arena.rank f) (s.mtmdd.arena.rank g))
        (Op2 ifR s.mdd.arena s.mtmdd.arena f g) (some (Mtmdd.undet, s)) := by
      intro t ht hf
      refine undetV_ok hs ?_
      intro a _ x y hx hy
      rw [(eval_term_iff hf).1 hx]
      simp [ifR, ht]
    have yes : s.mdd.arena.nodes[f]? = some (.term .one) →
        engV.Ok s (Max.max (s.mdd.arena.rank f) (s.mtmdd.arena.rank g))
        (Op2 ifR s.mdd.arena s.mtmdd.arena f g) (some (g, s)) := by
      intro hf
      refine Eng.Ok.ret hs lg' (Nat.le_max_right _ _) ?_
      intro a ha z hz x y hx hy
      rw [(eval_term_iff hf).1 hx]
      simp only [ifR, if_true]
      exact Eval.det hz hy
    unfold vifF
    apply Eng.memo_ok hs
    · intro x hx
      have := hs'.vc.good _ _ _ _ hx
      exact ⟨this.lr, this.rk, this.snd⟩
    · obtain ⟨nf, hf⟩ := lf'.node
      obtain ⟨ng, hg⟩ := lg'.node
      simp only [node?, hf, hg]
      cases nf with
      | term t =>
        cases t with
        | undet => exact non .undet (by decide) hf
        | zero =>
          cases ng with
          | nt _ _ => exact non .zero (by decide) hf
          | term w =>
            cases w with
            | none => exact und hg
            | some _ => exact non .zero (by decide) hf
        | one =>
          cases ng with
          | nt _ _ => exact yes hf
          | term w =>
            cases w with
            | none => exact und hg
            | some _ => exact yes hf
      | nt hf' cf =>
        cases ng with
        | nt hg' cg => exact View.arms2_ok vBV vVV ih hs lf lg hf hg (Or.inl rfl) hN
        | term w =>
          cases w with
          | none => exact und hg
          | some _ =>
            obtain ⟨hd, _, _, hrk', _⟩ := hs'.b.wf.nt lf' hf
            have hlt : s.mtmdd.arena.rank g < s.mdd.arena.rank f := by rw [rank_term hg]; omega
            exact View.armL_ok vBV vVV ih hs lf lg hf hlt hN
    · intro s' r i' st lr rr sr
      have i'' : Inv s' := i'
      have st' : St s s' := st
      refine ⟨⟨i''.b, i''.v, i''.hdr, i''.bc, i''.vc.put lr.1 ?_, i''.ic⟩, rfl, St.refl _⟩
      refine ⟨rfl, (st'.1.keep _ lf').1, (st'.2.keep _ lg').1, lr, ?_, ?_⟩
      · rw [hs'.b.wf.rank_ext st'.1.toExt lf', hs'.v.wf.rank_ext st'.2.toExt lg']; exact rr
      · intro a ha z hz
        have : Op2 ifR s.mdd.arena s.mtmdd.arena f g a z := sr a ha z hz
        unfold Op2 at this ⊢
        simpa only [hs'.b.wf.eval_ext st'.1.toExt lf', hs'.v.wf.eval_ext st'.2.toExt lg'] using this

theorem vif_ok {s : Mtmdd2} (hs : Inv s) {f g : Nat} (lf : s.mdd.arena.Live f)
    (lg : s.mtmdd.arena.Live g) :
    engV.Ok s (Max.max (s.mdd.arena.rank f) (s.mtmdd.arena.rank g))
      (Op2 ifR s.mdd.arena s.mtmdd.arena f g) (s.vif f g) :=
  vifF_ok _ s f g hs lf lg (Nat.lt_succ_self _)

theorem viteF_ok : ∀ n, View.Rec3 vBV vVV vVV iteR (viteF n) n := by
  intro n
  induction n with
  | zero => intro s f g h _ _ _ _ h; omega
  | succ n ih =>
    intro s f g h hs lf lg lh hr
    have hs' : Inv s := hs
    have lf' : s.mdd.arena.Live f := lf
    have lg' : s.mtmdd.arena.Live g := lg
    have lh' : s.mtmdd.arena.Live h := lh
    have hr' : Max.max (s.mdd.arena.rank f) (Max.max (s.mtmdd.arena.rank g) (s.mtmdd.arena.rank h)) < n + 1 := hr
    show engV.Ok s (Max.max (s.mdd.arena.rank f) (Max.max (s.mtmdd.arena.rank g) (s.mtmdd.arena.rank h)))
      (Op3 iteR s.mdd.arena s.mtmdd.arena s.mtmdd.arena f g h) _
    unfold viteF
    obtain ⟨nf, hf⟩ := lf'.node
    simp only [node?, hf]
    cases nf with
    | term t =>
      cases t with
      | one =>
        refine Eng.Ok.ret hs lg' (show s.mtmdd.arena.rank g ≤ _ by omega) ?_
        intro a ha z hz x y w hx hy hw
        rw [(eval_term_iff hf).1 hx]
        exact ⟨fun _ => Eval.det hz hy, fun h => (by cases h)⟩
      | zero =>
        refine Eng.Ok.ret hs lh' (show s.mtmdd.arena.rank h ≤ _ by omega) ?_
        intro a ha z hz x y w hx hy hw
        rw [(eval_term_iff hf).1 hx]
        exact ⟨fun h => (by cases h), fun _ => Eval.det hz hw⟩
      | undet =>
        refine undetV_ok hs ?_
        intro a ha x y w hx hy hw
        rw [(eval_term_iff hf).1 hx]
        exact ⟨fun h => (by cases h), fun h => (by cases h)⟩
    | nt hf' cf =>
      by_cases hgh : g = h
      · subst hgh
        simp only [if_true]
        refine Eng.Ok.ret hs lh' (show s.mtmdd.arena.rank g ≤ _ by omega) ?_
        intro a ha z hz x y w hx hy hw
        exact ⟨fun _ => Eval.det hz hy, fun _ => Eval.det hz hw⟩
      · simp only [hgh, if_false]
        apply Eng.memo_ok hs
        · intro x hx
          have := hs'.ic.good _ _ _ _ hx
          exact ⟨this.lr, this.rk, this.snd⟩
        · obtain ⟨hd, hh, hl, hrk, hlv, _, _⟩ := hs'.b.wf.nt lf' hf
          simp only [hlv]
          obtain ⟨t1, t2, t3⟩ := topLevel_ge s.mtmdd.arena [g, h] hd.level
          generalize s.mtmdd.arena.topLevel hd.level [g, h] = top at *
          have hth : ∃ hx hdx, s.viteTopHeader f g h top = some (hx, hdx.edgeNum) ∧
              s.mtmdd.arena.headers[hx]? = some hdx ∧ hdx.level = top := by
            unfold viteTopHeader
            by_cases hft : hd.level = top
            · obtain ⟨hx, hdx, e1, e2, e3⟩ := hs'.b.wf.topHeader_spec (top := top) (xs := [f])
                (by simp [lf']) ⟨f, by simp, by rw [hlv, hft]⟩
              exact ⟨hx, hdx, by rw [e1], by rw [← hs'.hdr]; exact e2, e3⟩
            · have e0 : s.mdd.arena.topHeader top [f] = none := by
                simp [topHeader, hlv, hft]
              rw [e0]
              simp only
              refine hs'.v.wf.topHeader_spec (by simp [lg', lh']) ?_
              rcases t3 with t3 | t3
              · exact absurd t3.symm hft
              · exact t3
          obtain ⟨hx, hdx, e1, e2, e3⟩ := hth
          simp only [e1]
          refine View.arm3_ok vBV vVV vVV ih hs lf lg lh e2 e3 ?_ (t2 g (by simp)) (t2 h (by simp))
            ?_ (Nat.le_of_lt_succ hr)
          · show s.mdd.arena.rank f ≤ _
            omega
          · rcases t3 with t3 | ⟨x, hx, hlx⟩
            · exact Or.inl (show s.mdd.arena.rank f = _ by omega)
            · have := rank_eq_of_level hlx
              simp at hx
              rcases hx with rfl | rfl
              · exact Or.inr (Or.inl this)
              · exact Or.inr (Or.inr this)
        · intro s' r i' st lr rr sr
          have i'' : Inv s' := i'
          have st' : St s s' := st
          refine ⟨⟨i''.b, i''.v, i''.hdr, i''.bc, i''.vc, i''.ic.put lr.1 ?_⟩, rfl, St.refl _⟩
          refine ⟨(st'.1.keep _ lf').1, (st'.2.keep _ lg').1, (st'.2.keep _ lh').1, lr, ?_, ?_⟩
          · rw [hs'.b.wf.rank_ext st'.1.toExt lf', hs'.v.wf.rank_ext st'.2.toExt lg',
              hs'.v.wf.rank_ext st'.2.toExt lh']; exact rr
          · intro a ha z hz
            have := sr a ha z hz
            unfold Op3 at this ⊢
            simpa only [hs'.b.wf.eval_ext st'.1.toExt lf', hs'.v.wf.eval_ext st'.2.toExt lg',
              hs'.v.wf.eval_ext st'.2.toExt lh'] using this

theorem vite_ok {s : Mtmdd2} (hs : Inv s) {f g h : Nat} (lf : s.mdd.arena.Live f)
    (lg : s.mtmdd.arena.Live g) (lh : s.mtmdd.arena.Live h) :
    engV.Ok s (Max.max (s.mdd.arena.rank f) (Max.max (s.mtmdd.arena.rank g) (s.mtmdd.arena.rank h)))
      (Op3 iteR s.mdd.arena s.mtmdd.arena s.mtmdd.arena f g h) (s.vite f g h) :=
  viteF_ok _ s f g h hs lf lg lh (Nat.lt_succ_self _)

/-! ## Construction, headers, collection -/

theorem inv_new : Inv Mtmdd2.new where
  b := Mdd.inv_new
  v := Mtmdd.inv_new
  hdr := rfl
  bc := CacheOK.new _ _
  vc := CacheOK.new _ _
  ic := CacheOK.new _ _

theorem clearCache_inv {s : Mtmdd2} (hs : Inv s) : Inv s.clearCache where
  b := Mdd.clearCache_inv hs.b
  v := Mtmdd.clearCache_inv hs.v
  hdr := hs.hdr
  bc := hs.bc.clear
  vc := hs.vc.clear
  ic := hs.ic.clear

/-- `create_header` with a legal edge count never trips the assertion. -/
theorem createHeader_ok {s : Mtmdd2} (hs : Inv s) (l : Nat) (lab : String) (e : Nat) (he : 0 < e)
    (hc : ∀ hd ∈ s.mdd.arena.headers, hd.level = l → hd.edgeNum = e) :
    ∃ s', s.createHeader l lab e = some (s.mdd.arena.headers.length, s') ∧ Inv s' ∧
      Ext s.mdd.arena s'.mdd.arena ∧ Ext s.mtmdd.arena s'.mtmdd.arena ∧
      s'.mdd.arena.headers = s.mdd.arena.headers ++ [⟨l, lab, e⟩] ∧
      s'.mdd.arena.nodes = s.mdd.arena.nodes ∧ s'.mtmdd.arena.nodes = s.mtmdd.arena.nodes ∧
      (∀ i, s'.mdd.arena.Live i ↔ s.mdd.arena.Live i) ∧
      (∀ i, s'.mtmdd.arena.Live i ↔ s.mtmdd.arena.Live i) := by
  obtain ⟨b1, b2, b3, b4, b5, b6⟩ := Mdd.createHeader_inv hs.b l lab e he hc
  obtain ⟨v1, v2, v3, v4, v5, v6⟩ := Mtmdd.createHeader_inv hs.v l lab e he (by rw [← hs.hdr]; exact hc)
  have hlen : s.mtmdd.arena.headers.length = s.mdd.arena.headers.length := by rw [hs.hdr]
  have hid1 : (s.mtmdd.createHeader l lab e).1 = s.mdd.arena.headers.length := hlen
  have hid2 : (s.mdd.createHeader l lab e).1 = s.mdd.arena.headers.length := rfl
  refine ⟨{ s with mdd := (s.mdd.createHeader l lab e).2, mtmdd := (s.mtmdd.createHeader l lab e).2 },
    ?_, ?_, b2, v2, b4, b5, v5, b6, v6⟩
  · unfold createHeader
    simp only [hid1, hid2, if_true]
  · exact hs.ext b1 v1 (by rw [b4, v4, hs.hdr]) b2 v2

/-- Collection keeps the invariant; in each forest the survivors are what its own roots reach. -/
theorem gc_ok {s : Mtmdd2} (hs : Inv s) {roots : List MNode}
    (hv : ∀ r, .value r ∈ roots → r < s.mtmdd.arena.nodes.length → s.mtmdd.arena.Live r)
    (hb : ∀ r, .bool r ∈ roots → r < s.mdd.arena.nodes.length → s.mdd.arena.Live r) :
    ∃ n s', s.gc roots = some (n, s') ∧ Inv s' ∧
      s'.mdd.arena.headers = s.mdd.arena.headers ∧
      s'.mdd.arena.nodes = s.mdd.arena.nodes ∧ s'.mtmdd.arena.nodes = s.mtmdd.arena.nodes ∧
      (∀ i, s'.mdd.arena.Live i ↔ s.mdd.arena.Survives (broots roots) i) ∧
      (∀ i, s'.mtmdd.arena.Live i ↔ s.mtmdd.arena.Survives (vroots roots) i) ∧
      St s' s ∧ n = (s'.mtmdd.arena.free.length, s'.mdd.arena.free.length) ∧
      (∀ k0 k1 k2, s'.bcache.get k0 k1 k2 = none ∧ s'.vcache.get k0 k1 k2 = none ∧
        s'.viteCache.get k0 k1 k2 = none) ∧
      (∀ op f g r, s'.mdd.cache.get op f g = some r →
        s'.mdd.arena.Live f ∧ s'.mdd.arena.Live g ∧ s'.mdd.arena.Live r) ∧
      (∀ f g h r, s'.mdd.iteCache.get f g h = some r →
        s'.mdd.arena.Live f ∧ s'.mdd.arena.Live g ∧ s'.mdd.arena.Live h ∧ s'.mdd.arena.Live r) ∧
      (∀ op f g r, s'.mtmdd.cache.get op f g = some r →
        s'.mtmdd.arena.Live f ∧ s'.mtmdd.arena.Live g ∧ s'.mtmdd.arena.Live r) := by
  have mv : ∀ r, r ∈ vroots roots ↔ .value r ∈ roots := by
    intro r
    unfold vroots
    rw [List.mem_filterMap]
    constructor
    · rintro ⟨x, hx, he⟩
      cases x with
      | value i => simp at he; subst he; exact hx
      | bool i => simp at he
    · intro h; exact ⟨_, h, rfl⟩
  have mb : ∀ r, r ∈ broots roots ↔ .bool r ∈ roots := by
    intro r
    unfold broots
    rw [List.mem_filterMap]
    constructor
    · rintro ⟨x, hx, he⟩
      cases x with
      | bool i => simp at he; subst he; exact hx
      | value i => simp at he
    · intro h; exact ⟨_, h, rfl⟩
  obtain ⟨nv, v, v1, v2, v3, v4, v5, v6, v7, v8⟩ := Mtmdd.gc_ok hs.v (roots := vroots roots)
    (fun r hr => hv r ((mv r).1 hr))
  obtain ⟨nb, b, b1, b2, b3, b4, b5, b6, b7, b8, b9⟩ := Mdd.gc_ok hs.b (roots := broots roots)
    (fun r hr => hb r ((mb r).1 hr))
  refine ⟨(nv, nb), { mdd := b, mtmdd := v, bcache := s.bcache.clear, vcache := s.vcache.clear,
                      viteCache := s.viteCache.clear }, ?_, ?_, b3, b4, v4, b5, v5, ⟨b6, v6⟩,
    by rw [v7, b7], ?_, ?_, ?_, ?_⟩
  · unfold gc; simp only [v1, b1]
  · exact ⟨b2, v2, by rw [b3, v3]; exact hs.hdr, hs.bc.clear, hs.vc.clear, hs.ic.clear⟩
  · intro k0 k1 k2
    exact ⟨get_clear .., get_clear .., get_clear ..⟩
  · intro op f g r h; exact ((b8 op f g r).1 h).2
  · intro f g k r h; exact ((b9 f g k r).1 h).2
  · intro op f g r h; exact ((v8 op f g r).1 h).2

end Mtmdd2
end DD
