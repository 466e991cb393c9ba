import Verif.Core.HMemo
import Verif.Bdd.Bool

/-!
# Dual of a BDD

Model of /repo/bss/src/bdd_dual.rs.
-/

set_option autoImplicit false
set_option linter.unusedSectionVars false
set_option linter.unusedVariables false

namespace DD
open Arena

namespace Bdd

/-- /repo/bss/src/bdd_dual.rs:12-37; the pair is (manager, `cache`). -/
def dualF : Nat → Bdd × AMap Nat Nat → Nat → Option (Nat × (Bdd × AMap Nat Nat))
  | 0, _, _ => none
  | n + 1, p, f =>
    memo (fun p : Bdd × AMap Nat Nat => p.2.get f) (fun p r => (p.1, p.2.insert f r)) (fun p =>
      match p.1.arena.node? f with
      | none => none
      | some (.term .zero) => some (one, p)
      | some (.term .one) => some (zero, p)
      | some (.term .undet) => some (undet, p)
      | some (.nt h [lo, hi]) => branchS (mknP mkn) (dualF n) p h [hi, lo]
      | some (.nt _ _) => none) p

/-- `dual` with the fresh cache made by /repo/bss/src/bdd.rs:508-516. -/
def dual (s : Bdd) (f : Nat) : Option (Nat × Bdd) :=
  match dualF (s.arena.rank f + 1) (s, AMap.empty) f with
  | none => none
  | some (r, (s', _)) => some (r, s')

/-- Complement every variable. -/
def flipA (a : Nat → Nat) : Nat → Nat := fun l => 1 - a l

/-- Requirement on the dual. -/
def DualReq (m : Arena T3) (f : Nat) (a : Nat → Nat) (z : T3) : Prop :=
  ∀ b, Eval m (flipA a) f (T3.ofBool b) → z = T3.ofBool (!b)

/-- Cache invariant. -/
def DualOK (s : Bdd) (c : AMap Nat Nat) : Prop :=
  ∀ f r, c.get f = some r → s.arena.Live f ∧ s.arena.Live r ∧ s.arena.rank r ≤ s.arena.rank f ∧
    s.arena.Sound (DualReq s.arena f) r

theorem DualReq.ext {m m' : Arena T3} (wf : WF RFull m) (e : Ext m m') {f : Nat} (hf : m.Live f)
    {a : Nat → Nat} {z : T3} : DualReq m' f a z ↔ DualReq m f a z := by
  unfold DualReq
  simp only [wf.eval_ext e hf]

theorem DualOK.mono (s s' : Bdd) (c : AMap Nat Nat) (hs : Inv s) (st : Step s.arena s'.arena)
    (h : DualOK s c) : DualOK s' c := by
  intro f r hr
  obtain ⟨h1, h2, h3, h4⟩ := h f r hr
  refine ⟨(st.keep _ h1).1, (st.keep _ h2).1, ?_, ?_⟩
  · rw [hs.wf.rank_ext st.toExt h1, hs.wf.rank_ext st.toExt h2]; exact h3
  · intro a ha z hz
    rw [DualReq.ext hs.wf st.toExt h1]
    exact hs.wf.sound_ext st.toExt h2 h4 a ha z hz

/-- Engine with the dual cache. -/
def dualEng : Eng (Bdd × AMap Nat Nat) T3 :=
  eng.pair (AMap Nat Nat) DualOK (fun s s' c hs st h => DualOK.mono s s' c hs st h)

theorem dual_const {p : Bdd × AMap Nat Nat} (hp : dualEng.Inv p) (t : T3) {k : Nat}
    {Φ : (Nat → Nat) → T3 → Prop}
    (h : ∀ a, p.1.arena.ValidA a → Φ a t) : dualEng.Ok p k Φ (some (t.slot, p)) := by
  obtain ⟨h1, h2⟩ := fixed hp.1 t
  refine Eng.Ok.ret hp h1 ?_ ?_
  · show p.1.arena.rank _ ≤ k
    rw [rank_term h2]; omega
  · intro a ha z hz
    rw [(eval_term_iff h2).1 hz]
    exact h a ha

theorem dualF_ok : ∀ (n : Nat) (p : Bdd × AMap Nat Nat) (f : Nat), dualEng.Inv p →
    p.1.arena.Live f → p.1.arena.rank f < n →
    dualEng.Ok p (p.1.arena.rank f) (DualReq p.1.arena f) (dualF n p f) := by
  intro n
  induction n with
  | zero => intro p f _ _ h; omega
  | succ n ih =>
    intro p f hp lf hr
    have hs : Inv p.1 := hp.1
    unfold dualF
    apply Eng.memo_ok hp
    · intro x hx
      obtain ⟨-, h2, h3, h4⟩ := hp.2 f x hx
      exact ⟨h2, h3, h4⟩
    · obtain ⟨nd, hn⟩ := lf.node
      simp only [node?, hn]
      cases nd with
      | term t =>
        cases t with
        | zero =>
          refine dual_const hp .one ?_
          intro a _ b hb
          have := (eval_term_iff hn).1 hb
          rw [T3.ofBool_inj (b := false) this]; rfl
        | one =>
          refine dual_const hp .zero ?_
          intro a _ b hb
          have := (eval_term_iff hn).1 hb
          rw [T3.ofBool_inj (b := true) this]; rfl
        | undet =>
          refine dual_const hp .undet ?_
          intro a _ b hb
          have := (eval_term_iff hn).1 hb
          exact absurd this.symm (ofBool_ne_undet b)
      | nt h ch =>
        obtain ⟨hd, hh, hl, hrk, -, -, hk⟩ := hs.wf.nt lf hn
        have h2 := hs.two hd (List.mem_of_getElem? hh)
        rw [h2] at hl
        match ch, hl with
        | [lo, hi], _ =>
          simp only
          rw [hrk]
          refine Eng.branch_ok (E := dualEng) hp hh (by simp [h2])
            (Φ := fun x => DualReq p.1.arena x) ?_ ?_
          · intro p1 x i1 st1 hx
            have hx' : x ∈ [lo, hi] := by
              simp only [List.mem_cons, List.not_mem_nil, or_false] at hx ⊢
              exact hx.symm
            obtain ⟨q1, q2⟩ := hk x hx'
            have st1' : Step p.1.arena p1.1.arena := st1
            have r1 := hs.wf.rank_ext st1'.toExt q1
            have := ih p1 x i1 (st1'.keep _ q1).1 (by omega)
            refine this.mono (by omega) ?_
            intro a _ z hz
            exact (DualReq.ext hs.wf st1'.toExt q1).1 hz
          · intro j x a z hx ha hj hz b hb
            have hlt := ha hd (List.mem_of_getElem? hh)
            have hcase : j = 0 ∨ j = 1 := by omega
            rcases hcase with rfl | rfl
            · simp at hx; subst hx
              exact hz b ((eval_child (j := 1) hn hh (by simp [flipA, hj]) rfl).1 hb)
            · simp at hx; subst hx
              exact hz b ((eval_child (j := 0) hn hh (by simp [flipA, hj]) rfl).1 hb)
    · intro p' r i' st lr rr sr
      have st' : Step p.1.arena p'.1.arena := st
      refine ⟨⟨i'.1, ?_⟩, rfl, Step.refl _⟩
      intro f' r' hr'
      simp only at hr' ⊢
      rw [AMap.get_insert] at hr'
      split at hr'
      · rename_i heq
        subst heq
        cases hr'
        refine ⟨(st'.keep _ lf).1, lr, by rw [hs.wf.rank_ext st'.toExt lf]; exact rr, ?_⟩
        intro a ha z hz
        rw [DualReq.ext hs.wf st'.toExt lf]
        exact sr a ha z hz
      · exact i'.2 f' r' hr'

theorem dual_ok {s : Bdd} (hs : Inv s) {f : Nat} (lf : s.arena.Live f) :
    eng.Ok s (s.arena.rank f) (DualReq s.arena f) (s.dual f) := by
  obtain ⟨r, s', c', h1, h2⟩ := Eng.pair_ok (dualF_ok (s.arena.rank f + 1) (s, AMap.empty) f
    ⟨hs, by intro f r h; cases h⟩ lf (Nat.lt_succ_self _))
  unfold dual
  simp only [h1]
  exact h2

theorem flip_bl (a : Nat → Bool) : flipA (bl a) = bl (fun l => !a l) := by
  funext l; unfold flipA bl; cases h : a l <;> simp [h]

/-- The dual denotes `x ↦ ¬F(¬x)`. -/
theorem dual_den {s : Bdd} (hs : Inv s) {f : Nat} {F : BFun} (hf : Den s.arena f F) :
    BOk s (fun a => !F (fun l => !a l)) (s.dual f) := by
  refine .of_ok (dual_ok hs hf.live) (fun a z h => h _ ?_)
  rw [flip_bl]
  exact hf.val _

end Bdd
end DD
