import Verif.Bss.Minsol
import Verif.Zdd.Prod

/-!
# Correctness of `to_zdd`
-/

set_option autoImplicit false
set_option linter.unusedSectionVars false
set_option linter.unusedVariables false

namespace DD
open Arena
namespace Zdd

/-- Node `r` of `dst` stands for the same family as node `i` of `src`. -/
structure TOk (src dst : Arena T3) (i r : Nat) : Prop where
  li : src.Live i
  lr : dst.Live r
  rk : dst.rank r ≤ src.rank i
  val : ∀ a z, z ≠ T3.zero → (Lab dst r a z ↔ Lab src i a z)

theorem TOk.ext {src dst dst' : Arena T3} (wf : WF RZ dst) (e : Ext dst dst') {i r : Nat} (h : TOk src dst i r) :
    TOk src dst' i r where
  li := h.li
  lr := (e.keep _ h.lr).1
  rk := by rw [wf.rank_ext e h.lr]; exact h.rk
  val a z hz := (wf.lab_ext e h.lr).trans (h.val a z hz)

/-- Invariant of the conversion; `P` holds of the level and label of every header. -/
structure CInv (src : Arena T3) (P : Nat → String → Prop) (st : ConvSt) : Prop where
  inv : Inv st.dst
  hdr : ∀ hd ∈ st.dst.arena.headers, P hd.level hd.label
  zh : ∀ sh dh, st.zh.get sh = some dh → ∃ hd, src.headers[sh]? = some hd ∧
    st.dst.arena.headers[dh]? = some ⟨hd.level, hd.label, 2⟩
  memo : ∀ i r, st.memo.get i = some r → TOk src st.dst.arena i r

/-- Result of the conversion. -/
def CRes (src : Arena T3) (P : Nat → String → Prop) (st : ConvSt) (i : Nat) (res : Option (Nat × ConvSt)) : Prop :=
  ∃ r st', res = some (r, st') ∧ CInv src P st' ∧ Ext st.dst.arena st'.dst.arena ∧ TOk src st'.dst.arena i r

section
variable {R : List Nat → Prop} {src : Arena T3} {P : Nat → String → Prop}

theorem convHeader_ok {st : ConvSt} (hst : CInv src P st) {sh : Nat} {hd : Header}
    (hh : src.headers[sh]? = some hd) (hP : P hd.level hd.label) :
    ∃ dh st', convHeader src st sh = some (dh, st') ∧ CInv src P st' ∧ Ext st.dst.arena st'.dst.arena ∧
      st'.dst.arena.headers[dh]? = some ⟨hd.level, hd.label, 2⟩ := by
  unfold convHeader
  cases hg : st.zh.get sh with
  | some dh =>
    obtain ⟨hd', h1, h2⟩ := hst.zh sh dh hg
    rw [hh] at h1; cases h1
    exact ⟨dh, st, rfl, hst, Ext.refl _, h2⟩
  | none =>
    simp only [hh]
    obtain ⟨h1, h2, h3, h4, -, -⟩ := createHeader_inv hst.inv hd.level hd.label
    refine ⟨_, _, rfl, ⟨h1, ?_, ?_, ?_⟩, h2, h3⟩
    · intro hd' hm
      have hm : hd' ∈ (st.dst.createHeader hd.level hd.label).2.arena.headers := hm
      rw [h4, List.mem_append] at hm
      rcases hm with hm | hm
      · exact hst.hdr hd' hm
      · simp at hm; subst hm; exact hP
    · intro sh' dh' hg0
      have hg' : (st.zh.insert sh (st.dst.createHeader hd.level hd.label).1).get sh' = some dh' := hg0
      clear hg0
      rw [AMap.get_insert] at hg'
      split at hg'
      · rename_i heq
        subst heq
        simp only [Option.some.injEq] at hg'
        subst hg'
        exact ⟨hd, hh, h3⟩
      · obtain ⟨hd', k1, k2⟩ := hst.zh sh' dh' hg'
        exact ⟨hd', k1, h2.hdr _ _ k2⟩
    · intro i r hg'
      exact (hst.memo i r hg').ext hst.inv.wf h2

theorem toZddF_ok (wf : WF R src) (two : ∀ hd ∈ src.headers, hd.edgeNum = 2)
    (hP : ∀ hd ∈ src.headers, P hd.level hd.label) : ∀ n (st : ConvSt) (i : Nat), CInv src P st →
    src.Live i → src.rank i < n → CRes src P st i (toZddF src n st i) := by
  intro n
  induction n with
  | zero => intro _ _ _ _ h; omega
  | succ n ih =>
    intro st i hst li hn
    unfold toZddF
    cases hget : st.memo.get i with
    | some r => exact ⟨r, st, rfl, hst, Ext.refl _, hst.memo i r hget⟩
    | none =>
      have main : CRes src P st i (convArms src (toZddF src n) st i) := by
        unfold convArms
        obtain ⟨x, hx⟩ := li.node
        have hx' : src.node? i = some x := hx
        cases x with
        | term t =>
          simp only [hx']
          obtain ⟨h1, h2⟩ := fixed hst.inv t
          refine ⟨_, st, rfl, hst, Ext.refl _, li, h1, by rw [rank_term h2]; omega, fun a z _ => ?_⟩
          rw [lab_term_iff h2, lab_term_iff hx]
        | nt sh ch =>
          obtain ⟨hd, hh, hl, hr, -, -, hk⟩ := wf.nt li hx
          have hm := List.mem_of_getElem? hh
          rw [two hd hm] at hl
          match ch, hl with
          | [e0, e1], _ =>
            simp only [hx']
            have k0 := hk e0 (by simp)
            have k1 := hk e1 (by simp)
            unfold convNt
            obtain ⟨lo, st1, a1, a2, a3, a4⟩ := ih st e0 hst k0.1 (by omega)
            obtain ⟨hi, st2, b1, b2, b3, b4⟩ := ih st1 e1 a2 k1.1 (by omega)
            obtain ⟨dh, st3, c1, c2, c3, c4⟩ := convHeader_ok b2 hh (hP hd hm)
            have tl := (a4.ext a2.inv.wf b3).ext b2.inv.wf c3
            have th := b4.ext b2.inv.wf c3
            obtain ⟨r, s4, d1, d2, d3, d4, d5, d6⟩ := createNode_ok c2.inv c4 tl.lr
              (by show _ ≤ hd.level; have := tl.rk; omega) th.lr (by show _ ≤ hd.level; have := th.rk; omega)
            have tl' := tl.ext c2.inv.wf d3.toExt
            have th' := th.ext c2.inv.wf d3.toExt
            refine ⟨r, { st3 with dst := s4 }, by simp only [a1, b1, c1, d1], ⟨d2, ?_, ?_, ?_⟩,
              ((a3.trans b3).trans c3).trans d3.toExt, li, d4, ?_, fun a z hz => ?_⟩
            · show ∀ hd ∈ s4.arena.headers, _
              rw [d3.heq]; exact c2.hdr
            · intro sh' dh' hg
              obtain ⟨hd', k1, k2⟩ := c2.zh sh' dh' hg
              exact ⟨hd', k1, d3.hdr _ _ k2⟩
            · intro j r' hg
              exact (c2.memo j r' hg).ext c2.inv.wf d3.toExt
            · show s4.arena.rank r ≤ _
              have : s4.arena.rank r ≤ hd.level + 1 := d5
              omega
            · show Lab s4.arena r a z ↔ _
              rw [d6 a z hz, wf.lab_nt_iff li hx hh]
              show (a hd.level = 0 ∧ _) ∨ (a hd.level = 1 ∧ _) ↔ _
              constructor
              · rintro (⟨h0, hL⟩ | ⟨h1, hL⟩)
                · refine ⟨e0, by rw [h0]; rfl, ?_⟩
                  rw [upd_id h0]
                  exact (tl'.val a z hz).1 hL
                · exact ⟨e1, by rw [h1]; rfl, (th'.val _ z hz).1 hL⟩
              · rintro ⟨c, hc, hL⟩
                have hlt := (List.getElem?_eq_some_iff.1 hc).1
                simp at hlt
                have : a hd.level = 0 ∨ a hd.level = 1 := by omega
                rcases this with h0 | h1
                · left
                  rw [h0] at hc; simp at hc; subst hc
                  rw [upd_id h0] at hL
                  exact ⟨h0, (tl'.val a z hz).2 hL⟩
                · right
                  rw [h1] at hc; simp at hc; subst hc
                  exact ⟨h1, (th'.val _ z hz).2 hL⟩
      obtain ⟨r, st', e1, i1, t1, v1⟩ := main
      simp only [e1]
      refine ⟨r, _, rfl, ⟨i1.inv, i1.hdr, i1.zh, ?_⟩, t1, v1⟩
      intro j r' hg0
      have hg : (st'.memo.insert i r).get j = some r' := hg0
      clear hg0
      rw [AMap.get_insert] at hg
      split at hg
      · rename_i heq
        subst heq
        cases hg
        exact v1
      · exact i1.memo j r' hg

/-- `to_zdd` copies the family, and the headers it adds carry levels and labels of the source. -/
theorem toZdd_ok (wf : WF R src) (two : ∀ hd ∈ src.headers, hd.edgeNum = 2)
    (hP : ∀ hd ∈ src.headers, P hd.level hd.label) {dst : Zdd} (hs : Inv dst)
    (hd : ∀ hd ∈ dst.arena.headers, P hd.level hd.label) {i : Nat} (li : src.Live i) :
    ∃ r dst', toZdd src dst i = some (r, dst') ∧ Inv dst' ∧ Ext dst.arena dst'.arena ∧
      (∀ hd ∈ dst'.arena.headers, P hd.level hd.label) ∧ TOk src dst'.arena i r := by
  obtain ⟨r, st', e1, i1, t1, v1⟩ := toZddF_ok wf two hP (src.rank i + 1) ⟨dst, AMap.empty, AMap.empty⟩ i
    ⟨hs, hd, fun _ _ h => (by simp at h), fun _ _ h => (by simp at h)⟩ li (Nat.lt_succ_self _)
  exact ⟨r, st'.dst, by simp only [toZdd, e1, Option.map_some], i1.inv, t1, i1.hdr, v1⟩

end
end Zdd
end DD
