import Verif.Mss.Convert
import Verif.Mss.SolMdd
import Verif.Zmdd.Ops

/-!
# Correctness of `to_zmdd` and `eval_extreme`
-/

set_option autoImplicit false
set_option linter.unusedSectionVars false
set_option linter.unusedVariables false

namespace DD
open Arena

/-- Every header of the family forest names a variable of `vs` with its number of states. -/
def ZHdr (vs : List (String × Nat)) (m : Arena (Option Int)) : Prop :=
  ∀ hd ∈ m.headers, vs[hd.level]? = some (hd.label, hd.edgeNum)

theorem ZHdr.step {vs : List (String × Nat)} {m m' : Arena (Option Int)} (h : ZHdr vs m)
    (e : m'.headers = m.headers) : ZHdr vs m' := by unfold ZHdr; rw [e]; exact h

section
variable {T : Type} [DecidableEq T] [Fixed T] {vs : List (String × Nat)} {src : Arena T} {tm : T → Option Int}
  {top : Bool}

/-- Node `r` of the family forest stands for the family read off node `i`. -/
structure CvOk (src : Arena T) (tm : T → Option Int) (top : Bool) (dst : Arena (Option Int)) (i r : Nat) : Prop where
  li : src.Live i
  lr : dst.Live r
  rk : dst.rank r ≤ src.rank i
  val : ∀ d v, Lab dst r d (some v) ↔ ∃ u, LabC top src i d u ∧ tm u = some v

theorem CvOk.ext {dst dst' : Arena (Option Int)} (wf : WF RZ dst) (e : Ext dst dst') {i r : Nat}
    (h : CvOk src tm top dst i r) : CvOk src tm top dst' i r where
  li := h.li
  lr := (e.keep _ h.lr).1
  rk := by rw [wf.rank_ext e h.lr]; exact h.rk
  val d v := (wf.lab_ext e h.lr).trans (h.val d v)

/-- Invariant of the conversion. -/
structure CvInv (vs : List (String × Nat)) (src : Arena T) (tm : T → Option Int) (top : Bool) (st : ConvM) :
    Prop where
  inv : Zmdd.Inv st.dst
  hdr : ZHdr vs st.dst.arena
  zh : ∀ sh dh, st.zh.get sh = some dh → ∃ hd, src.headers[sh]? = some hd ∧ st.dst.arena.headers[dh]? = some hd
  memo : ∀ i r, st.memo.get i = some r → CvOk src tm top st.dst.arena i r

/-- Result of the conversion. -/
def CvRes (vs : List (String × Nat)) (src : Arena T) (tm : T → Option Int) (top : Bool) (st : ConvM) (i : Nat)
    (res : Option (Nat × ConvM)) : Prop :=
  ∃ r st', res = some (r, st') ∧ CvInv vs src tm top st' ∧ Ext st.dst.arena st'.dst.arena ∧
    CvOk src tm top st'.dst.arena i r

theorem dstHeader_ok (wf : WF RFull src) (hsrc : src.headers = mkH vs) {st : ConvM} (hst : CvInv vs src tm top st)
    {sh : Nat} {hd : Header} (hh : src.headers[sh]? = some hd) :
    ∃ dh st', dstHeader src st sh hd.edgeNum = some (dh, st') ∧ CvInv vs src tm top st' ∧
      Ext st.dst.arena st'.dst.arena ∧ st'.dst.arena.headers[dh]? = some hd := by
  unfold dstHeader
  simp only [hh]
  cases hg : st.zh.get sh with
  | some dh =>
    obtain ⟨hd', h1, h2⟩ := hst.zh sh dh hg
    rw [hh] at h1; cases h1
    exact ⟨dh, st, rfl, hst, Ext.refl _, h2⟩
  | none =>
    have hp : vs[hd.level]? = some (hd.label, hd.edgeNum) := by
      have := hh
      rw [hsrc, mkH_get] at this
      obtain ⟨p, h1, rfl⟩ := this
      exact h1
    obtain ⟨h1, h2, h3, h4, -, -⟩ := Zmdd.createHeader_inv hst.inv hd.level hd.label hd.edgeNum
      (wf.pos hd (List.mem_of_getElem? hh)) (by
        intro hd' hm hl
        have := hst.hdr hd' hm
        rw [hl, hp] at this
        simp only [Option.some.injEq, Prod.mk.injEq] at this
        exact this.2.symm)
    refine ⟨_, _, rfl, ⟨h1, ?_, ?_, ?_⟩, h2, h3⟩
    · intro hd' hm
      have hm : hd' ∈ (st.dst.createHeader hd.level hd.label hd.edgeNum).2.arena.headers := hm
      rw [h4, List.mem_append] at hm
      rcases hm with hm | hm
      · exact hst.hdr hd' hm
      · simp at hm; subst hm; exact hp
    · intro sh' dh' hg0
      have hg' : (st.zh.insert sh (st.dst.createHeader hd.level hd.label hd.edgeNum).1).get sh' = some dh' := hg0
      clear hg0
      rw [AMap.get_insert] at hg'
      split at hg'
      · rename_i heq
        subst heq
        simp only [Option.some.injEq] at hg'
        subst hg'
        exact ⟨hd, hh, h3⟩
      · obtain ⟨hd', k1, k2⟩ := hst.zh sh' dh' hg'
        exact ⟨hd', k1, h2.hdr _ _ k2⟩
    · intro i r hg'
      exact (hst.memo i r hg').ext hst.inv.wf h2

theorem toZmddF_ok (wf : WF RFull src) (hsrc : src.headers = mkH vs) : ∀ n (st : ConvM) (i : Nat),
    CvInv vs src tm top st → src.Live i → src.rank i < n → CvRes vs src tm top st i (toZmddF src tm top n st i) := by
  intro n
  induction n with
  | zero => intro _ _ _ _ h; omega
  | succ n ih =>
    intro st i hst li hn
    unfold toZmddF
    cases hget : st.memo.get i with
    | some r => exact ⟨r, st, rfl, hst, Ext.refl _, hst.memo i r hget⟩
    | none =>
      have fin : ∀ {res : Option (Nat × ConvM)}, CvRes vs src tm top st i res →
          CvRes vs src tm top st i (match res with
            | none => none
            | some (r, st) => some (r, { st with memo := st.memo.insert i r })) := by
        rintro res ⟨r, st', rfl, i1, t1, v1⟩
        refine ⟨r, _, rfl, ⟨i1.inv, i1.hdr, i1.zh, ?_⟩, t1, v1⟩
        intro j r' hg0
        have hg : (st'.memo.insert i r).get j = some r' := hg0
        clear hg0
        rw [AMap.get_insert] at hg
        split at hg
        · rename_i heq
          subst heq
          cases hg
          exact v1
        · exact i1.memo j r' hg
      refine fin ?_
      obtain ⟨x, hx⟩ := li.node
      have hx' : src.node? i = some x := hx
      cases x with
      | term t =>
        simp only [hx']
        unfold convTerm
        cases ht : tm t with
        | none =>
          obtain ⟨h1, h2⟩ := Zmdd.fixed hst.inv
          refine ⟨_, st, rfl, hst, Ext.refl _, li, h1, by rw [rank_term h2]; omega, fun d v => ?_⟩
          rw [lab_term_iff h2]
          constructor
          · rintro ⟨_, h⟩; cases h
          · rintro ⟨u, h, hu⟩
            obtain ⟨_, rfl⟩ := (labC_term_iff hx).1 h
            rw [ht] at hu; cases hu
        | some v =>
          obtain ⟨r, s', h1, h2, h3, h4, h5, -⟩ := Zmdd.value_raw hst.inv v
          simp only [h1]
          refine ⟨r, { st with dst := s' }, rfl, ⟨h2, hst.hdr.step h3.heq, ?_, ?_⟩, h3.toExt, li, h4,
            by rw [rank_term h5]; omega, fun d w => ?_⟩
          · intro sh dh hg
            obtain ⟨hd, k1, k2⟩ := hst.zh sh dh hg
            exact ⟨hd, k1, h3.hdr _ _ k2⟩
          · intro j r' hg
            exact (hst.memo j r' hg).ext hst.inv.wf h3.toExt
          · rw [lab_term_iff h5]
            constructor
            · rintro ⟨rfl, h⟩
              cases h
              exact ⟨t, .term hx, ht⟩
            · rintro ⟨u, h, hu⟩
              obtain ⟨rfl, rfl⟩ := (labC_term_iff hx).1 h
              rw [ht] at hu; cases hu
              exact ⟨rfl, rfl⟩
      | nt sh ch =>
        simp only [hx']
        obtain ⟨hd, hh, hl, hr, -, -, hk⟩ := wf.nt li hx
        unfold convNode
        obtain ⟨rs, st1, a1, a2, a3, a4, a5⟩ := mapS_spec (f := toZmddF src tm top n)
          (Inv := CvInv vs src tm top) (P := fun a b => Ext a.dst.arena b.dst.arena)
          (fun _ => Ext.refl _) (fun _ _ _ h h' => h.trans h')
          (Q := fun s x r => CvOk src tm top s.dst.arena x r)
          (fun s s' x r hi e q => q.ext hi.inv.wf e) ch st hst
          (fun s1 x i1 _ hxm => ih s1 x i1 (hk x hxm).1 (by have := (hk x hxm).2; omega))
        simp only [a1]
        rw [hl]
        obtain ⟨dh, st2, c1, c2, c3, c4⟩ := dstHeader_ok wf hsrc a2 hh
        simp only [c1]
        have kid : ∀ (j : Nat) (c : Nat), rs[j]? = some c → ∃ x, ch[j]? = some x ∧
            CvOk src tm top st2.dst.arena x c := by
          intro j c hj
          have hjl : j < ch.length := by rw [← a4]; exact (List.getElem?_eq_some_iff.1 hj).1
          have hx := List.getElem?_eq_getElem hjl
          exact ⟨_, hx, (a5 j _ c hx hj).ext a2.inv.wf c3⟩
        have he : (if top then rs.reverse else rs) = ord top rs := rfl
        rw [he]
        obtain ⟨r, s3, d1, d2, d3, d4, d5, d6⟩ := Zmdd.createNode_ok c2.inv (ch := ord top rs) c4
          (by rw [ord_length, a4, hl]) (by
            intro c hc
            obtain ⟨j, hj⟩ := List.mem_iff_getElem?.1 (mem_ord.1 hc)
            obtain ⟨x, hx, q⟩ := kid j c hj
            have := (hk x (List.mem_of_getElem? hx)).2
            exact ⟨q.lr, Nat.le_trans q.rk this⟩)
        simp only [d1]
        refine ⟨r, { st2 with dst := s3 }, rfl, ⟨d2, c2.hdr.step d3.heq, ?_, ?_⟩,
          (a3.trans c3).trans d3.toExt, li, d4, ?_, fun d v => ?_⟩
        · intro sh' dh' hg
          obtain ⟨hd', k1, k2⟩ := c2.zh sh' dh' hg
          exact ⟨hd', k1, d3.hdr _ _ k2⟩
        · intro j r' hg
          exact (c2.memo j r' hg).ext c2.inv.wf d3.toExt
        · show s3.arena.rank r ≤ _
          omega
        · show Lab s3.arena r d (some v) ↔ _
          rw [d6 d v]
          simp only [wf.labC_nt_iff li hx hh]
          constructor
          · rintro ⟨c, hc, hL⟩
            obtain ⟨k1, k2⟩ := ord_get_some hc
            obtain ⟨x, hx', q⟩ := kid _ c k2
            obtain ⟨u, hu1, hu2⟩ := (q.val _ v).1 hL
            refine ⟨u, ⟨x, ?_, hu1⟩, hu2⟩
            rw [ord_get (by rw [← a4]; exact k1), ← a4]
            exact hx'
          · rintro ⟨u, ⟨x, hx1, hu1⟩, hu2⟩
            obtain ⟨k1, k2⟩ := ord_get_some hx1
            have hlt : d hd.level < rs.length := by rw [a4]; exact k1
            have hj : pos top rs.length (d hd.level) < rs.length := pos_lt hlt
            have hc := List.getElem?_eq_getElem hj
            obtain ⟨x', hx', q⟩ := kid _ _ hc
            have hxx : x' = x := by
              rw [a4] at hx'
              rw [k2] at hx'
              exact (Option.some.inj hx').symm
            subst hxx
            exact ⟨_, by rw [ord_get hlt]; exact hc, (q.val _ v).2 ⟨u, hu1, hu2⟩⟩

/-- A whole copy. -/
theorem toZmddA_ok (wf : WF RFull src) (hsrc : src.headers = mkH vs) {dst : Zmdd} (hs : Zmdd.Inv dst)
    (hd : ZHdr vs dst.arena) {i : Nat} (li : src.Live i) :
    ∃ r dst', toZmddA src tm top dst i = some (r, dst') ∧ Zmdd.Inv dst' ∧ Ext dst.arena dst'.arena ∧
      ZHdr vs dst'.arena ∧ CvOk src tm top dst'.arena i r := by
  obtain ⟨r, st', e1, i1, t1, v1⟩ := toZmddF_ok (tm := tm) (top := top) wf hsrc (src.rank i + 1)
    ⟨dst, AMap.empty, AMap.empty⟩ i
    ⟨hs, hd, fun _ _ h => (by simp at h), fun _ _ h => (by simp at h)⟩ li (Nat.lt_succ_self _)
  exact ⟨r, st'.dst, by simp only [toZmddA, e1], i1.inv, t1, i1.hdr, v1⟩

/-- The walk of `eval_extreme` reads the function at the baseline state. -/
theorem extremeF_ok (wf : WF RFull src) (hsrc : src.headers = mkH vs) (top : Bool) : ∀ n i, src.Live i →
    src.rank i < n → ∃ t, extremeF src top n i = some t ∧ Eval src (crd top (lastV vs) (fun _ => 0)) i t := by
  intro n
  induction n with
  | zero => intro i _ h; omega
  | succ n ih =>
    intro i li hn
    unfold extremeF
    obtain ⟨x, hx⟩ := li.node
    have hx' : src.node? i = some x := hx
    cases x with
    | term t =>
      simp only [hx']
      exact ⟨t, rfl, .term hx⟩
    | nt h ch =>
      simp only [hx']
      obtain ⟨hd, hh, hl, hr, -, -, hk⟩ := wf.nt li hx
      have hpos := wf.pos hd (List.mem_of_getElem? hh)
      have hp : vs[hd.level]? = some (hd.label, hd.edgeNum) := by
        have := hh
        rw [hsrc, mkH_get] at this
        obtain ⟨p, h1, rfl⟩ := this
        exact h1
      have key : ∃ c, (if top then ch.getLast? else ch.head?) = some c ∧
          ch[crd top (lastV vs) (fun _ => 0) hd.level]? = some c := by
        cases top with
        | false =>
          have h0 : 0 < ch.length := by omega
          refine ⟨ch[0], ?_, ?_⟩
          · simp only [Bool.false_eq_true, if_false]
            rw [List.head?_eq_getElem?]
            exact List.getElem?_eq_getElem h0
          · show ch[0]? = _
            exact List.getElem?_eq_getElem h0
        | true =>
          have h0 : ch.length - 1 < ch.length := by omega
          refine ⟨ch[ch.length - 1], ?_, ?_⟩
          · simp only [if_true]
            rw [List.getLast?_eq_getElem?]
            exact List.getElem?_eq_getElem h0
          · show ch[lastV vs hd.level - 0]? = _
            rw [lastV_of hp]
            simp only [Nat.sub_zero, ← hl]
            exact List.getElem?_eq_getElem h0
      obtain ⟨c, h1, h2⟩ := key
      rw [h1]
      obtain ⟨lc, rc⟩ := hk c (List.mem_of_getElem? h2)
      obtain ⟨t, h3, h4⟩ := ih c lc (by omega)
      exact ⟨t, h3, .nt hx hh h2 h4⟩

end

open Mtmdd2

/-- `to_zmdd` copies the family of a tagged node. -/
theorem toZmdd_ok {e : Mtmdd2} {vs : List (String × Nat)} (he : Inv e) (hh : e.mdd.arena.headers = mkH vs)
    {dst : Zmdd} (hs : Zmdd.Inv dst) (hd : ZHdr vs dst.arena) {x : MNode} (lx : e.MLive x) (top : Bool) :
    ∃ r dst', toZmdd e x dst top = some (r, dst') ∧ Zmdd.Inv dst' ∧ Ext dst.arena dst'.arena ∧
      ZHdr vs dst'.arena ∧ dst'.arena.Live r ∧ ∀ d v, Lab dst'.arena r d (some v) ↔ MLab top e x d v := by
  cases x with
  | value i =>
    obtain ⟨r, dst', h1, h2, h3, h4, h5⟩ := toZmddA_ok (tm := fun t => t) (top := top) he.v.wf
      (by rw [← he.hdr]; exact hh) hs hd lx
    refine ⟨r, dst', h1, h2, h3, h4, h5.lr, fun d v => (h5.val d v).trans ?_⟩
    show _ ↔ LabC top e.mtmdd.arena i d (some v)
    constructor
    · rintro ⟨u, hu, rfl⟩; exact hu
    · intro h; exact ⟨_, h, rfl⟩
  | bool i =>
    obtain ⟨r, dst', h1, h2, h3, h4, h5⟩ := toZmddA_ok (tm := convB top) (top := top) he.b.wf hh hs hd lx
    refine ⟨r, dst', h1, h2, h3, h4, h5.lr, fun d v => (h5.val d v).trans ?_⟩
    show _ ↔ LabC top e.mdd.arena i d .one ∧ v = if top then 0 else 1
    constructor
    · rintro ⟨u, hu, hv⟩
      cases u <;> simp only [convB, Option.some.injEq, reduceCtorEq] at hv
      exact ⟨hu, hv.symm⟩
    · rintro ⟨hu, rfl⟩; exact ⟨_, hu, rfl⟩

/-- `eval_extreme` gives the value at the baseline state (0 where undetermined). -/
theorem evalExtreme_ok {e : Mtmdd2} {vs : List (String × Nat)} (he : Inv e) (hh : e.mdd.arena.headers = mkH vs)
    {x : MNode} {F : MFun} (hx : MDen e x F) (top : Bool) :
    evalExtreme e x top = some ((F (crd top (lastV vs) (fun _ => 0))).num.getD 0) := by
  have hz : ValidV vs (crd top (lastV vs) (fun _ => 0)) := crd_validV ((validA_iff hh).1 he.zero)
  cases x with
  | value i =>
    obtain ⟨t, h1, h2⟩ := extremeF_ok he.v.wf (by rw [← he.hdr]; exact hh) top _ i hx.live (Nat.lt_succ_self _)
    have h3 := hx.read (u := .v t) ((validA_iff hh).2 hz) h2
    rw [← h3]
    unfold evalExtreme
    simp only [h1]
    cases t <;> rfl
  | bool i =>
    obtain ⟨t, h1, h2⟩ := extremeF_ok he.b.wf hh top _ i hx.live (Nat.lt_succ_self _)
    have h3 := hx.read (u := .b t) ((validA_iff hh).2 hz) h2
    rw [← h3]
    unfold evalExtreme
    simp only [h1]
    cases t <;> rfl

end DD
