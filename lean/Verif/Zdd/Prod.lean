import Verif.Zdd.Ops

/-!
# ZDD product, division, collection
-/

set_option autoImplicit false
set_option linter.unusedSectionVars false
set_option linter.unusedVariables false

namespace DD
open Arena

namespace Zdd

/-! ## product -/

/-- Join of families. -/
def X (F G : (Nat → Nat) → Prop) (a : Nat → Nat) : Prop := ∃ b d, F b ∧ G d ∧ a = sup b d

theorem upd_sup (b d : Nat → Nat) (l k k' : Nat) :
    upd (sup b d) l (max k k') = sup (upd b l k) (upd d l k') := by
  funext x
  simp only [upd, sup]
  split <;> rfl

theorem sup_zeroR (b : Nat → Nat) : sup b (fun _ => 0) = b := by
  funext x; simp [sup]

theorem sup_zeroL (b : Nat → Nat) : sup (fun _ => 0) b = b := by
  funext x; simp [sup]

theorem prod_comb {m : Arena T3} (wf : WF RZ m)
    {l f f0 f1 g g0 g1 r lo hi : Nat} (kf : Kids m l f f0 f1) (kg : Kids m l g g0 g1)
    (kr : Split m l r lo hi) (h0 : ∀ a, Fam m lo a ↔ X (Fam m f0) (Fam m g0) a)
    (h1 : ∀ a, Fam m hi a ↔ X (Fam m f1) (Fam m g1) a ∨ X (Fam m f1) (Fam m g0) a ∨
      X (Fam m f0) (Fam m g1) a) (a : Nat → Nat) :
    Fam m r a ↔ X (Fam m f) (Fam m g) a := by
  have sf := fun a => kf.split a .one (by decide)
  have sg := fun a => kg.split a .one (by decide)
  have sr := fun a => kr a .one (by decide)
  unfold Fam at *
  rw [sr, h0, h1]
  have f0z : ∀ {b}, Lab m f0 b .one → b l = 0 := fun hb => wf.lab_supp hb kf.l0 _ kf.r0
  have f1z : ∀ {b}, Lab m f1 b .one → b l = 0 := fun hb => wf.lab_supp hb kf.l1 _ kf.r1
  have g0z : ∀ {b}, Lab m g0 b .one → b l = 0 := fun hb => wf.lab_supp hb kg.l0 _ kg.r0
  have g1z : ∀ {b}, Lab m g1 b .one → b l = 0 := fun hb => wf.lab_supp hb kg.l1 _ kg.r1
  have back : ∀ {b d : Nat → Nat} (k k' : Nat), a l = 1 → upd a l 0 = sup b d → max k k' = 1 →
      a = sup (upd b l k) (upd d l k') := by
    intro b d k k' ha he hk
    rw [← upd_sup, hk, ← he, upd_upd, upd_id ha]
  have fup : ∀ {b}, Lab m f1 b .one → Lab m f (upd b l 1) .one :=
    fun hb => kf.split.up wf kf.l1 kf.r1 (by decide) hb
  have gup : ∀ {b}, Lab m g1 b .one → Lab m g (upd b l 1) .one :=
    fun hb => kg.split.up wf kg.l1 kg.r1 (by decide) hb
  have flo : ∀ {b}, Lab m f0 b .one → Lab m f (upd b l 0) .one := by
    intro b hb
    rw [upd_id (f0z hb)]
    exact (sf b).2 (Or.inl ⟨f0z hb, hb⟩)
  have glo : ∀ {b}, Lab m g0 b .one → Lab m g (upd b l 0) .one := by
    intro b hb
    rw [upd_id (g0z hb)]
    exact (sg b).2 (Or.inl ⟨g0z hb, hb⟩)
  constructor
  · rintro (⟨ha, b, d, hb, hd, rfl⟩ | ⟨ha, ⟨b, d, hb, hd, he⟩ | ⟨b, d, hb, hd, he⟩ | ⟨b, d, hb, hd, he⟩⟩)
    · exact ⟨b, d, (sf b).2 (Or.inl ⟨f0z hb, hb⟩), (sg d).2 (Or.inl ⟨g0z hd, hd⟩), rfl⟩
    · exact ⟨_, _, fup hb, gup hd, back 1 1 ha he rfl⟩
    · exact ⟨_, _, fup hb, glo hd, back 1 0 ha he rfl⟩
    · exact ⟨_, _, flo hb, gup hd, back 0 1 ha he rfl⟩
  · rintro ⟨b, d, hb, hd, rfl⟩
    have e : upd (sup b d) l 0 = sup (upd b l 0) (upd d l 0) := upd_sup b d l 0 0
    have ev : sup b d l = max (b l) (d l) := rfl
    rw [e, ev]
    rcases (sf b).1 hb with ⟨e1, e2⟩ | ⟨e1, e2⟩ <;> rcases (sg d).1 hd with ⟨e3, e4⟩ | ⟨e3, e4⟩
    · exact Or.inl ⟨by rw [e1, e3]; rfl, b, d, e2, e4, rfl⟩
    · refine Or.inr ⟨by rw [e1, e3]; rfl, Or.inr (Or.inr ⟨_, _, ?_, e4, rfl⟩)⟩
      rw [upd_id e1]; exact e2
    · refine Or.inr ⟨by rw [e1, e3]; rfl, Or.inr (Or.inl ⟨_, _, e2, ?_, rfl⟩)⟩
      rw [upd_id e3]; exact e4
    · exact Or.inr ⟨by rw [e1, e3]; rfl, Or.inl ⟨_, _, e2, e4, rfl⟩⟩

theorem x_zeroR {m : Arena T3} (wf : WF RZ m) (F : (Nat → Nat) → Prop) (a : Nat → Nat) :
    X F (Fam m zero) a ↔ False := by
  obtain ⟨_, hn⟩ := wf.fixed_live (t := T3.zero) rfl
  constructor
  · rintro ⟨b, d, _, hd, _⟩
    exact (fam_zero hn d).1 hd
  · exact False.elim

theorem x_zeroL {m : Arena T3} (wf : WF RZ m) (F : (Nat → Nat) → Prop) (a : Nat → Nat) :
    X (Fam m zero) F a ↔ False := by
  obtain ⟨_, hn⟩ := wf.fixed_live (t := T3.zero) rfl
  constructor
  · rintro ⟨b, d, hd, _, _⟩
    exact (fam_zero hn b).1 hd
  · exact False.elim

/-- The equal-level arm. -/
theorem productEq_ok {rec : Zdd → Nat × Nat → Option (Nat × Zdd)} {n : Nat} (ih : Rec XReq rec n)
    {s : Zdd} (hs : Inv s) {f g h f0 f1 g0 g1 : Nat} {hd : Header} (lf : s.arena.Live f)
    (lg : s.arena.Live g) (hh : s.arena.headers[h]? = some hd)
    (hr : s.arena.rank f = hd.level + 1) (hr' : s.arena.rank g = hd.level + 1)
    (kf : Kids s.arena hd.level f f0 f1) (kg : Kids s.arena hd.level g g0 g1)
    (hf : Max.max (s.arena.rank f) (s.arena.rank g) < n + 1) :
    Ok2 XReq s f g (productEq rec s h f0 f1 g0 g1) := by
  have q0 := kf.r0
  have q1 := kf.r1
  have q2 := kg.r0
  have q3 := kg.r1
  -- a recursive call on two cofactors, at a later state
  have call : ∀ {s1 p q}, Inv s1 → Step s.arena s1.arena → s.arena.Live p → s.arena.Live q →
      s.arena.rank p ≤ hd.level → s.arena.rank q ≤ hd.level →
      ∃ r s', rec s1 (p, q) = some (r, s') ∧ Inv s' ∧ Step s1.arena s'.arena ∧ s'.arena.Live r ∧
        s'.arena.rank r ≤ hd.level ∧ XReq s'.arena p q r := by
    intro s1 p q i1 st lp lq rp rq
    have e1 := hs.wf.rank_ext st.toExt lp
    have e2 := hs.wf.rank_ext st.toExt lq
    obtain ⟨r, s', h1, h2, h3, h4, h5, h6⟩ :=
      ih s1 p q i1 (st.keep _ lp).1 (st.keep _ lq).1 (by omega)
    exact ⟨r, s', h1, h2, h3, h4, by omega, h6⟩
  obtain ⟨lo, s1, a1, i1, t1, l1, k1, x1⟩ := call hs (Step.refl _) kf.l0 kg.l0 q0 q2
  obtain ⟨hi, s2, a2, i2, t2, l2, k2, x2⟩ := call i1 t1 kf.l1 kg.l1 q1 q3
  have t12 := t1.trans t2
  obtain ⟨u, s3, a3, i3, t3, l3, k3, x3⟩ := call i2 t12 kf.l1 kg.l0 q1 q2
  have t13 := t12.trans t3
  obtain ⟨hi', s4, a4, i4, t4, l4, k4, x4⟩ := union_ok i3 (t3.keep _ l2).1 l3
  have t14 := t13.trans t4
  have e2 := i2.wf.rank_ext t3.toExt l2
  obtain ⟨v, s5, a5, i5, t5, l5, k5, x5⟩ := call i4 t14 kf.l0 kg.l1 q0 q3
  have t15 := t14.trans t5
  have e4 := i4.wf.rank_ext t5.toExt l4
  obtain ⟨hi'', s6, a6, i6, t6, l6, k6, x6⟩ := union_ok i5 (t5.keep _ l4).1 l5
  have t16 := t15.trans t6
  have t26 := ((t2.trans t3).trans t4).trans (t5.trans t6)
  have e1 := i1.wf.rank_ext t26.toExt l1
  obtain ⟨r, s7, a7, i7, t7, l7, k7, x7⟩ := createNode_ok i6 (t16.hdr _ _ hh)
    (t26.keep _ l1).1 (by omega) l6 (by omega)
  have t17 := t16.trans t7
  refine ⟨r, s7, by simp only [productEq, a1, a2, a3, a4, a5, a6, a7], i7, t17, l7, by omega, ?_⟩
  -- all requirements, read in the last state
  have m17 := t17.toExt
  have y1 := (stable_xreq i1.wf (t26.trans t7).toExt (t1.keep _ kf.l0).1 (t1.keep _ kg.l0).1 l1).2 x1
  have t37 := ((t3.trans t4).trans (t5.trans t6)).trans t7
  have y2 := (stable_xreq i2.wf t37.toExt (t12.keep _ kf.l1).1 (t12.keep _ kg.l1).1 l2).2 x2
  have t47 := (t4.trans (t5.trans t6)).trans t7
  have y3 := (stable_xreq i3.wf t47.toExt (t13.keep _ kf.l1).1 (t13.keep _ kg.l0).1 l3).2 x3
  have t57 := (t5.trans t6).trans t7
  have y4 := (stable_preq _ i4.wf t57.toExt ((t3.trans t4).keep _ l2).1 (t4.keep _ l3).1 l4).2 x4
  have t67 := t6.trans t7
  have y5 := (stable_xreq i5.wf t67.toExt (t15.keep _ kf.l0).1 (t15.keep _ kg.l1).1 l5).2 x5
  have y6 := (stable_preq _ i6.wf t7.toExt ((t5.trans t6).keep _ l4).1 (t6.keep _ l5).1 l6).2 x6
  have kf' := kf.ext hs.wf m17 lf
  have kg' := kg.ext hs.wf m17 lg
  intro cf cg
  have cf0 := kf'.split.cl_lo i7.wf kf'.l0 kf'.r0 cf
  have cf1 := kf'.split.cl_hi i7.wf kf'.l1 kf'.r1 cf
  have cg0 := kg'.split.cl_lo i7.wf kg'.l0 kg'.r0 cg
  have cg1 := kg'.split.cl_hi i7.wf kg'.l1 kg'.r1 cg
  obtain ⟨c1, z1⟩ := y1 cf0 cg0
  obtain ⟨c2, z2⟩ := y2 cf1 cg1
  obtain ⟨c3, z3⟩ := y3 cf1 cg0
  obtain ⟨c4, z4⟩ := y4 c2 c3
  obtain ⟨c5, z5⟩ := y5 cf0 cg1
  obtain ⟨c6, z6⟩ := y6 c4 c5
  refine ⟨x7.cl c1 c6, prod_comb i7.wf kf' kg' x7 z1 (fun a => ?_)⟩
  rw [z6, cUnion, z4, cUnion, z2, z3, z5]
  exact or_assoc

theorem productF_ok : ∀ n, Rec XReq (productF n) n := by
  intro n
  induction n with
  | zero => intro s f g _ _ _ h; omega
  | succ n ih =>
    intro s f g hs lf lg hr
    obtain ⟨lz, hz⟩ := fixed hs .zero
    obtain ⟨lo, ho⟩ := fixed hs .one
    unfold productF
    apply memo_ok stable_xreq hs lf lg (fun m r => codeReq_product)
    obtain ⟨nf, hnf⟩ := lf.node
    obtain ⟨ng, hng⟩ := lg.node
    rw [node_eq hnf, node_eq hng]
    have huL : s.arena.nodes[f]? = some (.term .undet) → Ok2 XReq s f g (some (undet, s)) :=
      fun h => .const hs .undet (fun cf _ => absurd cf (not_cl h))
    have huR : s.arena.nodes[g]? = some (.term .undet) → Ok2 XReq s f g (some (undet, s)) :=
      fun h => .const hs .undet (fun _ cg => absurd cg (not_cl h))
    have hzL : s.arena.nodes[f]? = some (.term .zero) → Ok2 XReq s f g (some (zero, s)) := by
      intro h
      refine .const hs .zero (fun _ _ => ⟨cl_zero hz, fun a => ?_⟩)
      rw [fam_zero hz]
      refine ⟨False.elim, ?_⟩
      rintro ⟨b, d, hb, _⟩
      exact (fam_zero h b).1 hb
    have hzR : s.arena.nodes[g]? = some (.term .zero) → Ok2 XReq s f g (some (zero, s)) := by
      intro h
      refine .const hs .zero (fun _ _ => ⟨cl_zero hz, fun a => ?_⟩)
      rw [fam_zero hz]
      refine ⟨False.elim, ?_⟩
      rintro ⟨b, d, _, hb, _⟩
      exact (fam_zero h d).1 hb
    have hoL : s.arena.nodes[f]? = some (.term .one) → Ok2 XReq s f g (some (g, s)) := by
      intro h
      refine .ret hs lg (by omega) (fun _ cg => ⟨cg, fun a => ?_⟩)
      constructor
      · intro ha; exact ⟨_, a, (fam_one h _).2 rfl, ha, (sup_zeroL a).symm⟩
      · rintro ⟨b, d, hb, hd, rfl⟩
        rw [(fam_one h b).1 hb, sup_zeroL]; exact hd
    have hoR : s.arena.nodes[g]? = some (.term .one) → Ok2 XReq s f g (some (f, s)) := by
      intro h
      refine .ret hs lf (by omega) (fun cf _ => ⟨cf, fun a => ?_⟩)
      constructor
      · intro ha; exact ⟨a, _, ha, (fam_one h _).2 rfl, (sup_zeroR a).symm⟩
      · rintro ⟨b, d, hb, hd, rfl⟩
        rw [(fam_one h d).1 hd, sup_zeroR]; exact hb
    cases nf with
    | term t =>
      cases t with
      | undet => exact huL hnf
      | zero =>
        cases ng with
        | nt h ch => exact hzL hnf
        | term t' =>
          cases t' with
          | undet => exact huR hng
          | zero => exact hzL hnf
          | one => exact hzL hnf
      | one =>
        cases ng with
        | nt h ch => exact hoL hnf
        | term t' =>
          cases t' with
          | undet => exact huR hng
          | zero => exact hzR hng
          | one => exact hoR hng
    | nt hf cf =>
      obtain ⟨f0, f1, hdf, rfl, hhf, hrf, hlf, kf⟩ := nt2 hs lf hnf
      cases ng with
      | term t' =>
        cases t' with
        | undet => exact huR hng
        | zero => exact hzR hng
        | one => exact hoR hng
      | nt hg cg =>
        obtain ⟨g0, g1, hdg, rfl, hhg, hrg, hlg, kg⟩ := nt2 hs lg hng
        have r0 := kf.r0
        have r1 := kf.r1
        have r2 := kg.r0
        have r3 := kg.r1
        simp only [byLevel_eq hlf hlg]
        by_cases h1 : hdf.level > hdg.level
        · simp only [h1, if_true]
          obtain ⟨lo, hi, r, s', h1, h2, h3, h4, h5, -, -, -, -, h8, h8', h9⟩ :=
            bothS_ok stable_xreq hs kf.l0 lg kf.l1 lg
              (fun s1 i1 st => ih s1 f0 g i1 (st.keep _ kf.l0).1 (st.keep _ lg).1 (by
                rw [hs.wf.rank_ext st.toExt kf.l0, hs.wf.rank_ext st.toExt lg]; omega))
              (fun s1 i1 st => ih s1 f1 g i1 (st.keep _ kf.l1).1 (st.keep _ lg).1 (by
                rw [hs.wf.rank_ext st.toExt kf.l1, hs.wf.rank_ext st.toExt lg]; omega))
              hhf (by omega) (by omega)
          refine ⟨r, s', h1, h2, h3, h4, by omega, ?_⟩
          intro cf cg
          have kf' := kf.ext hs.wf h3.toExt lf
          have kg' := (kids_below hs.wf lg (l := hdf.level) (by omega)).ext hs.wf h3.toExt lg
          obtain ⟨c0, z0⟩ := h8 (kf'.split.cl_lo h2.wf kf'.l0 kf'.r0 cf) cg
          obtain ⟨c1, z1⟩ := h8' (kf'.split.cl_hi h2.wf kf'.l1 kf'.r1 cf) cg
          refine ⟨h9.cl c0 c1, prod_comb h2.wf kf' kg' h9 z0 (fun a => ?_)⟩
          rw [z1, x_zeroR h2.wf, x_zeroR h2.wf, false_or, or_false]
          rfl
        · by_cases h2 : hdf.level < hdg.level
          · simp only [h1, h2, if_true, if_false]
            obtain ⟨lo, hi, r, s', h1, h2, h3, h4, h5, -, -, -, -, h8, h8', h9⟩ :=
              bothS_ok stable_xreq hs lf kg.l0 lf kg.l1
                (fun s1 i1 st => ih s1 f g0 i1 (st.keep _ lf).1 (st.keep _ kg.l0).1 (by
                  rw [hs.wf.rank_ext st.toExt lf, hs.wf.rank_ext st.toExt kg.l0]; omega))
                (fun s1 i1 st => ih s1 f g1 i1 (st.keep _ lf).1 (st.keep _ kg.l1).1 (by
                  rw [hs.wf.rank_ext st.toExt lf, hs.wf.rank_ext st.toExt kg.l1]; omega))
                hhg (by omega) (by omega)
            refine ⟨r, s', h1, h2, h3, h4, by omega, ?_⟩
            intro cf cg
            have kg' := kg.ext hs.wf h3.toExt lg
            have kf' := (kids_below hs.wf lf (l := hdg.level) (by omega)).ext hs.wf h3.toExt lf
            obtain ⟨c0, z0⟩ := h8 cf (kg'.split.cl_lo h2.wf kg'.l0 kg'.r0 cg)
            obtain ⟨c1, z1⟩ := h8' cf (kg'.split.cl_hi h2.wf kg'.l1 kg'.r1 cg)
            refine ⟨h9.cl c0 c1, prod_comb h2.wf kf' kg' h9 z0 (fun a => ?_)⟩
            rw [z1, x_zeroL h2.wf, x_zeroL h2.wf, false_or, false_or]
            rfl
          · simp only [h1, h2, if_false]
            have he : hdg.level = hdf.level := by omega
            rw [he] at kg hrg
            exact productEq_ok ih hs lf lg hhf hrf hrg kf kg hr

theorem product_ok {s : Zdd} (hs : Inv s) {f g : Nat} (lf : s.arena.Live f) (lg : s.arena.Live g) :
    Ok2 XReq s f g (s.product f g) := productF_ok _ s f g hs lf lg (by omega)

/-! ## divide -/

theorem ne_slot {s : Zdd} (hs : Inv s) {f : Nat} {x : Node T3} (hn : s.arena.nodes[f]? = some x) (t : T3)
    (hx : x ≠ .term t) : f ≠ t.slot := by
  intro h
  rw [h, (fixed hs t).2] at hn
  exact hx (Option.some.inj hn).symm

theorem eq_slot {s : Zdd} (hs : Inv s) {f : Nat} {t : T3} (lf : s.arena.Live f)
    (hn : s.arena.nodes[f]? = some (.term t)) : f = t.slot :=
  hs.wf.uniq lf (fixed hs t).1 hn (fixed hs t).2

theorem fam_supp {s : Zdd} (hs : Inv s) {f n : Nat} (lf : s.arena.Live f) (hn : s.arena.rank f ≤ n) :
    ∀ a, Fam s.arena f a → ∀ x, n ≤ x → a x = 0 := fun a ha x hx => hs.wf.lab_supp ha lf x (by omega)

theorem Kids.loF {m : Arena T3} (wf : WF RZ m) {l i lo hi : Nat} (k : Kids m l i lo hi) :
    Zdd.loF l (Fam m i) = Fam m lo := by
  funext a
  refine propext ⟨fun h => ?_, fun h => ?_⟩
  · rcases (k.split a .one (by decide)).1 h.2 with ⟨_, h'⟩ | ⟨h', _⟩
    · exact h'
    · have := h.1; omega
  · have h0 := wf.lab_supp h k.l0 _ k.r0
    exact ⟨h0, (k.split a .one (by decide)).2 (.inl ⟨h0, h⟩)⟩

theorem Kids.hiF {m : Arena T3} (wf : WF RZ m) {l i lo hi : Nat} (k : Kids m l i lo hi) :
    Zdd.hiF l (Fam m i) = Fam m hi := by
  funext a
  refine propext ⟨fun h => ?_, fun h => ?_⟩
  · rcases (k.split _ .one (by decide)).1 h.2 with ⟨h', _⟩ | ⟨_, h'⟩
    · rw [upd_self] at h'; omega
    · rw [upd_upd, upd_id h.1] at h'; exact h'
  · exact ⟨wf.lab_supp h k.l1 _ k.r1, k.split.up wf k.l1 k.r1 (by decide) h⟩

theorem divideF_ok : ∀ n, Rec DReq (divideF n) n := by
  intro n
  induction n with
  | zero => intro s f g _ _ _ h; omega
  | succ n ih =>
    intro s f g hs lf lg hr
    obtain ⟨lz, hz⟩ := fixed hs .zero
    obtain ⟨lo, ho⟩ := fixed hs .one
    unfold divideF
    apply memo_ok stable_dreq hs lf lg (fun m r => codeReq_divide)
    obtain ⟨nf, hnf⟩ := lf.node
    obtain ⟨ng, hng⟩ := lg.node
    rw [node_eq hnf, node_eq hng]
    have huL : s.arena.nodes[f]? = some (.term .undet) → Ok2 DReq s f g (some (undet, s)) := by
      intro h
      refine .const hs .undet ⟨fun _ => (eq_slot hs lf h).symm, fun _ => rfl, ?_,
        fun _ cf => absurd cf (not_cl h), fun cf => absurd cf (not_cl h)⟩
      intro _ _ _ _ h'
      rw [h] at h'; cases h'
    have huR : s.arena.nodes[g]? = some (.term .undet) → Ok2 DReq s f g (some (undet, s)) := by
      intro h
      refine .const hs .undet ⟨fun h' => ?_, fun _ => rfl, ?_, fun e cf => absurd (e ▸ cf) (not_cl h),
        fun _ cg => absurd cg (not_cl h)⟩
      · exact absurd h' (ne_slot hs h .one (by simp))
      · intro _ _ _ _ _ h'
        rw [h] at h'; cases h'
    have hzR : s.arena.nodes[g]? = some (.term .zero) → Ok2 DReq s f g (some (undet, s)) := by
      intro h
      refine .const hs .undet ⟨fun h' => ?_, fun _ => rfl, ?_, fun e _ => ?_, fun _ _ n _ _ => by
        rw [quo_empty (fun a => (fam_zero h a).1)]; rfl⟩
      · exact absurd h' (ne_slot hs h .one (by simp))
      · intro _ _ _ _ _ h'
        rw [h] at h'; cases h'
      · rw [if_pos (show f = zero from e.trans (eq_slot hs lg h))]; rfl
    have hoR : s.arena.nodes[g]? = some (.term .one) → Ok2 DReq s f g (some (f, s)) := by
      intro h
      refine .ret hs lf (by omega) ⟨fun _ => rfl, fun h' => ?_, ?_, fun e _ => ?_, fun cf _ n _ _ => by
        rw [quo_base (fam_one h)]; exact ⟨cf, rfl⟩⟩
      · exact absurd h' (ne_slot hs h .zero (by simp))
      · intro _ _ _ _ _ h'
        rw [h] at h'; cases h'
      · have : f = one := e.trans (eq_slot hs lg h)
        rw [this]; rfl
    cases nf with
    | term t =>
      cases t with
      | undet => exact huL hnf
      | zero =>
        cases ng with
        | nt h ch =>
          refine .const hs .zero ⟨fun h' => absurd h' (ne_slot hs hng .one (by simp)),
            fun h' => absurd h' (ne_slot hs hng .zero (by simp)), ?_, fun e _ => ?_, fun cf cg n _ _ => by
              rw [quo_zeroF (fam_ne hs lg hng cg) (fun a => (fam_zero hnf a).1), eq_slot hs lf hnf]
              exact ⟨(eq_slot hs lf hnf) ▸ cf, rfl⟩⟩
          · intro _ _ _ _ h'
            rw [hnf] at h'; cases h'
          · rw [e, hng] at hnf; cases hnf
        | term t' =>
          cases t' with
          | undet => exact huR hng
          | zero => exact hzR hng
          | one => exact hoR hng
      | one =>
        cases ng with
        | nt h ch =>
          refine .ret hs lg (by omega) ⟨fun h' => absurd h' (ne_slot hs hng .one (by simp)),
            fun h' => absurd h' (ne_slot hs hng .zero (by simp)), ?_, fun e _ => ?_, fun _ cg n _ hn => by
              rw [quo_oneF (fam_ne hs lg hng cg) (fam_one hnf) (fam_supp hs lg hn)]
              exact ⟨cg, rfl⟩⟩
          · intro _ _ _ _ h'
            rw [hnf] at h'; cases h'
          · rw [e, hng] at hnf; cases hnf
        | term t' =>
          cases t' with
          | undet => exact huR hng
          | zero => exact hzR hng
          | one => exact hoR hng
    | nt hf cf =>
      obtain ⟨f0, f1, hdf, rfl, hhf, hrf, hlf, kf⟩ := nt2 hs lf hnf
      cases ng with
      | term t' =>
        cases t' with
        | undet => exact huR hng
        | zero => exact hzR hng
        | one => exact hoR hng
      | nt hg cg =>
        obtain ⟨g0, g1, hdg, rfl, hhg, hrg, hlg, kg⟩ := nt2 hs lg hng
        have r0 := kf.r0
        have r1 := kf.r1
        have r2 := kg.r0
        have r3 := kg.r1
        have g1' : g ≠ one := ne_slot hs hng .one (by simp)
        have g0' : g ≠ zero := ne_slot hs hng .zero (by simp)
        simp only [byLevel_eq hlf hlg]
        -- arms with different levels
        have skip : hdf.level ≠ hdg.level → ∀ {r} {s' : Zdd}, Step s.arena s'.arena →
            DVal s'.arena f g r → DReq s'.arena f g r := by
          intro hne r s' st hv
          refine ⟨fun h => absurd h g1', fun h => absurd h g0', ?_, ?_, hv⟩
          · intro _ _ _ _ _ _ hl
            rw [hs.wf.level_ext st.toExt lf, hs.wf.level_ext st.toExt lg, hlf, hlg] at hl
            exact absurd (Option.some.inj hl) hne
          · intro e
            subst e
            rw [hlf] at hlg
            exact absurd (Option.some.inj hlg) hne
        by_cases h1 : hdf.level > hdg.level
        · simp only [h1, if_true]
          obtain ⟨r, s', k1, k2, k3, k4, k5, k6⟩ := ih s f0 g hs kf.l0 lg (by omega)
          refine ⟨r, s', k1, k2, k3, k4, by omega, skip (by omega) k3 fun cf cg n hn hn' => ?_⟩
          have kf' := kf.ext hs.wf k3.toExt lf
          have lf' := (k3.keep _ lf).1
          have lg' := (k3.keep _ lg).1
          have hnf' := (k3.keep _ lf).2.trans hnf
          have hng' := (k3.keep _ lg).2.trans hng
          have e1 := hs.wf.rank_ext k3.toExt lf
          have e2 := hs.wf.rank_ext k3.toExt lg
          rw [quo_up (k := hdf.level + 1) (fam_supp k2 lf' (by omega)) (fam_supp k2 lg' (by omega)) n (by omega),
            quo_step (fam_ne k2 lf' hnf' cf) (fam_ne k2 lg' hng' cg),
            if_pos (fam_uses k2 lf' hnf' ((hs.wf.level_ext k3.toExt lf).trans hlf) cf),
            if_neg (not_uses (fam_supp k2 lg' (by omega))), kf'.loF k2.wf]
          exact k6.2.2.2.2 (kf'.split.cl_lo k2.wf kf'.l0 kf'.r0 cf) cg _ kf'.r0 (by omega)
        · by_cases h2 : hdf.level < hdg.level
          · simp only [h1, h2, if_true, if_false]
            refine .const hs .undet (skip (by omega) (Step.refl _) fun cf cg n hn hn' => ?_)
            rw [quo_up (k := hdg.level + 1) (fam_supp hs lf (by omega)) (fam_supp hs lg (by omega)) n (by omega),
              quo_step (fam_ne hs lf hnf cf) (fam_ne hs lg hng cg),
              if_neg (not_uses (fam_supp hs lf (by omega))), if_pos (fam_uses hs lg hng hlg cg)]
            rfl
          · simp only [h1, h2, if_false]
            obtain ⟨x, s1, a1, i1, t1, l1, k1, x1⟩ := ih s f0 g0 hs kf.l0 kg.l0 (by omega)
            have e1 := hs.wf.rank_ext t1.toExt kf.l1
            have e2 := hs.wf.rank_ext t1.toExt kg.l1
            obtain ⟨y, s2, a2, i2, t2, l2, k2, x2⟩ :=
              ih s1 f1 g1 i1 (t1.keep _ kf.l1).1 (t1.keep _ kg.l1).1 (by omega)
            have e3 := i1.wf.rank_ext t2.toExt l1
            obtain ⟨r, s3, a3, i3, t3, l3, k3, x3⟩ := intersect_ok i2 (t2.keep _ l1).1 l2
            have t13 := (t1.trans t2).trans t3
            refine ⟨r, s3, by simp only [divideEq, a1, a2, a3], i3, t13, l3, by omega,
              fun h => absurd h g1', fun h => absurd h g0', ?_, ?_, ?_⟩
            · intro hf' hg' f0' f1' hn1 hn2 _
              rw [(t13.keep _ lf).2, hnf] at hn1
              cases hn1
              rw [(t13.keep _ lg).2, hng] at hn2
              cases hn2
              have ex := x1.2.1 rfl
              have ey := x2.1 rfl
              rw [x3.1 ex, ey]
            · intro e cf
              subst e
              rw [hng] at hnf
              cases hnf
              have f0e : f ≠ zero := g0'
              rw [if_neg f0e]
              have kf' := kf.ext hs.wf t13.toExt lf
              have c0 : Cl s1.arena f0 := by
                have := kf'.split.cl_lo i3.wf kf'.l0 kf'.r0 cf
                intro a ha
                exact this a ((i1.wf.lab_ext (t2.trans t3).toExt (t1.keep _ kf.l0).1).2 ha)
              have c1 : Cl s2.arena f1 := by
                have := kf'.split.cl_hi i3.wf kf'.l1 kf'.r1 cf
                intro a ha
                exact this a ((i2.wf.lab_ext t3.toExt ((t1.trans t2).keep _ kf.l1).1).2 ha)
              have hx := x1.2.2.2.1 rfl c0
              have hy := x2.2.2.2.1 rfl c1
              have hred := hs.wf.red f _ _ lf hng
              obtain ⟨c, hc, hc0⟩ := hred
              simp only [List.tail_cons, List.mem_singleton] at hc
              subst hc
              rw [if_neg (show c ≠ zero from hc0)] at hy
              by_cases hf0 : f0 = zero
              · rw [if_pos hf0] at hx
                rw [x3.1 hx, hy]
              · rw [if_neg hf0] at hx
                rw [x3.2.2.1 (hx.trans hy.symm), hx]
            · intro cf cg n hn hn'
              have he : hdg.level = hdf.level := by omega
              rw [he] at kg hlg
              have kf' := kf.ext hs.wf t13.toExt lf
              have kg' := kg.ext hs.wf t13.toExt lg
              have lf' := (t13.keep _ lf).1
              have lg' := (t13.keep _ lg).1
              have hnf' := (t13.keep _ lf).2.trans hnf
              have hng' := (t13.keep _ lg).2.trans hng
              have r1' := hs.wf.rank_ext t13.toExt lf
              have r2' := hs.wf.rank_ext t13.toExt lg
              rw [quo_up (k := hdf.level + 1) (fam_supp i3 lf' (by omega)) (fam_supp i3 lg' (by omega)) n (by omega),
                quo_step (fam_ne i3 lf' hnf' cf) (fam_ne i3 lg' hng' cg),
                if_pos (fam_uses i3 lf' hnf' ((hs.wf.level_ext t13.toExt lf).trans hlf) cf),
                if_pos (fam_uses i3 lg' hng' ((hs.wf.level_ext t13.toExt lg).trans hlg) cg),
                kf'.loF i3.wf, kf'.hiF i3.wf, kg'.loF i3.wf, kg'.hiF i3.wf]
              have t23 := t2.trans t3
              have y1 := (stable_dreq i1.wf t23.toExt (t1.keep _ kf.l0).1 (t1.keep _ kg.l0).1 l1).2 x1
              have y2 := (stable_dreq i2.wf t3.toExt ((t1.trans t2).keep _ kf.l1).1
                ((t1.trans t2).keep _ kg.l1).1 l2).2 x2
              have v1 := y1.2.2.2.2 (kf'.split.cl_lo i3.wf kf'.l0 kf'.r0 cf)
                (kg'.split.cl_lo i3.wf kg'.l0 kg'.r0 cg) _ kf'.r0 kg'.r0
              have v2 := y2.2.2.2.2 (kf'.split.cl_hi i3.wf kf'.l1 kf'.r1 cf)
                (kg'.split.cl_hi i3.wf kg'.l1 kg'.r1 cg) _ kf'.r1 kg'.r1
              revert v1 v2
              generalize quo hdf.level (Fam s3.arena f0) (Fam s3.arena g0) = q1
              generalize quo hdf.level (Fam s3.arena f1) (Fam s3.arena g1) = q2
              intro v1 v2
              cases q1 with
              | none => rw [x3.1 v1]; exact v2
              | some A =>
                cases q2 with
                | none => rw [x3.2.1 v2]; exact v1
                | some B =>
                  obtain ⟨c1, rfl⟩ := v1
                  obtain ⟨c2, rfl⟩ := v2
                  obtain ⟨c3, c4⟩ := x3.2.2.2 c1 c2
                  exact ⟨c3, funext fun a => propext (c4 a)⟩

theorem divide_ok {s : Zdd} (hs : Inv s) {f g : Nat} (lf : s.arena.Live f) (lg : s.arena.Live g) :
    Ok2 DReq s f g (s.divide f g) := divideF_ok _ s f g hs lf lg (by omega)

/-! ## construction, headers, collection -/

theorem inv_new : Inv Zdd.new where
  wf := by
    constructor
    · simp [Zdd.new]
    · simp [Zdd.new]
    · exact AMap.nodup_empty
    · intros; rfl
    · intro k i
      cases k with
      | nt h ch =>
        simp only [find, Zdd.new, Live]
        constructor
        · intro h; cases h
        · rintro ⟨⟨h1, _⟩, h2⟩
          match i, h1 with
          | 0, _ => simp at h2
          | 1, _ => simp at h2
          | 2, _ => simp at h2
      | term t =>
        simp only [find, Zdd.new, Live, fix, Option.some_or]
        constructor
        · intro h
          cases h
          cases t <;> simp [T3.slot]
        · rintro ⟨⟨h1, _⟩, h2⟩
          match i, h1 with
          | 0, _ => simp at h2; subst h2; rfl
          | 1, _ => simp at h2; subst h2; rfl
          | 2, _ => simp at h2; subst h2; rfl
    · rintro i h ch ⟨h1, _⟩ h2
      match i, h1 with
      | 0, _ => simp [Zdd.new] at h2
      | 1, _ => simp [Zdd.new] at h2
      | 2, _ => simp [Zdd.new] at h2
    · rintro i h ch ⟨h1, _⟩ h2
      match i, h1 with
      | 0, _ => simp [Zdd.new] at h2
      | 1, _ => simp [Zdd.new] at h2
      | 2, _ => simp [Zdd.new] at h2
    · rintro i h ch ⟨h1, _⟩ h2
      match i, h1 with
      | 0, _ => simp [Zdd.new] at h2
      | 1, _ => simp [Zdd.new] at h2
      | 2, _ => simp [Zdd.new] at h2
    · simp [Zdd.new]
    · simp [Zdd.new]
  two := by simp [Zdd.new]
  cache := HCache.OK.empty _

theorem createHeader_inv {s : Zdd} (hs : Inv s) (l : Nat) (lab : String) :
    Inv (s.createHeader l lab).2 ∧ Ext s.arena (s.createHeader l lab).2.arena ∧
      (s.createHeader l lab).2.arena.headers[(s.createHeader l lab).1]? = some ⟨l, lab, 2⟩ ∧
      (s.createHeader l lab).2.arena.headers = s.arena.headers ++ [⟨l, lab, 2⟩] ∧
      (s.createHeader l lab).2.arena.nodes = s.arena.nodes ∧
      (∀ i, (s.createHeader l lab).2.arena.Live i ↔ s.arena.Live i) := by
  obtain ⟨h1, h2, h3, h4, h5⟩ := createHeader_spec hs.wf l lab 2 (by omega)
    (fun hd hm _ => hs.two hd hm)
  have hh : (s.createHeader l lab).2.arena.headers = s.arena.headers ++ [⟨l, lab, 2⟩] := rfl
  refine ⟨hs.ext h1 ?_ h2, h2, h3, hh, h5, h4⟩
  intro hd hm
  simp only [createHeader, List.mem_append, List.mem_singleton] at hm
  rcases hm with hm | rfl
  · exact hs.two hd hm
  · rfl

theorem clearCache_inv {s : Zdd} (hs : Inv s) : Inv s.clearCache where
  wf := hs.wf
  two := hs.two
  cache := HCache.OK.empty _

/-- Collection keeps the invariant; survivors are what is reachable. -/
theorem gc_ok {s : Zdd} (hs : Inv s) {roots : List Nat}
    (hr : ∀ r ∈ roots, r < s.arena.nodes.length → s.arena.Live r) :
    ∃ n s', s.gc roots = some (n, s') ∧ Inv s' ∧ s'.arena.headers = s.arena.headers ∧
      s'.arena.nodes = s.arena.nodes ∧ (∀ i, s'.arena.Live i ↔ s.arena.Survives roots i) ∧
      Step s'.arena s.arena ∧ n = s'.arena.free.length ∧
      (∀ op f g r, s'.cache.get (op, f, g) = some r ↔ s.cache.get (op, f, g) = some r ∧
        s'.arena.Live f ∧ s'.arena.Live g ∧ s'.arena.Live r) := by
  obtain ⟨l, m', h1, h2, h3, h4, h5, h6, h7, h8⟩ := gcA_spec hs.wf hr
  have hl : ∀ i, l[i]? = some true ↔ m'.Live i := fun i => (h6 i).trans (h7 i).symm
  have hrank : ∀ i, m'.rank i = s.arena.rank i := by
    intro i; simp [rank, level?, h3, h4]
  obtain ⟨c, hc1, hc2, hc3⟩ := hs.cache.retainLive (Good' := Good m') (live := l)
    (by
      intro op f g r q
      rw [h5]
      exact ⟨q.lf.1, q.lg.1, q.lr.1⟩)
    (by
      intro op f g r q a1 a2 a3
      rw [hl] at a1 a2 a3
      refine ⟨a1, a2, a3, by rw [hrank, hrank, hrank]; exact q.rk, ?_⟩
      exact (codeReq_ext h2 h8.toExt a1 a2 a3).1 q.snd)
  refine ⟨m'.free.length, ⟨m', c⟩, ?_, ⟨h2, by rw [h3]; exact hs.two, hc2⟩, h3, h4, h7, h8, rfl, ?_⟩
  · unfold gc
    simp only [h1, hc1]
  · intro op f g r
    rw [hc3]
    simp [hl]

end Zdd
end DD
