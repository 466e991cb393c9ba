import Verif.Bss.ZddMgr
import Verif.Bss.Refine

/-!
# ZDD sessions: invariant and effect of every call
-/

set_option autoImplicit false
set_option linter.unusedSectionVars false
set_option linter.unusedVariables false

namespace DD
open Arena Zdd

/-- Meaning of a node by levels: `V a .one` = the set `{l | a l = 1}` is a member, `V a .undet` = it is
undetermined. -/
abbrev ZVal := (Nat → Nat) → T3 → Prop

/-- Node `i` is live and means `V`. -/
structure ZDen (m : Arena T3) (i : Nat) (V : ZVal) : Prop where
  live : m.Live i
  val : ∀ a z, V a z ↔ z ≠ .zero ∧ Lab m i a z

namespace ZDen
variable {m m' : Arena T3} {i : Nat} {V V' : ZVal}

theorem ext (h : ZDen m i V) (wf : WF RZ m) (e : Ext m m') : ZDen m' i V :=
  ⟨(e.keep i h.live).1, fun a z => by rw [wf.lab_ext e h.live]; exact h.val a z⟩

theorem back (wf : WF RZ m) (e : Ext m m') (li : m.Live i) (h : ZDen m' i V) : ZDen m i V :=
  ⟨li, fun a z => by rw [← wf.lab_ext e li]; exact h.val a z⟩

theorem unique (h : ZDen m i V) (h' : ZDen m i V') : V = V' := by
  funext a z; exact propext ((h.val a z).trans (h'.val a z).symm)

theorem of_live (h : m.Live i) : ZDen m i (fun a z => z ≠ .zero ∧ Lab m i a z) := ⟨h, fun _ _ => Iff.rfl⟩

theorem canon (wf : WF RZ m) (inj : m.LevInj) {j : Nat} (h : ZDen m i V) (h' : ZDen m j V) : i = j := by
  refine wf.canonZ (d := T3.zero) rfl inj h.live h'.live (fun a t ht => ?_)
  have h1 := h.val a t
  have h2 := h'.val a t
  simp only [ne_eq, ht, not_false_eq_true, true_and] at h1 h2
  exact h1.symm.trans h2

theorem one_iff (h : ZDen m i V) (a : Nat → Nat) : V a .one ↔ Fam m i a := by
  rw [h.val]; simp [Fam]

theorem undet_iff (h : ZDen m i V) (a : Nat → Nat) : V a .undet ↔ Lab m i a .undet := by
  rw [h.val]; simp

end ZDen

/-- No undetermined part. -/
def ZVal.Cl (V : ZVal) : Prop := ∀ a, ¬ V a .undet

theorem ZDen.cl_iff {m : Arena T3} {i : Nat} {V : ZVal} (h : ZDen m i V) : V.Cl ↔ Zdd.Cl m i := by
  unfold ZVal.Cl Zdd.Cl
  simp only [h.undet_iff]

/-- The engine facts used by the wrapper. -/
def zI : EngI Zdd Nat ZVal (List Header) zops where
  inv := Inv
  den e k V := ZDen e.arena k V
  hdr e := e.arena.headers
  gc_ok := by
    intro e roots he hr
    obtain ⟨n, s', h1, h2, h3, h4, h5, h6, h7, h8⟩ := gc_ok he (roots := roots)
      (fun r hr' _ => by obtain ⟨V, hV⟩ := hr r hr'; exact hV.live)
    refine ⟨n, s', h1, h2, h3, fun k hk V hV => ?_⟩
    exact hV.back h2.wf h6.toExt ((h5 k).2 (Or.inr ⟨k, hk, hV.live.1, .refl _⟩))

/-- Values of the constants. -/
def zEmpty : ZVal := fun _ _ => False
@[inherit_doc zEmpty] def zBase : ZVal := fun a z => a = (fun _ => 0) ∧ z = .one
@[inherit_doc zEmpty] def zUndet : ZVal := fun a z => a = (fun _ => 0) ∧ z = .undet
/-- The family of the one set `{l}`. -/
def zSingle (l : Nat) : ZVal := fun a z => a = upd (fun _ => 0) l 1 ∧ z = .one

theorem zden_zero {s : Zdd} (hs : Inv s) : ZDen s.arena zero zEmpty := by
  obtain ⟨h1, h2⟩ := Zdd.fixed hs .zero
  refine ⟨h1, fun a z => ?_⟩
  rw [show zero = T3.zero.slot from rfl, lab_term_iff h2]
  simp only [zEmpty, false_iff, not_and]
  intro h3 h4; exact fun h5 => h3 h5

theorem zden_one {s : Zdd} (hs : Inv s) : ZDen s.arena one zBase := by
  obtain ⟨h1, h2⟩ := Zdd.fixed hs .one
  refine ⟨h1, fun a z => ?_⟩
  rw [show one = T3.one.slot from rfl, lab_term_iff h2]
  unfold zBase
  constructor
  · rintro ⟨h3, rfl⟩; exact ⟨by decide, h3, rfl⟩
  · rintro ⟨_, h⟩; exact h

theorem zden_undet {s : Zdd} (hs : Inv s) : ZDen s.arena undet zUndet := by
  obtain ⟨h1, h2⟩ := Zdd.fixed hs .undet
  refine ⟨h1, fun a z => ?_⟩
  rw [show undet = T3.undet.slot from rfl, lab_term_iff h2]
  unfold zUndet
  constructor
  · rintro ⟨h3, rfl⟩; exact ⟨by decide, h3, rfl⟩
  · rintro ⟨_, h⟩; exact h

/-- An engine result with meaning `V`. -/
def ZOk (s : Zdd) (P : ZVal → Prop) (res : Option (Nat × Zdd)) : Prop :=
  ∃ r s' V, res = some (r, s') ∧ Inv s' ∧ Step s.arena s'.arena ∧ ZDen s'.arena r V ∧ P V

theorem zok_of {Q : Arena T3 → Nat → Nat → Nat → Prop} {P : ZVal → Prop} {s : Zdd} {f g : Nat}
    {res : Option (Nat × Zdd)} (h : Ok2 Q s f g res)
    (hp : ∀ (s' : Zdd) r V, Inv s' → Step s.arena s'.arena → ZDen s'.arena r V → Q s'.arena f g r → P V) :
    ZOk s P res := by
  obtain ⟨r, s', h1, h2, h3, h4, _, h6⟩ := h
  exact ⟨r, s', _, h1, h2, h3, .of_live h4, hp s' r _ h2 h3 (.of_live h4) h6⟩

/-- What `union` computes. -/
def ZSpecUnion (F G V : ZVal) : Prop :=
  F.Cl → G.Cl → V.Cl ∧ ∀ a, V a .one ↔ F a .one ∨ G a .one
/-- What `setdiff` computes. -/
def ZSpecDiff (F G V : ZVal) : Prop :=
  F.Cl → G.Cl → V.Cl ∧ ∀ a, V a .one ↔ F a .one ∧ ¬ G a .one
/-- What `product` computes. -/
def ZSpecProd (F G V : ZVal) : Prop :=
  F.Cl → G.Cl → V.Cl ∧ ∀ a, V a .one ↔ ∃ b d, F b .one ∧ G d .one ∧ a = sup b d
/-- What `intersect` computes. -/
def ZSpecInter (F G V : ZVal) : Prop :=
  F.Cl → G.Cl → V.Cl ∧ ∀ a, V a .one ↔ Inter (F · .one) (G · .one) a
/-- What `divide` guarantees. -/
def ZSpecDiv (F G V : ZVal) : Prop :=
  (G = zBase → V = F) ∧ (G = zEmpty → V = zUndet) ∧
  (∀ l, G = zSingle l → (∀ a z, F a z → ∀ x, l < x → a x = 0) → (∃ a z, F a z ∧ a l ≠ 0) →
    ∀ a z, V a z ↔ a l = 0 ∧ F (upd a l 1) z) ∧
  (F = G → F.Cl → F ≠ zEmpty → V = zBase) ∧
  (F.Cl → G.Cl → ∃ k, ∀ n, k ≤ n → IsQuo (V · .one) V.Cl (V = zUndet) (quo n (F · .one) (G · .one)))

section ops
variable {s : Zdd} {f g : Nat} {F G : ZVal}

theorem union_z (hs : Inv s) (hf : ZDen s.arena f F) (hg : ZDen s.arena g G) :
    ZOk s (ZSpecUnion F G) (s.union f g) := by
  refine zok_of (union_ok hs hf.live hg.live) (fun s' r V hi st hV hq => ?_)
  have hf' := hf.ext hs.wf st.toExt
  have hg' := hg.ext hs.wf st.toExt
  unfold PReq at hq
  rw [← hf'.cl_iff, ← hg'.cl_iff, ← hV.cl_iff] at hq
  simp only [← hf'.one_iff, ← hg'.one_iff, ← hV.one_iff] at hq
  exact hq

theorem setdiff_z (hs : Inv s) (hf : ZDen s.arena f F) (hg : ZDen s.arena g G) :
    ZOk s (ZSpecDiff F G) (s.setdiff f g) := by
  refine zok_of (setdiff_ok hs hf.live hg.live) (fun s' r V hi st hV hq => ?_)
  have hf' := hf.ext hs.wf st.toExt
  have hg' := hg.ext hs.wf st.toExt
  unfold PReq at hq
  rw [← hf'.cl_iff, ← hg'.cl_iff, ← hV.cl_iff] at hq
  simp only [← hf'.one_iff, ← hg'.one_iff, ← hV.one_iff] at hq
  exact hq

theorem product_z (hs : Inv s) (hf : ZDen s.arena f F) (hg : ZDen s.arena g G) :
    ZOk s (ZSpecProd F G) (s.product f g) := by
  refine zok_of (product_ok hs hf.live hg.live) (fun s' r V hi st hV hq => ?_)
  have hf' := hf.ext hs.wf st.toExt
  have hg' := hg.ext hs.wf st.toExt
  unfold XReq at hq
  rw [← hf'.cl_iff, ← hg'.cl_iff, ← hV.cl_iff] at hq
  simp only [← hf'.one_iff, ← hg'.one_iff, ← hV.one_iff] at hq
  exact hq

theorem intersect_z (hs : Inv s) (hf : ZDen s.arena f F) (hg : ZDen s.arena g G) :
    ZOk s (ZSpecInter F G) (s.intersect f g) := by
  refine zok_of (intersect_ok hs hf.live hg.live) (fun s' r V hi st hV hq => ?_)
  have hf' := hf.ext hs.wf st.toExt
  have hg' := hg.ext hs.wf st.toExt
  obtain ⟨_, _, _, q4⟩ := hq
  unfold IPart at q4
  rw [← hf'.cl_iff, ← hg'.cl_iff, ← hV.cl_iff] at q4
  have e1 : (fun a => F a .one) = Fam s'.arena f := by funext a; exact propext (hf'.one_iff a)
  have e2 : (fun a => G a .one) = Fam s'.arena g := by funext a; exact propext (hg'.one_iff a)
  intro c1 c2
  obtain ⟨k1, k2⟩ := q4 c1 c2
  refine ⟨k1, fun a => ?_⟩
  rw [e1, e2, hV.one_iff]
  exact k2 a

/-- What a live node looks like. -/
theorem node_cases (hs : Inv s) {i : Nat} (li : s.arena.Live i) :
    (∃ t : T3, s.arena.nodes[i]? = some (.term t) ∧ i = t.slot) ∨
    (∃ h lo hi hd, s.arena.nodes[i]? = some (.nt h [lo, hi]) ∧ s.arena.headers[h]? = some hd ∧
      s.arena.Live lo ∧ s.arena.Live hi ∧ s.arena.rank lo ≤ hd.level ∧ s.arena.rank hi ≤ hd.level ∧
      hi ≠ zero ∧ s.arena.level? i = some hd.level ∧ s.arena.rank i = hd.level + 1 ∧
      Split s.arena hd.level i lo hi) := by
  obtain ⟨x, hx⟩ := li.node
  cases x with
  | term t => exact .inl ⟨t, hx, eq_slot hs li hx⟩
  | nt h ch =>
    obtain ⟨hd, h1, h2, h3, _, _, hk⟩ := hs.wf.nt li hx
    have h4 := hs.two hd (List.mem_of_getElem? h1)
    rw [h4] at h2
    match ch, h2 with
    | [lo, hi], _ =>
      obtain ⟨c, hc, hne⟩ := hs.wf.red _ _ _ li hx
      simp at hc
      subst hc
      have k0 := hk lo (by simp)
      have k1 := hk c (by simp)
      exact .inr ⟨h, lo, c, hd, hx, h1, k0.1, k1.1, k0.2, k1.2, hne, level?_nt hx h1, rank_nt hx h1,
        split_nt hs.wf li hx h1⟩

theorem single_node (hs : Inv s) (inj : s.arena.LevInj) {l : Nat} (hg : ZDen s.arena g (zSingle l)) :
    ∃ h, s.arena.nodes[g]? = some (.nt h [zero, one]) ∧ s.arena.level? g = some l := by
  have hl : Lab s.arena g (upd (fun _ => 0) l 1) .one := ((hg.val _ _).1 ⟨rfl, rfl⟩).2
  rcases node_cases hs hg.live with ⟨t, ht, _⟩ | ⟨h, lo, hi, hd, hn, hh, l0, l1, r0, r1, hne, hlev, _, sp⟩
  · have := (lab_term_iff ht).1 hl
    have := congrFun this.1 l
    simp [upd] at this
  · obtain ⟨b, t, ht, hb⟩ := lab_nonempty hs _ hi (Nat.le_refl _) l1 hne
    have hb0 := hs.wf.lab_supp hb l1 hd.level r1
    have h2 := (hg.val (upd b hd.level 1) t).2 ⟨ht, (sp _ _ ht).2 (.inr ⟨by simp [upd], by
      rw [upd_upd, upd_id hb0]; exact hb⟩)⟩
    have h3 := congrFun h2.1 hd.level
    have hlv : hd.level = l := by
      simp only [upd] at h3
      by_cases e : hd.level = l
      · exact e
      · simp [e] at h3
    have hlo : lo = zero := by
      refine Decidable.byContradiction fun hne0 => ?_
      obtain ⟨d, t', ht', hd'⟩ := lab_nonempty hs _ lo (Nat.le_refl _) l0 hne0
      have hd0 := hs.wf.lab_supp hd' l0 hd.level r0
      have h4 := (hg.val d t').2 ⟨ht', (sp _ _ ht').2 (.inl ⟨hd0, hd'⟩)⟩
      have := congrFun h4.1 l
      rw [← hlv, hd0] at this
      simp [upd] at this
    have hhi : hi = one := by
      refine ZDen.canon hs.wf inj (V := zBase) ⟨l1, fun a z => ?_⟩ (zden_one hs)
      constructor
      · rintro ⟨rfl, rfl⟩
        refine ⟨by decide, ?_⟩
        rcases (sp _ _ (by decide)).1 hl with ⟨h5, _⟩ | ⟨_, h5⟩
        · simp [upd, hlv] at h5
        · rw [hlv, upd_upd, upd_id rfl] at h5; exact h5
      · rintro ⟨hz, ha⟩
        have ha0 := hs.wf.lab_supp ha l1 hd.level r1
        have h5 := (hg.val (upd a hd.level 1) z).2 ⟨hz, (sp _ _ hz).2 (.inr ⟨by simp [upd], by
          rw [upd_upd, upd_id ha0]; exact ha⟩)⟩
        refine ⟨?_, h5.2⟩
        have h6 := h5.1
        rw [hlv] at h6
        exact upd_inj (by rw [← hlv]; exact ha0) rfl h6
    subst hlo hhi
    exact ⟨h, hn, by rw [hlev, hlv]⟩

theorem divide_z (hs : Inv s) (inj : s.arena.LevInj) (hf : ZDen s.arena f F) (hg : ZDen s.arena g G) :
    ZOk s (ZSpecDiv F G) (s.divide f g) := by
  refine zok_of (divide_ok hs hf.live hg.live) (fun s' r V hi st hV hq => ?_)
  have hf' := hf.ext hs.wf st.toExt
  have hg' := hg.ext hs.wf st.toExt
  have inj' : s'.arena.LevInj := by unfold LevInj; rw [st.heq]; exact inj
  obtain ⟨q1, q2, q3, q4, q5⟩ := hq
  refine ⟨?_, ?_, ?_, ?_, ?_⟩
  · rintro rfl
    have := q1 (hg'.canon hi.wf inj' (zden_one hi))
    subst this; exact hV.unique hf'
  · rintro rfl
    have := q2 (hg'.canon hi.wf inj' (zden_zero hi))
    subst this; exact hV.unique (zden_undet hi)
  · rintro l rfl htop ⟨a0, z0, hF, hal⟩
    obtain ⟨hg1, hg2, hg3⟩ := single_node hi inj' hg'
    have hF' := ((hf'.val a0 z0).1 hF)
    rcases node_cases hi hf'.live with ⟨t, ht, _⟩ | ⟨h, lo, hi', hd, hn, hh, l0, l1, r0, r1, hne, hlev, hrk, sp⟩
    · exact absurd (congrFun ((lab_term_iff ht).1 hF'.2).1 l) hal
    · obtain ⟨b, t, ht, hb⟩ := lab_nonempty hi _ hi' (Nat.le_refl _) l1 hne
      have hb0 := hi.wf.lab_supp hb l1 hd.level r1
      have h2 := (hf'.val (upd b hd.level 1) t).2 ⟨ht, (sp _ _ ht).2 (.inr ⟨by simp [upd], by
        rw [upd_upd, upd_id hb0]; exact hb⟩)⟩
      have hlv : hd.level = l := by
        have h3 : ¬ l < hd.level := fun hlt => by
          have := htop _ _ h2 _ hlt
          simp [upd] at this
        have h4 : ¬ hd.level < l := fun hlt => hal (hi.wf.lab_supp hF'.2 hf'.live l (by omega))
        omega
      have := q3 h hg1 lo hi' hn hg2 (by rw [hlev, hg3, hlv])
      subst this
      intro a z
      rw [hV.val, hf'.val]
      constructor
      · rintro ⟨hz, ha⟩
        have ha0 := hi.wf.lab_supp ha l1 hd.level r1
        refine ⟨by rw [← hlv]; exact ha0, hz, ?_⟩
        rw [← hlv]
        exact (sp _ _ hz).2 (.inr ⟨by simp [upd], by rw [upd_upd, upd_id ha0]; exact ha⟩)
      · rintro ⟨ha0, hz, ha⟩
        refine ⟨hz, ?_⟩
        rw [← hlv] at ha ha0
        rcases (sp _ _ hz).1 ha with ⟨h5, _⟩ | ⟨_, h5⟩
        · simp [upd] at h5
        · rw [upd_upd, upd_id ha0] at h5; exact h5
  · rintro rfl hc hne
    have h1 := q4 (hf'.canon hi.wf inj' hg') (hf'.cl_iff.1 hc)
    rw [if_neg] at h1
    · subst h1; exact hV.unique (zden_one hi)
    · rintro rfl
      exact hne (hf'.unique (zden_zero hi))
  · intro c1 c2
    have e1 : (fun a => F a .one) = Fam s'.arena f := by funext a; exact propext (hf'.one_iff a)
    have e2 : (fun a => G a .one) = Fam s'.arena g := by funext a; exact propext (hg'.one_iff a)
    have e3 : (fun a => V a .one) = Fam s'.arena r := by funext a; exact propext (hV.one_iff a)
    refine ⟨max (s'.arena.rank f) (s'.arena.rank g), fun n hn => ?_⟩
    have := q5 (hf'.cl_iff.1 c1) (hg'.cl_iff.1 c2) n (by omega) (by omega)
    rw [e1, e2, e3]
    revert this
    cases quo n (Fam s'.arena f) (Fam s'.arena g) with
    | none => intro h; have h' : r = undet := h; subst h'; exact hV.unique (zden_undet hi)
    | some Q => rintro ⟨h1, h2⟩; exact ⟨hV.cl_iff.2 h1, h2⟩

end ops

/-- A node over a variable: `{l} ∪ s` for `s` in the high part, and the low part. -/
theorem single_z {s : Zdd} (hs : Inv s) {h : Nat} {hd : Header} (hh : s.arena.headers[h]? = some hd) :
    ZOk s (fun V => V = zSingle hd.level) (s.createNode h zero one) := by
  have z := zden_zero hs
  have o := zden_one hs
  obtain ⟨r, s', h1, h2, h3, h4, h5, h6⟩ := createNode_ok hs hh z.live
    (by rw [show zero = T3.zero.slot from rfl, rank_term (Zdd.fixed hs .zero).2]; omega) o.live
    (by rw [show one = T3.one.slot from rfl, rank_term (Zdd.fixed hs .one).2]; omega)
  refine ⟨r, s', zSingle hd.level, h1, h2, h3, ⟨h4, fun a x => ?_⟩, rfl⟩
  obtain ⟨_, n0⟩ := Zdd.fixed h2 .zero
  obtain ⟨_, n1⟩ := Zdd.fixed h2 .one
  constructor
  · rintro ⟨rfl, rfl⟩
    refine ⟨by decide, (h6 _ _ (by decide)).2 (.inr ⟨by simp [upd], ?_⟩)⟩
    rw [upd_upd, upd_id rfl]
    exact .term n1
  · rintro ⟨hx, ha⟩
    rcases (h6 _ _ hx).1 ha with ⟨_, h7⟩ | ⟨h7, h8⟩
    · exact absurd ((lab_term_iff n0).1 h7).2 hx
    · obtain ⟨h9, rfl⟩ := (lab_term_iff n1).1 h8
      refine ⟨?_, rfl⟩
      rw [← h9, upd_upd, upd_id h7]
end DD
