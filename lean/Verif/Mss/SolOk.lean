import Verif.Mss.WithoutOk

/-!
# The outer recursion of `minsol`/`maxsol`

For a function whose values lie in the domain of the engine's meet: the result is `None` exactly when the
function is not monotone in the coordinates, and otherwise a family whose members with label `u` are exactly
the coordinate-minimal vectors at which the function takes the source value of `u`.
-/

set_option autoImplicit false
set_option linter.unusedSectionVars false
set_option linter.unusedVariables false

namespace DD
open Arena
namespace Sol

variable {S T : Type} [DecidableEq T] [Fixed T]
variable {E : Eng S T} {X : Tab T} (Z : Spec X) (β : Nat → Nat)

/-- The order on values along growing coordinates. -/
def Le (x y : T) : Prop := if X.top then Z.inf y x = y else Z.inf x y = x

/-- Monotone along growing coordinates. -/
def MonoC (m : Arena T) (i : Nat) : Prop :=
  ∀ d d' t t', m.ValidA d' → (∀ l, d l ≤ d' l) → EvC X.top β m d i t → EvC X.top β m d' i t' → Le Z t t'

/-- Coordinate-minimal among the vectors that hit `u`. -/
def MinC (m : Arena T) (i : Nat) (u : T) (d : Nat → Nat) : Prop :=
  m.ValidA d ∧ Hit Z β m i d u ∧ ∀ b, (∀ l, b l ≤ d l) → Hit Z β m i b u → b = d

/-- All values lie in the domain of the meet. -/
def DomC (m : Arena T) (i : Nat) : Prop := ∀ d t, m.ValidA d → EvC X.top β m d i t → Z.Dom t

/-- What a result of the outer recursion says. -/
def SolSem (m : Arena T) (i : Nat) (x : Option Nat) : Prop :=
  DomC Z β m i → (x = none ↔ ¬ MonoC Z β m i) ∧
    ∀ r, x = some r → ∀ d u, u ≠ Z.und → (LabC X.top m r d u ↔ MinC Z β m i u d)

/-- Outcome of the outer recursion. -/
structure SOk (m : Arena T) (i : Nat) (x : Option Nat) : Prop where
  li : m.Live i
  lr : ∀ r, x = some r → m.Live r
  rk : ∀ r, x = some r → m.rank r ≤ m.rank i
  sem : SolSem Z β m i x

/-- Invariant of the outer recursion. -/
structure QInv (E : Eng S T) (q : Q S) : Prop where
  w : WInv Z β E (q.s, q.c2)
  c1 : ∀ i x, q.c1.get i = some x → SOk Z β (E.ar q.s) i x

variable {Z β} {m m' : Arena T}

theorem Le.refl (x : T) : Le Z x x := by unfold Le; split <;> exact Z.idem x

theorem Le.antisymm {x y : T} (h : Le Z x y) (h' : Le Z y x) : x = y := by
  unfold Le at h h'
  split at h
  · rw [if_pos (by assumption)] at h'
    rw [← h', Z.comm, h]
  · rw [if_neg (by assumption)] at h'
    rw [← h, Z.comm, h']

theorem Le.trans {x y z : T} (h : Le Z x y) (h' : Le Z y z) : Le Z x z := by
  unfold Le at h h' ⊢
  split at h
  · rename_i ht
    rw [if_pos ht] at h' ⊢
    rw [← h', Z.assoc, h, h']
  · rename_i ht
    rw [if_neg ht] at h' ⊢
    rw [← h, Z.assoc, h', h]

theorem valid_le {d d' : Nat → Nat} (hv : m.ValidA d') (h : ∀ l, d l ≤ d' l) : m.ValidA d :=
  fun hd hm => Nat.lt_of_le_of_lt (h _) (hv hd hm)

theorem SOk.ext (wf : WF RFull m) (st : Step m m') {i : Nat} {x : Option Nat} (h : SOk Z β m i x) :
    SOk Z β m' i x where
  li := (st.keep _ h.li).1
  lr := fun r hr => (st.keep _ (h.lr r hr)).1
  rk := fun r hr => by
    rw [wf.rank_ext st.toExt (h.lr r hr), wf.rank_ext st.toExt h.li]; exact h.rk r hr
  sem := by
    intro hD
    have hD' : DomC Z β m i := fun d t hv he =>
      hD d t ((ValidA.step st).2 hv) ((wf.evC_ext st.toExt h.li).2 he)
    obtain ⟨h1, h2⟩ := h.sem hD'
    refine ⟨h1.trans (not_congr ?_), ?_⟩
    · unfold MonoC
      simp only [wf.evC_ext st.toExt h.li, ValidA.step st]
    · intro r hr d u hu
      rw [wf.labC_ext st.toExt (h.lr r hr), h2 r hr d u hu]
      unfold MinC
      simp only [hit_ext wf st.toExt h.li, ValidA.step st]

theorem QInv.step {s s' : S} {c1 : AMap Nat (Option Nat)} {c2 : AMap (Nat × Nat) Nat}
    (h : QInv Z β E ⟨s, c1, c2⟩) (hi : E.Inv s') (st : E.St s s') : QInv Z β E ⟨s', c1, c2⟩ where
  w := h.w.step hi st
  c1 := fun i x hx => (h.c1 i x hx).ext (E.toWF _ h.w.inv) (E.toStep _ _ st)

/-! ## Cofactors -/

section
variable {i h : Nat} {ch : List Nat} {hd : Header}

theorem ev_of_kid (wf : WF RFull m) (hβ : LastOf β m) (li : m.Live i)
    (hn : m.nodes[i]? = some (.nt h ch)) (hh : m.headers[h]? = some hd) {k c : Nat}
    (hc : (ord X.top ch)[k]? = some c) {d : Nat → Nat} (hv : m.ValidA d) {t : T} :
    EvC X.top β m (upd d hd.level k) i t ↔ EvC X.top β m d c t := by
  obtain ⟨l1, l2, l3⟩ := wf.ordKid li hn hh hc
  rw [wf.evC_nt_iff hβ (wf.valid_upd hv (List.mem_of_getElem? hh) l3) li hn hh, upd_self, upd_upd]
  simp only [hc, Option.some.injEq, exists_eq_left']
  exact wf.evC_upd l1 l2

theorem hit_of_kid (wf : WF RFull m) (hβ : LastOf β m) (li : m.Live i)
    (hn : m.nodes[i]? = some (.nt h ch)) (hh : m.headers[h]? = some hd) {k c : Nat}
    (hc : (ord X.top ch)[k]? = some c) {d : Nat → Nat} (hv : m.ValidA d) {u : T} :
    Hit Z β m i (upd d hd.level k) u ↔ Hit Z β m c d u := by
  unfold Hit
  simp only [ev_of_kid wf hβ li hn hh hc hv]

/-- Adjacent children ascend. -/
def Adj (Z : Spec X) (β : Nat → Nat) (m : Arena T) (ch : List Nat) : Prop :=
  ∀ (k c c' : Nat), (ord X.top ch)[k]? = some c → (ord X.top ch)[k + 1]? = some c' →
    ∀ d t t', m.ValidA d → EvC X.top β m d c t → EvC X.top β m d c' t' → Le Z t t'

theorem adj_chain (wf : WF RFull m) (hβ : LastOf β m) (hl : ∀ c ∈ ch, m.Live c) (ha : Adj Z β m ch) :
    ∀ (n j c c' : Nat), (ord X.top ch)[j]? = some c → (ord X.top ch)[j + n]? = some c' →
      ∀ d t t', m.ValidA d → EvC X.top β m d c t → EvC X.top β m d c' t' → Le Z t t' := by
  intro n
  induction n with
  | zero =>
    intro j c c' h1 h2 d t t' hv e1 e2
    rw [Nat.add_zero, h1] at h2; cases h2
    rw [evC_det e1 e2]; exact Le.refl _
  | succ n ih =>
    intro j c c' h1 h2 d t t' hv e1 e2
    have hlt : j + n < (ord X.top ch).length := by
      have := (List.getElem?_eq_some_iff.1 h2).1; omega
    have hm := List.getElem?_eq_getElem hlt
    obtain ⟨x, hx⟩ := wf.evC_total (top := X.top) hβ hv (hl _ (mem_ord.1 (List.mem_of_getElem? hm)))
    exact (ih j c _ h1 hm d t x hv e1 hx).trans (ha _ _ _ hm h2 d x t' hv hx e2)

theorem mono_nt (wf : WF RFull m) (hβ : LastOf β m) (li : m.Live i)
    (hn : m.nodes[i]? = some (.nt h ch)) (hh : m.headers[h]? = some hd) :
    MonoC Z β m i ↔ Adj Z β m ch ∧ ∀ c ∈ ch, MonoC Z β m c := by
  have hmem := List.mem_of_getElem? hh
  constructor
  · intro hM
    refine ⟨?_, ?_⟩
    · intro k c c' h1 h2 d t t' hv e1 e2
      obtain ⟨-, -, l3⟩ := wf.ordKid li hn hh h2
      refine hM (upd d hd.level k) (upd d hd.level (k + 1)) t t' (wf.valid_upd hv hmem l3) ?_
        ((ev_of_kid wf hβ li hn hh h1 hv).2 e1) ((ev_of_kid wf hβ li hn hh h2 hv).2 e2)
      intro l; unfold upd; split <;> omega
    · intro c hc d d' t t' hv hle e1 e2
      obtain ⟨k, hk, hk2⟩ := List.getElem_of_mem ((mem_ord (top := X.top)).2 hc)
      have hck : (ord X.top ch)[k]? = some c := by rw [List.getElem?_eq_getElem hk, hk2]
      obtain ⟨-, -, l3⟩ := wf.ordKid li hn hh hck
      exact hM (upd d hd.level k) (upd d' hd.level k) t t' (wf.valid_upd hv hmem l3) (le_upd hle _ _)
        ((ev_of_kid wf hβ li hn hh hck (valid_le hv hle)).2 e1)
        ((ev_of_kid wf hβ li hn hh hck hv).2 e2)
  · rintro ⟨ha, hk⟩ d d' t t' hv hle e1 e2
    obtain ⟨hd0, hh0, -, -, -, -, hkl⟩ := wf.nt li hn
    have hv1 := valid_le hv hle
    obtain ⟨c, hc, e1⟩ := (wf.evC_nt_iff hβ hv1 li hn hh).1 e1
    obtain ⟨c', hc', e2⟩ := (wf.evC_nt_iff hβ hv li hn hh).1 e2
    have hv0 : m.ValidA (upd d hd.level 0) := wf.valid_upd hv1 hmem (wf.pos hd hmem)
    have hv0' : m.ValidA (upd d' hd.level 0) := wf.valid_upd hv hmem (wf.pos hd hmem)
    have lc' : m.Live c' := (wf.ordKid li hn hh hc').1
    obtain ⟨x, hx⟩ := wf.evC_total (top := X.top) hβ hv0 lc'
    have h1 : Le Z t x := by
      refine adj_chain wf hβ (fun c hc => (hkl c hc).1) ha (d' hd.level - d hd.level) (d hd.level) c c' hc
        ?_ _ t x hv0 e1 hx
      rw [Nat.add_sub_cancel' (hle _)]; exact hc'
    exact h1.trans (hk c' (mem_ord.1 (List.mem_of_getElem? hc')) _ _ x t' hv0' (le_upd hle _ _) hx e2)

/-- Splitting a minimal vector at the top variable. -/
theorem minC_nt (wf : WF RFull m) (hβ : LastOf β m) (li : m.Live i)
    (hn : m.nodes[i]? = some (.nt h ch)) (hh : m.headers[h]? = some hd) (hM : MonoC Z β m i)
    {u : T} {d : Nat → Nat} :
    MinC Z β m i u d ↔ ∃ c, (ord X.top ch)[d hd.level]? = some c ∧
      MinC Z β m c u (upd d hd.level 0) ∧
      ∀ c', d hd.level ≠ 0 → (ord X.top ch)[d hd.level - 1]? = some c' →
        ¬ Hit Z β m c' (upd d hd.level 0) u := by
  have hmem := List.mem_of_getElem? hh
  obtain ⟨ha, hk⟩ := (mono_nt wf hβ li hn hh).1 hM
  obtain ⟨hd0, hh0, -, -, -, -, hkl⟩ := wf.nt li hn
  have hch := adj_chain wf hβ (fun c hc => (hkl c hc).1) ha
  constructor
  · rintro ⟨hv, hit, hmin⟩
    obtain ⟨c, hc, hit'⟩ := (hit_nt wf hβ hv li hn hh).1 hit
    have hv0 : m.ValidA (upd d hd.level 0) := wf.valid_upd hv hmem (wf.pos hd hmem)
    obtain ⟨l1, l2, l3⟩ := wf.ordKid li hn hh hc
    refine ⟨c, hc, ⟨hv0, hit', ?_⟩, ?_⟩
    · intro b hb hb2
      have hbl : b hd.level = 0 := by have := hb hd.level; rw [upd_self] at this; omega
      have := hmin (upd b hd.level (d hd.level)) ?_
        ((hit_of_kid wf hβ li hn hh hc (valid_le hv0 hb)).2 hb2)
      · rw [← this, upd_upd, upd_id hbl]
      · intro l
        by_cases e : l = hd.level
        · subst e; rw [upd_self]; exact Nat.le_refl _
        · rw [upd_ne _ _ e]; have := hb l; rwa [upd_ne _ _ e] at this
    · intro c' hne hc' hh2
      have := hmin (upd (upd d hd.level 0) hd.level (d hd.level - 1)) ?_
        ((hit_of_kid wf hβ li hn hh hc' hv0).2 hh2)
      · have := congrFun this hd.level
        rw [upd_self] at this; omega
      · intro l
        rw [upd_upd]
        unfold upd; split
        · rename_i e; subst e; omega
        · exact Nat.le_refl _
  · rintro ⟨c, hc, ⟨hv0, hit, hmin⟩, hprev⟩
    obtain ⟨l1, l2, l3⟩ := wf.ordKid li hn hh hc
    have hv : m.ValidA d := by
      have := wf.valid_upd hv0 hmem l3
      rwa [upd_upd, upd_id rfl] at this
    refine ⟨hv, (hit_nt wf hβ hv li hn hh).2 ⟨c, hc, hit⟩, ?_⟩
    intro b hb hbh
    have hvb := valid_le hv hb
    obtain ⟨cj, hcj, hbh'⟩ := (hit_nt wf hβ hvb li hn hh).1 hbh
    have hvb0 : m.ValidA (upd b hd.level 0) := wf.valid_upd hvb hmem (wf.pos hd hmem)
    -- the values along `b0 at cj`, `b0 at c`, `d0 at c` are equal
    obtain ⟨t1, ht1, hu1⟩ := hbh'
    obtain ⟨t3, ht3, hu3⟩ := hit
    obtain ⟨t2, ht2⟩ := wf.evC_total (top := X.top) hβ hvb0 l1
    have e13 : t1 = t3 := Z.mem_inj _ _ _ hu1 hu3
    have h12 : Le Z t1 t2 := hch (d hd.level - b hd.level) _ cj c hcj
      (by rw [Nat.add_sub_cancel' (hb _)]; exact hc) _ _ _ hvb0 ht1 ht2
    have h23 : Le Z t2 t3 := hk c (mem_ord.1 (List.mem_of_getElem? hc)) _ _ _ _ hv0 (le_upd hb _ _) ht2 ht3
    have e12 : t1 = t2 := h12.antisymm (by rw [e13]; exact h23)
    have hb0 := hmin (upd b hd.level 0) (le_upd hb _ _) ⟨t2, ht2, by rw [← e12]; exact hu1⟩
    have hlev : b hd.level = d hd.level := by
      refine Classical.byContradiction fun hne => ?_
      have hlt : b hd.level < d hd.level := by have := hb hd.level; omega
      have hp : d hd.level - 1 < (ord X.top ch).length := by
        have := (List.getElem?_eq_some_iff.1 hc).1; omega
      have hcp := List.getElem?_eq_getElem hp
      obtain ⟨tp, htp⟩ := wf.evC_total (top := X.top) hβ hvb0
        (hkl _ (mem_ord.1 (List.mem_of_getElem? hcp))).1
      have h1p : Le Z t1 tp := hch (d hd.level - 1 - b hd.level) _ cj _ hcj
        (by rw [Nat.add_sub_cancel' (by omega)]; exact hcp) _ _ _ hvb0 ht1 htp
      have hp2 : Le Z tp t2 := hch 1 _ _ c hcp
        (by rw [Nat.sub_add_cancel (by omega)]; exact hc) _ _ _ hvb0 htp ht2
      have e1p : t1 = tp := h1p.antisymm (by rw [e12]; exact hp2)
      refine hprev _ (by omega) hcp ⟨tp, ?_, by rw [← e1p]; exact hu1⟩
      rw [← hb0]; exact htp
    have := congrArg (fun a => upd a hd.level (d hd.level)) hb0
    simp only [upd_upd] at this
    rwa [upd_id hlev, upd_id rfl] at this

end

/-! ## The coherence test -/

theorem eval_congr_hdr {a b : Nat → Nat} (h : ∀ hd ∈ m.headers, a hd.level = b hd.level) {i : Nat} {t : T}
    (he : Eval m a i t) : Eval m b i t := by
  induction he with
  | term hn => exact .term hn
  | nt hn hh hc _ ih => exact .nt hn hh (by rw [← h _ (List.mem_of_getElem? hh)]; exact hc) ih

/-- Pointwise below. -/
def CLe (Z : Spec X) (β : Nat → Nat) (m : Arena T) (a b : Nat) : Prop :=
  ∀ d t t', m.ValidA d → EvC X.top β m d a t → EvC X.top β m d b t' → Z.inf t t' = t

/-- What the instance's meet must satisfy. -/
def InfOK (Z : Spec X) (E : Eng S T) (inf : S → Nat → Nat → Option (Nat × S)) : Prop :=
  ∀ s a b, E.Inv s → (E.ar s).Live a → (E.ar s).Live b →
    E.Ok s (max ((E.ar s).rank a) ((E.ar s).rank b))
      (Op2 (fun x y z => Z.Dom x → Z.Dom y → z = Z.inf x y) (E.ar s) (E.ar s) a b) (inf s a b)

theorem inf_ok {inf : S → Nat → Nat → Option (Nat × S)} (hinf : InfOK Z E inf) {s : S} (hs : E.Inv s)
    (hβ : LastOf β (E.ar s)) (inj : (E.ar s).LevInj) {a b : Nat} (la : (E.ar s).Live a)
    (lb : (E.ar s).Live b) :
    ∃ r s', inf s a b = some (r, s') ∧ E.Inv s' ∧ E.St s s' ∧
      (DomC Z β (E.ar s) a → DomC Z β (E.ar s) b → (r = a ↔ CLe Z β (E.ar s) a b)) := by
  obtain ⟨r, s', h1, h2, h3, h4, h5, h6⟩ := hinf s a b hs la lb
  refine ⟨r, s', h1, h2, h3, ?_⟩
  intro da db
  have wf := E.toWF _ hs
  have wf' := E.toWF _ h2
  have st := E.toStep _ _ h3
  constructor
  · rintro rfl d t t' hv ha hb
    have := h6 (crd X.top β d) ((ValidA.step st).2 (wf.crd_valid hβ hv)) t
      ((wf.eval_ext st.toExt la).2 ha) t t' ha hb (da d t hv ha) (db d t' hv hb)
    exact this.symm
  · intro hle
    refine wf'.canon (levInj_step inj st) h4 (st.keep _ la).1 ?_
    intro x hx t
    have hx0 := (ValidA.step st).1 hx
    -- coordinates of `x`
    obtain ⟨d, hv, hcr⟩ : ∃ d, (E.ar s).ValidA d ∧
        ∀ hd ∈ (E.ar s).headers, crd X.top β d hd.level = x hd.level := by
      cases htop : X.top with
      | false => exact ⟨x, hx0, fun _ _ => rfl⟩
      | true =>
        refine ⟨fun l => β l - x l, ?_, ?_⟩
        · intro hd hm
          have := hβ hd hm
          show β hd.level - x hd.level < hd.edgeNum
          omega
        · intro hd hm
          have h1 := hβ hd hm
          have h2 := hx0 hd hm
          show β hd.level - (β hd.level - x hd.level) = x hd.level
          omega
    have toC : ∀ {i : Nat} {t : T}, Eval (E.ar s) x i t ↔ EvC X.top β (E.ar s) d i t := fun {i t} =>
      ⟨eval_congr_hdr (fun hd hm => (hcr hd hm).symm), eval_congr_hdr hcr⟩
    obtain ⟨ta, hta⟩ := wf.eval_total hx0 la
    obtain ⟨tb, htb⟩ := wf.eval_total hx0 lb
    obtain ⟨tr, htr⟩ := wf'.eval_total hx h4
    have e1 : tr = Z.inf ta tb := h6 x hx tr htr ta tb hta htb
      (da d ta hv (toC.1 hta)) (db d tb hv (toC.1 htb))
    have e2 : tr = ta := by rw [e1]; exact hle d ta tb hv (toC.1 hta) (toC.1 htb)
    have hta' := (wf.eval_ext st.toExt la).2 hta
    constructor
    · intro h; rw [Eval.det h htr, e2]; exact hta'
    · intro h; rw [Eval.det h hta', ← e2]; exact htr

theorem cle_st {s s' : S} (hs : E.Inv s) (st : E.St s s') {a b : Nat} (la : (E.ar s).Live a)
    (lb : (E.ar s).Live b) : CLe Z β (E.ar s') a b ↔ CLe Z β (E.ar s) a b := by
  have st' := E.toStep _ _ st
  unfold CLe
  simp only [(E.toWF _ hs).evC_ext st'.toExt la, (E.toWF _ hs).evC_ext st'.toExt lb, ValidA.step st']

theorem domC_st {s s' : S} (hs : E.Inv s) (st : E.St s s') {a : Nat} (la : (E.ar s).Live a) :
    DomC Z β (E.ar s') a ↔ DomC Z β (E.ar s) a := by
  have st' := E.toStep _ _ st
  unfold DomC
  simp only [(E.toWF _ hs).evC_ext st'.toExt la, ValidA.step st']

theorem chain_ok {inf : S → Nat → Nat → Option (Nat × S)} (hinf : InfOK Z E inf) :
    ∀ (ps : List (Nat × Nat)) (s : S), E.Inv s → LastOf β (E.ar s) → (E.ar s).LevInj →
      (∀ p ∈ ps, (E.ar s).Live p.1 ∧ (E.ar s).Live p.2) →
      ∃ b s', chain inf s ps = some (b, s') ∧ E.Inv s' ∧ E.St s s' ∧
        ((∀ p ∈ ps, DomC Z β (E.ar s) p.1 ∧ DomC Z β (E.ar s) p.2) →
          (b = true ↔ ∀ p ∈ ps, CLe Z β (E.ar s) p.1 p.2)) := by
  intro ps
  induction ps with
  | nil => intro s hs _ _ _; exact ⟨true, s, rfl, hs, E.refl _, by simp⟩
  | cons p ps ih =>
    intro s hs hβ inj hl
    obtain ⟨a, b⟩ := p
    obtain ⟨la, lb⟩ := hl (a, b) List.mem_cons_self
    obtain ⟨r, s1, h1, h2, h3, h4⟩ := inf_ok (β := β) hinf hs hβ inj la lb
    have st := E.toStep _ _ h3
    unfold chain
    rw [h1]
    simp only
    split
    · rename_i e
      obtain ⟨x, s2, g1, g2, g3, g4⟩ := ih s1 h2 (hβ.step st) (levInj_step inj st) (by
        intro p hp
        obtain ⟨q1, q2⟩ := hl p (List.mem_cons_of_mem _ hp)
        exact ⟨(st.keep _ q1).1, (st.keep _ q2).1⟩)
      refine ⟨x, s2, g1, g2, E.trans _ _ _ h3 g3, ?_⟩
      intro hD
      obtain ⟨d1, d2⟩ := hD (a, b) List.mem_cons_self
      rw [g4 ?_]
      · constructor
        · intro h p hp
          rcases List.mem_cons.1 hp with rfl | hp'
          · exact (h4 d1 d2).1 e
          · obtain ⟨q1, q2⟩ := hl p hp
            exact (cle_st hs h3 q1 q2).1 (h p hp')
        · intro h p hp
          obtain ⟨q1, q2⟩ := hl p (List.mem_cons_of_mem _ hp)
          exact (cle_st hs h3 q1 q2).2 (h p (List.mem_cons_of_mem _ hp))
      · intro p hp
        obtain ⟨q1, q2⟩ := hl p (List.mem_cons_of_mem _ hp)
        obtain ⟨e1, e2⟩ := hD p (List.mem_cons_of_mem _ hp)
        exact ⟨(domC_st hs h3 q1).2 e1, (domC_st hs h3 q2).2 e2⟩
    · rename_i e
      refine ⟨false, s1, rfl, h2, h3, ?_⟩
      intro hD
      obtain ⟨d1, d2⟩ := hD (a, b) List.mem_cons_self
      constructor
      · intro h; cases h
      · intro h; exact absurd ((h4 d1 d2).2 (h (a, b) List.mem_cons_self)) e

theorem adj_iff {ch : List Nat} :
    Adj Z β m ch ↔ ∀ p ∈ ch.zip ch.tail, CLe Z β m p.1 p.2 := by
  have hp : ∀ (p : Nat × Nat), p ∈ ch.zip ch.tail ↔ ∃ j : Nat, ch[j]? = some p.1 ∧ ch[j + 1]? = some p.2 := by
    intro p
    rw [List.mem_iff_getElem?]
    simp only [List.getElem?_zip_eq_some, List.getElem?_tail]
  unfold Adj CLe Le
  cases htop : X.top with
  | false =>
    simp only [ord, Bool.false_eq_true, if_false]
    constructor
    · intro h p hp'
      obtain ⟨j, h1, h2⟩ := (hp p).1 hp'
      intro d t t' hv e1 e2
      exact h j _ _ h1 h2 d t t' hv e1 e2
    · intro h k c c' h1 h2
      exact h (c, c') ((hp _).2 ⟨k, h1, h2⟩)
  | true =>
    simp only [if_true]
    constructor
    · intro h p hp'
      obtain ⟨j, h1, h2⟩ := (hp p).1 hp'
      have hlt := (List.getElem?_eq_some_iff.1 h2).1
      intro d t t' hv e1 e2
      refine h (ch.length - 1 - (j + 1)) p.2 p.1 ?_ ?_ d t' t hv e2 e1
      · rw [ord_get (by omega)]
        show ch[ch.length - 1 - (ch.length - 1 - (j + 1))]? = _
        rw [show ch.length - 1 - (ch.length - 1 - (j + 1)) = j + 1 by omega]; exact h2
      · rw [ord_get (by omega)]
        show ch[ch.length - 1 - (ch.length - 1 - (j + 1) + 1)]? = _
        rw [show ch.length - 1 - (ch.length - 1 - (j + 1) + 1) = j by omega]; exact h1
    · intro h k c c' h1 h2 d t t' hv e1 e2
      obtain ⟨k1, k2⟩ := ord_get_some h1
      obtain ⟨k3, k4⟩ := ord_get_some h2
      refine h (c', c) ((hp _).2 ⟨ch.length - 1 - (k + 1), k4, ?_⟩) d t' t hv e2 e1
      rw [show ch.length - 1 - (k + 1) + 1 = ch.length - 1 - k by omega]
      exact k2

/-! ## The loop over the children -/

theorem nbrs_length (top : Bool) (ch : List Nat) : (nbrs top ch).length = ch.length := by
  cases top
  · simp [nbrs]
  · cases ch <;> simp [nbrs]

theorem nbrs_ord {top : Bool} {ch : List Nat} {k c : Nat} {nb : Option Nat}
    (h : (ord top (nbrs top ch))[k]? = some (c, nb)) :
    (ord top ch)[k]? = some c ∧ nb = if k = 0 then none else (ord top ch)[k - 1]? := by
  obtain ⟨k1, k2⟩ := ord_get_some h
  rw [nbrs_length] at k1 k2
  cases top with
  | false =>
    simp only [nbrs, Bool.false_eq_true, if_false, pos, ord] at k2 ⊢
    rw [List.getElem?_zip_eq_some] at k2
    refine ⟨k2.1, ?_⟩
    have := k2.2
    cases k with
    | zero => simp at this; simp [this]
    | succ k =>
      simp only [List.getElem?_cons_succ, List.getElem?_map] at this
      rw [if_neg (by omega), Nat.add_sub_cancel]
      cases hc : ch[k]? with
      | none => rw [hc] at this; cases this
      | some x => rw [hc] at this; cases this; rfl
  | true =>
    simp only [nbrs, if_true, pos] at k2
    rw [List.getElem?_zip_eq_some] at k2
    refine ⟨by rw [ord_get k1]; exact k2.1, ?_⟩
    have h2 := k2.2
    simp only at h2
    by_cases hk : k = 0
    · subst hk
      rw [if_pos rfl]
      rw [List.getElem?_append_right (by simp)] at h2
      simp at h2
      exact h2.symm
    · rw [if_neg hk, ord_get (by omega)]
      show nb = ch[ch.length - 1 - (k - 1)]?
      rw [List.getElem?_append_left (by simp; omega), List.getElem?_map, List.getElem?_tail] at h2
      rw [show ch.length - 1 - k + 1 = ch.length - 1 - (k - 1) by omega] at h2
      cases hc : ch[ch.length - 1 - (k - 1)]? with
      | none => rw [hc] at h2; cases h2
      | some x => rw [hc] at h2; cases h2; rfl

/-- What one round of the loop yields. -/
def KOk (Z : Spec X) (β : Nat → Nat) (m : Arena T) (c : Nat) (nb : Option Nat) (v : Nat) : Prop :=
  ∃ mm, SOk Z β m c (some mm) ∧ (nb = none → v = mm) ∧ ∀ b, nb = some b → WOk Z β m b mm v

theorem KOk.ext (wf : WF RFull m) (st : Step m m') {c v : Nat} {nb : Option Nat}
    (h : KOk Z β m c nb v) : KOk Z β m' c nb v := by
  obtain ⟨mm, h1, h2, h3⟩ := h
  exact ⟨mm, h1.ext wf st, h2, fun b hb => (h3 b hb).ext wf st.toExt⟩

theorem KOk.live {c v : Nat} {nb : Option Nat} (h : KOk Z β m c nb v) :
    m.Live v ∧ m.rank v ≤ m.rank c := by
  obtain ⟨mm, h1, h2, h3⟩ := h
  cases nb with
  | none => rw [h2 rfl]; exact ⟨h1.lr _ rfl, h1.rk _ rfl⟩
  | some b => exact ⟨(h3 b rfl).lr, Nat.le_trans (h3 b rfl).rk (h1.rk _ rfl)⟩

theorem minC_fam (wf : WF RFull m) {i r : Nat}
    (h : ∀ d u, u ≠ Z.und → (LabC X.top m r d u ↔ MinC Z β m i u d)) : Fam Z m r := by
  constructor
  · intro d u hu hL
    obtain ⟨-, ⟨t, -, ht⟩, -⟩ := (h d u hu).1 hL
    exact ⟨t, ht⟩
  · intro d d' u hu hL hL' hle
    exact ((h d' u hu).1 hL').2.2 d hle ((h d u hu).1 hL).2.1

theorem KOk.sem (wf : WF RFull m) {c v : Nat} {nb : Option Nat} (h : KOk Z β m c nb v)
    (hD : DomC Z β m c) : MonoC Z β m c ∧ ∀ d u, u ≠ Z.und →
      (LabC X.top m v d u ↔ MinC Z β m c u d ∧ ∀ b, nb = some b → ¬ Hit Z β m b d u) := by
  obtain ⟨mm, h1, h2, h3⟩ := h
  obtain ⟨s1, s2⟩ := h1.sem hD
  refine ⟨Classical.byContradiction fun hne => absurd (s1.2 hne) (by simp), ?_⟩
  intro d u hu
  cases nb with
  | none => rw [h2 rfl, s2 mm rfl d u hu]; simp
  | some b =>
    rw [(h3 b rfl).sem (minC_fam wf (s2 mm rfl)) d u hu, s2 mm rfl d u hu]
    simp

/-- Outcome of the outer recursion as a computation. -/
def SRes (Z : Spec X) (β : Nat → Nat) (E : Eng S T) (q : Q S) (i : Nat)
    (res : Option (Option Nat × Q S)) : Prop :=
  ∃ x q', res = some (x, q') ∧ QInv Z β E q' ∧ E.St q.s q'.s ∧ SOk Z β (E.ar q'.s) i x

theorem kids_ok {rec : Q S → Nat → Option (Option Nat × Q S)} {n : Nat}
    (ih : ∀ q i, QInv Z β E q → (E.ar q.s).Live i → (E.ar q.s).rank i < n → SRes Z β E q i (rec q i)) :
    ∀ (ps : List (Nat × Option Nat)) (q : Q S), QInv Z β E q →
      (∀ p ∈ ps, (E.ar q.s).Live p.1 ∧ (E.ar q.s).rank p.1 < n ∧
        ∀ b, p.2 = some b → (E.ar q.s).Live b) →
      ∃ res q', kids rec (without E.ar E.mkn X) q ps = some (res, q') ∧ QInv Z β E q' ∧ E.St q.s q'.s ∧
        (res = none → ∃ p ∈ ps, SOk Z β (E.ar q'.s) p.1 none) ∧
        (∀ vs, res = some vs → vs.length = ps.length ∧
          ∀ (j c : Nat) nb v, ps[j]? = some (c, nb) → vs[j]? = some v → KOk Z β (E.ar q'.s) c nb v) := by
  intro ps
  induction ps with
  | nil =>
    intro q hq _
    refine ⟨some [], q, rfl, hq, E.refl _, (by intro h; cases h), ?_⟩
    intro vs hvs
    cases hvs
    exact ⟨rfl, (by intro j c nb v h; simp at h)⟩
  | cons p ps ihp =>
    intro q hq hl
    obtain ⟨c, nb⟩ := p
    obtain ⟨lc, rc, lb⟩ := hl (c, nb) List.mem_cons_self
    obtain ⟨x, q1, h1, h2, h3, h4⟩ := ih q c hq lc rc
    have wf : WF RFull (E.ar q.s) := E.toWF _ hq.w.inv
    have wf1 : WF RFull (E.ar q1.s) := E.toWF _ h2.w.inv
    have st1 := E.toStep _ _ h3
    unfold kids
    rw [h1]
    cases x with
    | none =>
      simp only
      refine ⟨none, q1, rfl, h2, h3, fun _ => ⟨(c, nb), List.mem_cons_self, h4⟩, ?_⟩
      intro vs hvs; cases hvs
    | some mm =>
      simp only
      -- the value of this round
      have round : ∃ v q2, pick (without E.ar E.mkn X) q1 nb mm = some (v, q2) ∧
          QInv Z β E q2 ∧ E.St q1.s q2.s ∧ KOk Z β (E.ar q2.s) c nb v := by
        cases nb with
        | none =>
          exact ⟨mm, q1, rfl, h2, E.refl _, mm, h4, fun _ => rfl, (by intro b hb; cases hb)⟩
        | some b =>
          obtain ⟨v, ⟨s2, c2⟩, w1, w2, w3, w4⟩ := without_ok h2.w (st1.keep _ (lb b rfl)).1 (h4.lr mm rfl)
          simp only [pick, w1]
          have hst : E.St q1.s s2 := w3
          refine ⟨v, { q1 with s := s2, c2 := c2 }, rfl, ⟨w2, ?_⟩, hst, mm,
            h4.ext wf1 (E.toStep _ _ hst), by (intro h; cases h), ?_⟩
          · intro i x hx
            exact (h2.c1 i x hx).ext wf1 (E.toStep _ _ hst)
          · intro b' hb'; cases hb'; exact w4
      obtain ⟨v, q2, r1, r2, r3, r4⟩ := round
      have st2 := E.toStep _ _ r3
      have st02 := st1.trans st2
      obtain ⟨res, q3, k1, k2, k3, k4, k5⟩ := ihp q2 r2 (by
        intro p hp
        obtain ⟨a1, a2, a3⟩ := hl p (List.mem_cons_of_mem _ hp)
        exact ⟨(st02.keep _ a1).1, by rw [wf.rank_ext st02.toExt a1]; exact a2,
          fun b hb => (st02.keep _ (a3 b hb)).1⟩)
      simp only [r1, k1]
      have hst := E.trans _ _ _ h3 (E.trans _ _ _ r3 k3)
      cases res with
      | none =>
        simp only
        refine ⟨none, q3, rfl, k2, hst, ?_, (by intro vs hvs; cases hvs)⟩
        intro _
        obtain ⟨p, hp, hs⟩ := k4 rfl
        exact ⟨p, List.mem_cons_of_mem _ hp, hs⟩
      | some vs =>
        simp only
        obtain ⟨l1, l2⟩ := k5 vs rfl
        refine ⟨some (v :: vs), q3, rfl, k2, hst, by (intro h; cases h), ?_⟩
        intro vs' hvs'
        cases hvs'
        refine ⟨by simp [l1], ?_⟩
        intro j c' nb' v' hj hv'
        cases j with
        | zero =>
          simp at hj hv'
          obtain ⟨rfl, rfl⟩ := hj
          subst hv'
          exact r4.ext (E.toWF _ r2.w.inv) (E.toStep _ _ k3)
        | succ j =>
          simp at hj hv'
          exact l2 j c' nb' v' hj hv'

/-! ## The recursion -/

theorem solF_ok {inf : S → Nat → Nat → Option (Nat × S)} (hinf : InfOK Z E inf) :
    ∀ n q i, QInv Z β E q → (E.ar q.s).Live i → (E.ar q.s).rank i < n →
      SRes Z β E q i (solF E.ar E.mkn inf X n q i) := by
  intro n
  induction n with
  | zero => intro q i _ _ h; omega
  | succ n ih =>
    intro q i hq li hr
    have wf : WF RFull (E.ar q.s) := E.toWF _ hq.w.inv
    unfold solF
    cases hget : q.c1.get i with
    | some x => simp only; exact ⟨x, q, rfl, hq, E.refl _, hq.c1 i x hget⟩
    | none =>
      simp only
      have fin : ∀ res, SRes Z β E q i res → SRes Z β E q i (match res with
          | none => none
          | some (x, q1) => some (x, { q1 with c1 := q1.c1.insert i x })) := by
        rintro res ⟨x, q1, rfl, h2, h3, h4⟩
        refine ⟨x, _, rfl, ⟨h2.w, ?_⟩, h3, h4⟩
        intro i' x' hx'
        simp only [AMap.get_insert] at hx'
        split at hx'
        · rename_i e
          subst e; cases hx'; exact h4
        · exact h2.c1 _ _ hx'
      apply fin
      obtain ⟨nd, hn⟩ := li.node
      simp only [node?, hn]
      cases nd with
      | term t =>
        simp only
        have hmono : MonoC Z β (E.ar q.s) i := by
          intro d d' t1 t2 _ _ e1 e2
          rw [(evC_term_iff hn).1 e1, (evC_term_iff hn).1 e2]; exact Le.refl _
        have hmin : ∀ u d, MinC Z β (E.ar q.s) i u d ↔ Z.mem t = some u ∧ d = fun _ => 0 := by
          intro u d
          unfold MinC
          simp only [hit_term hn]
          constructor
          · rintro ⟨-, h, h2⟩
            exact ⟨h, (h2 (fun _ => 0) (fun _ => Nat.zero_le _) h).symm⟩
          · rintro ⟨h, rfl⟩
            refine ⟨wf.valid_zero, h, ?_⟩
            intro b hb _
            funext l
            have := hb l
            simp at this
            exact this
        have hT := Z.termOK t
        cases hX : X.term t with
        | none =>
          rw [hX] at hT
          refine ⟨_, q, rfl, hq, E.refl _, li, ?_, ?_, ?_⟩
          · intro r hr; cases hr; exact li
          · intro r hr; cases hr; exact Nat.le_refl _
          · intro _
            refine ⟨⟨(by intro h; cases h), fun h => absurd hmono h⟩, ?_⟩
            intro r hr d u hu
            simp only [Option.getD_none, Option.some.injEq] at hr
            subst hr
            rw [labC_term_iff hn, hmin, hT u hu]
            exact and_comm
        | some k =>
          rw [hX] at hT
          obtain ⟨y, hy, hT⟩ := hT
          refine ⟨_, q, rfl, hq, E.refl _, li, ?_, ?_, ?_⟩
          · intro r hr; cases hr; exact (wf.fixed_live hy).1
          · intro r hr
            cases hr
            simp only [Option.getD_some]
            rw [rank_term (wf.fixed_live hy).2]; exact Nat.zero_le _
          · intro _
            refine ⟨⟨(by intro h; cases h), fun h => absurd hmono h⟩, ?_⟩
            intro r hr d u hu
            simp only [Option.getD_some, Option.some.injEq] at hr
            subst hr
            rw [labC_const wf hy, hmin, hT u hu]
            exact and_comm
      | nt h ch =>
        simp only
        obtain ⟨hd, hh, hlen, hrk, -, -, hk⟩ := wf.nt li hn
        have hzip : ∀ p ∈ ch.zip ch.tail, p.1 ∈ ch ∧ p.2 ∈ ch := by
          intro p hp
          obtain ⟨h1, h2⟩ := List.of_mem_zip (a := p.1) (b := p.2) hp
          exact ⟨h1, List.mem_of_mem_tail h2⟩
        obtain ⟨b, s1, c1, c2, c3, c4⟩ := chain_ok (β := β) hinf (ch.zip ch.tail) q.s hq.w.inv hq.w.last
          hq.w.inj (fun p hp => ⟨(hk _ (hzip p hp).1).1, (hk _ (hzip p hp).2).1⟩)
        have st1 := E.toStep _ _ c3
        have hq1 : QInv Z β E { q with s := s1 } := QInv.step (s := q.s) hq c2 c3
        have li1 := (st1.keep _ li).1
        rw [c1]
        -- domains of the children
        have hDk : DomC Z β (E.ar q.s) i → ∀ c ∈ ch, DomC Z β (E.ar q.s) c := by
          intro hD c hc d t hv he
          obtain ⟨k, hk1, hk2⟩ := List.getElem_of_mem ((mem_ord (top := X.top)).2 hc)
          have hck : (ord X.top ch)[k]? = some c := by rw [List.getElem?_eq_getElem hk1, hk2]
          obtain ⟨-, -, l3⟩ := wf.ordKid li hn hh hck
          exact hD (upd d hd.level k) t (wf.valid_upd hv (List.mem_of_getElem? hh) l3)
            ((ev_of_kid wf hq.w.last li hn hh hck hv).2 he)
        have hadj : DomC Z β (E.ar q.s) i → (b = true ↔ Adj Z β (E.ar q.s) ch) := by
          intro hD
          rw [adj_iff]
          exact c4 (fun p hp => ⟨hDk hD _ (hzip p hp).1, hDk hD _ (hzip p hp).2⟩)
        cases b with
        | false =>
          simp only
          refine ⟨none, _, rfl, hq1, c3, ?_⟩
          refine SOk.ext wf st1 ⟨li, (by intro r h; cases h), (by intro r h; cases h), ?_⟩
          intro hD
          refine ⟨⟨fun _ hM => ?_, fun _ => rfl⟩, (by intro r h; cases h)⟩
          have := (hadj hD).2 ((mono_nt wf hq.w.last li hn hh).1 hM).1
          cases this
        | true =>
          simp only
          have hps : ∀ p ∈ nbrs X.top ch, (E.ar s1).Live p.1 ∧ (E.ar s1).rank p.1 < n ∧
              ∀ b, p.2 = some b → (E.ar s1).Live b := by
            intro p hp
            obtain ⟨k, hk1, hk2⟩ := List.getElem_of_mem ((mem_ord (top := X.top)).2 hp)
            have hpk : (ord X.top (nbrs X.top ch))[k]? = some (p.1, p.2) := by
              rw [List.getElem?_eq_getElem hk1, hk2]
            obtain ⟨n1, n2⟩ := nbrs_ord hpk
            obtain ⟨l1, l2⟩ := hk _ (mem_ord.1 (List.mem_of_getElem? n1))
            refine ⟨(st1.keep _ l1).1, by rw [wf.rank_ext st1.toExt l1]; omega, ?_⟩
            intro b hb
            rw [n2] at hb
            split at hb
            · cases hb
            · exact (st1.keep _ (hk _ (mem_ord.1 (List.mem_of_getElem? hb))).1).1
          obtain ⟨res, q2, k1, k2, k3, k4, k5⟩ := kids_ok ih (nbrs X.top ch) { q with s := s1 } hq1 hps
          have k3' : E.St s1 q2.s := k3
          have st2 := E.toStep _ _ k3'
          have st02 := st1.trans st2
          have wf2 : WF RFull (E.ar q2.s) := E.toWF _ k2.w.inv
          have li2 := (st02.keep _ li).1
          have hn2 : (E.ar q2.s).nodes[i]? = some (.nt h ch) := by rw [(st02.keep _ li).2]; exact hn
          have hh2 := st02.hdr _ _ hh
          have hβ2 := k2.w.last
          have hD2 : DomC Z β (E.ar q2.s) i ↔ DomC Z β (E.ar q.s) i :=
            domC_st hq.w.inv (E.trans _ _ _ c3 k3') li
          have hDk2 : DomC Z β (E.ar q2.s) i → ∀ c ∈ ch, DomC Z β (E.ar q2.s) c := by
            intro hD c hc
            exact (domC_st hq.w.inv (E.trans _ _ _ c3 k3') (hk c hc).1).2 (hDk (hD2.1 hD) c hc)
          rw [k1]
          cases res with
          | none =>
            simp only
            refine ⟨none, q2, rfl, k2, E.trans _ _ _ c3 k3', li2, by (intro r h; cases h),
              by (intro r h; cases h), ?_⟩
            intro hD
            refine ⟨⟨fun _ hM => ?_, fun _ => rfl⟩, (by intro r h; cases h)⟩
            obtain ⟨p, hp, hs⟩ := k4 rfl
            obtain ⟨k, hk1', hk2'⟩ := List.getElem_of_mem ((mem_ord (top := X.top)).2 hp)
            have hpk : (ord X.top (nbrs X.top ch))[k]? = some (p.1, p.2) := by
              rw [List.getElem?_eq_getElem hk1', hk2']
            have hpm := mem_ord.1 (List.mem_of_getElem? (nbrs_ord hpk).1)
            exact (hs.sem (hDk2 hD _ hpm)).1.1 rfl (((mono_nt wf2 hβ2 li2 hn2 hh2).1 hM).2 _ hpm)
          | some rs =>
            simp only
            obtain ⟨l1, l2⟩ := k5 rs rfl
            have hlr : rs.length = ch.length := by rw [l1, nbrs_length]
            -- the children of the result, by distance
            have hkid : ∀ (k v : Nat), (ord X.top rs)[k]? = some v → ∃ c, (ord X.top ch)[k]? = some c ∧
                KOk Z β (E.ar q2.s) c (if k = 0 then none else (ord X.top ch)[k - 1]?) v := by
              intro k v hv
              obtain ⟨v1, v2⟩ := ord_get_some hv
              have hnl : k < (nbrs X.top ch).length := by rw [nbrs_length]; omega
              have hlt : k < (ord X.top (nbrs X.top ch)).length := by rw [ord_length]; exact hnl
              obtain ⟨⟨c, nb⟩, hcn⟩ : ∃ p, (ord X.top (nbrs X.top ch))[k]? = some p :=
                ⟨_, List.getElem?_eq_getElem hlt⟩
              obtain ⟨n1, n2⟩ := nbrs_ord hcn
              refine ⟨c, n1, ?_⟩
              rw [← n2]
              obtain ⟨-, p2⟩ := ord_get_some hcn
              refine l2 _ c nb v p2 ?_
              rw [← l1]; exact v2
            have hgood : ∀ c ∈ rs, (E.ar q2.s).Live c ∧ (E.ar q2.s).rank c ≤ hd.level := by
              intro v hv
              obtain ⟨k, kk1, kk2⟩ := List.getElem_of_mem ((mem_ord (top := X.top)).2 hv)
              obtain ⟨c, hc, hK⟩ := hkid k v (by rw [List.getElem?_eq_getElem kk1, kk2])
              obtain ⟨g1, g2⟩ := hK.live
              have := (wf2.ordKid li2 hn2 hh2 hc).2.1
              exact ⟨g1, by omega⟩
            obtain ⟨r, s3, m1, m2, m3, m4, m5, m6⟩ := create_lab (X := X) (Z := Z) k2.w.inv hh2
              (by rw [hlr, hlen]) hgood
            rw [m1]
            have st3 := E.toStep _ _ m3
            have st03 := st02.trans st3
            refine ⟨some r, { q2 with s := s3 }, rfl, QInv.step (s := q2.s) k2 m2 m3,
              E.trans _ _ _ c3 (E.trans _ _ _ k3' m3), (st03.keep _ li).1, ?_, ?_, ?_⟩
            · intro r' hr'; cases hr'; exact m4
            · intro r' hr'; cases hr'
              rw [wf.rank_ext st03.toExt li, hrk]; exact m5
            · intro hD3
              have hD : DomC Z β (E.ar q2.s) i := (domC_st k2.w.inv m3 li2).1 hD3
              have hAdj : Adj Z β (E.ar q.s) ch := (hadj (hD2.1 hD)).1 rfl
              have hAdj2 : Adj Z β (E.ar q2.s) ch := by
                rw [adj_iff] at hAdj ⊢
                intro p hp
                exact (cle_st hq.w.inv (E.trans _ _ _ c3 k3') (hk _ (hzip p hp).1).1
                  (hk _ (hzip p hp).2).1).2 (hAdj p hp)
              have hKs : ∀ c ∈ ch, MonoC Z β (E.ar q2.s) c := by
                intro c hc
                obtain ⟨k, kk1, kk2⟩ := List.getElem_of_mem ((mem_ord (top := X.top)).2 hc)
                have hck : (ord X.top ch)[k]? = some c := by rw [List.getElem?_eq_getElem kk1, kk2]
                have hkr : k < (ord X.top rs).length := by
                  rw [ord_length, hlr, ← ord_length X.top]; exact kk1
                obtain ⟨c', hc', hK⟩ := hkid k _ (List.getElem?_eq_getElem hkr)
                rw [hck] at hc'; cases hc'
                exact (hK.sem wf2 (hDk2 hD c hc)).1
              have hM : MonoC Z β (E.ar q2.s) i := (mono_nt wf2 hβ2 li2 hn2 hh2).2 ⟨hAdj2, hKs⟩
              have hM3 : MonoC Z β (E.ar s3) i := by
                unfold MonoC
                simp only [wf2.evC_ext st3.toExt li2, ValidA.step st3]
                exact hM
              refine ⟨⟨(by intro h; cases h), fun h => absurd hM3 h⟩, ?_⟩
              intro r' hr' d u hu
              cases hr'
              have hmin3 : MinC Z β (E.ar s3) i u d ↔ MinC Z β (E.ar q2.s) i u d := by
                unfold MinC
                simp only [hit_ext wf2 st3.toExt li2, ValidA.step st3]
              rw [hmin3, minC_nt wf2 hβ2 li2 hn2 hh2 hM, m6 ?_ d u hu]
              · constructor
                · rintro ⟨v, hv, hL⟩
                  obtain ⟨c, hc, hK⟩ := hkid _ v hv
                  obtain ⟨a1, a2⟩ := ((hK.sem wf2
                    (hDk2 hD c (mem_ord.1 (List.mem_of_getElem? hc)))).2 _ u hu).1 hL
                  refine ⟨c, hc, a1, ?_⟩
                  intro c' hne hc'
                  exact a2 c' (by rw [if_neg hne]; exact hc')
                · rintro ⟨c, hc, a1, a2⟩
                  have hkr : d hd.level < (ord X.top rs).length := by
                    rw [ord_length, hlr]; exact (ord_get_some hc).1
                  refine ⟨_, List.getElem?_eq_getElem hkr, ?_⟩
                  obtain ⟨c', hc', hK⟩ := hkid _ _ (List.getElem?_eq_getElem hkr)
                  rw [hc] at hc'; cases hc'
                  refine ((hK.sem wf2
                    (hDk2 hD c (mem_ord.1 (List.mem_of_getElem? hc)))).2 _ u hu).2 ⟨a1, ?_⟩
                  intro b hb
                  split at hb
                  · cases hb
                  · rename_i hne; exact a2 b hne hb
              · intro v0 v k hv0 hv d u hu hL0 hL
                obtain ⟨c0, hc0, hK0⟩ := hkid _ v0 hv0
                obtain ⟨c, hc, hK⟩ := hkid _ v hv
                obtain ⟨a0, -⟩ := ((hK0.sem wf2
                  (hDk2 hD c0 (mem_ord.1 (List.mem_of_getElem? hc0)))).2 _ u hu).1 hL0
                obtain ⟨a1, a2⟩ := ((hK.sem wf2
                  (hDk2 hD c (mem_ord.1 (List.mem_of_getElem? hc)))).2 _ u hu).1 hL
                have hkp : k < (ord X.top ch).length := by
                  have := (List.getElem?_eq_some_iff.1 hc).1; omega
                have hp := List.getElem?_eq_getElem hkp
                refine a2 _ (by rw [if_neg (by omega), Nat.add_sub_cancel]; exact hp) ?_
                obtain ⟨hv', ⟨t0, ht0, hu0⟩, -⟩ := a0
                obtain ⟨-, ⟨t2, ht2, hu2⟩, -⟩ := a1
                obtain ⟨t1, ht1⟩ := wf2.evC_total (top := X.top) hβ2 hv'
                  (wf2.ordKid li2 hn2 hh2 hp).1
                have hch := adj_chain wf2 hβ2 (fun c hc => (st02.keep _ (hk c hc).1).1) hAdj2
                have h01 : Le Z t0 t1 := hch k 0 _ _ hc0 (by rw [Nat.zero_add]; exact hp) d _ _ hv' ht0 ht1
                have h12 : Le Z t1 t2 := hch 1 k _ _ hp hc d _ _ hv' ht1 ht2
                have e02 := Z.mem_inj _ _ _ hu0 hu2
                have e : t0 = t1 := h01.antisymm (by rw [e02]; exact h12)
                exact ⟨t1, ht1, by rw [← e]; exact hu0⟩

/-- The whole call. -/
theorem sol_ok {inf : S → Nat → Nat → Option (Nat × S)} (hinf : InfOK Z E inf) {s : S} (hs : E.Inv s)
    (hβ : LastOf β (E.ar s)) (inj : (E.ar s).LevInj) {i : Nat} (li : (E.ar s).Live i) :
    ∃ x s', sol E.ar E.mkn inf X s i = some (x, s') ∧ E.Inv s' ∧ E.St s s' ∧
      SOk Z β (E.ar s') i x := by
  obtain ⟨x, q, h1, h2, h3, h4⟩ := solF_ok (Z := Z) (β := β) hinf _ ⟨s, AMap.empty, AMap.empty⟩ i
    ⟨⟨hs, hβ, inj, (by intro f g r h; cases h)⟩, (by intro i x h; cases h)⟩ li (Nat.lt_succ_self _)
  refine ⟨x, q.s, ?_, h2.w.inv, h3, h4⟩
  unfold sol
  rw [h1]

end Sol
end DD
