import Verif.Mss.Minsol
import Verif.Core.SemC

/-!
# The inner recursion of `minsol`/`maxsol`: what `without` computes

A family is read in coordinates (`LabC`); the label of a member is a terminal other than `und`.  The function
`f` *hits* `(d, u)` when its value at `d` is the source value of label `u` (`mem`).  `without f g` keeps the
members of `g` that `f` does not hit — provided `g` is an antichain per label, which is what makes the full
reduction rule harmless on families.
-/

set_option autoImplicit false
set_option linter.unusedSectionVars false
set_option linter.unusedVariables false

namespace DD
open Arena
namespace Sol

variable {S T : Type} [DecidableEq T] [Fixed T]

/-- Labels a family terminal of kind `ng` can carry. -/
def Cand (und : T) (mem : T → Option T) (ng : Option T) (u : T) : Prop :=
  u ≠ und ∧ (∃ t, mem t = some u) ∧ ∀ y, ng = some y → u = y

/-- An arm is right. -/
def ArmOK (und : T) (mem : T → Option T) (nf ng : Option T) : WAct → Prop
  | .g => ∃ x, nf = some x ∧ ∀ u, Cand und mem ng u → mem x ≠ some u
  | .const n =>
    (fix und = some n ∧ ∀ u, Cand und mem ng u → ∃ x, nf = some x ∧ mem x = some u) ∨
      (∃ x y, nf = some x ∧ ng = some y ∧ fix y = some n ∧ mem x ≠ some y)
  | .skipF => nf = none ∧ ∃ y, ng = some y
  | .mapG => ng = none ∧ ∃ x, nf = some x
  | .byLevel => nf = none ∧ ng = none

/-- The terminal arm of the outer recursion is right. -/
def TermOK (und : T) (mem : T → Option T) (x : T) : Option Nat → Prop
  | none => ∀ u, u ≠ und → (mem x = some u ↔ u = x)
  | some n => ∃ y, fix y = some n ∧ ∀ u, u ≠ und → (mem x = some u ↔ u = y)

/-- What the correctness proof needs to know about an instance. -/
structure Spec (X : Tab T) where
  /-- the terminal outside the family -/
  und : T
  /-- the label under which a source value enters the family -/
  mem : T → Option T
  /-- values on which the engine's meet is specified -/
  Dom : T → Prop
  /-- the meet -/
  inf : T → T → T
  mem_inj : ∀ x y u, mem x = some u → mem y = some u → x = y
  mem_ne : ∀ x u, mem x = some u → u ≠ und
  comm : ∀ x y, inf x y = inf y x
  assoc : ∀ x y z, inf (inf x y) z = inf x (inf y z)
  idem : ∀ x, inf x x = x
  armOK : ∀ nf ng, ArmOK und mem nf ng (X.arm nf ng)
  termOK : ∀ x, TermOK und mem x (X.term x)

variable {E : Eng S T} {X : Tab T} (Z : Spec X) (β : Nat → Nat)

/-- `f` takes at `d` the source value of label `u`. -/
def Hit (m : Arena T) (f : Nat) (d : Nat → Nat) (u : T) : Prop :=
  ∃ t, EvC X.top β m d f t ∧ Z.mem t = some u

/-- Labels are proper and each label's members form an antichain. -/
def Fam (m : Arena T) (g : Nat) : Prop :=
  (∀ d u, u ≠ Z.und → LabC X.top m g d u → ∃ t, Z.mem t = some u) ∧
  ∀ d d' u, u ≠ Z.und → LabC X.top m g d u → LabC X.top m g d' u → (∀ l, d l ≤ d' l) → d = d'

/-- `r` is `g` without what `f` hits. -/
def WSem (m : Arena T) (f g r : Nat) : Prop :=
  Fam Z m g → ∀ d u, u ≠ Z.und →
    (LabC X.top m r d u ↔ LabC X.top m g d u ∧ ¬ Hit Z β m f d u)

/-- Outcome of `without`. -/
structure WOk (m : Arena T) (f g r : Nat) : Prop where
  lf : m.Live f
  lg : m.Live g
  lr : m.Live r
  rk : m.rank r ≤ m.rank g
  sem : WSem Z β m f g r

/-- The memo table of `without` holds outcomes. -/
def C2OK (m : Arena T) (c : AMap (Nat × Nat) Nat) : Prop :=
  ∀ f g r, c.get (f, g) = some r → WOk Z β m f g r

/-- Invariant of the inner recursion. -/
structure WInv (E : Eng S T) (q : S × AMap (Nat × Nat) Nat) : Prop where
  inv : E.Inv q.1
  last : LastOf β (E.ar q.1)
  inj : (E.ar q.1).LevInj
  c2 : C2OK Z β (E.ar q.1) q.2

variable {Z β} {m m' : Arena T}

theorem levInj_step (h : m.LevInj) (st : Step m m') : m'.LevInj := by
  intro a b hd hd' ha hb
  rw [st.heq] at ha hb
  exact h a b hd hd' ha hb

theorem hit_ext (wf : WF RFull m) (e : Ext m m') {f : Nat} (lf : m.Live f) {d : Nat → Nat} {u : T} :
    Hit Z β m' f d u ↔ Hit Z β m f d u := by
  unfold Hit
  simp only [wf.evC_ext e lf]

theorem fam_ext (wf : WF RFull m) (e : Ext m m') {g : Nat} (lg : m.Live g) :
    Fam Z m' g ↔ Fam Z m g := by
  unfold Fam
  simp only [wf.labC_ext e lg]

theorem WOk.ext (wf : WF RFull m) (e : Ext m m') {f g r : Nat} (h : WOk Z β m f g r) :
    WOk Z β m' f g r where
  lf := (e.keep _ h.lf).1
  lg := (e.keep _ h.lg).1
  lr := (e.keep _ h.lr).1
  rk := by rw [wf.rank_ext e h.lr, wf.rank_ext e h.lg]; exact h.rk
  sem := by
    intro hF d u hu
    rw [wf.labC_ext e h.lr, wf.labC_ext e h.lg, hit_ext wf e h.lf]
    exact h.sem ((fam_ext wf e h.lg).1 hF) d u hu

theorem WInv.step {s s' : S} {c : AMap (Nat × Nat) Nat} (h : WInv Z β E (s, c)) (hi : E.Inv s')
    (st : E.St s s') : WInv Z β E (s', c) where
  inv := hi
  last := h.last.step (E.toStep _ _ st)
  inj := levInj_step h.inj (E.toStep _ _ st)
  c2 := fun f g r hg => (h.c2 f g r hg).ext (E.toWF _ h.inv) (E.toStep _ _ st).toExt

theorem hit_term {f : Nat} {x : T} (hn : m.nodes[f]? = some (.term x)) {d : Nat → Nat} {u : T} :
    Hit Z β m f d u ↔ Z.mem x = some u := by
  unfold Hit
  simp only [evC_term_iff hn]
  exact ⟨fun ⟨t, h, h'⟩ => h ▸ h', fun h => ⟨x, rfl, h⟩⟩

theorem hit_upd (wf : WF RFull m) {f l k : Nat} (lf : m.Live f) (hl : m.rank f ≤ l) {d : Nat → Nat}
    {u : T} : Hit Z β m f (upd d l k) u ↔ Hit Z β m f d u := by
  unfold Hit
  simp only [wf.evC_upd lf hl]

theorem hit_nt (wf : WF RFull m) (hβ : LastOf β m) {f h : Nat} {ch : List Nat} {hd : Header}
    {d : Nat → Nat} {u : T} (hv : m.ValidA d) (lf : m.Live f) (hn : m.nodes[f]? = some (.nt h ch))
    (hh : m.headers[h]? = some hd) :
    Hit Z β m f d u ↔
      ∃ c, (ord X.top ch)[d hd.level]? = some c ∧ Hit Z β m c (upd d hd.level 0) u := by
  unfold Hit
  simp only [wf.evC_nt_iff hβ hv lf hn hh]
  constructor
  · rintro ⟨t, ⟨c, h1, h2⟩, h3⟩; exact ⟨c, h1, t, h2, h3⟩
  · rintro ⟨c, h1, t, h2, h3⟩; exact ⟨t, ⟨c, h1, h2⟩, h3⟩

theorem le_upd {d d' : Nat → Nat} (h : ∀ l, d l ≤ d' l) (l k : Nat) : ∀ x, upd d l k x ≤ upd d' l k x := by
  intro x
  unfold upd
  split
  · exact Nat.le_refl _
  · exact h x

/-- The children of an antichain family are antichain families. -/
theorem fam_kid (wf : WF RFull m) {g h k c : Nat} {ch : List Nat} {hd : Header} (lg : m.Live g)
    (hn : m.nodes[g]? = some (.nt h ch)) (hh : m.headers[h]? = some hd)
    (hc : (ord X.top ch)[k]? = some c) (hF : Fam Z m g) : Fam Z m c := by
  obtain ⟨l1, l2, -⟩ := wf.ordKid lg hn hh hc
  refine ⟨fun d u hu hl => hF.1 _ u hu (.nt hn hh hc hl), fun d d' u hu hl hl' hle => ?_⟩
  have := hF.2 _ _ u hu (LabC.nt hn hh hc hl) (LabC.nt hn hh hc hl') (le_upd hle _ _)
  have h2 := congrArg (fun a => upd a hd.level 0) this
  simp only [upd_upd] at h2
  rwa [upd_id (wf.labC_supp hl l1 _ l2), upd_id (wf.labC_supp hl' l1 _ l2)] at h2

/-- Building a family node; `disj` is what the antichain property gives. -/
theorem create_lab {s : S} (hs : E.Inv s) {h : Nat} {rs : List Nat} {hd : Header}
    (hh : (E.ar s).headers[h]? = some hd) (hl : rs.length = hd.edgeNum)
    (hk : ∀ c ∈ rs, (E.ar s).Live c ∧ (E.ar s).rank c ≤ hd.level) :
    ∃ r s', E.mkn s h rs = some (r, s') ∧ E.Inv s' ∧ E.St s s' ∧ (E.ar s').Live r ∧
      (E.ar s').rank r ≤ hd.level + 1 ∧
      ((∀ c0 c k, (ord X.top rs)[0]? = some c0 → (ord X.top rs)[k + 1]? = some c →
          ∀ d u, u ≠ Z.und → LabC X.top (E.ar s) c0 d u → LabC X.top (E.ar s) c d u → False) →
        ∀ d u, u ≠ Z.und → (LabC X.top (E.ar s') r d u ↔
          ∃ c, (ord X.top rs)[d hd.level]? = some c ∧ LabC X.top (E.ar s) c (upd d hd.level 0) u)) := by
  obtain ⟨r, s', h1, h2, h3, h4⟩ := E.mkOK s h rs hs ⟨hd, hh, hl, hk⟩
  obtain ⟨r', m', g1, g2, g3, g4, g5, -⟩ := createFull_raw (E.toWF _ hs) ⟨hd, hh, hl, hk⟩
  rw [h4] at g1
  simp only [Option.some.injEq, Prod.mk.injEq] at g1
  obtain ⟨rfl, e⟩ := g1
  rw [← e] at g2 g3 g4 g5
  have wf := E.toWF _ hs
  have hh' := g3.hdr _ _ hh
  refine ⟨r, s', h1, h2, h3, g4, ?_, ?_⟩
  · rcases g5 with ⟨_, hm, hms⟩ | ⟨_, hn⟩
    · rw [hms]; have := (hk r hm).2; omega
    · exact Nat.le_of_eq (rank_nt hn hh')
  · intro disj d u hu
    rcases g5 with ⟨hall, hm, hms⟩ | ⟨_, hn⟩
    · rw [hms]
      have hall' : ∀ k c, (ord X.top rs)[k]? = some c → c = r := fun k c hc =>
        hall c (mem_ord.1 (List.mem_of_getElem? hc))
      have hpos := wf.pos hd (List.mem_of_getElem? hh)
      have hget : ∀ k, k < rs.length → (ord X.top rs)[k]? = some r := by
        intro k hk'
        have : k < (ord X.top rs).length := by rw [ord_length]; exact hk'
        rw [List.getElem?_eq_getElem this, hall' k _ (List.getElem?_eq_getElem this)]
      by_cases h1len : rs.length = 1
      · constructor
        · intro hL
          have hz := wf.labC_supp hL (hk r hm).1 _ (hk r hm).2
          refine ⟨r, ?_, ?_⟩
          · rw [hz]; exact hget 0 (by omega)
          · rw [upd_id hz]; exact hL
        · rintro ⟨c, hc, hL⟩
          have hz : d hd.level = 0 := by have := (ord_get_some hc).1; omega
          rw [hall' _ _ hc, upd_id hz] at hL
          exact hL
      · have emp : ∀ d, ¬ LabC X.top (E.ar s) r d u := by
          intro d hL
          exact disj r r 0 (hget 0 (by omega)) (hget 1 (by omega)) d u hu hL hL
        constructor
        · intro hL; exact absurd hL (emp d)
        · rintro ⟨c, hc, hL⟩
          rw [hall' _ _ hc] at hL
          exact absurd hL (emp _)
    · rw [g2.labC_nt_iff g4 hn hh']
      constructor
      · rintro ⟨c, hc, hL⟩
        exact ⟨c, hc, (wf.labC_ext g3.toExt (hk c (mem_ord.1 (List.mem_of_getElem? hc))).1).1 hL⟩
      · rintro ⟨c, hc, hL⟩
        exact ⟨c, hc, (wf.labC_ext g3.toExt (hk c (mem_ord.1 (List.mem_of_getElem? hc))).1).2 hL⟩

/-- Outcome of the inner recursion as a computation. -/
def WRes (Z : Spec X) (β : Nat → Nat) (E : Eng S T) (q : S × AMap (Nat × Nat) Nat) (f g : Nat)
    (res : Option (Nat × (S × AMap (Nat × Nat) Nat))) : Prop :=
  ∃ r q', res = some (r, q') ∧ WInv Z β E q' ∧ E.St q.1 q'.1 ∧ WOk Z β (E.ar q'.1) f g r

theorem WRes.ret {q : S × AMap (Nat × Nat) Nat} {f g r : Nat} (hq : WInv Z β E q)
    (h : WOk Z β (E.ar q.1) f g r) : WRes Z β E q f g (some (r, q)) :=
  ⟨r, q, rfl, hq, E.refl _, h⟩

/-- A constant terminal as outcome. -/
theorem labC_const (wf : WF RFull m) {y : T} {n : Nat} (hy : fix y = some n) {d : Nat → Nat} {u : T} :
    LabC X.top m n d u ↔ d = (fun _ => 0) ∧ u = y := labC_term_iff (wf.fixed_live hy).2

theorem labC_cand (wf : WF RFull m) {g : Nat} {ng : Node T} (hg : m.nodes[g]? = some ng)
    (hF : Fam Z m g) {d : Nat → Nat} {u : T} (hu : u ≠ Z.und) (hL : LabC X.top m g d u) :
    Cand Z.und Z.mem (tv ng) u := by
  refine ⟨hu, hF.1 d u hu hL, ?_⟩
  intro y hy
  cases ng with
  | nt _ _ => cases hy
  | term t =>
    cases hy
    exact ((labC_term_iff hg).1 hL).2

/-- Recursing into the baseline edge of `f`, whose level lies above `g`. -/
theorem skip_ok {n : Nat} {q : S × AMap (Nat × Nat) Nat} {f g hf : Nat} {cf : List Nat}
    (ih : ∀ q f g, WInv Z β E q → (E.ar q.1).Live f → (E.ar q.1).Live g →
      Max.max ((E.ar q.1).rank f) ((E.ar q.1).rank g) < n → WRes Z β E q f g (withoutF E.ar E.mkn X n q (f, g)))
    (hq : WInv Z β E q) (lf : (E.ar q.1).Live f) (lg : (E.ar q.1).Live g)
    (hn : (E.ar q.1).nodes[f]? = some (.nt hf cf)) (hlt : (E.ar q.1).rank g < (E.ar q.1).rank f)
    (hr : Max.max ((E.ar q.1).rank f) ((E.ar q.1).rank g) < n + 1) :
    WRes Z β E q f g (match base X.top cf with
      | some c => withoutF E.ar E.mkn X n q (c, g)
      | none => none) := by
  have wf := E.toWF _ hq.inv
  obtain ⟨hd, hh, hl, hrk, -, -, hk⟩ := wf.nt lf hn
  have hpos := wf.pos hd (List.mem_of_getElem? hh)
  have hb : base X.top cf = (ord X.top cf)[0]? := by
    unfold base ord
    split
    · rw [← List.head?_eq_getElem?, List.head?_reverse]
    · rw [List.head?_eq_getElem?]
  have h0 : 0 < (ord X.top cf).length := by rw [ord_length]; omega
  obtain ⟨c, hc⟩ : ∃ c, (ord X.top cf)[0]? = some c := ⟨_, List.getElem?_eq_getElem h0⟩
  rw [hb, hc]
  simp only
  obtain ⟨lc, rc, -⟩ := wf.ordKid lf hn hh hc
  obtain ⟨r, q', h1, h2, h3, h4⟩ := ih q c g hq lc lg (by omega)
  have st := E.toStep _ _ h3
  refine ⟨r, q', h1, h2, h3, (st.keep _ lf).1, h4.lg, h4.lr, h4.rk, ?_⟩
  intro hF d u hu
  rw [h4.sem hF d u hu]
  refine and_congr_right fun hL => not_congr ?_
  rw [hit_ext wf st.toExt lf, hit_ext wf st.toExt lc]
  rw [wf.labC_ext st.toExt lg] at hL
  have hz : d hd.level = 0 := wf.labC_supp hL lg _ (by omega)
  rw [hit_nt wf hq.last (wf.labC_valid hL lg) lf hn hh, hz, upd_id hz]
  constructor
  · intro h; exact ⟨c, hc, h⟩
  · rintro ⟨c', hc', h⟩
    rw [hc] at hc'; cases hc'; exact h

/-- Recursing into the children of `g` and building a node; `fs` are the functions used per child. -/
theorem map_ok {n : Nat} {q : S × AMap (Nat × Nat) Nat} {f g hg h' : Nat} {cg : List Nat} {hd : Header}
    {args : List (Nat × Nat)}
    (ih : ∀ q f g, WInv Z β E q → (E.ar q.1).Live f → (E.ar q.1).Live g →
      Max.max ((E.ar q.1).rank f) ((E.ar q.1).rank g) < n → WRes Z β E q f g (withoutF E.ar E.mkn X n q (f, g)))
    (hq : WInv Z β E q) (lf : (E.ar q.1).Live f) (lg : (E.ar q.1).Live g)
    (hn : (E.ar q.1).nodes[g]? = some (.nt hg cg)) (hh : (E.ar q.1).headers[hg]? = some hd)
    (hh' : (E.ar q.1).headers[h']? = some hd)
    (hlen : args.length = cg.length)
    (hargs : ∀ (j x y : Nat), args[j]? = some (x, y) → cg[j]? = some y ∧ (E.ar q.1).Live x ∧
      Max.max ((E.ar q.1).rank x) ((E.ar q.1).rank y) < n)
    (hhit : ∀ (d : Nat → Nat) u x y, (E.ar q.1).ValidA d → (ord X.top args)[d hd.level]? = some (x, y) →
      (Hit Z β (E.ar q.1) x (upd d hd.level 0) u ↔ Hit Z β (E.ar q.1) f d u)) :
    WRes Z β E q f g (branchS (mkC E.mkn) (withoutF E.ar E.mkn X n) q h' args) := by
  have wf := E.toWF _ hq.inv
  obtain ⟨hd', hh2, hl, hrk, -, -, hk⟩ := wf.nt lg hn
  rw [hh] at hh2; cases hh2
  obtain ⟨rs, q1, m1, m2, m3, m4, m5⟩ := mapS_spec (f := withoutF E.ar E.mkn X n)
    (Inv := WInv Z β E) (P := fun a b => E.St a.1 b.1) (fun _ => E.refl _)
    (fun _ _ _ h h' => E.trans _ _ _ h h')
    (Q := fun q p r => WOk Z β (E.ar q.1) p.1 p.2 r)
    (fun s s' x r hi st hw => hw.ext (E.toWF _ hi.inv) (E.toStep _ _ st).toExt)
    args q hq (by
      intro s1 p hi1 st1 hp
      obtain ⟨j, hj, hj2⟩ := List.getElem_of_mem hp
      have hj' : args[j]? = some (p.1, p.2) := by rw [List.getElem?_eq_getElem hj, hj2]
      obtain ⟨a1, a2, a3⟩ := hargs j p.1 p.2 hj'
      have st := E.toStep _ _ st1
      have ly := (hk _ (List.mem_of_getElem? a1)).1
      obtain ⟨r, s2, b1, b2, b3, b4⟩ := ih s1 p.1 p.2 hi1 (st.keep _ a2).1 (st.keep _ ly).1
        (by rw [wf.rank_ext st.toExt a2, wf.rank_ext st.toExt ly]; exact a3)
      exact ⟨r, s2, b1, b2, b3, b4⟩)
  have st1 := E.toStep _ _ m3
  have wf1 := E.toWF _ m2.inv
  have hlenr : rs.length = hd.edgeNum := by rw [m4, hlen, hl]
  have hkid : ∀ c ∈ rs, (E.ar q1.1).Live c ∧ (E.ar q1.1).rank c ≤ hd.level := by
    intro c hc
    obtain ⟨j, hj, hj2⟩ := List.getElem_of_mem hc
    have hja : j < args.length := by omega
    have hw := m5 j _ c (List.getElem?_eq_getElem hja) (by rw [List.getElem?_eq_getElem hj, hj2])
    obtain ⟨a1, a2, a3⟩ := hargs j args[j].1 args[j].2 (List.getElem?_eq_getElem hja)
    obtain ⟨ly, ry⟩ := hk _ (List.mem_of_getElem? a1)
    have := hw.rk
    rw [wf.rank_ext st1.toExt ly] at this
    exact ⟨hw.lr, by omega⟩
  obtain ⟨r, s2, c1, c2, c3, c4, c5, c6⟩ := create_lab (X := X) (Z := Z) m2.inv (st1.hdr _ _ hh') hlenr hkid
  have st2 := E.toStep _ _ c3
  have lg1 := (st1.keep _ lg).1
  have lf1 := (st1.keep _ lf).1
  have hw : WInv Z β E (s2, q1.2) := m2.step c2 c3
  refine ⟨r, (s2, q1.2), ?_, hw, E.trans _ _ _ m3 c3, ?_⟩
  · unfold branchS
    rw [m1]
    simp only [mkC, c1]
  have e02 := st1.toExt.trans st2.toExt
  refine ⟨(e02.keep _ lf).1, (e02.keep _ lg).1, c4, ?_, ?_⟩
  · rw [wf.rank_ext e02 lg, hrk]; exact c5
  intro hF d u hu
  have hF0 : Fam Z (E.ar q.1) g := (fam_ext wf e02 lg).1 hF
  rw [wf.labC_ext e02 lg, hit_ext wf e02 lf]
  -- child k of the result
  have hch : ∀ (k c : Nat), (ord X.top rs)[k]? = some c → ∃ x y, (ord X.top args)[k]? = some (x, y) ∧
      (ord X.top cg)[k]? = some y ∧ ∀ d u, u ≠ Z.und → (LabC X.top (E.ar q1.1) c d u ↔
        LabC X.top (E.ar q.1) y d u ∧ ¬ Hit Z β (E.ar q.1) x d u) := by
    intro k c hc
    obtain ⟨k1, k2⟩ := ord_get_some hc
    have ka : k < args.length := by omega
    have kp : pos X.top args.length k < args.length := pos_lt ka
    have kg : (ord X.top cg)[k]? = cg[pos X.top args.length k]? := by
      rw [ord_get (by omega), hlen]
    obtain ⟨⟨x, y⟩, hxy⟩ : ∃ p, args[pos X.top args.length k]? = some p :=
      ⟨_, List.getElem?_eq_getElem kp⟩
    obtain ⟨a1, a2, a3⟩ := hargs _ x y hxy
    have ly := (hk _ (List.mem_of_getElem? a1)).1
    have hyo : (ord X.top cg)[k]? = some y := by rw [kg]; exact a1
    refine ⟨x, y, by rw [ord_get ka]; exact hxy, hyo, ?_⟩
    intro d u hu
    rw [show rs.length = args.length from m4] at k2
    have hw := m5 _ _ c hxy k2
    have hFy := fam_kid wf lg hn hh hyo hF0
    have := hw.sem ((fam_ext wf st1.toExt ly).2 hFy) d u hu
    rw [wf.labC_ext st1.toExt ly, hit_ext wf st1.toExt a2] at this
    exact this
  rw [c6 ?_ d u hu, wf.labC_nt_iff lg hn hh]
  · constructor
    · rintro ⟨c, hc, hL⟩
      obtain ⟨x, y, hx, hy, hi⟩ := hch _ c hc
      obtain ⟨hLy, hnh⟩ := (hi _ u hu).1 hL
      refine ⟨⟨y, hy, hLy⟩, ?_⟩
      have hv : (E.ar q.1).ValidA d := by
        have := wf.labC_valid (LabC.nt hn hh hy hLy) lg
        rwa [upd_upd, upd_id rfl] at this
      rwa [hhit d u x y hv hx] at hnh
    · rintro ⟨⟨y, hy, hLy⟩, hnh⟩
      have hlt : d hd.level < rs.length := by rw [m4, hlen]; exact (ord_get_some hy).1
      have hlt' : d hd.level < (ord X.top rs).length := by rw [ord_length]; exact hlt
      refine ⟨_, List.getElem?_eq_getElem hlt', ?_⟩
      obtain ⟨x, y', hx, hy', hi⟩ := hch _ _ (List.getElem?_eq_getElem hlt')
      rw [hy] at hy'; cases hy'
      have hv : (E.ar q.1).ValidA d := by
        have := wf.labC_valid (LabC.nt hn hh hy hLy) lg
        rwa [upd_upd, upd_id rfl] at this
      exact (hi _ u hu).2 ⟨hLy, by rwa [hhit d u x y hv hx]⟩
  · intro c0 c k hc0 hck d u hu hL0 hLk
    obtain ⟨x0, y0, -, hy0, hi0⟩ := hch _ c0 hc0
    obtain ⟨xk, yk, -, hyk, hik⟩ := hch _ c hck
    have g0 := LabC.nt hn hh hy0 ((hi0 d u hu).1 hL0).1
    have gk := LabC.nt hn hh hyk ((hik d u hu).1 hLk).1
    have := hF0.2 _ _ u hu g0 gk (by
      intro l
      unfold upd
      split
      · exact Nat.zero_le _
      · exact Nat.le_refl _)
    have := congrFun this hd.level
    rw [upd_self, upd_self] at this
    omega

/-- The memo table around the inner recursion. -/
theorem memoW {q : S × AMap (Nat × Nat) Nat} {f g : Nat}
    {body : S × AMap (Nat × Nat) Nat → Option (Nat × (S × AMap (Nat × Nat) Nat))}
    (hq : WInv Z β E q) (hb : WRes Z β E q f g (body q)) :
    WRes Z β E q f g (memo (fun q => q.2.get (f, g)) (fun q r => (q.1, q.2.insert (f, g) r)) body q) := by
  unfold memo
  simp only
  cases hget : q.2.get (f, g) with
  | some x => exact WRes.ret hq (hq.c2 f g x hget)
  | none =>
    obtain ⟨r, q', h1, h2, h3, h4⟩ := hb
    simp only [h1]
    refine ⟨r, (q'.1, q'.2.insert (f, g) r), rfl, ⟨h2.inv, h2.last, h2.inj, ?_⟩, h3, h4⟩
    intro f' g' r' hget'
    simp only [AMap.get_insert] at hget'
    split at hget'
    · rename_i e
      cases e; cases hget'
      exact h4
    · exact h2.c2 _ _ _ hget'

theorem withoutF_ok : ∀ n q f g, WInv Z β E q → (E.ar q.1).Live f → (E.ar q.1).Live g →
    Max.max ((E.ar q.1).rank f) ((E.ar q.1).rank g) < n →
    WRes Z β E q f g (withoutF E.ar E.mkn X n q (f, g)) := by
  intro n
  induction n with
  | zero => intro q f g _ _ _ h; omega
  | succ n ih =>
    intro q f g hq lf lg hr
    have wf := E.toWF _ hq.inv
    unfold withoutF
    refine memoW hq ?_
    obtain ⟨nf, hf⟩ := lf.node
    obtain ⟨ng, hg⟩ := lg.node
    have mapArm : ∀ hg' cg, ng = .nt hg' cg → (E.ar q.1).rank f < (E.ar q.1).rank g →
        WRes Z β E q f g
          (branchS (mkC E.mkn) (withoutF E.ar E.mkn X n) q hg' (cg.map (fun y => (f, y)))) := by
      intro hg' cg e hlt
      rw [e] at hg
      obtain ⟨hd, hh, hl, hrk, -, -, hk⟩ := wf.nt lg hg
      refine map_ok ih hq lf lg hg hh hh (by simp) ?_ ?_
      · intro j x y hj
        rw [List.getElem?_map] at hj
        cases hy : cg[j]? with
        | none => rw [hy] at hj; cases hj
        | some z =>
          rw [hy] at hj
          simp only [Option.map_some, Option.some.injEq, Prod.mk.injEq] at hj
          obtain ⟨rfl, rfl⟩ := hj
          have := (hk _ (List.mem_of_getElem? hy)).2
          exact ⟨rfl, lf, by omega⟩
      · intro d u x y hv hxy
        have hx : x = f := by
          have := mem_ord.1 (List.mem_of_getElem? hxy)
          rw [List.mem_map] at this
          obtain ⟨z, -, e⟩ := this
          cases e; rfl
        subst hx
        exact hit_upd wf lf (by omega)
    simp only [node?, hf, hg]
    have hA := Z.armOK (tv nf) (tv ng)
    generalize X.arm (tv nf) (tv ng) = act at hA
    cases act with
    | g =>
      obtain ⟨x, hx, hno⟩ := hA
      refine WRes.ret hq ⟨lf, lg, lg, Nat.le_refl _, fun hF d u hu => ?_⟩
      refine ⟨fun hL => ⟨hL, ?_⟩, fun h => h.1⟩
      cases nf with
      | nt _ _ => cases hx
      | term t =>
        cases hx
        rw [hit_term hf]
        exact hno u (labC_cand wf hg hF hu hL)
    | const k =>
      simp only
      rcases hA with ⟨hk, hall⟩ | ⟨x, y, hx, hy, hk, hno⟩
      · refine WRes.ret hq ⟨lf, lg, (wf.fixed_live hk).1, ?_, fun hF d u hu => ?_⟩
        · rw [rank_term (wf.fixed_live hk).2]; exact Nat.zero_le _
        rw [labC_const wf hk]
        constructor
        · rintro ⟨-, h⟩; exact absurd h hu
        · rintro ⟨hL, hnh⟩
          obtain ⟨x, hx, hm⟩ := hall u (labC_cand wf hg hF hu hL)
          cases nf with
          | nt _ _ => cases hx
          | term t =>
            cases hx
            exact absurd ((hit_term hf).2 hm) hnh
      · refine WRes.ret hq ⟨lf, lg, (wf.fixed_live hk).1, ?_, fun hF d u hu => ?_⟩
        · rw [rank_term (wf.fixed_live hk).2]; exact Nat.zero_le _
        rw [labC_const wf hk]
        cases nf with
        | nt _ _ => cases hx
        | term t =>
          cases hx
          cases ng with
          | nt _ _ => cases hy
          | term t' =>
            cases hy
            rw [labC_term_iff hg, hit_term hf]
            refine ⟨fun h => ⟨h, ?_⟩, fun h => h.1⟩
            rw [h.2]; exact hno
    | skipF =>
      obtain ⟨hx, y, hy⟩ := hA
      cases nf with
      | term _ => cases hx
      | nt hf' cf =>
        cases ng with
        | nt _ _ => cases hy
        | term t =>
          simp only
          refine skip_ok ih hq lf lg hf ?_ hr
          obtain ⟨hd, hh, hl, hrk, -⟩ := wf.nt lf hf
          rw [rank_term hg]; omega
    | mapG =>
      obtain ⟨hy, x, hx⟩ := hA
      cases ng with
      | term _ => cases hy
      | nt hg' cg =>
        cases nf with
        | nt _ _ => cases hx
        | term t =>
          simp only
          refine mapArm hg' cg rfl ?_
          obtain ⟨hd, hh, hl, hrk, -⟩ := wf.nt lg hg
          rw [rank_term hf]; omega
    | byLevel =>
      obtain ⟨hx, hy⟩ := hA
      cases nf with
      | term _ => cases hx
      | nt hf' cf =>
        cases ng with
        | term _ => cases hy
        | nt hg' cg =>
          obtain ⟨hdf, hhf, hlf, hrkf, hlevf, -, hkf⟩ := wf.nt lf hf
          obtain ⟨hdg, hhg, hlg, hrkg, hlevg, -, hkg⟩ := wf.nt lg hg
          simp only [level?_nt hf hhf, level?_nt hg hhg]
          split
          · exact skip_ok ih hq lf lg hf (by omega) hr
          · split
            · exact mapArm hg' cg rfl (by omega)
            · have hle : hdf.level = hdg.level := by omega
              have heq := hq.inj _ _ _ _ hhf hhg hle
              subst heq
              rw [hhf] at hhg; cases hhg
              refine map_ok ih hq lf lg hg hhf hhf (by simp; omega) ?_ ?_
              · intro j x y hj
                rw [List.getElem?_zip_eq_some] at hj
                obtain ⟨h1, h1'⟩ := hkf x (List.mem_of_getElem? hj.1)
                obtain ⟨h2, h2'⟩ := hkg y (List.mem_of_getElem? hj.2)
                exact ⟨hj.2, h1, by omega⟩
              · intro d u x y hv hxy
                obtain ⟨k1, k2⟩ := ord_get_some hxy
                rw [List.getElem?_zip_eq_some] at k2
                have hlz : (cf.zip cg).length = cf.length := by simp; omega
                rw [hlz] at k1 k2
                have hc : (ord X.top cf)[d hdf.level]? = some x := by
                  rw [ord_get k1]; exact k2.1
                rw [hit_nt wf hq.last hv lf hf hhf, hc]
                constructor
                · intro h; exact ⟨x, rfl, h⟩
                · rintro ⟨c, e, h⟩; cases e; exact h

theorem without_ok {q : S × AMap (Nat × Nat) Nat} {f g : Nat} (hq : WInv Z β E q)
    (lf : (E.ar q.1).Live f) (lg : (E.ar q.1).Live g) :
    WRes Z β E q f g (without E.ar E.mkn X q f g) :=
  withoutF_ok _ q f g hq lf lg (Nat.lt_succ_self _)

end Sol
end DD
