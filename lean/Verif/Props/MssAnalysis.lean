import Verif.Mss.CountGap
import Verif.Core.Support
import Verif.Mss.BmeasOk
import Verif.Mss.CountOk
import Verif.Props.MssSession
import Mathlib.Algebra.Ring.Rat

/-!
# Properties of the MDD analyses: C36, C37, C38, C39, C40
-/

set_option autoImplicit false
set_option linter.unusedSectionVars false
set_option linter.unusedVariables false

namespace DD.Props
open Arena Mtmdd2

variable {w : MWorld} {vs : List (String × Nat)}

/-! ## Vocabulary -/

/-- The value counts as one of `ss`: Booleans read as 0 and 1, an undetermined value never counts. -/
def InSet (ss : List Int) : MVal → Prop
  | .v (some z) => z ∈ ss
  | .v none => False
  | .b .zero => 0 ∈ ss
  | .b .one => 1 ∈ ss
  | .b .undet => False

instance (ss : List Int) (u : MVal) : Decidable (InSet ss u) := by
  unfold InSet
  split <;> infer_instance

/-- Number of states of the variable of level `l`. -/
def states (vs : List (String × Nat)) (l : Nat) : Nat := (vs.getD l ("", 0)).2

/-- Name of the variable of level `l`. -/
def varName (vs : List (String × Nat)) (l : Nat) : String := (vs.getD l ("", 0)).1

/-- States for the variables of levels `0 … n-1`. -/
abbrev MAssign (vs : List (String × Nat)) (n : Nat) := (k : Fin n) → Fin (states vs k)

/-- The same as a function on levels (0 elsewhere). -/
def mextend {n : Nat} (a : MAssign vs n) : Nat → Nat := fun l => if h : l < n then (a ⟨l, h⟩).val else 0

/-- Number of levels up to the top one. -/
def levels : Option Nat → Nat
  | none => 0
  | some l => l + 1

/-- Changing the state at level `l` can change the value. -/
def MDepends (vs : List (String × Nat)) (F : MFun) (l : Nat) : Prop :=
  ∃ a b, ValidV vs a ∧ ValidV vs b ∧ (∀ x, x ≠ l → a x = b x) ∧ F a ≠ F b

theorem states_get {l : Nat} {p : String × Nat} (h : vs[l]? = some p) : states vs l = p.2 := Mda.rngOf_get h

theorem mextend_valid (hpos : ∀ p ∈ vs, 0 < p.2) {n : Nat} (a : MAssign vs n) : ValidV vs (mextend a) := by
  intro i x r hi
  unfold mextend
  by_cases h : i < n
  · rw [dif_pos h]
    have := (a ⟨i, h⟩).isLt
    have e : states vs i = r := states_get hi
    simp only at this
    omega
  · rw [dif_neg h]; exact hpos (x, r) (List.mem_of_getElem? hi)

/-! ## Both forests at once -/

/-- A node of one of the two forests, with its meaning. -/
structure Forest {T : Type} [DecidableEq T] [Fixed T] (m : Arena T) (s : Sel T) (vs : List (String × Nat))
    (ss : List Int) (i : Nat) (F : MFun) : Prop where
  wf : WF RFull m
  inj : m.LevInj
  und : ∀ t, s.und t = true → s.sel t = false
  hdrs : m.headers = mkH vs
  nodup : (vs.map Prod.fst).Nodup
  pos : ∀ p ∈ vs, 0 < p.2
  live : m.Live i
  valid : ∀ a, m.ValidA a ↔ ValidV vs a
  sat : ∀ a, ValidV vs a → (Mda.Sat m s i a ↔ InSet ss (F a))
  val : ∀ a b, ValidV vs a → ValidV vs b → (F a = F b ↔ ∃ t, Eval m a i t ∧ Eval m b i t)
  top : MTop vs F (m.level? i)

theorem selV_und (ss : List Int) : ∀ t, (selV ss).und t = true → (selV ss).sel t = false := by
  intro t h
  cases t with
  | none => rfl
  | some v => simp [selV] at h

theorem selB_und (ss : List Int) : ∀ t, (selB ss).und t = true → (selB ss).sel t = false := by
  intro t h
  cases t with
  | undet => rfl
  | zero => simp [selB] at h
  | one => simp [selB] at h

theorem forest (hw : w.Reachable) (hv : MVars w vs) {f : Nat} {F : MFun} (hf : w.Has f F) (ss : List Int) :
    (∃ i, w.hs.held.get f = some (.value i) ∧ Forest w.mgr.w.eng.mtmdd.arena (selV ss) vs ss i F) ∨
    (∃ i, w.hs.held.get f = some (.bool i) ∧ Forest w.mgr.w.eng.mdd.arena (selB ss) vs ss i F) := by
  have R := mrel hw hv
  obtain ⟨x, hx, hF⟩ := hf
  have hpos : ∀ p ∈ vs, 0 < p.2 := by
    intro p hp
    obtain ⟨i, hi⟩ := List.mem_iff_getElem?.1 hp
    exact (R.mok.valid.1 R.mok.inv.zero) i p.1 p.2 hi
  have htop : MTop vs F (w.mgr.w.eng.mlevel x) := by
    cases mden_cases R.mok.inv R.mok.hdrs R.mok.inj hF with
    | bterm t _ _ e _ _ _ _ hc => rw [e]; exact fun a b ha hb => by rw [hc a ha, hc b hb]
    | vterm t _ _ e _ _ _ _ hc => rw [e]; exact fun a b ha hb => by rw [hc a ha, hc b hb]
    | node l p ch _ _ e _ _ _ _ _ ht _ => rw [e]; exact ht
  cases x with
  | value i =>
    have hE : ∀ a, ValidV vs a → ∃ t, F a = .v t ∧ Eval w.mgr.w.eng.mtmdd.arena a i t := by
      intro a ha
      have := hF.val a (R.mok.valid.2 ha)
      cases h : F a with
      | b z => rw [h] at this; exact this.elim
      | v z => rw [h] at this; exact ⟨z, rfl, this⟩
    have hh : w.mgr.w.eng.mtmdd.arena.headers = mkH vs := R.mok.inv.hdr.symm.trans R.mok.hdrs
    refine .inl ⟨i, hx, ⟨R.mok.inv.v.wf, ?_, selV_und ss, hh, R.mok.nodup, hpos, hF.live, ?_, ?_, ?_, htop⟩⟩
    · intro i j hd hd' h1 h2 hl
      rw [← R.mok.inv.hdr] at h1 h2
      exact R.mok.inj i j hd hd' h1 h2 hl
    · intro a
      rw [← R.mok.valid]
      unfold Mtmdd2.ValidA Arena.ValidA
      rw [R.mok.inv.hdr]
    · intro a ha
      obtain ⟨t, h1, h2⟩ := hE a ha
      unfold Mda.Sat
      rw [h1]
      constructor
      · rintro ⟨t', h3, h4⟩
        rw [h3.det h2] at h4
        cases t with
        | none => simp [selV] at h4
        | some z => simpa [selV, InSet] using h4
      · intro h
        refine ⟨t, h2, ?_⟩
        cases t with
        | none => exact h.elim
        | some z => simpa [selV, InSet] using h
    · intro a b ha hb
      obtain ⟨t, h1, h2⟩ := hE a ha
      obtain ⟨t', h3, h4⟩ := hE b hb
      rw [h1, h3]
      constructor
      · intro e; cases e; exact ⟨t, h2, h4⟩
      · rintro ⟨u, h5, h6⟩; rw [h2.det h5, h4.det h6]
  | bool i =>
    have hE : ∀ a, ValidV vs a → ∃ t, F a = .b t ∧ Eval w.mgr.w.eng.mdd.arena a i t := by
      intro a ha
      have := hF.val a (R.mok.valid.2 ha)
      cases h : F a with
      | v z => rw [h] at this; exact this.elim
      | b z => rw [h] at this; exact ⟨z, rfl, this⟩
    refine .inr ⟨i, hx, ⟨R.mok.inv.b.wf, R.mok.inj, selB_und ss, R.mok.hdrs, R.mok.nodup, hpos, hF.live,
      fun a => R.mok.valid, ?_, ?_, htop⟩⟩
    · intro a ha
      obtain ⟨t, h1, h2⟩ := hE a ha
      unfold Mda.Sat
      rw [h1]
      constructor
      · rintro ⟨t', h3, h4⟩
        rw [h3.det h2] at h4
        cases t <;> simpa [selB, InSet] using h4
      · intro h
        refine ⟨t, h2, ?_⟩
        cases t <;> simpa [selB, InSet] using h
    · intro a b ha hb
      obtain ⟨t, h1, h2⟩ := hE a ha
      obtain ⟨t', h3, h4⟩ := hE b hb
      rw [h1, h3]
      constructor
      · intro e; cases e; exact ⟨t, h2, h4⟩
      · rintro ⟨u, h5, h6⟩; rw [h2.det h5, h4.det h6]

section
variable {T : Type} [DecidableEq T] [Fixed T] {m : Arena T} {s : Sel T} {ss : List Int} {i : Nat} {F : MFun}

theorem Forest.rank (h : Forest m s vs ss i F) {t : Option Nat} (ht : MTop vs F t) : m.rank i = levels t := by
  rw [h.top.unique ht |>.symm]
  cases hl : m.level? i <;> simp [levels, Arena.rank, hl]

theorem Forest.rank_le (h : Forest m s vs ss i F) : m.rank i ≤ vs.length := Mda.rank_le_vs h.wf h.hdrs h.live

theorem Forest.levels_le (h : Forest m s vs ss i F) {t : Option Nat} (ht : MTop vs F t) : levels t ≤ vs.length := by
  rw [← h.rank ht]; exact h.rank_le

/-- The labels of the diagram are the variables on which the function depends. -/
theorem Forest.depends (h : Forest m s vs ss i F) (l : Nat) :
    MDepends vs F l ↔ ∃ j k ch hd, Reach m i j ∧ m.nodes[j]? = some (.nt k ch) ∧ m.headers[k]? = some hd ∧
      hd.level = l := by
  constructor
  · rintro ⟨a, b, ha, hb, hab, hne⟩
    refine Classical.byContradiction fun hno => hne ?_
    obtain ⟨t, ht⟩ := h.wf.eval_total ((h.valid a).2 ha) h.live
    rw [h.val a b ha hb]
    refine ⟨t, ht, ?_⟩
    rw [← h.wf.indep (m.rank i) i (Nat.le_refl _) h.live (l := l) ?_ a b hab t]
    · exact ht
    · intro j k ch hd h1 h2 h3 h4
      exact hno ⟨j, k, ch, hd, h1, h2, h3, h4⟩
  · rintro ⟨j, k, ch, hd, h1, h2, h3, rfl⟩
    have lj := h.wf.reach_live h1 h.live
    obtain ⟨a, b, t, t', a1, a2, a3, a4, a5, a6⟩ := nt_depends h.wf h.inj lj h2 h3
    obtain ⟨c, c1, c2, c3⟩ := h.wf.reach_dir (m.rank i) i j (Nat.le_refl _) h.live h1 a a1
    have hrk := rank_nt h2 h3
    have hrj : m.rank j ≤ m.rank i := h.wf.reach_rank_le h.live h1
    have vc' : m.ValidA (upd c hd.level (b hd.level)) :=
      h.wf.valid_upd c1 (List.mem_of_getElem? h3) (a2 hd (List.mem_of_getElem? h3))
    refine ⟨c, upd c hd.level (b hd.level), (h.valid _).1 c1, (h.valid _).1 vc',
      fun x hx => by rw [upd_ne _ _ hx], fun he => ?_⟩
    obtain ⟨u, u1, u2⟩ := (h.val _ _ ((h.valid _).1 c1) ((h.valid _).1 vc')).1 he
    rw [c3 c (fun _ _ _ => rfl)] at u1
    rw [c3 _ (fun l h1 h2 => upd_ne _ _ (by omega))] at u2
    have e1 : Eval m a j u := (h.wf.eval_congr_iff lj (fun l hl => c2 l hl)).1 u1
    have e2 : Eval m b j u := (h.wf.eval_congr_iff lj (fun l hl => by
      by_cases e : l = hd.level
      · subst e; rw [upd_self]
      · rw [upd_ne _ _ e, c2 l hl, a3 l e])).1 u2
    exact a6 ((a4.det e1).trans (a5.det e2).symm)

theorem Forest.header (h : Forest m s vs ss i F) {k : Nat} {hd : Header} (hk : m.headers[k]? = some hd) :
    ∃ p, vs[k]? = some p ∧ hd = ⟨k, p.1, p.2⟩ := by
  rw [h.hdrs] at hk; exact mkH_get.1 hk

theorem Forest.name_inj (h : Forest m s vs ss i F) {j k : Nat} {p p' : String × Nat} (hj : vs[j]? = some p)
    (hk : vs[k]? = some p') (e : p.1 = p'.1) : j = k := by
  have e1 : (vs.map Prod.fst)[j]? = some p.1 := by rw [List.getElem?_map, hj]; rfl
  have e2 : (vs.map Prod.fst)[k]? = some p'.1 := by rw [List.getElem?_map, hk]; rfl
  have hl : j < (vs.map Prod.fst).length := by simpa using (List.getElem?_eq_some_iff.1 hj).1
  exact (List.getElem?_inj hl h.nodup).1 (by rw [e1, e2, e])

/-! ## C36 -/

section
variable {R : Type} [CommRing R]

/-- "Probability" that the value lies in `ss`, when the variable of level `l` is independently in state `j`
with weight `q l j`: sum over all assignments of all variables. -/
def mprobSpec (vs : List (String × Nat)) (q : Nat → Nat → R) (ss : List Int) (F : MFun) : R :=
  ∑ a : MAssign vs vs.length, if InSet ss (F (mextend a)) then ∏ k : Fin vs.length, q k (a k) else 0

/-- The table has a weight for each state of each variable on which `F` depends. -/
def TableFor (vs : List (String × Nat)) (F : MFun) (pv : String → Option (List R)) : Prop :=
  ∀ l p, vs[l]? = some p → MDepends vs F l → ∃ fp, pv p.1 = some fp ∧ p.2 ≤ fp.length

theorem Forest.tableOK (h : Forest m s vs ss i F) {pv : String → Option (List R)} :
    Mda.TableOK m pv i ↔ TableFor vs F pv := by
  constructor
  · intro ht l p hp hd
    obtain ⟨j, k, ch, hd, h1, h2, h3, h4⟩ := (h.depends l).1 hd
    obtain ⟨p', g1, rfl⟩ := h.header h3
    simp only at h4
    subst h4
    rw [hp] at g1; cases g1
    obtain ⟨fp, f1, f2⟩ := ht j k ch _ h1 h2 h3
    obtain ⟨hd', e1, e2, _⟩ := h.wf.nt (h.wf.reach_live h1 h.live) h2
    rw [h3] at e1; cases e1
    exact ⟨fp, f1, by simp only at e2; omega⟩
  · intro ht j k ch hd h1 h2 h3
    obtain ⟨p, g1, rfl⟩ := h.header h3
    obtain ⟨fp, f1, f2⟩ := ht k p g1 ((h.depends k).2 ⟨j, k, ch, _, h1, h2, h3, rfl⟩)
    obtain ⟨hd', e1, e2, _⟩ := h.wf.nt (h.wf.reach_live h1 h.live) h2
    rw [h3] at e1; cases e1
    exact ⟨fp, f1, by simp only at e2; omega⟩

/-- The weights of a table, 0 if absent. -/
def tableQ (vs : List (String × Nat)) (pv : String → Option (List R)) (l j : Nat) : R :=
  ((pv (varName vs l)).getD []).getD j 0

theorem Forest.reads (h : Forest m s vs ss i F) (pv : String → Option (List R)) :
    Mda.Reads m pv (tableQ vs pv) := by
  intro hd hm fp hfp j hj
  obtain ⟨k, hk⟩ := List.mem_iff_getElem?.1 hm
  obtain ⟨p, g1, rfl⟩ := h.header hk
  have : varName vs k = p.1 := Mda.nameOf_get g1
  simp only at hfp
  simp only [tableQ, this, hfp, Option.getD_some, List.getD_eq_getElem?_getD, List.getElem?_eq_getElem hj]

theorem Forest.prob (h : Forest m s vs ss i F) {pv : String → Option (List R)} (ht : TableFor vs F pv) :
    Mda.prob m pv s i = some (Mda.psum m s (tableQ vs pv) i) :=
  Mda.prob_ok h.wf h.und (h.reads pv) h.live (h.tableOK.2 ht)

theorem Forest.psum_depends (h : Forest m s vs ss i F) {q q' : Nat → Nat → R}
    (hq : ∀ l, MDepends vs F l → ∀ j, j < states vs l → q l j = q' l j) :
    Mda.psum m s q i = Mda.psum m s q' i := by
  have key : ∀ (n j : Nat), m.rank j ≤ n → Reach m i j → Mda.psum m s q j = Mda.psum m s q' j := by
    intro n
    induction n with
    | zero =>
      intro j hr hj
      have lj := h.wf.reach_live hj h.live
      obtain ⟨nd, hn⟩ := lj.node
      cases nd with
      | term t => rw [Mda.psum_term s q hn, Mda.psum_term s q' hn]
      | nt k ch => obtain ⟨hd, _, _, hrk, _⟩ := h.wf.nt lj hn; omega
    | succ n ih =>
      intro j hr hj
      have lj := h.wf.reach_live hj h.live
      obtain ⟨nd, hn⟩ := lj.node
      cases nd with
      | term t => rw [Mda.psum_term s q hn, Mda.psum_term s q' hn]
      | nt k ch =>
        obtain ⟨hd, hh, hlen, hrk, _, _, hk⟩ := h.wf.nt lj hn
        rw [Mda.psum_nt h.wf s q lj hn hh, Mda.psum_nt h.wf s q' lj hn hh]
        refine Finset.sum_congr rfl fun x hx => ?_
        have hx := Finset.mem_range.1 hx
        obtain ⟨p, g1, rfl⟩ := h.header hh
        rw [hq k ((h.depends k).2 ⟨j, k, ch, _, hj, hn, hh, rfl⟩) x (by rw [states_get g1]; simp only at hlen; omega),
          ih _ (by have := (hk _ (Mda.getD_mem hx)).2; omega) (hj.step hn (Mda.getD_mem hx))]
  exact key _ i (Nat.le_refl _) (.refl i)

theorem Forest.psum_spec (h : Forest m s vs ss i F) {q : Nat → Nat → R}
    (hq : ∀ l, l < vs.length → ∑ j ∈ Finset.range (states vs l), q l j = 1) :
    Mda.psum m s q i = mprobSpec vs q ss F := by
  rw [Mda.psum_msum h.wf s (Mda.rngOK h.hdrs) vs.length i h.live h.rank_le hq]
  unfold Mda.msum wsum mprobSpec
  refine Finset.sum_congr rfl fun a _ => ?_
  have e : extA (D := fun l => Fin (Mda.rngOf vs l)) (fun _ x => x.val) 0 a = mextend (vs := vs) a := rfl
  rw [e]
  unfold Mda.sind
  have hs := h.sat _ (mextend_valid h.pos a)
  classical
  by_cases hin : InSet ss (F (mextend a))
  · rw [if_pos hin, if_pos (hs.2 hin), mul_one]
  · rw [if_neg hin, if_neg (fun k => hin (hs.1 k)), mul_zero]

end
end

section
variable {R : Type} [CommRing R]

/-- **C36.** If the weights `q` of each variable's states add up to one, and the table agrees with `q` on the
variables on which the function depends, then `prob(pv, ss)` is the total weight of the assignments
whose value lies in `ss`. -/
theorem C36_prob (hw : w.Reachable) (hv : MVars w vs) {f : Nat} {F : MFun} (hf : w.Has f F)
    (pv : String → Option (List R)) (ss : List Int) (q : Nat → Nat → R)
    (hq : ∀ l, l < vs.length → ∑ j ∈ Finset.range (states vs l), q l j = 1)
    (hpv : ∀ l p, vs[l]? = some p → MDepends vs F l → ∃ fp, pv p.1 = some fp ∧ ∀ j, j < p.2 → fp[j]? = some (q l j)) :
    w.prob pv ss f = some (mprobSpec vs q ss F) := by
  have hT : TableFor vs F pv := by
    intro l p hp hd
    obtain ⟨fp, f1, f2⟩ := hpv l p hp hd
    refine ⟨fp, f1, Nat.le_of_not_lt fun hlt => ?_⟩
    have := f2 _ hlt
    simp at this
  have agree : ∀ l, l < vs.length → MDepends vs F l → ∀ j, j < states vs l → tableQ vs pv l j = q l j := by
    intro l hl hd j hj
    have hp : vs[l]? = some vs[l] := List.getElem?_eq_getElem hl
    obtain ⟨fp, f1, f2⟩ := hpv l _ hp hd
    have hn : varName vs l = vs[l].1 := Mda.nameOf_get hp
    rw [states_get hp] at hj
    simp only [tableQ, hn, f1, Option.getD_some, List.getD_eq_getElem?_getD, f2 j hj]
  have dlt : ∀ {T : Type} [DecidableEq T] [Fixed T] {m : Arena T} {s : Sel T} {i : Nat},
      Forest m s vs ss i F → ∀ l, MDepends vs F l → l < vs.length := by
    intro T _ _ m s i h l hd
    obtain ⟨j, k, ch, hd, h1, h2, h3, h4⟩ := (h.depends l).1 hd
    obtain ⟨p, g1, rfl⟩ := h.header h3
    simp only at h4
    subst h4
    exact (List.getElem?_eq_some_iff.1 g1).1
  unfold MWorld.prob MWorld.query
  rcases forest hw hv hf ss with ⟨i, hx, h⟩ | ⟨i, hx, h⟩
  · rw [hx]
    simp only
    rw [h.prob hT, h.psum_depends (fun l hd => agree l (dlt h l hd) hd), h.psum_spec hq]
  · rw [hx]
    simp only
    rw [h.prob hT, h.psum_depends (fun l hd => agree l (dlt h l hd) hd), h.psum_spec hq]

/-- **C36.** `prob` returns iff the table has an entry, with a weight for every state, for every variable on
which the function depends; otherwise it panics.  Other variables may be missing. -/
theorem C36_returns (hw : w.Reachable) (hv : MVars w vs) {f : Nat} {F : MFun} (hf : w.Has f F)
    (pv : String → Option (List R)) (ss : List Int) : (∃ r, w.prob pv ss f = some r) ↔ TableFor vs F pv := by
  unfold MWorld.prob MWorld.query
  rcases forest hw hv hf ss with ⟨i, hx, h⟩ | ⟨i, hx, h⟩
  · rw [hx]
    exact ⟨fun ⟨r, hr⟩ => h.tableOK.1 (Mda.prob_some h.wf h.live hr), fun ht => ⟨_, h.prob ht⟩⟩
  · rw [hx]
    exact ⟨fun ⟨r, hr⟩ => h.tableOK.1 (Mda.prob_some h.wf h.live hr), fun ht => ⟨_, h.prob ht⟩⟩

/-! ## C37 -/

/-- The table with the entry of `x` replaced by certainty of state `k` out of `r`. -/
def setState (pv : String → Option (List R)) (x : String) (r k : Nat) : String → Option (List R) :=
  fun y => if y = x then some (List.ofFn (fun j : Fin r => if j.val = k then 1 else 0)) else pv y

theorem Forest.setState {T : Type} [DecidableEq T] [Fixed T] {m : Arena T} {s : Sel T} {ss : List Int} {i : Nat}
    {F : MFun} (h : Forest m s vs ss i F) {pv : String → Option (List R)} (ht : TableFor vs F pv) {l0 : Nat}
    {p0 : String × Nat} (h0 : vs[l0]? = some p0) (k : Nat) :
    Mda.prob m (setState pv p0.1 p0.2 k) s i = some (Mda.psum m s (Mda.setq (tableQ vs pv) l0 k) i) := by
  have ht' : TableFor vs F (Props.setState pv p0.1 p0.2 k) := by
    intro l p hp hd
    unfold Props.setState
    by_cases e : p.1 = p0.1
    · have := h.name_inj hp h0 e
      subst this
      rw [h0] at hp; cases hp
      exact ⟨_, by rw [if_pos rfl], by simp⟩
    · rw [if_neg e]; exact ht l p hp hd
  rw [h.prob ht']
  congr 1
  refine h.psum_depends fun l hd j hj => ?_
  unfold tableQ Mda.setq Props.setState
  by_cases hl : l < vs.length
  · have hp : vs[l]? = some vs[l] := List.getElem?_eq_getElem hl
    have hn : varName vs l = vs[l].1 := Mda.nameOf_get hp
    rw [states_get hp] at hj
    by_cases e : l = l0
    · subst e
      rw [h0] at hp
      simp only [Option.some.injEq] at hp
      rw [← hp] at hn hj
      rw [hn, if_pos rfl, if_pos rfl]
      simp only [Option.getD_some, List.getD_eq_getElem?_getD]
      rw [List.getElem?_eq_getElem (by simpa using hj), List.getElem_ofFn]
      rfl
    · rw [if_neg e, hn, if_neg (fun k => e (h.name_inj hp h0 k)), ← hn]
  · have : states vs l = 0 := by
      simp only [states, List.getD_eq_getElem?_getD, List.getElem?_eq_none (Nat.le_of_not_lt hl)]; rfl
    omega

theorem Forest.bmeas {T : Type} [DecidableEq T] [Fixed T] {m : Arena T} {s : Sel T} {ss : List Int} {i : Nat}
    {F : MFun} (h : Forest m s vs ss i F) {pv : String → Option (List R)} (ht : TableFor vs F pv) :
    ∃ ev, Mda.bmeas m pv s i = some ev ∧
      (∀ x, (ev.get x).isSome ↔ ∃ l p, vs[l]? = some p ∧ p.1 = x ∧ MDepends vs F l) ∧
      ∀ (l : Nat) (p : String × Nat), vs[l]? = some p → (∀ v, ev.get p.1 = some v → v.length = p.2 - 1) ∧
        ∀ d, d + 1 < p.2 → ∃ r1 r0, Mda.prob m (Props.setState pv p.1 p.2 (d + 1)) s i = some r1 ∧
          Mda.prob m (Props.setState pv p.1 p.2 d) s i = some r0 ∧
          ((ev.get p.1).getD []).getD d 0 = r1 - r0 := by
  have hlab : ∀ hd ∈ m.headers, ∀ hd' ∈ m.headers, hd.label = hd'.label → hd = hd' := by
    intro hd hm hd' hm' e
    obtain ⟨k, hk⟩ := List.mem_iff_getElem?.1 hm
    obtain ⟨k', hk'⟩ := List.mem_iff_getElem?.1 hm'
    obtain ⟨p, g1, rfl⟩ := h.header hk
    obtain ⟨p', g2, rfl⟩ := h.header hk'
    have := h.name_inj g1 g2 e
    subst this
    rw [g1] at g2; cases g2; rfl
  obtain ⟨ev, k1, k2, k3, k4⟩ := Mda.bmeas_ok h.wf h.und hlab (h.reads pv) h.live (h.tableOK.2 ht)
  refine ⟨ev, k1, fun x => ?_, fun l p hp => ⟨fun v hv => ?_, fun d hd => ?_⟩⟩
  · rw [k3]
    constructor
    · rintro ⟨j, hj, hl⟩
      obtain ⟨nd, hn⟩ := (h.wf.reach_live hj h.live).node
      cases nd with
      | term t => simp [label?, hn] at hl
      | nt k ch =>
        obtain ⟨hd, hh, _⟩ := h.wf.nt (h.wf.reach_live hj h.live) hn
        rw [Mda.label?_nt hn hh] at hl
        obtain ⟨p, g1, rfl⟩ := h.header hh
        simp only [Option.some.injEq] at hl
        exact ⟨k, p, g1, hl, (h.depends k).2 ⟨j, k, ch, _, hj, hn, hh, rfl⟩⟩
    · rintro ⟨l, p, hp, rfl, hd⟩
      obtain ⟨j, k, ch, hd, h1, h2, h3, h4⟩ := (h.depends l).1 hd
      obtain ⟨p', g1, rfl⟩ := h.header h3
      simp only at h4
      subst h4
      rw [hp] at g1; cases g1
      exact ⟨j, h1, Mda.label?_nt h2 h3⟩
  · obtain ⟨hd, hm, e1, e2⟩ := k2 _ _ hv
    obtain ⟨k, hk⟩ := List.mem_iff_getElem?.1 hm
    obtain ⟨p', g1, rfl⟩ := h.header hk
    have := h.name_inj g1 hp e1
    subst this
    rw [hp] at g1; cases g1
    exact e2
  · refine ⟨_, _, h.setState ht hp (d + 1), h.setState ht hp d, ?_⟩
    refine k4 p.1 l p.2 (fun hd hm => ?_) d hd
    obtain ⟨k, hk⟩ := List.mem_iff_getElem?.1 hm
    obtain ⟨p', g1, rfl⟩ := h.header hk
    simp only
    refine ⟨⟨fun e => h.name_inj g1 hp e, fun e => ?_⟩, fun e => ?_⟩
    · subst e; rw [hp] at g1; cases g1; rfl
    · subst e; rw [hp] at g1; cases g1; rfl

/-- **C37.** When the table suffices for `prob`, `bmeas(pv, ss)` returns; it has an entry for exactly the
variables on which the function depends; the entry of a variable with `r` states has `r - 1` numbers, and
its number `d` is `prob` with the variable in state `d + 1` for sure minus `prob` with it in state `d` for
sure (0 for a variable without an entry). -/
theorem C37_bmeas (hw : w.Reachable) (hv : MVars w vs) {f : Nat} {F : MFun} (hf : w.Has f F)
    (pv : String → Option (List R)) (ss : List Int) (ht : TableFor vs F pv) :
    ∃ ev, w.bmeas pv ss f = some ev ∧
      (∀ x, (ev.get x).isSome ↔ ∃ l p, vs[l]? = some p ∧ p.1 = x ∧ MDepends vs F l) ∧
      ∀ (l : Nat) (p : String × Nat), vs[l]? = some p → (∀ v, ev.get p.1 = some v → v.length = p.2 - 1) ∧
        ∀ d, d + 1 < p.2 → ∃ r1 r0, w.prob (setState pv p.1 p.2 (d + 1)) ss f = some r1 ∧
          w.prob (setState pv p.1 p.2 d) ss f = some r0 ∧ ((ev.get p.1).getD []).getD d 0 = r1 - r0 := by
  unfold MWorld.bmeas MWorld.prob MWorld.query
  rcases forest hw hv hf ss with ⟨i, hx, h⟩ | ⟨i, hx, h⟩
  · rw [hx]; exact h.bmeas ht
  · rw [hx]; exact h.bmeas ht

end

/-! ## C38 -/

/-- Number of assignments of the first `n` variables whose value lies in `ss`. -/
def mcountSpec (vs : List (String × Nat)) (n : Nat) (ss : List Int) (F : MFun) : Nat :=
  (Finset.univ.filter (fun a : MAssign vs n => InSet ss (F (mextend a)))).card

section
variable {T : Type} [DecidableEq T] [Fixed T] {m : Arena T} {s : Sel T} {ss : List Int} {i : Nat} {F : MFun}

theorem Forest.cnt (h : Forest m s vs ss i F) (n : Nat) :
    Mda.cnt m s (Mda.rngOf vs) i n = mcountSpec vs n ss F := by
  unfold Mda.cnt Mda.msum wsum mcountSpec
  rw [Finset.card_filter]
  refine Finset.sum_congr rfl fun a _ => ?_
  have e : extA (D := fun l => Fin (Mda.rngOf vs l)) (fun _ x => x.val) 0 a = mextend (vs := vs) a := rfl
  rw [e]
  unfold Mda.sind
  have hs := h.sat _ (mextend_valid h.pos a)
  simp only [Finset.prod_const_one, one_mul]
  by_cases hin : InSet ss (F (mextend a))
  · rw [if_pos hin, if_pos (hs.2 hin)]
  · rw [if_neg hin, if_neg (fun k => hin (hs.1 k))]

end

/-- **C38 (integer-valued, not constant).** `mdd_count(ss)` is the number of assignments of the variables up
to the top level whose value lies in `ss`.  Missing: constants and Boolean nodes, where the code does not
do this (`C38_constant`, `C38_violated`). -/
theorem C38_value_partial (hw : w.Reachable) (hv : MVars w vs) {f : Nat} {F : MFun} (hf : w.Has f F) {l : Nat}
    (ht : MTop vs F (some l)) (hval : ∀ a, ValidV vs a → (F a).isBool = false) (ss : List Int) :
    w.count ss f = some (mcountSpec vs (l + 1) ss F) := by
  unfold MWorld.count MWorld.query
  rcases forest hw hv hf ss with ⟨i, hx, h⟩ | ⟨i, hx, h⟩
  · rw [hx]
    simp only
    have hr : _ = l + 1 := h.rank ht
    rw [Mda.count_ok h.wf h.hdrs h.und (Mda.keyOK_pair _ _ _) h.live trivial (by omega), h.cnt, hr]
  · obtain ⟨x, hx', hF⟩ := hf
    rw [hx] at hx'; cases hx'
    have R := mrel hw hv
    have := isBool_of_meval (hF.val _ R.mok.inv.zero)
    rw [hval _ (R.mok.valid.1 R.mok.inv.zero)] at this
    cases this

/-- No edge of the Boolean diagram below `i` skips a level, except to the undetermined terminal. -/
def NoSkip (m : Arena T3) (i : Nat) : Prop :=
  ∀ j h ch c, Reach m i j → m.nodes[j]? = some (.nt h ch) → c ∈ ch →
    m.nodes[c]? = some (.term .undet) ∨ m.rank c + 1 = m.rank j

/-- A diagram that skips no level reaches each node at one level. -/
theorem NoSkip.oneGap {m : Arena T3} {R' : List Nat → Prop} (wf : WF R' m) {i : Nat} (hi : m.Live i) (h : NoSkip m i)
    (ss : List Int) : Mda.OneGap m (selB ss) i := by
  have key : ∀ j n, Mda.Arrives m i j n → n = m.rank j ∨ m.nodes[j]? = some (.term .undet) := by
    rintro j n (⟨rfl, e⟩ | ⟨p, hh, ch, h1, h2, h3, h4⟩)
    · exact .inl e
    · rcases h p hh ch j h1 h2 h3 with e | e
      · exact .inr e
      · exact .inl (by omega)
  intro j n n' h1 h2
  rcases key j n h1 with e1 | e1
  · rcases key j n' h2 with e2 | e2
    · exact .inl (e1.trans e2.symm)
    · exact .inr ⟨_, e2, rfl⟩
  · exact .inr ⟨_, e1, rfl⟩

/-- **C38 (Boolean, each node over one gap).** The same for Boolean nodes in whose diagram no node is reached from
different levels; terminals whose value is not in `ss` may be. -/
theorem C38_bool_partial (hw : w.Reachable) (hv : MVars w vs) {f i : Nat} {F : MFun} (hf : w.Has f F) {l : Nat}
    (ht : MTop vs F (some l)) (hi : w.hs.held.get f = some (.bool i)) (ss : List Int)
    (hg : Mda.OneGap w.mgr.w.eng.mdd.arena (selB ss) i) : w.count ss f = some (mcountSpec vs (l + 1) ss F) := by
  unfold MWorld.count MWorld.query
  rcases forest hw hv hf ss with ⟨i', hx, h⟩ | ⟨i', hx, h⟩
  · rw [hx] at hi; cases hi
  · rw [hx] at hi; cases hi
    rw [hx]
    simp only
    have hr : _ = l + 1 := h.rank ht
    rw [Mda.count_oneGap h.wf h.hdrs h.und h.live (by omega) hg, h.cnt, hr]

/-- **C38 (Boolean, what is returned).** `mdd_count` of a Boolean node that is no constant always returns.  The answer is
the value `V` of the root, where a terminal counts 1 if its value is in `ss`, any other node the sum of its children, and
every node's count is multiplied by the numbers of states of the levels between it and *one* of the nodes that lead to
it — the same one for all of them. -/
theorem C38_bool_exact (hw : w.Reachable) (hv : MVars w vs) {f i : Nat} {F : MFun} (hf : w.Has f F) {l : Nat}
    (ht : MTop vs F (some l)) (hi : w.hs.held.get f = some (.bool i)) (ss : List Int) :
    ∃ V : Nat → Nat, w.count ss f = some (V i) ∧
      ∀ j, Reach w.mgr.w.eng.mdd.arena i j → ∃ n, Mda.Arrives w.mgr.w.eng.mdd.arena i j n ∧
        (∀ t, w.mgr.w.eng.mdd.arena.nodes[j]? = some (.term t) →
          V j = (∏ k ∈ Finset.range n, states vs k) * if InSet ss (.b t) then 1 else 0) ∧
        ∀ h ch, w.mgr.w.eng.mdd.arena.nodes[j]? = some (.nt h ch) →
          V j = (∏ k ∈ Finset.Ico (w.mgr.w.eng.mdd.arena.rank j) n, states vs k) * (ch.map V).sum := by
  unfold MWorld.count MWorld.query
  rcases forest hw hv hf ss with ⟨i', hx, h⟩ | ⟨i', hx, h⟩
  · rw [hx] at hi; cases hi
  · rw [hx] at hi; cases hi
    rw [hx]
    simp only
    have hr : _ = l + 1 := h.rank ht
    obtain ⟨V, h1, h2⟩ := Mda.count_gap h.wf h.hdrs h.und h.live (by omega)
    refine ⟨V, h1, fun j hj => ?_⟩
    obtain ⟨n, b, a1, a2, a3, a4⟩ := h2 j hj
    refine ⟨n, a1, fun t hn => ?_, fun hh ch hn => ?_⟩
    · unfold Mda.Base at a3
      rw [hn] at a3
      rw [a4, a3, Arena.rank_term hn, Finset.range_eq_Ico]
      congr 1
      cases t <;> simp [selB, InSet] <;> congr
    · unfold Mda.Base at a3
      rw [hn] at a3
      rw [a4, a3]
      rfl

/-- A node all of whose children are terminals reaches each of them at one level. -/
theorem oneGap_flat {m : Arena T3} {R' : List Nat → Prop} (wf : WF R' m) {i h : Nat} {ch : List Nat} (hi : m.Live i)
    (hn : m.nodes[i]? = some (.nt h ch)) (ht : ∀ c ∈ ch, ∃ t, m.nodes[c]? = some (.term t)) (s : Sel T3) :
    Mda.OneGap m s i := by
  have hreach : ∀ j, Reach m i j → j = i ∨ ∃ t, m.nodes[j]? = some (.term t) := by
    intro j hj
    induction hj with
    | refl => exact .inl rfl
    | step _ hn' hc ih =>
      rcases ih with rfl | ⟨t, e⟩
      · rw [hn] at hn'; cases hn'; exact .inr (ht _ hc)
      · rw [e] at hn'; cases hn'
  have key : ∀ j n, Mda.Arrives m i j n → (j = i ∧ n = m.rank i) ∨ (j ≠ i ∧ n + 1 = m.rank i) := by
    rintro j n (⟨rfl, e⟩ | ⟨p, hh, ch', h1, h2, h3, h4⟩)
    · exact .inl ⟨rfl, e⟩
    · rcases hreach p h1 with rfl | ⟨t, e⟩
      · refine .inr ⟨?_, h4.symm⟩
        rintro rfl
        rw [hn] at h2; cases h2
        obtain ⟨t, e⟩ := ht _ h3
        rw [hn] at e; cases e
      · rw [e] at h2; cases h2
  intro j n n' h1 h2
  left
  rcases key j n h1 with ⟨a, b⟩ | ⟨a, b⟩ <;> rcases key j n' h2 with ⟨c, d⟩ | ⟨c, d⟩
  · omega
  · exact absurd a c
  · exact absurd c a
  · omega

/-- What the code does for a constant: the answer is 1, whatever the value and `ss`. -/
theorem C38_constant (hw : w.Reachable) (hv : MVars w vs) {f : Nat} {F : MFun} (hf : w.Has f F)
    (ht : MTop vs F none) (ss : List Int) : w.count ss f = some 1 := by
  unfold MWorld.count MWorld.query
  rcases forest hw hv hf ss with ⟨i, hx, h⟩ | ⟨i, hx, h⟩
  · rw [hx]
    simp only [Mda.count, h.top.unique ht]
  · rw [hx]
    simp only [Mda.count, h.top.unique ht]

/-- The property fails for a constant: 5 is not in the empty set, yet the count is 1. -/
theorem C38_violated_constant : ∃ (w : MWorld) (vs : List (String × Nat)) (f : Nat) (F : MFun), w.Reachable ∧
    MVars w vs ∧ w.Has f F ∧ MTop vs F none ∧ w.count [] f = some 1 ∧ mcountSpec vs 0 [] F = 0 := by
  obtain ⟨o, w', vs', h1, ⟨rfl, rfl, V, h2, h3⟩, h4, _, h5⟩ := C34_effect (w := MWorld.new) (vs := []) .new rfl
    (c := .value 5) trivial (by simp [MWorld.operands])
  have hw' := h5 trivial
  have ht : MTop [] V none := fun a b ha hb => by
    have e1 : V a = .v (some 5) := h3 a ha
    have e2 : V b = .v (some 5) := h3 b hb
    rw [e1, e2]
  refine ⟨w', [], _, V, hw', h4, h2, ht, C38_constant hw' h4 h2 ht [], ?_⟩
  unfold mcountSpec
  rw [Finset.card_eq_zero, Finset.filter_eq_empty_iff]
  intro a _
  have e1 : V (mextend a) = .v (some 5) := h3 _ (by intro i x r hi; simp at hi)
  rw [e1]
  simp [InSet]

/-- The property fails for a Boolean diagram that skips a level: `1 ≤ x + y` over two binary variables holds
for three assignments, yet the count is 2. -/
theorem C38_violated : ∃ (w : MWorld) (vs : List (String × Nat)) (f : Nat) (F : MFun), w.Reachable ∧
    MVars w vs ∧ w.Has f F ∧ MTop vs F (some 1) ∧ w.count [1] f = some 2 ∧ mcountSpec vs 2 [1] F = 3 := by
  obtain ⟨w', V, h1, h2, h3, h4, h5, _⟩ := C35_rpn (w := MWorld.new) (vs := []) .new rfl (fun _ => some 2)
    (.bin .gte (.bin .add (.var "x") (.var "y")) (.int 1))
    (fun x _ => ⟨2, rfl, .inr (by omega)⟩) (fun a ν _ => rfl)
  have hvs : addVars (fun _ => some 2) [] (MExpr.names (.bin .gte (.bin .add (.var "x") (.var "y")) (.int 1))) =
      [("x", 2), ("y", 2)] := by decide
  rw [hvs] at h3 h5
  have hV : ∀ a, ValidV [("x", 2), ("y", 2)] a → V a = .b (T3.ofBool (decide (1 ≤ (a 0 : Int) + a 1))) := by
    intro a ha
    have := h5 a (fun s => if s = "x" then a 0 else a 1) (by
      refine ⟨ha, fun i x r hi => ?_⟩
      match i, hi with
      | 0, hi => simp at hi; simp [← hi.1]
      | 1, hi => simp at hi; simp [← hi.1])
    simp only [MExpr.eval, sbin, arith, cmp, Option.bind_eq_bind, Option.bind_some, Option.pure_def, Option.map_some,
      Option.some.injEq, RVal.toM] at this
    rw [← this]
    rfl
  refine ⟨w', _, _, V, h2, h3, h4, ⟨fun a b ha hb hab => ?_, ?_⟩, ?_, ?_⟩
  · rw [hV a ha, hV b hb, hab 0 (by omega), hab 1 (by omega)]
  · have v0 : ValidV [("x", 2), ("y", 2)] (fun _ => 0) := by
      intro i x r hi
      have := List.mem_of_getElem? hi
      simp at this
      show 0 < r
      omega
    have v1 : ValidV [("x", 2), ("y", 2)] (upd (fun _ => 0) 1 1) := validV_upd v0 (p := ("y", 2)) rfl (by omega)
    refine ⟨_, _, v0, v1, fun x hx => by rw [upd_ne _ _ hx], ?_⟩
    rw [hV _ v0, hV _ v1]
    decide
  · have : (MWorld.new.step (.rpn (MExpr.toks (.bin .gte (.bin .add (.var "x") (.var "y")) (.int 1)))
        (fun _ => some 2))).bind (fun p => p.2.count [1] MWorld.new.hs.next) = some 2 := by decide +kernel
    rw [h1] at this
    exact this
  · have key : mcountSpec [("x", 2), ("y", 2)] 2 [1]
        (fun a => .b (T3.ofBool (decide (1 ≤ (a 0 : Int) + a 1)))) = 3 := by decide +kernel
    rw [← key]
    unfold mcountSpec
    congr 1
    refine Finset.filter_congr fun a _ => ?_
    rw [hV _ (mextend_valid (by simp) a)]

/-- `y`, then `x` with three states each, then `x ≥ 1`. -/
def gapRun : Option MWorld :=
  [MCmd.defvar "y" 3, .defvar "x" 3, .value 1, .bin .gte 1 2].foldlM (fun w c => (w.step c).map Prod.snd) MWorld.new

theorem foldlM_reachable : ∀ (cs : List MCmd), (∀ c ∈ cs, ∀ h fs, c ≠ .createNode h fs) → ∀ {w w' : MWorld}, w.Reachable →
    cs.foldlM (fun w c => (w.step c).map Prod.snd) w = some w' → w'.Reachable := by
  intro cs
  induction cs with
  | nil => intro _ w w' hw h; cases h; exact hw
  | cons c cs ih =>
    intro hc w w' hw h
    rw [List.foldlM_cons] at h
    obtain ⟨w1, h1, h2⟩ := Option.bind_eq_some_iff.1 h
    obtain ⟨⟨o, w2⟩, h3, rfl⟩ := Option.map_eq_some_iff.1 h1
    refine ih (fun c hc' => hc c (List.mem_cons_of_mem _ hc')) (.step c hw ?_ h3) h2
    have := hc c List.mem_cons_self
    cases c <;> first | trivial | exact absurd rfl (this _ _)

/-- `x ≥ 1` over `x` and `y` with three states each: the edges skip the level of `y`, and the count is right. -/
example : ∃ (w : MWorld) (i : Nat), w.Reachable ∧ w.hs.held.get 3 = some (.bool i) ∧ w.count [1] 3 = some 6 ∧
    Mda.OneGap w.mgr.w.eng.mdd.arena (selB [1]) i ∧ ¬ NoSkip w.mgr.w.eng.mdd.arena i := by
  have h : gapRun.map (fun w => (w.hs.held.get 3, w.count [1] 3)) = some (some (.bool 4), some 6) ∧
      gapRun.map (fun w => (w.mgr.w.eng.mdd.arena.nodes[4]?, w.mgr.w.eng.mdd.arena.nodes[0]?,
        w.mgr.w.eng.mdd.arena.nodes[1]?)) = some (some (.nt 1 [0, 1, 1]), some (.term .zero), some (.term .one)) ∧
      gapRun.map (fun w => (w.mgr.w.eng.mdd.arena.rank 0, w.mgr.w.eng.mdd.arena.rank 4)) = some (0, 2) := by
    decide +kernel
  obtain ⟨h1, h2, h3⟩ := h
  obtain ⟨w, hw, e⟩ := Option.map_eq_some_iff.1 h1
  rw [hw] at h2 h3
  simp only [Prod.mk.injEq, Option.map_some, Option.some.injEq] at e h2 h3
  obtain ⟨e1, e2⟩ := e
  obtain ⟨e3, e4, e5⟩ := h2
  obtain ⟨e6, e7⟩ := h3
  have hr : w.Reachable := foldlM_reachable _ (by simp) .new hw
  obtain ⟨vs, hv, _⟩ := mvars_exists hr
  have R := mrel hr hv
  refine ⟨w, 4, hr, e1, e2, ?_, ?_⟩
  · obtain ⟨F, hF, _⟩ := C34_denotes hr hv e1
    rcases forest hr hv hF [1] with ⟨i, hx, hf⟩ | ⟨i, hx, hf⟩
    · rw [e1] at hx; cases hx
    · rw [e1] at hx; cases hx
      refine oneGap_flat hf.wf hf.live e3 ?_ _
      intro c hc
      simp only [List.mem_cons, List.not_mem_nil, or_false] at hc
      rcases hc with rfl | rfl | rfl
      · exact ⟨_, e4⟩
      · exact ⟨_, e5⟩
      · exact ⟨_, e5⟩
  · intro hn
    rcases hn 4 1 _ 0 (.refl _) e3 (by simp) with k | k
    · rw [e4] at k; cases k
    · omega

/-! ## C39 -/

section
variable {T : Type} [DecidableEq T] [Fixed T] {m : Arena T} {s : Sel T} {ss : List Int} {i : Nat} {F : MFun}

/-- `out` lists the maps of the assignments of the first `n` variables whose value lies in `ss`, each
assignment once: `as` are the assignments, in the same order. -/
def Enumerates (vs : List (String × Nat)) (n : Nat) (ss : List Int) (F : MFun) (out : List (AMap String Nat)) : Prop :=
  ∃ as : List (MAssign vs n), as.Nodup ∧ (∀ a, a ∈ as ↔ InSet ss (F (mextend a))) ∧
    List.Forall₂ (fun a r => ∀ x v, r.get x = some v ↔ ∃ k : Fin n, varName vs k = x ∧ (a k).val = v) as out

theorem Forest.extract (h : Forest m s vs ss i F) {t : Option Nat} (ht : MTop vs F t) :
    ∃ st out, Mda.pathNew m vs.length i = some st ∧ Enum.Yields (Mda.pathNext m s) st out ∧
      Enumerates vs (levels t) ss F out ∧ out.length = mcountSpec vs (levels t) ss F := by
  obtain ⟨st, h1, h2⟩ := Mda.path_ok h.wf h.hdrs h.nodup h.und h.live
  have hr := h.rank ht
  rw [hr] at h2
  have hle := h.levels_le ht
  generalize hn : levels t = n at *
  refine ⟨st, _, h1, h2, ?_, by rw [List.length_map, Mda.outs_length, h.cnt]⟩
  have hmem : ∀ a ∈ Mda.outs m s (Mda.rngOf vs) n i, ∀ k, k < n → a k < states vs k :=
    fun a ha => ((Mda.mem_outs _ _ _ _ _).1 ha).1
  have hext : ∀ a (ha : a ∈ Mda.outs m s (Mda.rngOf vs) n i),
      mextend (vs := vs) (n := n) (fun k => ⟨a k, hmem a ha k k.isLt⟩) = a := by
    intro a ha
    funext l
    unfold mextend
    by_cases hl : l < n
    · rw [dif_pos hl]
    · rw [dif_neg hl, ((Mda.mem_outs _ _ _ _ _).1 ha).2.1 l (by omega)]
  refine ⟨(Mda.outs m s (Mda.rngOf vs) n i).pmap (fun a ha k => ⟨a k, hmem a ha k k.isLt⟩) (fun a ha => ha), ?_, ?_, ?_⟩
  · refine List.Nodup.pmap (fun a ha b hb e => ?_) (Mda.outs_nodup _ _ _ _)
    rw [← hext a ha, ← hext b hb, e]
  · intro a
    rw [List.mem_pmap]
    constructor
    · rintro ⟨b, hb, rfl⟩
      rw [hext b hb]
      have hb' := (Mda.mem_outs _ _ _ _ _).1 hb
      refine (h.sat b ?_).1 hb'.2.2
      rw [← hext b hb]
      exact mextend_valid h.pos _
    · intro ha
      have hb : mextend a ∈ Mda.outs m s (Mda.rngOf vs) n i := by
        refine (Mda.mem_outs _ _ _ _ _).2 ⟨fun k hk => ?_, fun k hk => ?_, (h.sat _ (mextend_valid h.pos a)).2 ha⟩
        · simp only [mextend, dif_pos hk]; exact (a ⟨k, hk⟩).isLt
        · simp only [mextend, dif_neg (Nat.not_lt.2 hk)]
      refine ⟨mextend a, hb, ?_⟩
      funext k
      apply Fin.ext
      simp [mextend]
  · rw [List.forall₂_iff_get]
    refine ⟨by simp, fun k h1 h2 x v => ?_⟩
    simp only [List.get_eq_getElem, List.getElem_map, List.getElem_pmap]
    rw [Mda.addAll_get (Mda.nameOf vs) n _ AMap.empty
      (fun j k hj hk => Mda.nameOf_inj h.nodup (by omega) (by omega)) (by simp)]
    simp only [AMap.get_empty, reduceCtorEq, false_or]
    constructor
    · rintro ⟨j, j1, j2, j3⟩; exact ⟨⟨j, j1⟩, j2, j3⟩
    · rintro ⟨j, j2, j3⟩; exact ⟨j, j.isLt, j2, j3⟩

end

/-- **C39.** Iterating `mdd_extract(ss)` ends and yields the assignments of the variables up to the top level
whose value lies in `ss`, each once; a constant yields one empty assignment or none. -/
theorem C39_extract (hw : w.Reachable) (hv : MVars w vs) {f : Nat} {F : MFun} (hf : w.Has f F)
    {t : Option Nat} (ht : MTop vs F t) (ss : List Int) :
    ∃ st out, w.extract f = some st ∧ Enum.Yields (w.next ss f) st out ∧
      Enumerates vs (levels t) ss F out ∧ out.length = mcountSpec vs (levels t) ss F := by
  unfold MWorld.extract MWorld.query
  have hlen : w.mgr.w.eng.mtmdd.arena.headers.length = vs.length := by
    rw [← (mrel hw hv).mok.inv.hdr, (mrel hw hv).mok.hdrs, Mda.mkH_length]
  rcases forest hw hv hf ss with ⟨i, hx, h⟩ | ⟨i, hx, h⟩
  · have e : w.next ss f = Mda.pathNext w.mgr.w.eng.mtmdd.arena (selV ss) := by
      funext st; simp only [MWorld.next, MWorld.query, hx]
    rw [hx, e]
    simp only [hlen]
    exact h.extract ht
  · have e : w.next ss f = Mda.pathNext w.mgr.w.eng.mdd.arena (selB ss) := by
      funext st; simp only [MWorld.next, MWorld.query, hx]
    rw [hx, e]
    simp only [hlen]
    exact h.extract ht

/-- Every handle has a top level (C39 and C38 apply to it). -/
theorem mtop_exists (hw : w.Reachable) (hv : MVars w vs) {f : Nat} {F : MFun} (hf : w.Has f F) :
    ∃ t, MTop vs F t := by
  rcases forest hw hv hf [] with ⟨i, hx, h⟩ | ⟨i, hx, h⟩
  · exact ⟨_, h.top⟩
  · exact ⟨_, h.top⟩

/-! ## C40 -/

/-- Numbers of reachable non-terminals, terminals and edges. -/
def SizeSpec {T : Type} (m : Arena T) (i : Nat) (r : Nat × Nat × Nat) : Prop :=
  ∃ nts ts : List Nat, nts.Nodup ∧ ts.Nodup ∧
    (∀ j, j ∈ nts ↔ Reach m i j ∧ ∃ h ch, m.nodes[j]? = some (.nt h ch)) ∧
    (∀ j, j ∈ ts ↔ Reach m i j ∧ ∃ t, m.nodes[j]? = some (.term t)) ∧
    r = (nts.length, ts.length, (nts.map fun j => ((m.nodes[j]?.map (·.kids)).getD []).length).sum)

theorem nodeSize_spec {T : Type} [DecidableEq T] [Fixed T] {m : Arena T} {R' : List Nat → Prop} (wf : WF R' m)
    {i : Nat} (hi : m.Live i) : ∃ r, Mda.nodeSize m i = some r ∧ SizeSpec m i r := by
  obtain ⟨n, v, e, L, h1, h2, h3, h4⟩ := nodeCount_ok wf (m.rank i + 1) i [] hi (by omega) ⟨by simp, by simp⟩ (by simp)
  refine ⟨(n, v, e), by simp [Mda.nodeSize, h1], L.filter (m.isNt ·), L.filter (!m.isNt ·), h2.ok.nodup.filter _,
    h2.ok.nodup.filter _, fun j => ?_, fun j => ?_, ?_⟩
  · rw [List.mem_filter, h3]
    simp only [List.not_mem_nil, false_or]
    refine and_congr_right fun _ => ?_
    unfold isNt
    cases m.nodes[j]? with
    | none => simp
    | some n => cases n <;> simp
  · rw [List.mem_filter, h3]
    simp only [List.not_mem_nil, false_or]
    refine and_congr_right fun hr => ?_
    obtain ⟨n, hn⟩ := (wf.reach_live hr hi).node
    unfold isNt
    rw [hn]
    cases n <;> simp
  · have e1 := h2.nts
    have e2 := h2.terms
    have e3 := h2.edges
    simp only [List.countP_nil, Nat.zero_add, List.map_nil, List.sum_nil] at e1 e2 e3
    rw [← List.countP_eq_length_filter, ← List.countP_eq_length_filter, e1, e2]
    congr 2
    rw [← e3]
    clear h1 h2 h3 h4 e1 e2 e3
    induction L with
    | nil => rfl
    | cons j L ih =>
      rw [List.map_cons, List.sum_cons, ih, List.filter_cons]
      cases hn : m.nodes[j]? with
      | none => simp [outDeg, isNt, hn]
      | some nd => cases nd <;> simp [outDeg, isNt, hn, Node.kids]

/-- **C40.** `size` returns the numbers of distinct reachable non-terminals, terminals and edges, in the
forest of the node. -/
theorem C40_size (hw : w.Reachable) {f : Nat} {x : MNode} (hx : w.hs.held.get f = some x) :
    ∃ r, w.nodeSize f = some r ∧ (∀ i, x = .value i → SizeSpec w.mgr.w.eng.mtmdd.arena i r) ∧
      ∀ i, x = .bool i → SizeSpec w.mgr.w.eng.mdd.arena i r := by
  obtain ⟨vs, R⟩ := hw.rel
  obtain ⟨F, _, hF⟩ := R.has hx
  obtain ⟨y, hy, hD⟩ := hF
  rw [hx] at hy; cases hy
  unfold MWorld.nodeSize MWorld.query
  rw [hx]
  cases x with
  | value i =>
    obtain ⟨r, h1, h2⟩ := nodeSize_spec R.mok.inv.v.wf hD.live
    exact ⟨r, h1, fun j e => by cases e; exact h2, fun j e => by cases e⟩
  | bool i =>
    obtain ⟨r, h1, h2⟩ := nodeSize_spec R.mok.inv.b.wf hD.live
    exact ⟨r, h1, (fun j e => by cases e), fun j e => by cases e; exact h2⟩

/-! ## A concrete case

Ternary `x` (level 0) and binary `y` (level 1); handle 0 is `x + y`, handle 1 is `x + y ≥ 2`. -/

/-- The session. -/
def manalysis : List MCmd :=
  [.rpn [.var "x", .var "y", .bin .add] (fun s => if s = "x" then some 3 else some 2),
   .rpn [.var "x", .var "y", .bin .add, .int 2, .bin .gte] (fun s => if s = "x" then some 3 else some 2)]

/-- The table: `x` is 0, 1, 2 with probabilities 1/2, 1/3, 1/6; `y` is 0, 1 with 1/4, 3/4. -/
def mtable (s : String) : Option (List ℚ) := if s = "x" then some [1/2, 1/3, 1/6] else if s = "y" then some [1/4, 3/4] else none

example : (mrun MWorld.new manalysis).bind (fun p => p.2.prob mtable [1, 3] 0) = some (7/12) ∧
    (mrun MWorld.new manalysis).bind (fun p => p.2.prob mtable [1] 1) = some (5/12) ∧
    (mrun MWorld.new manalysis).bind (fun p => p.2.prob (fun s => if s = "x" then mtable s else none) [1] 1) = none := by
  decide +kernel

example : (mrun MWorld.new manalysis).bind (fun p => (p.2.bmeas mtable [1] 1).map (fun e => (e.get "x", e.get "y"))) =
    some (some [3/4, 1/4], some [1/3]) := by
  decide +kernel

example : (mrun MWorld.new manalysis).bind (fun p => p.2.count [1, 3] 0) = some 3 ∧
    (mrun MWorld.new manalysis).bind (fun p => p.2.nodeSize 0) = some (3, 4, 8) := by
  decide +kernel

example : (mrun MWorld.new manalysis).bind (fun p =>
    (p.2.extract 0).bind (fun st => (p.2.next [1] 0 st).bind (fun q => (p.2.next [1] 0 q.2).bind (fun q' =>
      (p.2.next [1] 0 q'.2).map (fun q'' => (q.1.map (fun r => (r.get "x", r.get "y")),
        q'.1.map (fun r => (r.get "x", r.get "y")), q''.1.isNone)))))) =
    some (some (some 1, some 0), some (some 0, some 1), true) := by
  decide +kernel

end DD.Props
