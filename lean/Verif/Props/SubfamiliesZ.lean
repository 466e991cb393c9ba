import Verif.Props.Subfunctions
import Verif.Props.Zdd

/-!
# C83 for ZDDs: the nodes of a diagram are the subfamilies of its family
-/

set_option autoImplicit false
set_option linter.unusedSectionVars false
set_option linter.unusedVariables false

namespace DD
namespace Arena
variable {T : Type} [DecidableEq T] [Fixed T] {m : Arena T}

/-- `a` on the levels below `k`, `b` from `k` on. -/
def mixZ (k : Nat) (a b : Nat → Nat) : Nat → Nat := fun l => if l < k then a l else b l

theorem WF.reachZ (wf : WF RZ m) : ∀ (n i j : Nat), m.rank i ≤ n → m.Live i → Reach m i j →
    ∃ b : Nat → Nat, (∀ l, m.rank i ≤ l → b l = 0) ∧
      ∀ a, (∀ l, m.rank j ≤ l → a l = 0) → ∀ z, Lab m i (mixZ (m.rank j) a b) z ↔ Lab m j a z := by
  have base : ∀ i, ∃ b : Nat → Nat, (∀ l, m.rank i ≤ l → b l = 0) ∧
      ∀ a, (∀ l, m.rank i ≤ l → a l = 0) → ∀ z, Lab m i (mixZ (m.rank i) a b) z ↔ Lab m i a z := by
    intro i
    refine ⟨fun _ => 0, fun _ _ => rfl, fun a ha z => ?_⟩
    rw [show mixZ (m.rank i) a (fun _ => 0) = a from funext fun l => by
      unfold mixZ; split
      · rfl
      · exact (ha l (by omega)).symm]
  intro n
  induction n with
  | zero =>
    intro i j hr hi h
    rcases h.cases_head with rfl | ⟨hh, ch, c, hn, hc, _⟩
    · exact base i
    · obtain ⟨hd, h1, _, h3, _⟩ := wf.nt hi hn; omega
  | succ n ih =>
    intro i j hr hi h
    rcases h.cases_head with rfl | ⟨hh, ch, c, hn, hc, hcj⟩
    · exact base i
    · obtain ⟨hd, h1, h2, h3, _, _, h5⟩ := wf.nt hi hn
      obtain ⟨lc, rc⟩ := h5 c hc
      obtain ⟨k, hk⟩ := List.mem_iff_getElem?.1 hc
      obtain ⟨b, b1, b2⟩ := ih c j (by omega) lc hcj
      have hjc : m.rank j ≤ m.rank c := WF.reach_rank_le wf lc hcj
      refine ⟨upd b hd.level k, fun l hl => ?_, fun a ha z => ?_⟩
      · rw [upd_ne _ _ (by omega)]; exact b1 l (by omega)
      · rw [wf.lab_nt_iff hi hn h1]
        have e1 : mixZ (m.rank j) a (upd b hd.level k) hd.level = k := by
          unfold mixZ; rw [if_neg (by omega), upd_self]
        have e2 : upd (mixZ (m.rank j) a (upd b hd.level k)) hd.level 0 = mixZ (m.rank j) a b := by
          funext l
          by_cases e : l = hd.level
          · subst e
            rw [upd_self]; unfold mixZ; rw [if_neg (by omega), b1 _ rc]
          · rw [upd_ne _ _ e]; unfold mixZ; rw [upd_ne _ _ e]
        rw [e1, e2, hk]
        simp only [Option.some.injEq, exists_eq_left']
        exact b2 a ha z

theorem WF.followZ (wf : WF RZ m) (k : Nat) : ∀ (n i : Nat) (b : Nat → Nat), m.rank i ≤ n → m.Live i →
    (∀ a z, ¬ Lab m i (mixZ k a b) z) ∨
      ∃ j, Reach m i j ∧ m.rank j ≤ k ∧ ∀ a, (∀ l, k ≤ l → a l = 0) → ∀ z, Lab m i (mixZ k a b) z ↔ Lab m j a z := by
  have base : ∀ i b, m.rank i ≤ k → m.Live i → (∀ a z, ¬ Lab m i (mixZ k a b) z) ∨
      ∃ j, Reach m i j ∧ m.rank j ≤ k ∧ ∀ a, (∀ l, k ≤ l → a l = 0) → ∀ z, Lab m i (mixZ k a b) z ↔ Lab m j a z := by
    intro i b hr hi
    by_cases hb : ∀ l, k ≤ l → b l = 0
    · refine .inr ⟨i, .refl i, hr, fun a ha z => ?_⟩
      rw [show mixZ k a b = a from funext fun l => by
        unfold mixZ; split
        · rfl
        · rw [ha l (by omega), hb l (by omega)]]
    · refine .inl fun a z h => hb fun l hl => ?_
      have := wf.lab_supp h hi l (by omega)
      unfold mixZ at this
      rwa [if_neg (by omega)] at this
  intro n
  induction n with
  | zero => intro i b hr hi; exact base i b (by omega) hi
  | succ n ih =>
    intro i b hr hi
    by_cases hk : m.rank i ≤ k
    · exact base i b hk hi
    · obtain ⟨nd, hn⟩ := hi.node
      cases nd with
      | term t => rw [rank_term hn] at hk; omega
      | nt h ch =>
        obtain ⟨hd, h1, h2, h3, _, _, h5⟩ := wf.nt hi hn
        have e1 : ∀ a, mixZ k a b hd.level = b hd.level := fun a => by unfold mixZ; rw [if_neg (by omega)]
        have e2 : ∀ a, upd (mixZ k a b) hd.level 0 = mixZ k a (upd b hd.level 0) := by
          intro a
          funext l
          by_cases e : l = hd.level
          · subst e
            rw [upd_self]; unfold mixZ; rw [if_neg (by omega), upd_self]
          · rw [upd_ne _ _ e]; unfold mixZ; rw [upd_ne _ _ e]
        have e3 : ∀ a z, Lab m i (mixZ k a b) z ↔
            ∃ c, ch[b hd.level]? = some c ∧ Lab m c (mixZ k a (upd b hd.level 0)) z := by
          intro a z; rw [wf.lab_nt_iff hi hn h1, e1, e2]
        cases hc : ch[b hd.level]? with
        | none =>
          refine .inl fun a z h => ?_
          rw [e3, hc] at h
          obtain ⟨c, h, _⟩ := h
          cases h
        | some c =>
          have e4 : ∀ a z, Lab m i (mixZ k a b) z ↔ Lab m c (mixZ k a (upd b hd.level 0)) z := by
            intro a z; rw [e3, hc]; simp
          have hcm := List.mem_of_getElem? hc
          obtain ⟨lc, rc⟩ := h5 c hcm
          rcases ih c (upd b hd.level 0) (by omega) lc with h | ⟨j, j1, j2, j3⟩
          · exact .inl fun a z => by rw [e4]; exact h a z
          · exact .inr ⟨j, (Reach.step (.refl i) hn hcm).trans j1, j2, fun a ha z => by rw [e4]; exact j3 a ha z⟩

/-- A node other than the default terminal has a labelled assignment. -/
theorem WF.inhabitedZ (wf : WF RZ m) {d : T} (hd0 : fix d = some 0) (inj : m.LevInj) {i : Nat} (hi : m.Live i)
    (h0 : i ≠ 0) : ∃ a z, z ≠ d ∧ Lab m i a z := by
  refine Classical.byContradiction fun hno => h0 ?_
  obtain ⟨hz, hzn⟩ := wf.fixed_live hd0
  refine wf.canonZ hd0 inj hi hz fun a t ht => ⟨fun h => absurd ⟨a, t, ht, h⟩ hno, fun h => ?_⟩
  exact absurd ((lab_term_iff hzn).1 h).2 ht

end Arena

namespace Props
open Arena

/-- The families that arise from `V` by fixing all elements above some level, and have a member with the element of
that level. -/
def Subfams (V : ZVal) : Set ZVal :=
  {W | ∃ (k : Nat) (b : Nat → Nat), (∀ a z, W a z ↔ (∀ l, k < l → a l = 0) ∧ V (fun l => if l ≤ k then a l else b l) z) ∧
    ∃ a z, W a z ∧ a k ≠ 0}

/-- The family is empty, or some subfamily has the element of its level in all its members. -/
def HasEmpty (V : ZVal) : Prop :=
  (∀ a z, ¬ V a z) ∨ ∃ (k : Nat) (b : Nat → Nat),
    (∃ (a : Nat → Nat) (z : T3), (∀ l, k < l → a l = 0) ∧ V (fun l => if l ≤ k then a l else b l) z ∧ a k ≠ 0) ∧
    ∀ (a : Nat → Nat) (z : T3), (∀ l, k < l → a l = 0) → V (fun l => if l ≤ k then a l else b l) z → a k ≠ 0

open Classical in
/-- **C83.** The non-terminal nodes of a ZDD are the subfamilies; the terminals are those that are read, and the
empty family where it is left over. -/
theorem C83_zdd_size {w : ZWorld} (hw : w.Reachable) {f : Nat} {V : ZVal} (hf : w.Has f V) :
    w.size f = some ((Subfams V).ncard, {z | ∃ a, V a z}.ncard + (if HasEmpty V then 1 else 0),
      2 * (Subfams V).ncard) := by
  classical
  obtain ⟨names, R⟩ := hw.rel
  obtain ⟨i, h1, h2⟩ := hf
  obtain ⟨nts, ts, n1, t1, n2, t2, e⟩ := C19_zdd_size hw h1
  have wf := R.mok.ok.inv.wf
  have inj := R.mok.inj
  have bin := R.mok.ok.inv.two
  generalize w.mgr.w.eng.arena = m at *
  have li := h2.live
  have hmix : ∀ k (a b : Nat → Nat), (fun l => if l ≤ k then a l else b l) = mixZ (k + 1) a b := by
    intro k a b; funext l; simp only [mixZ, Nat.lt_succ_iff]
  have c1 : nts.length = (Subfams V).ncard := by
    let g : Nat → ZVal := fun j a z => z ≠ .zero ∧ Lab m j a z
    have himg : Subfams V = g '' ((nts.toFinset : Finset Nat) : Set Nat) := by
      ext W
      simp only [Set.mem_image, Finset.mem_coe, List.mem_toFinset]
      constructor
      · rintro ⟨k, b, hW, a, z, haz, hak⟩
        have hl := (hW a z).1 haz
        rw [hmix, h2.val] at hl
        rcases wf.followZ (k + 1) _ i b (Nat.le_refl _) li with h | ⟨j, j1, j2, j3⟩
        · exact absurd hl.2.2 (h a z)
        · have lj := wf.reach_live j1 li
          have hWg : W = g j := by
            funext a' z'
            refine propext ((hW a' z').trans ?_)
            rw [hmix, h2.val]
            constructor
            · rintro ⟨q1, q2, q3⟩
              exact ⟨q2, (j3 a' (fun l hl => q1 l (by omega)) z').1 q3⟩
            · rintro ⟨q2, q3⟩
              have q1 := wf.lab_supp q3 lj
              exact ⟨fun l hl => q1 l (by omega), q2, (j3 a' (fun l hl => q1 l (by omega)) z').2 q3⟩
          refine ⟨j, (n2 j).2 ⟨j1, ?_⟩, hWg.symm⟩
          rw [hWg] at haz
          obtain ⟨nd, hn⟩ := lj.node
          cases nd with
          | nt h ch => exact ⟨h, ch, hn⟩
          | term t =>
            have := ((lab_term_iff hn).1 haz.2).1
            rw [this] at hak
            exact absurd rfl hak
      · rintro ⟨j, hj, rfl⟩
        obtain ⟨hr, h, ch, hn⟩ := (n2 j).1 hj
        have lj := wf.reach_live hr li
        obtain ⟨hd, hh, hlen, hrk, _, _, hk⟩ := wf.nt lj hn
        obtain ⟨b, b1, b2⟩ := wf.reachZ _ i j (Nat.le_refl _) li hr
        rw [hrk] at b2
        refine ⟨hd.level, b, fun a z => ?_, ?_⟩
        · rw [hmix, h2.val]
          constructor
          · rintro ⟨q1, q2⟩
            have q3 := wf.lab_supp q2 lj
            rw [hrk] at q3
            exact ⟨fun l hl => q3 l hl, q1, (b2 a q3 z).2 q2⟩
          · rintro ⟨q1, q2, q3⟩
            exact ⟨q2, (b2 a q1 z).1 q3⟩
        · obtain ⟨c, hc, hc0⟩ := wf.red j h ch lj hn
          obtain ⟨q, hq⟩ := List.mem_iff_getElem?.1 hc
          rw [List.getElem?_tail] at hq
          obtain ⟨lc, rc⟩ := hk c (List.mem_of_mem_tail hc)
          obtain ⟨a, z, hz, hl⟩ := wf.inhabitedZ (d := T3.zero) rfl inj lc hc0
          exact ⟨upd a hd.level (q + 1), z, ⟨hz, .nt hn hh hq hl⟩, by rw [upd_self]; omega⟩
    rw [himg, Set.InjOn.ncard_image, Set.ncard_coe_finset, List.toFinset_card_of_nodup n1]
    intro x hx y hy hxy
    simp only [Finset.mem_coe, List.mem_toFinset] at hx hy
    have lx := wf.reach_live ((n2 x).1 hx).1 li
    have ly := wf.reach_live ((n2 y).1 hy).1 li
    have d1 : ZDen m x (g x) := .of_live lx
    have d2 : ZDen m y (g y) := .of_live ly
    rw [← hxy] at d2
    exact d1.canon wf inj d2
  obtain ⟨lz, hz0⟩ := wf.fixed_live (t := T3.zero) (i := 0) rfl
  have val : ∀ z, (∃ a, V a z) ↔ z ≠ .zero ∧ ∃ j ∈ ts, m.nodes[j]? = some (.term z) := by
    intro z
    constructor
    · rintro ⟨a, ha⟩
      obtain ⟨h3, h4⟩ := (h2.val a z).1 ha
      refine ⟨h3, ?_⟩
      have e0 : mixZ 0 (fun _ => 0) a = a := funext fun l => by simp [mixZ]
      rcases wf.followZ 0 _ i a (Nat.le_refl _) li with h | ⟨j, j1, j2, j3⟩
      · exact absurd (e0.symm ▸ h4) (h (fun _ => 0) z)
      · have h5 := (j3 (fun _ => 0) (fun _ _ => rfl) z).1 (e0.symm ▸ h4)
        have lj := wf.reach_live j1 li
        obtain ⟨nd, hn⟩ := lj.node
        cases nd with
        | nt h ch => obtain ⟨hd, _, _, hr, _⟩ := wf.nt lj hn; omega
        | term t =>
          have := ((lab_term_iff hn).1 h5).2
          subst this
          exact ⟨j, (t2 j).2 ⟨j1, _, hn⟩, hn⟩
    · rintro ⟨h3, j, hj, hn⟩
      obtain ⟨b, b1, b2⟩ := wf.reachZ _ i j (Nat.le_refl _) li ((t2 j).1 hj).1
      exact ⟨_, (h2.val _ z).2 ⟨h3, (b2 _ (fun _ _ => rfl) z).2 (.term hn)⟩⟩
  have zer : HasEmpty V ↔ 0 ∈ ts := by
    rw [t2]
    constructor
    · rintro (h | ⟨k, b, ⟨a, z, q1, q2, q3⟩, q4⟩)
      · have : i = 0 := Classical.byContradiction fun h0 => by
          obtain ⟨a, z, hz, hl⟩ := wf.inhabitedZ (d := T3.zero) rfl inj li h0
          exact h a z ((h2.val a z).2 ⟨hz, hl⟩)
        exact ⟨this ▸ .refl i, _, hz0⟩
      · rw [hmix, h2.val] at q2
        rcases wf.followZ (k + 1) _ i b (Nat.le_refl _) li with h | ⟨j, j1, j2, j3⟩
        · exact absurd q2.2 (h a z)
        · have lj := wf.reach_live j1 li
          have h5 := (j3 a (fun l hl => q1 l (by omega)) z).1 q2.2
          have hrk : k < m.rank j := Classical.byContradiction fun hn => q3 (wf.lab_supp h5 lj k (by omega))
          obtain ⟨nd, hn⟩ := lj.node
          cases nd with
          | term t => rw [rank_term hn] at hrk; omega
          | nt h ch =>
            obtain ⟨hd, hh, hlen, hr, _, hpos, hk⟩ := wf.nt lj hn
            have hlev : hd.level = k := by omega
            have h0 : 0 < ch.length := by have := wf.pos hd (List.mem_of_getElem? hh); omega
            have hc : ch[0]? = some ch[0] := List.getElem?_eq_getElem h0
            obtain ⟨lc, rc⟩ := hk _ (List.getElem_mem h0)
            have hc0 : ch[0] = 0 := Classical.byContradiction fun hne => by
              obtain ⟨a', z', hz', hl'⟩ := wf.inhabitedZ (d := T3.zero) rfl inj lc hne
              have sup := wf.lab_supp hl' lc
              have h6 : Lab m j a' z' := by
                have := Lab.nt hn hh hc hl'
                rwa [upd_id (sup _ rc)] at this
              have sup' : ∀ l, k + 1 ≤ l → a' l = 0 := fun l hl => sup l (by omega)
              exact q4 a' z' (fun l hl => sup' l hl) (by rw [hmix]; exact (h2.val _ _).2 ⟨hz', (j3 a' sup' z').2 h6⟩)
                (sup k (by omega))
            exact ⟨Reach.step j1 hn (hc0 ▸ List.getElem_mem h0), _, hz0⟩
    · rintro ⟨hr, -⟩
      cases hr with
      | refl =>
        left
        intro a z h
        obtain ⟨h3, h4⟩ := (h2.val a z).1 h
        exact h3 ((lab_term_iff hz0).1 h4).2
      | @step j h ch _ hr hn hc =>
        right
        have lj := wf.reach_live hr li
        obtain ⟨hd, hh, hlen, hrk, _, _, hk⟩ := wf.nt lj hn
        obtain ⟨b, b1, b2⟩ := wf.reachZ _ i j (Nat.le_refl _) li hr
        rw [hrk] at b2
        have h2l : ch.length = 2 := by rw [hlen]; exact bin hd (List.mem_of_getElem? hh)
        obtain ⟨c, hct, hc0⟩ := wf.red j h ch lj hn
        obtain ⟨lc, rc⟩ := hk c (List.mem_of_mem_tail hct)
        match ch, h2l with
        | [c0, c1], _ =>
          simp only [List.tail_cons, List.mem_singleton] at hct
          subst hct
          have hc00 : c0 = 0 := by
            simp only [List.mem_cons, List.not_mem_nil, or_false] at hc
            rcases hc with h | h
            · exact h.symm
            · exact absurd h.symm hc0
          subst hc00
          refine ⟨hd.level, b, ?_, fun a z q1 q2 => ?_⟩
          · obtain ⟨a, z, hz, hl⟩ := wf.inhabitedZ (d := T3.zero) rfl inj lc hc0
            have hl' : Lab m j (upd a hd.level 1) z := .nt hn hh (k := 1) rfl hl
            have sup := wf.lab_supp hl' lj
            rw [hrk] at sup
            refine ⟨upd a hd.level 1, z, fun l hl => sup l hl, ?_, by rw [upd_self]; omega⟩
            rw [hmix]
            exact (h2.val _ _).2 ⟨hz, (b2 _ sup z).2 hl'⟩
          · rw [hmix, h2.val] at q2
            have h5 := (b2 a (fun l hl => q1 l (by omega)) z).1 q2.2
            intro h0
            obtain ⟨c', hc', hl⟩ := (wf.lab_nt_iff lj hn hh).1 h5
            rw [h0] at hc'
            simp only [List.getElem?_cons_zero, Option.some.injEq] at hc'
            subst hc'
            exact q2.1 ((lab_term_iff hz0).1 hl).2
  have c2 : ts.length = {z | ∃ a, V a z}.ncard + (if HasEmpty V then 1 else 0) := by
    have hex : ∀ j, ∃ z : T3, j ∈ ts → m.nodes[j]? = some (.term z) := by
      intro j
      by_cases hj : j ∈ ts
      · obtain ⟨_, t, hn⟩ := (t2 j).1 hj; exact ⟨t, fun _ => hn⟩
      · exact ⟨.zero, fun h => absurd h hj⟩
    choose g hg using hex
    have himg : {z | ∃ a, V a z} = g '' ((ts.toFinset.erase 0 : Finset Nat) : Set Nat) := by
      ext z
      simp only [Set.mem_image, Finset.mem_coe, Finset.mem_erase, List.mem_toFinset, Set.mem_ofPred_eq, val]
      constructor
      · rintro ⟨h3, j, hj, hn⟩
        refine ⟨j, ⟨fun h0 => h3 ?_, hj⟩, ?_⟩
        · subst h0; rw [hz0] at hn; cases hn; rfl
        · have := hg j hj; rw [hn] at this; cases this; rfl
      · rintro ⟨j, ⟨h0, hj⟩, rfl⟩
        refine ⟨fun h => h0 ?_, j, hj, hg j hj⟩
        have := hg j hj
        rw [h] at this
        exact wf.uniq (wf.reach_live ((t2 j).1 hj).1 li) lz this hz0
    have hinj : Set.InjOn g ((ts.toFinset.erase 0 : Finset Nat) : Set Nat) := by
      intro x hx y hy hxy
      simp only [Finset.mem_coe, Finset.mem_erase, List.mem_toFinset] at hx hy
      have a1 := hg x hx.2
      rw [hxy] at a1
      exact wf.uniq (wf.reach_live ((t2 x).1 hx.2).1 li) (wf.reach_live ((t2 y).1 hy.2).1 li) a1 (hg y hy.2)
    rw [himg, hinj.ncard_image, Set.ncard_coe_finset, ← List.toFinset_card_of_nodup t1]
    by_cases h0 : HasEmpty V
    · rw [if_pos h0]
      exact (Finset.card_erase_add_one (List.mem_toFinset.2 (zer.1 h0))).symm
    · rw [if_neg h0, Finset.erase_eq_of_notMem (fun h => h0 (zer.2 (List.mem_toFinset.1 h)))]
      rfl
  rw [e, c1, c2]

/-! ## Concrete cases -/

/-- `{∅, {a}}` (the power set of `{a}`) has one node and one terminal; `{{a}}` has one node and two terminals, as its
subfamily without `a` is empty; `{{a}, {b}}` has two nodes. -/
example : (ZWorld.new.run [.fromSets [[], ["a"]], .fromSets [["a"]], .fromSets [["a"], ["b"]]]).map
    (fun p => [0, 1, 2].map p.2.size) = some [some (1, 1, 2), some (1, 2, 2), some (2, 2, 4)] := by
  decide +kernel

/-- Fixing `b` (level 1) as absent in `{{a}, {b}}` leaves `{{a}}`. -/
example : (fun a z => z = T3.one ∧ a = upd (fun _ => 0) 0 1 : ZVal) ∈
    Subfams (fun a z => z = .one ∧ (a = upd (fun _ => 0) 0 1 ∨ a = upd (fun _ => 0) 1 1)) := by
  refine ⟨0, fun _ => 0, fun a z => ?_, upd (fun _ => 0) 0 1, .one, ⟨rfl, rfl⟩, by decide⟩
  constructor
  · rintro ⟨rfl, rfl⟩
    refine ⟨fun l hl => upd_ne _ _ (by omega), rfl, .inl ?_⟩
    funext l
    unfold upd
    grind
  · rintro ⟨h, rfl, h' | h'⟩
    · refine ⟨rfl, funext fun l => ?_⟩
      have := congrFun h' l
      rcases Nat.eq_zero_or_pos l with rfl | hl
      · simpa using this
      · rw [h l hl, upd_ne _ _ (by omega)]
    · have := congrFun h' 1
      simp [upd] at this

/-- The family without sets leaves the empty family over; so does `{{a}}`, all of whose sets have `a`. -/
example : HasEmpty (fun _ _ => False) ∧ HasEmpty (fun a z => z = .one ∧ a = upd (fun _ => 0) 0 1) := by
  refine ⟨.inl fun _ _ h => h, .inr ⟨0, fun _ => 0, ⟨upd (fun _ => 0) 0 1, .one, fun l hl => upd_ne _ _ (by omega),
    ⟨rfl, ?_⟩, by decide⟩, ?_⟩⟩
  · funext l
    unfold upd
    grind
  · rintro a z _ ⟨_, h⟩
    have := congrFun h 0
    simp [upd] at this
    omega

end Props
end DD
