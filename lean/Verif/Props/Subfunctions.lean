import Verif.Core.SubFn
import Verif.Props.Size
import Verif.Mss.Refine
import Verif.Props.MssAnalysis
import Mathlib.Algebra.BigOperators.Group.Finset.Sigma
import Mathlib.Data.Set.Card

/-!
# C83: the nodes of a diagram are the subfunctions of its function
-/

set_option autoImplicit false
set_option linter.unusedSectionVars false
set_option linter.unusedVariables false

namespace DD.Props
open Arena

/-! ## BDD -/

/-- `F` with the variables of the levels from `k` on fixed as in `b`. -/
def fixFrom (F : BFun) (k : Nat) (b : Nat → Bool) : BFun := fun a => F (fun l => if l < k then a l else b l)

/-- The functions that arise from `F` by fixing all variables above some level, and depend on the variable of that
level. -/
def Subfns (F : BFun) : Set BFun :=
  {G | ∃ k b, G = fixFrom F (k + 1) b ∧ ∃ a, G (Function.update a k false) ≠ G (Function.update a k true)}

variable {w : World}

theorem den_reach {s : Bdd} (hs : Bdd.Inv s) {i j : Nat} {F : BFun} (hF : Den s.arena i F) (hr : Reach s.arena i j) :
    ∃ b, Den s.arena j (fixFrom F (s.arena.rank j) b) := by
  obtain ⟨b, b1, b2, b3⟩ := hs.wf.reach_dir (s.arena.rank i) i j (Nat.le_refl _) hF.live hr _
    (Bdd.valid_bl hs (fun _ => false))
  have lj := hs.wf.reach_live hr hF.live
  refine ⟨fun l => decide (b l = 1), lj, fun a => ?_⟩
  have key : Eval s.arena (bl (fun l => if l < s.arena.rank j then a l else decide (b l = 1))) j
      (T3.ofBool (F (fun l => if l < s.arena.rank j then a l else decide (b l = 1)))) := by
    let c : Nat → Nat := fun l => if l < s.arena.rank j then bl a l else b l
    have hc : s.arena.ValidA c := by
      intro hd hm
      simp only [c]
      split
      · exact Bdd.valid_bl hs a hd hm
      · exact b1 hd hm
    have e := b3 c (fun l h1 h2 => by simp only [c, if_neg (Nat.not_lt.2 h1)])
    have e' : (fun l => decide (c l = 1)) = (fun l => if l < s.arena.rank j then a l else decide (b l = 1)) := by
      funext l
      simp only [c]
      split
      · unfold bl; cases a l <;> simp
      · rfl
    have := hF.val (fun l => if l < s.arena.rank j then a l else decide (b l = 1))
    rw [← e', ← Bdd.eval_bool_iff hs hc] at this
    rw [← e', ← Bdd.eval_bool_iff hs hc]
    exact (e _).1 this
  refine (hs.wf.eval_congr_iff lj fun l hl => ?_).1 key
  simp [bl, hl]

theorem den_nt {s : Bdd} (hs : Bdd.Inv s) (inj : s.arena.LevInj) {i j h : Nat} {ch : List Nat} {F : BFun}
    (hF : Den s.arena i F) (hr : Reach s.arena i j) (hn : s.arena.nodes[j]? = some (.nt h ch)) :
    ∃ G, Den s.arena j G ∧ G ∈ Subfns F := by
  obtain ⟨b, hG⟩ := den_reach hs hF hr
  have lj := hs.wf.reach_live hr hF.live
  obtain ⟨hd, hh, _⟩ := hs.wf.nt lj hn
  have hrk := rank_nt hn hh
  refine ⟨_, hG, hd.level, b, by rw [hrk], ?_⟩
  obtain ⟨a, a', t, t', a1, a2, a3, a4, a5, a6⟩ := nt_depends hs.wf inj lj hn hh
  rw [Bdd.eval_bool_iff hs a1] at a4
  rw [Bdd.eval_bool_iff hs a2] at a5
  have e1 := a4.det (hG.val _)
  have e2 := a5.det (hG.val _)
  refine ⟨fun l => decide (a l = 1), fun he => a6 ?_⟩
  rw [e1, e2]
  congr 1
  have hall : ∀ p q : Bool, fixFrom F (s.arena.rank j) b (Function.update (fun l => decide (a l = 1)) hd.level p) =
      fixFrom F (s.arena.rank j) b (Function.update (fun l => decide (a l = 1)) hd.level q) := by
    intro p q
    cases p <;> cases q <;> simp [he]
  have := hall (decide (a hd.level = 1)) (decide (a' hd.level = 1))
  rw [Function.update_eq_self_iff.2 rfl] at this
  rw [this]
  congr 1
  funext l
  by_cases e : l = hd.level
  · subst e; simp
  · rw [Function.update_of_ne e, a3 l e]

theorem den_follow {s : Bdd} (hs : Bdd.Inv s) {i : Nat} {F : BFun} (hF : Den s.arena i F) (k : Nat) (b : Nat → Bool) :
    ∃ j, Reach s.arena i j ∧ Den s.arena j (fixFrom F k b) := by
  obtain ⟨j, j1, j2, j3⟩ := hs.wf.follow (Bdd.valid_bl hs b) k _ i (Nat.le_refl _) hF.live
  have lj := hs.wf.reach_live j1 hF.live
  refine ⟨j, j1, lj, fun a => ?_⟩
  have := (j3 (bl (fun l => if l < k then a l else b l)) (fun l hl => by simp [bl, Nat.not_lt.2 hl]) _).1 (hF.val _)
  refine (hs.wf.eval_congr_iff lj fun l hl => ?_).1 this
  simp [bl, show l < k by omega]

/-- **C83.** The non-terminal nodes that `size` counts are the subfunctions, and the terminals the values. -/
theorem C83_bdd_size (hw : w.Reachable) {f : Nat} {F : BFun} (hf : w.Denotes f F) :
    w.bddSize f = some ((Subfns F).ncard, (Set.range F).ncard, 2 * (Subfns F).ncard) := by
  classical
  obtain ⟨A, R⟩ := hw.rel
  obtain ⟨i, h1, h2⟩ := denotes_get R hf
  obtain ⟨nts, ts, n1, t1, n2, t2, e⟩ := C19_bdd_size hw h1
  have hs := R.mok.inv
  have inj := R.mok.inj
  have fn : ∀ j, Reach w.mgr.bdd.arena i j → ∃ G, Den w.mgr.bdd.arena j G := fun j hj =>
    (den_reach hs h2 hj).imp' _ fun _ h => h
  have c1 : nts.length = (Subfns F).ncard := by
    have hex : ∀ j, ∃ G : BFun, j ∈ nts → Den w.mgr.bdd.arena j G ∧ G ∈ Subfns F := by
      intro j
      by_cases hj : j ∈ nts
      · obtain ⟨hr, h, ch, hn⟩ := (n2 j).1 hj
        obtain ⟨G, g⟩ := den_nt hs inj h2 hr hn
        exact ⟨G, fun _ => g⟩
      · exact ⟨F, fun h => absurd h hj⟩
    choose g hg using hex
    have himg : Subfns F = ((nts.toFinset.image g : Finset BFun) : Set BFun) := by
      ext G
      constructor
      · rintro ⟨k, b, rfl, a, ha⟩
        obtain ⟨j, j1, j2⟩ := den_follow hs h2 (k + 1) b
        have hj : j ∈ nts := by
          refine (n2 j).2 ⟨j1, ?_⟩
          obtain ⟨nd, hn⟩ := j2.live.node
          cases nd with
          | nt h ch => exact ⟨h, ch, hn⟩
          | term t =>
            refine absurd ?_ ha
            have e1 := j2.val (Function.update a k false)
            have e2 := j2.val (Function.update a k true)
            rw [eval_term_iff hn] at e1 e2
            exact T3.ofBool_inj (e1.trans e2.symm)
        simp only [Finset.coe_image, Set.mem_image, Finset.mem_coe, List.mem_toFinset]
        exact ⟨j, hj, (hg j hj).1.fun_eq j2⟩
      · simp only [Finset.coe_image, Set.mem_image, Finset.mem_coe, List.mem_toFinset]
        rintro ⟨j, hj, rfl⟩
        exact (hg j hj).2
    rw [himg, Set.ncard_coe_finset, Finset.card_image_of_injOn, List.toFinset_card_of_nodup n1]
    intro x hx y hy hxy
    simp only [Finset.mem_coe, List.mem_toFinset] at hx hy
    have a1 := (hg x hx).1
    have a2 := (hg y hy).1
    rw [hxy] at a1
    exact Bdd.canon hs inj a1 a2
  have c2 : ts.length = (Set.range F).ncard := by
    have hex : ∀ j, ∃ b : Bool, j ∈ ts → w.mgr.bdd.arena.nodes[j]? = some (.term (T3.ofBool b)) := by
      intro j
      by_cases hj : j ∈ ts
      · obtain ⟨hr, t, hn⟩ := (t2 j).1 hj
        obtain ⟨G, g⟩ := fn j hr
        have := g.val (fun _ => false)
        rw [eval_term_iff hn] at this
        exact ⟨_, fun _ => by rw [hn, this]⟩
      · exact ⟨false, fun h => absurd h hj⟩
    choose g hg using hex
    have himg : Set.range F = ((ts.toFinset.image g : Finset Bool) : Set Bool) := by
      ext v
      simp only [Finset.coe_image, Set.mem_image, Finset.mem_coe, List.mem_toFinset, Set.mem_range]
      constructor
      · rintro ⟨a, rfl⟩
        obtain ⟨j, j1, j2⟩ := den_follow hs h2 0 a
        have hfix : fixFrom F 0 a = fun _ => F a := by funext c; simp [fixFrom]
        rw [hfix] at j2
        have hj : j = (T3.ofBool (F a)).slot := Bdd.canon hs inj j2 (Bdd.Den_const hs _)
        have hn := (Bdd.fixed hs (T3.ofBool (F a))).2
        rw [← hj] at hn
        refine ⟨j, (t2 j).2 ⟨j1, _, hn⟩, ?_⟩
        have := hg j ((t2 j).2 ⟨j1, _, hn⟩)
        rw [hn] at this
        simp only [Option.some.injEq, Node.term.injEq] at this
        exact (T3.ofBool_inj this).symm
      · rintro ⟨j, hj, rfl⟩
        obtain ⟨hr, _⟩ := (t2 j).1 hj
        obtain ⟨b, hG⟩ := den_reach hs h2 hr
        have := hG.val (fun _ => false)
        rw [eval_term_iff (hg j hj)] at this
        exact ⟨_, T3.ofBool_inj this⟩
    rw [himg, Set.ncard_coe_finset, Finset.card_image_of_injOn, List.toFinset_card_of_nodup t1]
    intro x hx y hy hxy
    simp only [Finset.mem_coe, List.mem_toFinset] at hx hy
    have a1 := hg x hx
    have a2 := hg y hy
    rw [hxy] at a1
    have d : ∀ z, z ∈ ts → w.mgr.bdd.arena.nodes[z]? = some (.term (T3.ofBool (g y))) →
        Den w.mgr.bdd.arena z (fun _ => g y) := fun z hz hn =>
      ⟨hs.wf.reach_live ((t2 z).1 hz).1 h2.live, fun _ => .term hn⟩
    exact Bdd.canon hs inj (d x hx a1) (d y hy a2)
  rw [e, c1, c2]

/-! ### `kofn` -/

section kofn
variable {ls : List Nat}

/-- True at the positions `lo, …, hi - 1` of the list. -/
def atPos (ls : List Nat) (lo hi : Nat) : Nat → Bool := fun l => decide (lo ≤ ls.idxOf l ∧ ls.idxOf l < hi)

theorem count_pos (hnd : ls.Nodup) (lo hi : Nat) : ∀ q, q ≤ ls.length →
    (ls.take q).countP (atPos ls lo hi) = min q hi - lo := by
  intro q
  induction q with
  | zero => intro _; simp
  | succ q ih =>
    intro hq
    have hlt : q < ls.length := by omega
    rw [List.take_succ_eq_append_getElem hlt, List.countP_append, ih (by omega)]
    have e : ls.idxOf ls[q] = q := hnd.idxOf_getElem q hlt
    simp only [List.countP_cons, List.countP_nil, atPos, e, decide_eq_true_eq]
    split <;> omega

/-- At least `u + 1` of the lowest `u + v + 1`. -/
def thr (ls : List Nat) (x : Nat × Nat) : BFun := fun a => decide (x.1 + 1 ≤ (ls.take (x.1 + x.2 + 1)).countP a)

theorem thr_inj (hnd : ls.Nodup) {x y : Nat × Nat} (hx : x.1 + x.2 < ls.length) (hy : y.1 + y.2 < ls.length)
    (h : thr ls x = thr ls y) : x = y := by
  have one : ∀ {x y : Nat × Nat}, x.1 + x.2 < ls.length → y.1 + y.2 < ls.length → thr ls x = thr ls y → y.1 ≤ x.1 := by
    intro x y hx hy h
    have := congrFun h (atPos ls 0 (x.1 + 1))
    unfold thr at this
    rw [count_pos hnd _ _ _ (by omega), count_pos hnd _ _ _ (by omega), decide_eq_decide] at this
    omega
  have e1 : x.1 = y.1 := Nat.le_antisymm (one hy hx h.symm) (one hx hy h)
  have two : ∀ {x y : Nat × Nat}, x.1 + x.2 < ls.length → y.1 + y.2 < ls.length → thr ls x = thr ls y → x.1 = y.1 →
      ¬ x.2 < y.2 := by
    intro x y hx hy h e hlt
    have := congrFun h (atPos ls y.2 (y.1 + y.2 + 1))
    unfold thr at this
    rw [count_pos hnd _ _ _ (by omega), count_pos hnd _ _ _ (by omega), decide_eq_decide] at this
    omega
  have := two hx hy h e1
  have := two hy hx h.symm e1.symm
  exact Prod.ext e1 (by omega)

theorem subfns_thr (hso : ls.Pairwise (· < ·)) {k : Nat} (hk : 1 ≤ k) (hkn : k ≤ ls.length) :
    Subfns (fun a => decide (k ≤ ls.countP a)) =
      thr ls '' ((Finset.range k ×ˢ Finset.range (ls.length - k + 1) : Finset (Nat × Nat)) : Set (Nat × Nat)) := by
  have hnd : ls.Nodup := hso.imp fun h => Nat.ne_of_lt h
  -- the split at a position
  have split : ∀ {p : Nat} (hp : p < ls.length) (a b : Nat → Bool),
      ls.countP (fun l => if l < ls[p] + 1 then a l else b l) =
        (ls.take (p + 1)).countP a + (ls.drop (p + 1)).countP b := by
    intro p hp a b
    have lo : ∀ l ∈ ls.take (p + 1), l < ls[p] + 1 := by
      intro l hl
      obtain ⟨i, hi, rfl⟩ := List.mem_take_iff_getElem.1 hl
      rcases Nat.lt_or_ge i p with h | h
      · have := List.pairwise_iff_getElem.1 hso i p (by omega) hp h; omega
      · have : i = p := by omega
        subst this; omega
    have up : ∀ l ∈ ls.drop (p + 1), ¬ l < ls[p] + 1 := by
      intro l hl
      obtain ⟨i, hi, rfl⟩ := List.mem_drop_iff_getElem.1 hl
      have := List.pairwise_iff_getElem.1 hso p (p + 1 + i) hp (by omega) (by omega)
      omega
    have h3 : ∀ q : Nat → Bool, ls.countP q = (ls.take (p + 1)).countP q + (ls.drop (p + 1)).countP q := by
      intro q
      conv_lhs => rw [← List.take_append_drop (p + 1) ls, List.countP_append]
    rw [h3]
    congr 1
    · exact List.countP_congr fun l hl => by simp [lo l hl]
    · exact List.countP_congr fun l hl => by rw [if_neg (up l hl)]
  have upd : ∀ {p : Nat} (hp : p < ls.length) (a : Nat → Bool) (v : Bool),
      (ls.take (p + 1)).countP (Function.update a ls[p] v) = (ls.take p).countP a + if v then 1 else 0 := by
    intro p hp a v
    rw [List.take_succ_eq_append_getElem hp, List.countP_append]
    congr 1
    · refine List.countP_congr fun l hl => ?_
      obtain ⟨i, hi, rfl⟩ := List.mem_take_iff_getElem.1 hl
      have hip : i < p := by omega
      have := List.pairwise_iff_getElem.1 hso i p (by omega) hp hip
      rw [Function.update_of_ne (by omega)]
    · cases v <;> simp
  ext G
  simp only [Set.mem_image, Finset.mem_coe, Finset.mem_product, Finset.mem_range]
  constructor
  · rintro ⟨m, b, rfl, a, ha⟩
    by_cases hm : m ∈ ls
    · obtain ⟨p, hp, rfl⟩ := List.getElem_of_mem hm
      have e : ∀ c, fixFrom (fun a => decide (k ≤ ls.countP a)) (ls[p] + 1) b c =
          decide (k ≤ (ls.take (p + 1)).countP c + (ls.drop (p + 1)).countP b) := by
        intro c; unfold fixFrom; simp only; rw [split hp]
      rw [e, e, upd hp, upd hp] at ha
      have h1 : (ls.take p).countP a ≤ p := (List.countP_le_length).trans (by simp)
      have h2 : (ls.drop (p + 1)).countP b ≤ ls.length - (p + 1) := (List.countP_le_length).trans (by simp)
      rw [Ne, decide_eq_decide] at ha
      simp only [Bool.false_eq_true, if_false, if_true] at ha
      refine ⟨((ls.take p).countP a, p - (ls.take p).countP a), ⟨by omega, by omega⟩, ?_⟩
      funext c
      rw [e]
      unfold thr
      simp only
      rw [show (ls.take p).countP a + (p - (ls.take p).countP a) + 1 = p + 1 by omega, decide_eq_decide]
      omega
    · refine absurd ?_ ha
      unfold fixFrom
      simp only
      congr 2
      refine List.countP_congr fun l hl => ?_
      have : l ≠ m := fun e => hm (e ▸ hl)
      rw [Function.update_of_ne this, Function.update_of_ne this]
  · rintro ⟨⟨u, v⟩, ⟨hu, hv⟩, rfl⟩
    simp only at hu hv
    have hp : u + v < ls.length := by omega
    have e : ∀ c, fixFrom (fun a => decide (k ≤ ls.countP a)) (ls[u + v] + 1)
        (atPos ls (u + v + 1) (u + v + 1 + (k - 1 - u))) c = thr ls (u, v) c := by
      intro c
      unfold fixFrom thr
      simp only
      rw [split hp]
      have h1 := count_pos hnd (u + v + 1) (u + v + 1 + (k - 1 - u)) ls.length (Nat.le_refl _)
      have h2 := count_pos hnd (u + v + 1) (u + v + 1 + (k - 1 - u)) (u + v + 1) (by omega)
      rw [List.take_length] at h1
      have h3 : ∀ q : Nat → Bool, ls.countP q = (ls.take (u + v + 1)).countP q + (ls.drop (u + v + 1)).countP q := by
        intro q
        conv_lhs => rw [← List.take_append_drop (u + v + 1) ls, List.countP_append]
      have h4 := h3 (atPos ls (u + v + 1) (u + v + 1 + (k - 1 - u)))
      rw [decide_eq_decide]
      omega
    refine ⟨ls[u + v], _, (funext e).symm, atPos ls 0 u, ?_⟩
    unfold thr
    simp only
    rw [upd hp, upd hp, count_pos hnd _ _ _ (by omega), Ne, decide_eq_decide]
    simp only [Bool.false_eq_true, if_false, if_true]
    omega

/-- The nodes of "at least `k` of the variables at the levels `ls`". -/
theorem subfns_kofn {ls : List Nat} (hnd : ls.Nodup) {k : Nat} (hk : 1 ≤ k) (hkn : k ≤ ls.length) :
    (Subfns (fun a => decide (k ≤ ls.countP a))).ncard = k * (ls.length - k + 1) ∧
      (Set.range (fun a : Nat → Bool => decide (k ≤ ls.countP a))).ncard = 2 := by
  classical
  have hp : (ls.mergeSort (· ≤ ·)).Perm ls := List.mergeSort_perm ls _
  have hso : (ls.mergeSort (· ≤ ·)).Pairwise (· < ·) := by
    have h1 : (ls.mergeSort (· ≤ ·)).Pairwise (fun a b => decide (a ≤ b) = true) :=
      List.pairwise_mergeSort (fun a b c => by simp; omega) (fun a b => by simp; omega) ls
    have h2 : (ls.mergeSort (· ≤ ·)).Nodup := hp.nodup_iff.2 hnd
    exact (h1.and h2).imp fun ⟨h, h'⟩ => Nat.lt_of_le_of_ne (by simpa using h) h'
  have hc : (fun a : Nat → Bool => decide (k ≤ ls.countP a)) =
      fun a => decide (k ≤ (ls.mergeSort (· ≤ ·)).countP a) := by
    funext a; rw [hp.countP_eq]
  have hl := hp.length_eq
  refine ⟨?_, ?_⟩
  · rw [hc, subfns_thr hso hk (by omega), Set.InjOn.ncard_image, Set.ncard_coe_finset, Finset.card_product,
      Finset.card_range, Finset.card_range, hl]
    rintro ⟨u, v⟩ hx ⟨u', v'⟩ hy h
    simp only [Finset.mem_coe, Finset.mem_product, Finset.mem_range] at hx hy
    exact thr_inj (hp.nodup_iff.2 hnd) (by simp only; omega) (by simp only; omega) h
  · have : Set.range (fun a : Nat → Bool => decide (k ≤ ls.countP a)) = Set.univ := by
      ext b
      simp only [Set.mem_range, Set.mem_univ, iff_true]
      cases b
      · exact ⟨fun _ => false, by simp; omega⟩
      · exact ⟨fun _ => true, by simpa using hkn⟩
    rw [this, Set.ncard_univ, Nat.card_eq_fintype_card, Fintype.card_bool]

/-- **C83.** `kofn k` of `n` distinct variables has exactly `k·(n-k+1)` non-terminal nodes, wherever the variables
are in the order. -/
theorem C83_kofn (hw : w.Reachable) {k : Nat} {fs ls : List Nat} (h : DenoteAll w fs (ls.map fun l a => a l))
    (hnd : ls.Nodup) (hk : 1 ≤ k) (hkn : k ≤ ls.length) :
    ∃ f w', w.step (.kofn k fs) = some (.handle f, w') ∧ w'.Reachable ∧
      w'.bddSize f = some (k * (ls.length - k + 1), 2, 2 * (k * (ls.length - k + 1))) := by
  obtain ⟨w', h1, h2, h3, _⟩ := C11_kofn hw k h
  obtain ⟨c1, c2⟩ := subfns_kofn hnd hk hkn
  refine ⟨_, w', h1, h2, ?_⟩
  have : (fun a : Nat → Bool => decide (k ≤ (ls.map fun l a => a l).countP (fun F : BFun => F a))) =
      fun a => decide (k ≤ ls.countP a) := by
    funext a; rw [List.countP_map]; rfl
  rw [this] at h3
  rw [C83_bdd_size h2 h3, c1, c2]

end kofn

/-! ## Multi-state diagrams -/

section multi
variable {T U : Type} [DecidableEq T] [Fixed T] {m : Arena T} {V : (Nat → Nat) → Prop} {i : Nat} {emb : T → U}
  {F : (Nat → Nat) → U}

/-- The functions, on the assignments within the ranges, that arise from `F` by fixing all variables above level `k`,
and depend on the variable of level `k`. -/
def SubAt (V : (Nat → Nat) → Prop) (F : (Nat → Nat) → U) (k : Nat) : Set ({a : Nat → Nat // V a} → U) :=
  {G | ∃ b, V b ∧ (∀ a, G a = F (fun l => if l ≤ k then a.1 l else b l)) ∧
    ∃ a a' : {a : Nat → Nat // V a}, (∀ l, l ≠ k → a.1 l = a'.1 l) ∧ G a ≠ G a'}

/-- Node `j` computes `G`. -/
def NodeFn (m : Arena T) (emb : T → U) (j : Nat) (G : {a : Nat → Nat // V a} → U) : Prop :=
  ∀ a, ∃ t, Eval m a.1 j t ∧ G a = emb t

theorem nodeFn_canon (wf : WF RFull m) (inj : m.LevInj) (hV : ∀ a, m.ValidA a ↔ V a) (he : Function.Injective emb)
    {x y : Nat} {G : {a : Nat → Nat // V a} → U} (lx : m.Live x) (ly : m.Live y) (hx : NodeFn m emb x G)
    (hy : NodeFn m emb y G) : x = y := by
  refine wf.canon inj lx ly fun a ha t => ?_
  obtain ⟨t1, e1, g1⟩ := hx ⟨a, (hV a).1 ha⟩
  obtain ⟨t2, e2, g2⟩ := hy ⟨a, (hV a).1 ha⟩
  have : t1 = t2 := he (g1.symm.trans g2)
  subst this
  exact ⟨fun h => by rw [h.det e1]; exact e2, fun h => by rw [h.det e2]; exact e1⟩

theorem mix_valid (hV : ∀ a, m.ValidA a ↔ V a) (k : Nat) {a b : Nat → Nat} (ha : V a) (hb : V b) :
    V (fun l => if l ≤ k then a l else b l) := by
  refine (hV _).1 fun hd hm => ?_
  split
  · exact (hV a).2 ha hd hm
  · exact (hV b).2 hb hd hm

theorem sub_card (wf : WF RFull m) (inj : m.LevInj) (hV : ∀ a, m.ValidA a ↔ V a) (li : m.Live i)
    (he : Function.Injective emb) (hF : ∀ a, V a → ∃ t, Eval m a i t ∧ F a = emb t) {nts : List Nat} (nd : nts.Nodup)
    (hn : ∀ j, j ∈ nts ↔ Reach m i j ∧ ∃ h ch, m.nodes[j]? = some (.nt h ch)) (k : Nat) :
    (SubAt V F k).ncard = (nts.toFinset.filter (fun j => m.rank j = k + 1)).card := by
  classical
  have hex : ∀ j, ∃ G : {a : Nat → Nat // V a} → U, j ∈ nts ∧ m.rank j = k + 1 → NodeFn m emb j G ∧ G ∈ SubAt V F k := by
    intro j
    by_cases hj : j ∈ nts ∧ m.rank j = k + 1
    · obtain ⟨hj, hk⟩ := hj
      obtain ⟨hr, h, ch, hnd⟩ := (hn j).1 hj
      have lj := wf.reach_live hr li
      obtain ⟨b, b1, b2, b3⟩ := wf.reach_dir (m.rank i) i j (Nat.le_refl _) li hr _ wf.valid_zero
      have hb := (hV b).1 b1
      have hG : NodeFn m emb j (fun a : {a : Nat → Nat // V a} => F (fun l => if l ≤ k then a.1 l else b l)) := by
        intro a
        obtain ⟨t, e1, e2⟩ := hF _ (mix_valid hV k a.2 hb)
        refine ⟨t, ?_, e2⟩
        have e3 := (b3 (fun l => if l ≤ k then a.1 l else b l) (fun l h1 h2 => by
          rw [if_neg (by omega)]) t).1 e1
        exact wf.eval_congr lj (fun l hl => by rw [if_pos (by omega)]) e3
      refine ⟨_, fun _ => ⟨hG, b, hb, fun _ => rfl, ?_⟩⟩
      obtain ⟨hd, hh, _⟩ := wf.nt lj hnd
      have hrk := rank_nt hnd hh
      obtain ⟨a, a', t, t', a1, a2, a3, a4, a5, a6⟩ := nt_depends wf inj lj hnd hh
      refine ⟨⟨a, (hV a).1 a1⟩, ⟨a', (hV a').1 a2⟩, fun l hl => a3 l (by omega), fun h => a6 ?_⟩
      obtain ⟨u, u1, u2⟩ := hG ⟨a, (hV a).1 a1⟩
      obtain ⟨u', u3, u4⟩ := hG ⟨a', (hV a').1 a2⟩
      rw [a4.det u1, a5.det u3]
      exact he (u2.symm.trans (h.trans u4))
    · exact ⟨fun _ => F (fun _ => 0), fun h => absurd h hj⟩
  choose g hg using hex
  have himg : SubAt V F k = g '' ((nts.toFinset.filter (fun j => m.rank j = k + 1) : Finset Nat) : Set Nat) := by
    ext G
    simp only [Set.mem_image, Finset.mem_coe, Finset.mem_filter, List.mem_toFinset]
    constructor
    · rintro ⟨b, hb, hG, a, a', haa, hne⟩
      obtain ⟨j, j1, j2, j3⟩ := wf.follow ((hV b).2 hb) (k + 1) _ i (Nat.le_refl _) li
      have lj := wf.reach_live j1 li
      have hNF : NodeFn m emb j G := by
        intro a
        obtain ⟨t, e1, e2⟩ := hF _ (mix_valid hV k a.2 hb)
        refine ⟨t, ?_, (hG a).trans e2⟩
        have e3 := (j3 _ (fun l hl => by rw [if_neg (by omega)]) t).1 e1
        exact wf.eval_congr lj (fun l hl => by rw [if_pos (by omega)]) e3
      have hrk : m.rank j = k + 1 := by
        refine Classical.byContradiction fun hno => hne ?_
        obtain ⟨t, e1, e2⟩ := hNF a
        obtain ⟨t', e3, e4⟩ := hNF a'
        have := (wf.eval_congr lj (fun l hl => haa l (by omega)) e1).det e3
        rw [e2, e4, this]
      have hj : j ∈ nts := by
        refine (hn j).2 ⟨j1, ?_⟩
        obtain ⟨nd, hnd⟩ := lj.node
        cases nd with
        | nt h ch => exact ⟨h, ch, hnd⟩
        | term t => simp [rank, level?, hnd] at hrk
      refine ⟨j, ⟨hj, hrk⟩, ?_⟩
      funext c
      obtain ⟨t, e1, e2⟩ := hNF c
      obtain ⟨t', e3, e4⟩ := (hg j ⟨hj, hrk⟩).1 c
      rw [e2, e4, e1.det e3]
    · rintro ⟨j, hj, rfl⟩
      exact (hg j hj).2
  rw [himg, Set.InjOn.ncard_image, Set.ncard_coe_finset]
  intro x hx y hy hxy
  simp only [Finset.mem_coe, Finset.mem_filter, List.mem_toFinset] at hx hy
  have a1 := (hg x hx).1
  rw [hxy] at a1
  exact nodeFn_canon wf inj hV he (wf.reach_live ((hn x).1 hx.1).1 li) (wf.reach_live ((hn y).1 hy.1).1 li) a1 (hg y hy).1

theorem val_card (wf : WF RFull m) (inj : m.LevInj) (hV : ∀ a, m.ValidA a ↔ V a) (li : m.Live i)
    (he : Function.Injective emb) (hF : ∀ a, V a → ∃ t, Eval m a i t ∧ F a = emb t) {ts : List Nat} (nd : ts.Nodup)
    (ht : ∀ j, j ∈ ts ↔ Reach m i j ∧ ∃ t, m.nodes[j]? = some (.term t)) :
    {u | ∃ a, V a ∧ F a = u}.ncard = ts.length := by
  classical
  have hex : ∀ j, ∃ u : U, j ∈ ts → ∃ t, m.nodes[j]? = some (.term t) ∧ u = emb t := by
    intro j
    by_cases hj : j ∈ ts
    · obtain ⟨hr, t, hnd⟩ := (ht j).1 hj
      exact ⟨emb t, fun _ => ⟨t, hnd, rfl⟩⟩
    · exact ⟨F (fun _ => 0), fun h => absurd h hj⟩
  choose g hg using hex
  have himg : {u | ∃ a, V a ∧ F a = u} = g '' ((ts.toFinset : Finset Nat) : Set Nat) := by
    ext u
    simp only [Set.mem_image, Finset.mem_coe, List.mem_toFinset, Set.mem_ofPred_eq]
    constructor
    · rintro ⟨a, ha, rfl⟩
      obtain ⟨j, j1, j2, j3⟩ := wf.follow ((hV a).2 ha) 0 _ i (Nat.le_refl _) li
      obtain ⟨t, e1, e2⟩ := hF a ha
      have e3 := (j3 a (fun _ _ => rfl) t).1 e1
      have lj := wf.reach_live j1 li
      obtain ⟨nd, hnd⟩ := lj.node
      cases nd with
      | nt h ch =>
        obtain ⟨hd, hh, _⟩ := wf.nt lj hnd
        have := rank_nt hnd hh
        omega
      | term t' =>
        have hj : j ∈ ts := (ht j).2 ⟨j1, t', hnd⟩
        obtain ⟨t2, h2, h3⟩ := hg j hj
        rw [hnd] at h2
        simp only [Option.some.injEq, Node.term.injEq] at h2
        rw [eval_term_iff hnd] at e3
        exact ⟨j, hj, by rw [h3, e2, ← h2, e3]⟩
    · rintro ⟨j, hj, rfl⟩
      obtain ⟨t, hnd, e⟩ := hg j hj
      obtain ⟨hr, _⟩ := (ht j).1 hj
      obtain ⟨b, b1, b2, b3⟩ := wf.reach_dir (m.rank i) i j (Nat.le_refl _) li hr _ wf.valid_zero
      have e1 := (b3 b (fun _ _ _ => rfl) t).2 (.term hnd)
      obtain ⟨t', e2, e3⟩ := hF b ((hV b).1 b1)
      exact ⟨b, (hV b).1 b1, by rw [e3, e, e2.det e1]⟩
  rw [himg, Set.InjOn.ncard_image, Set.ncard_coe_finset, List.toFinset_card_of_nodup nd]
  intro x hx y hy hxy
  simp only [Finset.mem_coe, List.mem_toFinset] at hx hy
  obtain ⟨t, h1, h2⟩ := hg x hx
  obtain ⟨t', h3, h4⟩ := hg y hy
  rw [h2, h4] at hxy
  cases he hxy
  exact wf.canon inj (wf.reach_live ((ht x).1 hx).1 li) (wf.reach_live ((ht y).1 hy).1 li) fun a _ t => by
    rw [eval_term_iff h1, eval_term_iff h3]

theorem size_sub (wf : WF RFull m) (inj : m.LevInj) {vs : List (String × Nat)} (hh : m.headers = mkH vs)
    (hV : ∀ a, m.ValidA a ↔ V a) (li : m.Live i) (he : Function.Injective emb)
    (hF : ∀ a, V a → ∃ t, Eval m a i t ∧ F a = emb t) {r : Nat × Nat × Nat} (hr : SizeSpec m i r) :
    r = (∑ k ∈ Finset.range vs.length, (SubAt V F k).ncard, {u | ∃ a, V a ∧ F a = u}.ncard,
      ∑ k ∈ Finset.range vs.length, ((vs[k]?.map (·.2)).getD 0) * (SubAt V F k).ncard) := by
  classical
  obtain ⟨nts, ts, n1, t1, n2, t2, rfl⟩ := hr
  have key : ∀ j ∈ nts, m.rank j - 1 < vs.length ∧ 0 < m.rank j ∧
      ((m.nodes[j]?.map (·.kids)).getD []).length = (vs[m.rank j - 1]?.map (·.2)).getD 0 := by
    intro j hj
    obtain ⟨hr, h, ch, hnd⟩ := (n2 j).1 hj
    obtain ⟨hd, h1, hlen, hrk, _⟩ := wf.nt (wf.reach_live hr li) hnd
    have h1' := h1
    rw [hh, mkH_get] at h1'
    obtain ⟨p, hp, rfl⟩ := h1'
    have hk := rank_nt hnd h1
    simp only at hk
    have hlt := (List.getElem?_eq_some_iff.1 hp).1
    refine ⟨by omega, by omega, ?_⟩
    rw [hk, Nat.add_sub_cancel, hp, hnd]
    simpa [Node.kids] using hlen
  have maps : ∀ j ∈ nts.toFinset, m.rank j - 1 ∈ Finset.range vs.length := fun j hj =>
    Finset.mem_range.2 (key j (List.mem_toFinset.1 hj)).1
  have hfil : ∀ k, nts.toFinset.filter (fun j => m.rank j - 1 = k) = nts.toFinset.filter (fun j => m.rank j = k + 1) := by
    intro k
    refine Finset.filter_congr fun j hj => ?_
    have := (key j (List.mem_toFinset.1 hj)).2.1
    omega
  refine Prod.ext ?_ (Prod.ext (val_card wf inj hV li he hF t1 t2).symm ?_)
  · simp only
    rw [← List.toFinset_card_of_nodup n1, Finset.card_eq_sum_card_fiberwise maps]
    refine Finset.sum_congr rfl fun k _ => ?_
    rw [hfil, sub_card wf inj hV li he hF n1 n2]
  · simp only
    rw [← List.sum_toFinset _ n1, ← Finset.sum_fiberwise_of_maps_to maps]
    refine Finset.sum_congr rfl fun k _ => ?_
    rw [sub_card wf inj hV li he hF n1 n2, ← hfil, Finset.sum_congr rfl (g := fun _ => (vs[k]?.map (·.2)).getD 0)
      (fun j hj => by
        obtain ⟨h1, h2⟩ := Finset.mem_filter.1 hj
        rw [(key j (List.mem_toFinset.1 h1)).2.2, h2]), Finset.sum_const, smul_eq_mul, Nat.mul_comm]

end multi

/-- **C83.** The non-terminal nodes of a multi-state diagram are, level by level, the subfunctions; the terminals are
the values; and a node has as many edges as its variable has states. -/
theorem C83_mdd_size {w : MWorld} (hw : w.Reachable) {vs : List (String × Nat)} (hv : MVars w vs) {f : Nat} {F : MFun}
    (hf : w.Has f F) :
    w.nodeSize f = some (∑ k ∈ Finset.range vs.length, (SubAt (ValidV vs) F k).ncard,
      {u | ∃ a, ValidV vs a ∧ F a = u}.ncard,
      ∑ k ∈ Finset.range vs.length, ((vs[k]?.map (·.2)).getD 0) * (SubAt (ValidV vs) F k).ncard) := by
  obtain ⟨vs', R⟩ := hw.rel
  obtain ⟨x, hx, hD⟩ := hf
  obtain ⟨r, h1, h2, h3⟩ := C40_size hw hx
  rw [h1]
  congr 1
  have hs := R.mok.inv
  have inj := R.mok.inj
  have va := fun a => validA_iff (e := w.mgr.w.eng) hv (a := a)
  cases x with
  | bool i =>
    refine size_sub (emb := MVal.b) hs.b.wf inj hv va hD.live (fun _ _ h => by cases h; rfl) (fun a ha => ?_) (h3 i rfl)
    have := hD.val a ((va a).2 ha)
    cases hF : F a with
    | b t => rw [hF] at this; exact ⟨t, this, rfl⟩
    | v t => rw [hF] at this; exact this.elim
  | value i =>
    have inj' : w.mgr.w.eng.mtmdd.arena.LevInj := by
      intro i j hd hd' h1 h2 hl
      rw [← hs.hdr] at h1 h2
      exact inj i j hd hd' h1 h2 hl
    refine size_sub (emb := MVal.v) hs.v.wf inj' (hs.hdr.symm.trans hv) (fun a => hs.valid.trans (va a)) hD.live
      (fun _ _ h => by cases h; rfl) (fun a ha => ?_) (h2 i rfl)
    have := hD.val a ((va a).2 ha)
    cases hF : F a with
    | v t => rw [hF] at this; exact ⟨t, this, rfl⟩
    | b t => rw [hF] at this; exact this.elim

/-! ## Concrete cases -/

/-- `2`-of-`4`: six non-terminal nodes, two terminals, twelve edges. -/
def kofnDemo : List Cmd := [.defvar "a", .defvar "b", .defvar "c", .defvar "d", .kofn 2 [3, 1, 0, 2]]

example : (World.new.run kofnDemo).bind (fun p => p.2.bddSize 4) = some (2 * (4 - 2 + 1), 2, 2 * (2 * (4 - 2 + 1))) := by
  decide +kernel

example : [3, 1, 0, 2].Nodup ∧ 1 ≤ 2 ∧ 2 ≤ [3, 1, 0, 2].length := by decide

/-- `(a ∧ b) ∨ (c ∧ d)` in the orders `a b c d` and `a c b d`: as many nodes as subfunctions, which depend on the
order. -/
def pairsA : List Cmd := [.defvar "a", .defvar "b", .defvar "c", .defvar "d", .and 0 1, .and 2 3, .or 4 5]
def pairsB : List Cmd := [.defvar "a", .defvar "c", .defvar "b", .defvar "d", .and 0 2, .and 1 3, .or 4 5]

example : (World.new.run pairsA).bind (fun p => p.2.bddSize 6) = some (4, 2, 8) ∧
    (World.new.run pairsB).bind (fun p => p.2.bddSize 6) = some (6, 2, 12) := by
  decide +kernel

/-- A subfunction: fixing the top two variables of `(a ∧ b) ∨ (c ∧ d)` to 0 leaves `a ∧ b`, which depends on `b`. -/
example : (fun a => a 0 && a 1) ∈ Subfns (fun a => (a 0 && a 1) || (a 2 && a 3)) := by
  refine ⟨1, fun _ => false, ?_, fun _ => true, by simp [Function.update]⟩
  funext a
  simp [fixFrom]

/-- `x + y` (ternary `x` below binary `y`) and `x + y ≥ 2`. -/
example : (mrun MWorld.new manalysis).bind (fun p => p.2.nodeSize 0) = some (3, 4, 8) ∧
    (mrun MWorld.new manalysis).bind (fun p => p.2.nodeSize 1) = some (3, 2, 8) := by
  decide +kernel

/-- Fixing `y = 1` in `x + y` leaves `x + 1`, which depends on `x`. -/
example : (fun a => MVal.v (some (a.1 0 + 1))) ∈
    SubAt (ValidV [("x", 3), ("y", 2)]) (fun a => MVal.v (some ((a 0 : Int) + (a 1 : Int)))) 0 := by
  have hv : ∀ n, n < 2 → ValidV [("x", 3), ("y", 2)] (fun l => if l = 0 then n else 1) := by
    intro n hn i x r h
    rcases i with _ | _ | i
    · simp at h; obtain ⟨_, rfl⟩ := h; simp; omega
    · simp at h; obtain ⟨_, rfl⟩ := h; simp
    · simp at h
  refine ⟨_, hv 1 (by omega), fun a => by simp, ⟨_, hv 0 (by omega)⟩, ⟨_, hv 1 (by omega)⟩, fun l hl => by simp [hl], ?_⟩
  simp

end DD.Props
