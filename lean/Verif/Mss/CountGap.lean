import Verif.Mss.CountOk

/-!
# What `bmdd_count` returns

Its memo is keyed by the node alone (/repo/mss/src/mdd_count.rs:194), so a node that is reached from different levels
keeps the count of the level from which it was reached first.
-/

set_option autoImplicit false
set_option linter.unusedSectionVars false
set_option linter.unusedVariables false

namespace DD
open Arena
namespace Mda
variable {T : Type} [DecidableEq T] [Fixed T] {m : Arena T} {R' : List Nat → Prop}

/-- Number of assignments of the levels from `lo` up to below `n`. -/
def gap (rng : Nat → Nat) (lo n : Nat) : Nat := ∏ k ∈ Finset.Ico lo n, rng k

theorem gap_self (rng : Nat → Nat) (n : Nat) : gap rng n n = 1 := by simp [gap]

theorem gap_succ (rng : Nat → Nat) {lo n : Nat} (h : lo ≤ n) : gap rng lo (n + 1) = rng n * gap rng lo n := by
  unfold gap
  rw [Finset.prod_Ico_succ_top h, Nat.mul_comm]

/-- The node `j` of the diagram at `root` is reached with `n` levels below: it is the root and `n` its own levels, or an
edge from a node with `n` levels below that node's own leads to it. -/
def Arrives (m : Arena T) (root j n : Nat) : Prop :=
  (j = root ∧ n = m.rank root) ∨
    ∃ p h ch, Reach m root p ∧ m.nodes[p]? = some (.nt h ch) ∧ j ∈ ch ∧ m.rank p = n + 1

/-- The count of node `i` over its own levels, from the values `V` of its children. -/
def Base (m : Arena T) (s : Sel T) (V : Nat → Nat) (i b : Nat) : Prop :=
  match m.nodes[i]? with
  | some (.term t) => b = if s.sel t then 1 else 0
  | some (.nt _ ch) => b = (ch.map V).sum
  | none => False

/-- The same over the memo `c`, which has the children. -/
def BaseC (m : Arena T) (s : Sel T) (c : AMap Nat Nat) (i b : Nat) : Prop :=
  Base m s (fun k => (c.get k).getD 0) i b ∧ ∀ h ch, m.nodes[i]? = some (.nt h ch) → ∀ k ∈ ch, (c.get k).isSome

/-- Each entry of the memo is the count of its node at some level at which it is reached. -/
def GInv (m : Arena T) (s : Sel T) (rng : Nat → Nat) (root : Nat) (c : AMap Nat Nat) : Prop :=
  ∀ j r, c.get j = some r → ∃ n b, Arrives m root j n ∧ m.rank j ≤ n ∧ BaseC m s c j b ∧ r = gap rng (m.rank j) n * b

def Sub (c c' : AMap Nat Nat) : Prop := ∀ j r, c.get j = some r → c'.get j = some r

theorem BaseC.congr {s : Sel T} {c c' : AMap Nat Nat} {i b : Nat} (h : BaseC m s c i b)
    (he : ∀ hh ch, m.nodes[i]? = some (.nt hh ch) → ∀ k ∈ ch, c'.get k = c.get k) : BaseC m s c' i b := by
  obtain ⟨h1, h2⟩ := h
  refine ⟨?_, fun hh ch hn k hk => by rw [he hh ch hn k hk]; exact h2 hh ch hn k hk⟩
  unfold Base at h1 ⊢
  cases hn : m.nodes[i]? with
  | none => rw [hn] at h1; exact h1
  | some nd =>
    rw [hn] at h1
    cases nd with
    | term t => exact h1
    | nt hh ch =>
      simp only at h1 ⊢
      rw [h1]
      congr 1
      exact List.map_congr_left fun k hk => by rw [he hh ch hn k hk]

theorem BaseC.sub {s : Sel T} {c c' : AMap Nat Nat} {i b : Nat} (h : BaseC m s c i b) (hs : Sub c c') :
    BaseC m s c' i b := by
  refine h.congr fun hh ch hn k hk => ?_
  obtain ⟨r, hr⟩ := Option.isSome_iff_exists.1 (h.2 hh ch hn k hk)
  rw [hr, hs k r hr]

/-- What a call does that finds no entry. -/
def Raw (m : Arena T) (s : Sel T) (rng : Nat → Nat) (root : Nat) (lv : Option Nat) (i : Nat) (c : AMap Nat Nat)
    (res : Option (Nat × AMap Nat Nat)) : Prop :=
  ∃ b c1 c', res = some (gap rng (m.rank i) (Bdd.depth lv) * b, c') ∧ GInv m s rng root c1 ∧ Sub c c1 ∧
    c1.get i = none ∧ (∀ j, m.rank i ≤ m.rank j → c1.get j = c.get j) ∧ BaseC m s c1 i b ∧
    ∀ j, c'.get j = if j = i then some (gap rng (m.rank i) (Bdd.depth lv) * b) else c1.get j

/-- What any call does. -/
def Main (m : Arena T) (s : Sel T) (rng : Nat → Nat) (root i : Nat) (c : AMap Nat Nat)
    (res : Option (Nat × AMap Nat Nat)) : Prop :=
  ∃ r c', res = some (r, c') ∧ c'.get i = some r ∧ GInv m s rng root c' ∧ Sub c c' ∧
    ∀ j, m.rank i < m.rank j → c'.get j = c.get j

theorem Raw.main (wf : WF R' m) {s : Sel T} {rng : Nat → Nat} {root : Nat} {lv : Option Nat} {i : Nat}
    {c : AMap Nat Nat} {res : Option (Nat × AMap Nat Nat)} (hi : m.Live i) (hr : m.rank i ≤ Bdd.depth lv)
    (ha : Arrives m root i (Bdd.depth lv)) (hn : c.get i = none) (h : Raw m s rng root lv i c res) :
    Main m s rng root i c res := by
  obtain ⟨b, c1, c', h1, h2, h3, h4, h5, h6, h7⟩ := h
  have hsub : Sub c1 c' := by
    intro j r hj
    rw [h7, if_neg (by rintro rfl; rw [h4] at hj; cases hj)]
    exact hj
  refine ⟨_, c', h1, by rw [h7, if_pos rfl], ?_, fun j r hj => hsub j r (h3 j r hj), ?_⟩
  · intro j r hj
    rw [h7] at hj
    split at hj
    · rename_i e
      subst e
      cases hj
      exact ⟨_, b, ha, hr, h6.sub hsub, rfl⟩
    · obtain ⟨n, b', k1, k2, k3, k4⟩ := h2 j r hj
      exact ⟨n, b', k1, k2, k3.sub hsub, k4⟩
  · intro j hj
    rw [h7, if_neg (by rintro rfl; omega)]
    exact h5 j (by omega)

theorem foldG {s : Sel T} {rng : Nat → Nat} {root : Nat} {f : Nat → AMap Nat Nat → Option (Nat × AMap Nat Nat)} {n : Nat} :
    ∀ {as : List Nat}, (∀ a ∈ as, m.rank a < n ∧ ∀ c, GInv m s rng root c → Main m s rng root a c (f a c)) →
    ∀ {c : AMap Nat Nat}, GInv m s rng root c →
    ∃ c', foldKids f as c = some (as.map (fun k => (c'.get k).getD 0), c') ∧ GInv m s rng root c' ∧ Sub c c' ∧
      (∀ k ∈ as, (c'.get k).isSome) ∧ ∀ j, n ≤ m.rank j → c'.get j = c.get j := by
  intro as
  induction as with
  | nil => intro _ c hc; exact ⟨c, rfl, hc, fun _ _ h => h, by simp, fun _ _ => rfl⟩
  | cons a as ih =>
    intro h c hc
    obtain ⟨ha, hm⟩ := h a List.mem_cons_self
    obtain ⟨r, c1, h1, h2, h3, h4, h5⟩ := hm c hc
    obtain ⟨c2, k1, k2, k3, k4, k5⟩ := ih (fun b hb => h b (List.mem_cons_of_mem _ hb)) h3
    have he := k3 a r h2
    refine ⟨c2, ?_, k2, fun j r hj => k3 j r (h4 j r hj), ?_, fun j hj => ?_⟩
    · simp only [foldKids, h1, k1, List.map_cons, he, Option.getD_some]
    · intro k hk
      rcases List.mem_cons.1 hk with rfl | hk
      · rw [he]; rfl
      · exact k4 k hk
    · rw [k5 j hj, h5 j (by omega)]

theorem countG (wf : WF R' m) {s : Sel T} (hs : ∀ t, s.und t = true → s.sel t = false) {rng : Nat → Nat}
    (hrng : RngOK m rng) {l2h : List Nat} {N root : Nat}
    (hl2h : ∀ l, l < N → ∃ h hd, l2h[l]? = some h ∧ m.headers[h]? = some hd ∧ hd.level = l) :
    ∀ (fuel : Nat) (lv : Option Nat) (i : Nat) (c : AMap Nat Nat), Reach m root i → m.Live i →
      m.rank i ≤ Bdd.depth lv → Bdd.depth lv ≤ N → Bdd.depth lv < fuel → GInv m s rng root c → c.get i = none →
      Raw m s rng root lv i c (countF (fun i _ => i) m s l2h fuel lv i c) := by
  intro fuel
  induction fuel with
  | zero => intro lv i c _ _ _ _ h; omega
  | succ n ih =>
    intro lv i c hreach hi hr hN hf hc hg
    obtain ⟨nd, hn⟩ := hi.node
    have skip : m.rank i < Bdd.depth lv →
        ∃ l h hd b c1 c', lv = some l ∧ l2h[l]? = some h ∧ m.headers[h]? = some hd ∧
          countF (fun i _ => i) m s l2h n (Bdd.pred? lv) i c = some (gap rng (m.rank i) l * b, c') ∧
          hd.edgeNum * (gap rng (m.rank i) l * b) = gap rng (m.rank i) (Bdd.depth lv) * b ∧
          GInv m s rng root c1 ∧ Sub c c1 ∧ c1.get i = none ∧ (∀ j, m.rank i ≤ m.rank j → c1.get j = c.get j) ∧
          BaseC m s c1 i b ∧ ∀ j, c'.get j = if j = i then some (gap rng (m.rank i) l * b) else c1.get j := by
      intro hlt
      cases lv with
      | none => simp [Bdd.depth] at hlt
      | some l =>
        have hlt' : m.rank i < l + 1 := hlt
        have hN' : l + 1 ≤ N := hN
        have hf' : l + 1 < n + 1 := hf
        obtain ⟨h, hd, g1, g2, g3⟩ := hl2h l (by omega)
        obtain ⟨b, c1, c', k1, k2, k3, k4, k5, k6, k7⟩ := ih (Bdd.pred? (some l)) i c hreach hi
          (by rw [Bdd.depth_pred]; omega) (by rw [Bdd.depth_pred]; omega) (by rw [Bdd.depth_pred]; omega) hc hg
        rw [Bdd.depth_pred] at k1
        simp only [Bdd.depth_pred] at k7
        refine ⟨l, h, hd, b, c1, c', rfl, g1, g2, k1, ?_, k2, k3, k4, k5, k6, k7⟩
        show _ = gap rng (m.rank i) (l + 1) * b
        rw [gap_succ rng (by omega), hrng hd (List.mem_of_getElem? g2), g3, Nat.mul_assoc]
    have fin : ∀ {l : Nat} {b : Nat} {c1 c' : AMap Nat Nat}, lv = some l →
        GInv m s rng root c1 → Sub c c1 → c1.get i = none → (∀ j, m.rank i ≤ m.rank j → c1.get j = c.get j) →
        BaseC m s c1 i b → (∀ j, c'.get j = if j = i then some (gap rng (m.rank i) l * b) else c1.get j) →
        Raw m s rng root lv i c (some (gap rng (m.rank i) (Bdd.depth lv) * b,
          c'.insert i (gap rng (m.rank i) (Bdd.depth lv) * b))) := by
      intro l b c1 c' _ k2 k3 k4 k5 k6 k7
      refine ⟨b, c1, _, rfl, k2, k3, k4, k5, k6, fun j => ?_⟩
      rw [AMap.get_insert]
      by_cases e : j = i
      · rw [if_pos e, if_pos e.symm]
      · rw [if_neg e, if_neg (Ne.symm e), k7, if_neg e]
    have ins : ∀ {b : Nat} {c1 : AMap Nat Nat}, GInv m s rng root c1 → Sub c c1 → c1.get i = none →
        (∀ j, m.rank i ≤ m.rank j → c1.get j = c.get j) → BaseC m s c1 i b →
        Raw m s rng root lv i c (some (gap rng (m.rank i) (Bdd.depth lv) * b,
          c1.insert i (gap rng (m.rank i) (Bdd.depth lv) * b))) := by
      intro b c1 k2 k3 k4 k5 k6
      refine ⟨b, c1, _, rfl, k2, k3, k4, k5, k6, fun j => ?_⟩
      rw [AMap.get_insert]
      by_cases e : j = i
      · rw [if_pos e, if_pos e.symm]
      · rw [if_neg e, if_neg (Ne.symm e)]
    cases nd with
    | term t =>
      have hrk := rank_term hn
      have hb : BaseC m s c i (if s.sel t then 1 else 0) :=
        ⟨by unfold Base; rw [hn], fun h ch h' => by rw [hn] at h'; cases h'⟩
      by_cases hu : s.und t = true
      · have := ins hc (fun _ _ h => h) hg (fun _ _ => rfl) hb
        rw [hs t hu] at this
        simp only [Bool.false_eq_true, if_false, Nat.mul_zero] at this
        simp only [countF, hg, hn, if_pos hu]
        exact this
      · by_cases ha : above m lv i = true
        · obtain ⟨l, h, hd, b, c1, c', rfl, g1, g2, k1, k2, k3⟩ := skip (above_iff.1 ha)
          obtain ⟨k3, k4, k5, k6, k7, k8⟩ := k3
          have := fin rfl k3 k4 k5 k6 k7 k8
          simp only [countF, hg, hn, if_neg hu, if_pos ha, g1, g2, k1, k2]
          exact this
        · have hd0 : Bdd.depth lv = 0 := by
            have : ¬ m.rank i < Bdd.depth lv := fun h => ha (above_iff.2 h)
            omega
          have := ins hc (fun _ _ h => h) hg (fun _ _ => rfl) hb
          rw [hrk, hd0, gap_self, Nat.one_mul] at this
          simp only [countF, hg, hn, if_neg hu, if_neg ha]
          exact this
    | nt h ch =>
      by_cases ha : above m lv i = true
      · obtain ⟨l, h, hd, b, c1, c', rfl, g1, g2, k1, k2, k3⟩ := skip (above_iff.1 ha)
        obtain ⟨k3, k4, k5, k6, k7, k8⟩ := k3
        have := fin rfl k3 k4 k5 k6 k7 k8
        simp only [countF, hg, hn, if_pos ha, g1, g2, k1, k2]
        exact this
      · obtain ⟨hd, hh, hlen, hrk, _, _, hkk⟩ := wf.nt hi hn
        have hna : ¬ m.rank i < Bdd.depth lv := fun h => ha (above_iff.2 h)
        have hdp : Bdd.depth lv = m.rank i := by omega
        obtain ⟨l, rfl⟩ : ∃ l, lv = some l := by
          cases lv with
          | none => simp [Bdd.depth] at hdp; omega
          | some l => exact ⟨l, rfl⟩
        have hl : l + 1 = m.rank i := hdp
        obtain ⟨c1, h1, h2, h3, h4, h5⟩ := foldG (m := m) (n := m.rank i)
          (f := countF (fun i _ => i) m s l2h n (Bdd.pred? (some l))) (as := ch)
          (fun x hx => by
            obtain ⟨lc, rc⟩ := hkk x hx
            refine ⟨by omega, fun cc hcc => ?_⟩
            have hr' : m.rank x ≤ Bdd.depth (Bdd.pred? (some l)) := by rw [Bdd.depth_pred]; omega
            have hf' : l + 1 < n + 1 := hf
            cases hx' : cc.get x with
            | some r =>
              obtain ⟨n', rfl⟩ : ∃ n', n = n' + 1 := ⟨n - 1, by omega⟩
              exact ⟨r, cc, by simp only [countF, hx'], hx', hcc, fun _ _ h => h, fun _ _ => rfl⟩
            | none =>
              have hN' : l + 1 ≤ N := hN
              refine Raw.main wf lc hr' (.inr ⟨i, h, ch, hreach, hn, hx, by rw [Bdd.depth_pred]; omega⟩) hx'
                (ih _ x cc (hreach.step hn hx) lc hr' (by rw [Bdd.depth_pred]; omega)
                  (by rw [Bdd.depth_pred]; omega) hcc hx')) hc
        have hb : BaseC m s c1 i (ch.map (fun k => (c1.get k).getD 0)).sum :=
          ⟨by unfold Base; rw [hn], fun h' ch' h'' => by rw [hn] at h''; cases h''; exact h4⟩
        have := ins h2 h3 (by rw [h5 i (Nat.le_refl _), hg]) (fun j hj => h5 j hj) hb
        rw [hdp, gap_self, Nat.one_mul] at this
        simp only [countF, hg, hn, if_neg ha, h1]
        exact this

/-- **What `bmdd_count` returns**: a count in which each node is counted for one of the levels at which it is reached. -/
theorem count_gap (wf : WF R' m) {vs : List (String × Nat)} (hm : m.headers = mkH vs) {s : Sel T}
    (hs : ∀ t, s.und t = true → s.sel t = false) {i : Nat} (hi : m.Live i) (hr : 0 < m.rank i) :
    ∃ V : Nat → Nat, count (fun i _ => i) m s i = some (V i) ∧ ∀ j, Reach m i j → ∃ n b, Arrives m i j n ∧
      m.rank j ≤ n ∧ Base m s V j b ∧ V j = gap (rngOf vs) (m.rank j) n * b := by
  have hd := depth_level m i
  obtain ⟨l, hl⟩ : ∃ l, m.level? i = some l := by
    cases h : m.level? i with
    | none => rw [h] at hd; simp only [Bdd.depth] at hd; omega
    | some l => exact ⟨l, rfl⟩
  obtain ⟨l2h, e1, e2⟩ := fillL2H_ok m.headers 0 (List.replicate m.headers.length 0) (by
    intro j hd hj
    rw [hm, mkH_get] at hj
    obtain ⟨p, _, rfl⟩ := hj
    simp) (by simp)
  have hrk := rank_le_vs wf hm hi
  have hraw := countG wf hs (rngOK hm) (l2h := l2h) (N := vs.length) (root := i) (by
    intro l hl
    have hp : vs[l]? = some vs[l] := List.getElem?_eq_getElem hl
    refine ⟨l, ⟨l, vs[l].1, vs[l].2⟩, ?_, by rw [hm, mkH_get]; exact ⟨_, hp, rfl⟩, rfl⟩
    rw [e2, hm, mkH_length, if_pos (by omega)]) (m.rank i + 1) (m.level? i) i AMap.empty (.refl _) hi
    (by omega) (by omega) (by omega) (by intro j r h; cases h) rfl
  obtain ⟨r, c', h1, h2, h3, _, _⟩ := hraw.main wf hi (by omega) (.inl ⟨rfl, hd⟩) rfl
  refine ⟨fun k => (c'.get k).getD 0, ?_, fun j hj => ?_⟩
  · unfold count
    rw [hl] at h1 ⊢
    simp only [e1, h1, Option.map_some, h2, Option.getD_some]
  · have hin : ∀ j, Reach m i j → (c'.get j).isSome := by
      intro j hj
      induction hj with
      | refl => rw [h2]; rfl
      | step _ hn hc ih =>
        obtain ⟨r, hr⟩ := Option.isSome_iff_exists.1 ih
        obtain ⟨n, b, _, _, k3, _⟩ := h3 _ r hr
        exact k3.2 _ _ hn _ hc
    obtain ⟨r, hr⟩ := Option.isSome_iff_exists.1 (hin j hj)
    obtain ⟨n, b, k1, k2, k3, k4⟩ := h3 j r hr
    exact ⟨n, b, k1, k2, k3.1, by simp only [hr, Option.getD_some, k4]⟩

/-- The count of a node over `n` levels, from the counts of its children. -/
theorem cnt_base (wf : WF R' m) {s : Sel T} {rng : Nat → Nat} (hrng : RngOK m rng) {i : Nat} (hi : m.Live i) {n : Nat}
    (hn : m.rank i ≤ n) : cnt m s rng i n = gap rng (m.rank i) n * cnt m s rng i (m.rank i) := by
  induction n, hn using Nat.le_induction with
  | base => rw [gap_self, Nat.one_mul]
  | succ n hn ih => rw [cnt_skip wf s rng hi hn, ih, gap_succ rng hn, Nat.mul_assoc]

/-- Each node that counts is reached at one level only. -/
def OneGap (m : Arena T) (s : Sel T) (root : Nat) : Prop :=
  ∀ j n n', Arrives m root j n → Arrives m root j n' →
    n = n' ∨ ∃ t, m.nodes[j]? = some (.term t) ∧ s.sel t = false

/-- Then the count is right. -/
theorem count_oneGap (wf : WF R' m) {vs : List (String × Nat)} (hm : m.headers = mkH vs) {s : Sel T}
    (hs : ∀ t, s.und t = true → s.sel t = false) {i : Nat} (hi : m.Live i) (hr : 0 < m.rank i) (hg : OneGap m s i) :
    count (fun i _ => i) m s i = some (cnt m s (rngOf vs) i (m.rank i)) := by
  obtain ⟨V, h1, h2⟩ := count_gap wf hm hs hi hr
  have hrng := rngOK hm
  have key : ∀ (k j : Nat), m.rank j ≤ k → Reach m i j → ∀ n, Arrives m i j n → m.rank j ≤ n →
      V j = cnt m s (rngOf vs) j n := by
    intro k
    induction k with
    | zero =>
      intro j hk hj n ha hle
      have lj := wf.reach_live hj hi
      obtain ⟨n', b, a1, a2, a3, a4⟩ := h2 j hj
      obtain ⟨nd, hn⟩ := lj.node
      cases nd with
      | nt h ch => obtain ⟨hd, _, _, hrk, _⟩ := wf.nt lj hn; omega
      | term t =>
        unfold Base at a3
        rw [hn] at a3
        simp only at a3
        rw [a4, a3]
        rcases hg j n n' ha a1 with rfl | ⟨t', ht', hsel⟩
        · have : cnt m s (rngOf vs) j (m.rank j) = if s.sel t then 1 else 0 := by
            rw [rank_term hn]; exact msum_term s _ _ hn
          rw [cnt_base wf hrng lj hle, this]
        · rw [hn] at ht'; cases ht'
          rw [cnt_undet s _ hn hsel, hsel]; simp
    | succ k ih =>
      intro j hk hj n ha hle
      have lj := wf.reach_live hj hi
      obtain ⟨n', b, a1, a2, a3, a4⟩ := h2 j hj
      obtain ⟨nd, hn⟩ := lj.node
      cases nd with
      | term t => exact ih j (by rw [rank_term hn]; omega) hj n ha hle
      | nt h ch =>
        obtain ⟨hd, hh, _, hrk, _, _, hkk⟩ := wf.nt lj hn
        unfold Base at a3
        rw [hn] at a3
        simp only at a3
        rcases hg j n n' ha a1 with rfl | ⟨t', ht', hsel⟩
        · rw [a4, a3, cnt_base wf hrng lj hle]
          congr 1
          rw [hrk, cnt_node wf s hrng lj hn hh]
          congr 1
          refine List.map_congr_left fun x hx => ?_
          obtain ⟨lx, rx⟩ := hkk x hx
          exact ih x (by omega) (hj.step hn hx) hd.level (.inr ⟨j, h, ch, hj, hn, hx, hrk⟩) (by omega)
        · rw [hn] at ht'; cases ht'
  rw [h1, key _ i (Nat.le_refl _) (.refl _) _ (.inl ⟨rfl, rfl⟩) (Nat.le_refl _)]

end Mda
end DD
