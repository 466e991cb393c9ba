import Verif.Mss.ProbOk
import Verif.Bss.PathOk

/-!
# Correctness of `mdd_count` and `mdd_extract`
-/

set_option autoImplicit false
set_option linter.unusedSectionVars false
set_option linter.unusedVariables false

namespace DD
open Arena
namespace Mda
variable {T : Type} [DecidableEq T] [Fixed T] {m : Arena T} {R' : List Nat → Prop}

/-- Number of satisfying assignments of the levels below `n`. -/
noncomputable def cnt (m : Arena T) (s : Sel T) (rng : Nat → Nat) (i n : Nat) : Nat :=
  msum rng (fun _ _ => 1) n (sind Nat m s i)

theorem depth_level (m : Arena T) (i : Nat) : Bdd.depth (m.level? i) = m.rank i := by
  unfold Bdd.depth rank
  cases m.level? i <;> rfl

theorem above_iff {lv : Option Nat} {i : Nat} : above m lv i = true ↔ m.rank i < Bdd.depth lv := by
  unfold above
  rw [depth_level, decide_eq_true_eq]

theorem cnt_skip (wf : WF R' m) (s : Sel T) (rng : Nat → Nat) {i n : Nat} (hi : m.Live i) (hr : m.rank i ≤ n) :
    cnt m s rng i (n + 1) = rng n * cnt m s rng i n := by
  unfold cnt
  rw [msum_skip wf s rng _ hi hr]
  simp

theorem cnt_node (wf : WF R' m) (s : Sel T) {rng : Nat → Nat} (hrng : RngOK m rng) {i h : Nat} {ch : List Nat}
    {hd : Header} (hi : m.Live i) (hn : m.nodes[i]? = some (.nt h ch)) (hh : m.headers[h]? = some hd) :
    cnt m s rng i (hd.level + 1) = (ch.map (fun c => cnt m s rng c hd.level)).sum := by
  unfold cnt
  rw [msum_node wf s hrng _ hi hn hh]
  simp only [one_mul]
  rw [← Fin.sum_univ_eq_sum_range (fun j => msum rng (fun _ _ => 1) hd.level (sind Nat m s (ch.getD j 0)))]
  rw [← List.sum_ofFn]
  congr 1
  refine List.ext_getElem (by simp) fun k h1 h2 => ?_
  simp only [List.getElem_ofFn, List.getElem_map, List.getD_eq_getElem?_getD]
  rw [List.getElem?_eq_getElem (by simpa using h2)]
  rfl

theorem cnt_undet (s : Sel T) (rng : Nat → Nat) {i : Nat} {t : T} (hn : m.nodes[i]? = some (.term t))
    (ht : s.sel t = false) (n : Nat) : cnt m s rng i n = 0 := by
  unfold cnt msum wsum
  refine Finset.sum_eq_zero fun a _ => ?_
  have h0 : ∀ b, sind Nat m s i b = 0 := fun b => if_neg (by rw [sat_term hn, ht]; simp)
  rw [h0, mul_zero]

/-- When a memo entry is used for a call, its value is right for that call. -/
structure KeyOK {K : Type} (m : Arena T) (s : Sel T) (rng : Nat → Nat) (key : Nat → Option Nat → K)
    (ok : Nat → Option Nat → Prop) : Prop where
  same : ∀ i lv i' lv', ok i lv → ok i' lv' → key i lv = key i' lv' →
    cnt m s rng i (Bdd.depth lv) = cnt m s rng i' (Bdd.depth lv')
  skip : ∀ i lv, ok i lv → (∀ t, m.nodes[i]? = some (.term t) → s.und t = false) → m.rank i < Bdd.depth lv →
    ok i (Bdd.pred? lv)
  kid : ∀ i lv h ch c, ok i lv → m.nodes[i]? = some (.nt h ch) → m.rank i = Bdd.depth lv → c ∈ ch →
    ok c (Bdd.pred? lv)

theorem countF_ok (wf : WF R' m) {s : Sel T} (hs : ∀ t, s.und t = true → s.sel t = false) {rng : Nat → Nat}
    (hrng : RngOK m rng) {l2h : List Nat} {N : Nat}
    (hl2h : ∀ l, l < N → ∃ h hd, l2h[l]? = some h ∧ m.headers[h]? = some hd ∧ hd.level = l)
    {K : Type} [DecidableEq K] {key : Nat → Option Nat → K} {ok : Nat → Option Nat → Prop}
    (hk : KeyOK m s rng key ok) :
    ∀ (fuel : Nat) (lv : Option Nat) (i : Nat) (c : AMap K Nat), ok i lv → m.Live i → m.rank i ≤ Bdd.depth lv →
      Bdd.depth lv ≤ N → Bdd.depth lv < fuel →
      (∀ i lv r, ok i lv → c.get (key i lv) = some r → r = cnt m s rng i (Bdd.depth lv)) →
      ∃ c', countF key m s l2h fuel lv i c = some (cnt m s rng i (Bdd.depth lv), c') ∧
        ∀ i lv r, ok i lv → c'.get (key i lv) = some r → r = cnt m s rng i (Bdd.depth lv) := by
  intro fuel
  induction fuel with
  | zero => intro lv i c _ _ _ _ h; omega
  | succ n ih =>
    intro lv i c hok hi hr hN hf hc
    cases hg : c.get (key i lv) with
    | some r => exact ⟨c, by simp only [countF, hg, hc i lv r hok hg], hc⟩
    | none =>
      obtain ⟨nd, hn⟩ := hi.node
      have ins : ∀ {c : AMap K Nat}, (∀ i lv r, ok i lv → c.get (key i lv) = some r → r = cnt m s rng i (Bdd.depth lv)) →
          ∀ i' lv' r, ok i' lv' → (c.insert (key i lv) (cnt m s rng i (Bdd.depth lv))).get (key i' lv') = some r →
            r = cnt m s rng i' (Bdd.depth lv') := by
        intro c hc i' lv' r hok' h
        rw [AMap.get_insert] at h
        split at h
        · rename_i e
          cases h
          exact hk.same i lv i' lv' hok hok' e
        · exact hc i' lv' r hok' h
      -- the level is above the node
      have skip : (∀ t, m.nodes[i]? = some (.term t) → s.und t = false) → m.rank i < Bdd.depth lv →
          ∃ l h hd c', lv = some l ∧ l2h[l]? = some h ∧ m.headers[h]? = some hd ∧
            countF key m s l2h n (Bdd.pred? lv) i c = some (cnt m s rng i l, c') ∧
            hd.edgeNum * cnt m s rng i l = cnt m s rng i (Bdd.depth lv) ∧
            ∀ i lv r, ok i lv → c'.get (key i lv) = some r → r = cnt m s rng i (Bdd.depth lv) := by
        intro hu hlt
        cases lv with
        | none => simp [Bdd.depth] at hlt
        | some l =>
          have hlt' : m.rank i < l + 1 := hlt
          have hN' : l + 1 ≤ N := hN
          have hf' : l + 1 < n + 1 := hf
          obtain ⟨h, hd, g1, g2, g3⟩ := hl2h l (by omega)
          obtain ⟨c', k1, k2⟩ := ih (Bdd.pred? (some l)) i c (hk.skip i _ hok hu hlt) hi
            (by rw [Bdd.depth_pred]; omega) (by rw [Bdd.depth_pred]; omega) (by rw [Bdd.depth_pred]; omega) hc
          rw [Bdd.depth_pred] at k1
          refine ⟨l, h, hd, c', rfl, g1, g2, k1, ?_, k2⟩
          show _ = cnt m s rng i (l + 1)
          rw [cnt_skip wf s rng hi (by omega), hrng hd (List.mem_of_getElem? g2), g3]
      cases nd with
      | term t =>
        have hrk := rank_term hn
        by_cases hu : s.und t = true
        · refine ⟨c.insert (key i lv) (cnt m s rng i (Bdd.depth lv)), ?_, ins hc⟩
          rw [cnt_undet s rng hn (hs t hu)]
          simp only [countF, hg, hn, if_pos hu]
        · by_cases ha : above m lv i = true
          · obtain ⟨l, h, hd, c', rfl, g1, g2, k1, k2, k3⟩ := skip
              (fun t' ht' => by rw [hn] at ht'; cases ht'; simpa using hu) (above_iff.1 ha)
            exact ⟨c'.insert (key i (some l)) (cnt m s rng i (Bdd.depth (some l))),
              by simp only [countF, hg, hn, if_neg hu, if_pos ha, g1, g2, k1, k2], ins k3⟩
          · have hd0 : Bdd.depth lv = 0 := by
              have : ¬ m.rank i < Bdd.depth lv := fun h => ha (above_iff.2 h)
              omega
            refine ⟨c.insert (key i lv) (cnt m s rng i (Bdd.depth lv)), ?_, ins hc⟩
            have : cnt m s rng i (Bdd.depth lv) = if s.sel t then 1 else 0 := by
              rw [hd0]; exact msum_term s rng _ hn
            rw [this]
            simp only [countF, hg, hn, if_neg hu, if_neg ha]
      | nt h ch =>
        by_cases ha : above m lv i = true
        · obtain ⟨l, h', hd, c', rfl, g1, g2, k1, k2, k3⟩ := skip
            (fun t' ht' => by rw [hn] at ht'; cases ht') (above_iff.1 ha)
          exact ⟨c'.insert (key i (some l)) (cnt m s rng i (Bdd.depth (some l))),
            by simp only [countF, hg, hn, if_pos ha, g1, g2, k1, k2], ins k3⟩
        · obtain ⟨hd, hh, hlen, hrk, _, _, hkk⟩ := wf.nt hi hn
          have hna : ¬ m.rank i < Bdd.depth lv := fun h => ha (above_iff.2 h)
          have hdp : Bdd.depth lv = hd.level + 1 := by omega
          obtain ⟨l, rfl⟩ : ∃ l, lv = some l := by
            cases lv with
            | none => simp [Bdd.depth] at hdp
            | some l => exact ⟨l, rfl⟩
          have hl : l = hd.level := by simpa [Bdd.depth] using hdp
          obtain ⟨rs, c', h1, h2, h3, h4⟩ := foldKids_ok (f := countF key m s l2h n (Bdd.pred? (some l)))
            (Q := fun c => ∀ i lv r, ok i lv → c.get (key i lv) = some r → r = cnt m s rng i (Bdd.depth lv))
            (P := fun x r => r = cnt m s rng x l) (as := ch)
            (fun x hx cc hcc => by
              obtain ⟨lc, rc⟩ := hkk x hx
              obtain ⟨c', k1, k2⟩ := ih (Bdd.pred? (some l)) x cc (hk.kid i _ h ch x hok hn (by omega) hx) lc
                (by rw [Bdd.depth_pred]; omega) (by rw [Bdd.depth_pred]; omega) (by rw [Bdd.depth_pred]; omega) hcc
              rw [Bdd.depth_pred] at k1
              exact ⟨_, c', k1, rfl, k2⟩) hc
          have hrs : rs = ch.map (fun x => cnt m s rng x l) := by
            refine List.ext_getElem (by simp [h3]) fun k h5 h6 => ?_
            rw [List.getElem_map]
            exact h4 k _ _ (List.getElem?_eq_getElem (by simpa using h6)) (List.getElem?_eq_getElem h5)
          have hsum : rs.sum = cnt m s rng i (Bdd.depth (some l)) := by
            rw [hdp, cnt_node wf s hrng hi hn hh, hrs, hl]
          exact ⟨c'.insert (key i (some l)) (cnt m s rng i (Bdd.depth (some l))),
            by simp only [countF, hg, hn, if_neg ha, h1, hsum], ins h2⟩

theorem fillL2H_ok : ∀ (hs : List Header) (k : Nat) (l : List Nat),
    (∀ (j : Nat) (hd : Header), hs[j]? = some hd → hd.level = k + j) → k + hs.length ≤ l.length →
    ∃ l', fillL2H hs k l = some l' ∧ ∀ j, l'[j]? = if k ≤ j ∧ j < k + hs.length then some j else l[j]? := by
  intro hs
  induction hs with
  | nil => intro k l _ _; exact ⟨l, rfl, fun j => by rw [if_neg (by simp)]⟩
  | cons h hs ih =>
    intro k l hl hlen
    have h0 := hl 0 h rfl
    simp only [List.length_cons] at hlen
    obtain ⟨l', e1, e2⟩ := ih (k + 1) (l.set h.level k)
      (fun j hd hj => by rw [hl (j + 1) hd (by simpa using hj)]; omega) (by simp; omega)
    refine ⟨l', by simp only [fillL2H]; rw [if_pos (by omega)]; exact e1, fun j => ?_⟩
    rw [e2]
    simp only [List.length_cons]
    by_cases hj : k + 1 ≤ j ∧ j < k + 1 + hs.length
    · rw [if_pos hj, if_pos (by omega)]
    · rw [if_neg hj, List.getElem?_set]
      by_cases hk : j = k
      · subst hk
        rw [if_pos (by omega), if_pos (by omega), if_pos (by omega)]
      · rw [if_neg (by omega), if_neg (by omega)]

/-- Number of states by level. -/
def rngOf (vs : List (String × Nat)) (l : Nat) : Nat := (vs.getD l ("", 0)).2

theorem rngOf_get {vs : List (String × Nat)} {l : Nat} {p : String × Nat} (h : vs[l]? = some p) :
    rngOf vs l = p.2 := by
  simp [rngOf, List.getD_eq_getElem?_getD, h]

theorem rngOK {vs : List (String × Nat)} (hm : m.headers = mkH vs) : RngOK m (rngOf vs) := by
  intro hd h
  rw [hm] at h
  obtain ⟨i, hi⟩ := List.mem_iff_getElem?.1 h
  obtain ⟨p, hp, rfl⟩ := mkH_get.1 hi
  exact (rngOf_get hp).symm

theorem mkH_length (vs : List (String × Nat)) : (mkH vs).length = vs.length := by simp [mkH]

theorem rank_le_vs (wf : WF R' m) {vs : List (String × Nat)} (hm : m.headers = mkH vs) {i : Nat} (hi : m.Live i) :
    m.rank i ≤ vs.length := by
  obtain ⟨nd, hn⟩ := hi.node
  cases nd with
  | term t => rw [rank_term hn]; omega
  | nt h ch =>
    obtain ⟨hd, hh, _, hrk, _⟩ := wf.nt hi hn
    rw [hm, mkH_get] at hh
    obtain ⟨p, hp, rfl⟩ := hh
    have := (List.getElem?_eq_some_iff.1 hp).1
    simp only at hrk
    omega

theorem count_ok (wf : WF R' m) {vs : List (String × Nat)} (hm : m.headers = mkH vs) {s : Sel T}
    (hs : ∀ t, s.und t = true → s.sel t = false) {K : Type} [DecidableEq K] {key : Nat → Option Nat → K}
    {ok : Nat → Option Nat → Prop} (hk : KeyOK m s (rngOf vs) key ok) {i : Nat} (hi : m.Live i)
    (hok : ok i (m.level? i)) (hr : 0 < m.rank i) :
    count key m s i = some (cnt m s (rngOf vs) i (m.rank i)) := by
  have hd := depth_level m i
  obtain ⟨l, hl⟩ : ∃ l, m.level? i = some l := by
    cases h : m.level? i with
    | none => rw [h] at hd; simp only [Bdd.depth] at hd; omega
    | some l => exact ⟨l, rfl⟩
  obtain ⟨l2h, e1, e2⟩ := fillL2H_ok m.headers 0 (List.replicate m.headers.length 0) (by
    intro j hd hj
    rw [hm, mkH_get] at hj
    obtain ⟨p, _, rfl⟩ := hj
    simp) (by simp)
  have hrk := rank_le_vs wf hm hi
  obtain ⟨c', h1, _⟩ := countF_ok wf hs (rngOK hm) (l2h := l2h) (N := vs.length) (by
    intro l hl
    have hp : vs[l]? = some vs[l] := List.getElem?_eq_getElem hl
    refine ⟨l, ⟨l, vs[l].1, vs[l].2⟩, ?_, by rw [hm, mkH_get]; exact ⟨_, hp, rfl⟩, rfl⟩
    rw [e2, hm, mkH_length, if_pos (by omega)]) hk (m.rank i + 1) (m.level? i) i AMap.empty hok hi
    (by omega) (by omega) (by omega) (by simp)
  unfold count
  rw [hl] at h1 hd ⊢
  simp only [e1, h1, Option.map_some, hd]

/-- The memo of values, keyed by node and level. -/
theorem keyOK_pair (m : Arena T) (s : Sel T) (rng : Nat → Nat) :
    KeyOK m s rng (fun i lv => (i, lv)) (fun _ _ => True) where
  same i lv i' lv' _ _ h := by cases h; rfl
  skip _ _ _ _ _ := trivial
  kid _ _ _ _ _ _ _ _ _ := trivial

/-! ## Enumeration -/

/-- All assignments of the levels below `n` (0 elsewhere). -/
def masg (rng : Nat → Nat) : Nat → List (Nat → Nat)
  | 0 => [fun _ => 0]
  | n + 1 => (List.range (rng n)).flatMap fun x => (masg rng n).map (fun a => Function.update a n x)

theorem mem_masg (rng : Nat → Nat) (n : Nat) (a : Nat → Nat) :
    a ∈ masg rng n ↔ (∀ k, k < n → a k < rng k) ∧ ∀ k, n ≤ k → a k = 0 := by
  induction n generalizing a with
  | zero =>
    simp only [masg, List.mem_singleton]
    exact ⟨fun h => by simp [h], fun h => funext fun k => h.2 k (Nat.zero_le _)⟩
  | succ n ih =>
    simp only [masg, List.mem_flatMap, List.mem_map, List.mem_range]
    constructor
    · rintro ⟨x, hx, b, hb, rfl⟩
      obtain ⟨h1, h2⟩ := (ih b).1 hb
      refine ⟨fun k hk => ?_, fun k hk => ?_⟩
      · by_cases e : k = n
        · subst e; simpa using hx
        · rw [Function.update_of_ne e]; exact h1 k (by omega)
      · rw [Function.update_of_ne (by omega)]; exact h2 k (by omega)
    · rintro ⟨h1, h2⟩
      refine ⟨a n, h1 n (by omega), Function.update a n 0, (ih _).2 ⟨fun k hk => ?_, fun k hk => ?_⟩, by simp⟩
      · rw [Function.update_of_ne (by omega)]; exact h1 k (by omega)
      · by_cases e : k = n
        · subst e; simp
        · rw [Function.update_of_ne e]; exact h2 k (by omega)

theorem masg_nodup (rng : Nat → Nat) (n : Nat) : (masg rng n).Nodup := by
  induction n with
  | zero => simp [masg]
  | succ n ih =>
    rw [masg, List.nodup_flatMap]
    refine ⟨fun x _ => List.Nodup.map_on (fun a ha b hb h => ?_) ih, ?_⟩
    · funext k
      by_cases e : k = n
      · subst e
        rw [((mem_masg _ _ a).1 ha).2 k (Nat.le_refl _), ((mem_masg _ _ b).1 hb).2 k (Nat.le_refl _)]
      · have := congrFun h k
        rwa [Function.update_of_ne e, Function.update_of_ne e] at this
    · refine List.Pairwise.imp ?_ List.nodup_range
      intro x y hxy a ha hb
      obtain ⟨a', _, rfl⟩ := List.mem_map.1 ha
      obtain ⟨b', _, e⟩ := List.mem_map.1 hb
      have := congrFun e n
      simp at this
      exact hxy this.symm

theorem masg_sum (rng : Nat → Nat) (n : Nat) (G : (Nat → Nat) → Nat) :
    ((masg rng n).map G).sum = msum rng (fun _ _ => 1) n G := by
  induction n generalizing G with
  | zero => simp [masg, msum_zero]
  | succ n ih =>
    rw [msum_succ, masg]
    simp only [one_mul, ← ih]
    have key : ∀ l : List Nat, ((l.flatMap fun x => (masg rng n).map (fun a => Function.update a n x)).map G).sum =
        (l.map (fun x => ((masg rng n).map (fun a => G (Function.update a n x))).sum)).sum := by
      intro l
      induction l with
      | nil => rfl
      | cons x l ihl =>
        simp only [List.flatMap_cons, List.map_append, List.sum_append, List.map_map, List.map_cons, List.sum_cons]
        rw [ihl]
        rfl
    rw [key]
    rw [← List.sum_toFinset _ List.nodup_range]
    congr 1
    ext k; simp

open Classical in
/-- The satisfying assignments of the levels below `n`. -/
noncomputable def outs (m : Arena T) (s : Sel T) (rng : Nat → Nat) (n i : Nat) : List (Nat → Nat) :=
  (masg rng n).filter (fun a => decide (Sat m s i a))

theorem outs_length (m : Arena T) (s : Sel T) (rng : Nat → Nat) (n i : Nat) :
    (outs m s rng n i).length = cnt m s rng i n := by
  unfold cnt outs
  rw [← masg_sum, ← List.countP_eq_length_filter]
  induction masg rng n with
  | nil => rfl
  | cons a l ih =>
    rw [List.countP_cons, ih, List.map_cons, List.sum_cons, Nat.add_comm]
    congr 1
    unfold sind
    by_cases h : Sat m s i a <;> simp [h]

theorem outs_succ (s : Sel T) (rng : Nat → Nat) (n i : Nat) (cs : List Nat)
    (h : ∀ x, x < rng n → ∀ a, Sat m s i (Function.update a n x) ↔ Sat m s (cs.getD x 0) a) :
    outs m s rng (n + 1) i = (List.range (rng n)).flatMap fun x =>
      (outs m s rng n (cs.getD x 0)).map (fun a => Function.update a n x) := by
  unfold outs
  rw [masg, List.filter_flatMap]
  refine List.flatMap_congr fun x hx => ?_
  rw [List.filter_map]
  congr 1
  refine List.filter_congr fun a _ => ?_
  exact decide_eq_decide.2 (h x (List.mem_range.1 hx) a)

/-- Add the states of the levels below `n` to a map. -/
def addAll (names : Nat → String) : Nat → (Nat → Nat) → AMap String Nat → AMap String Nat
  | 0, _, p => p
  | n + 1, a, p => addAll names n a (p.insert (names n) (a n))

theorem addAll_congr (names : Nat → String) : ∀ (n : Nat) (a b : Nat → Nat) (p : AMap String Nat),
    (∀ k, k < n → a k = b k) → addAll names n a p = addAll names n b p := by
  intro n
  induction n with
  | zero => intro a b p _; rfl
  | succ n ih =>
    intro a b p h
    simp only [addAll, h n (by omega)]
    exact ih a b _ (fun k hk => h k (by omega))

theorem addAll_get (names : Nat → String) : ∀ (n : Nat) (a : Nat → Nat) (p : AMap String Nat),
    (∀ j k, j < n → k < n → names j = names k → j = k) → (∀ k, k < n → p.get (names k) = none) →
    ∀ x v, (addAll names n a p).get x = some v ↔ p.get x = some v ∨ ∃ k, k < n ∧ names k = x ∧ a k = v := by
  intro n
  induction n with
  | zero => intro a p _ _ x v; simp [addAll]
  | succ n ih =>
    intro a p hinj hp x v
    simp only [addAll]
    rw [ih a _ (fun j k hj hk => hinj j k (by omega) (by omega)) (fun k hk => by
      rw [AMap.get_insert_ne _ _ (fun e => by have := hinj n k (by omega) (by omega) e; omega)]
      exact hp k (by omega)), AMap.get_insert]
    constructor
    · rintro (h | ⟨k, h1, h2, h3⟩)
      · split at h
        · rename_i e; cases h; exact .inr ⟨n, by omega, e, rfl⟩
        · exact .inl h
      · exact .inr ⟨k, by omega, h2, h3⟩
    · rintro (h | ⟨k, h1, h2, h3⟩)
      · left
        rw [if_neg (fun e => by rw [← e, hp n (by omega)] at h; cases h)]
        exact h
      · by_cases e : k = n
        · subst e
          left
          rw [if_pos h2, h3]
        · exact .inr ⟨k, by omega, h2, h3⟩

theorem remove_insert {p : AMap String Nat} {x : String} (h : p.get x = none) (v : Nat) :
    (p.insert x v).remove x = p := by
  have key : p.kvs.filter (fun q => decide (q.1 ≠ x)) = p.kvs := by
    rw [List.filter_eq_self]
    intro q hq
    have := AMap.get_eq_none_iff.1 h
    simp only [AMap.keys, List.mem_map, not_exists, not_and] at this
    simpa using this q hq
  unfold AMap.insert AMap.remove
  simp only [ne_eq, List.filter_cons, not_true_eq_false, decide_false, Bool.false_eq_true, if_false, List.filter_filter,
    Bool.and_self]
  rw [key]

/-- Running all the branches of a node. -/
theorem branches_steps (s : Sel T) (x : String) (lv : Option Nat) (labels : List String) (edges : List Nat)
    (path : AMap String Nat) (hx : path.get x = none) (O : Nat → Nat → List (AMap String Nat)) :
    ∀ (cs : List Nat) (j : Nat) (rest : List StackValue),
      (∀ c ∈ cs, ∀ k rest, Enum.Steps (pathStep m s) ⟨.node lv c :: rest, path.insert x k, labels, edges⟩ (O k c)
        ⟨rest, path.insert x k, labels, edges⟩) →
      Enum.Steps (pathStep m s) ⟨branches x lv j cs ++ rest, path, labels, edges⟩
        ((List.range cs.length).flatMap fun k => O (j + k) (cs.getD k 0)) ⟨rest, path, labels, edges⟩ := by
  intro cs
  induction cs with
  | nil => intro j rest _; exact .refl _
  | cons c cs ih =>
    intro j rest h
    have h1 := h c List.mem_cons_self j (.pop x :: (branches x lv (j + 1) cs ++ rest))
    have h2 := ih (j + 1) rest (fun c hc => h c (List.mem_cons_of_mem _ hc))
    have e : (List.range (c :: cs).length).flatMap (fun k => O (j + k) ((c :: cs).getD k 0)) =
        O j c ++ (List.range cs.length).flatMap (fun k => O (j + 1 + k) (cs.getD k 0)) := by
      rw [List.length_cons, List.range_succ_eq_map, List.flatMap_cons, List.flatMap_map]
      simp only [Nat.add_zero, List.getD_cons_zero, List.getD_cons_succ]
      congr 1
      refine List.flatMap_congr fun k _ => ?_
      rw [show j + k.succ = j + 1 + k by omega]
    rw [e]
    simp only [branches, List.cons_append]
    refine .quiet (by simp only [pathStep, pathTurn, Option.map_some]) (h1.trans ?_)
    refine .quiet (s1 := ⟨branches x lv (j + 1) cs ++ rest, path, labels, edges⟩) ?_ h2
    simp only [pathStep, pathTurn, Option.map_some, remove_insert hx]

theorem path_steps (wf : WF R' m) {s : Sel T} (hs : ∀ t, s.und t = true → s.sel t = false) {rng : Nat → Nat}
    (hrng : RngOK m rng) {names : Nat → String} {N : Nat} {labels : List String} {edges : List Nat}
    (hlab : ∀ l, l < N → labels[l]? = some (names l) ∧ edges[l]? = some (rng l))
    (hinj : ∀ j k, j < N → k < N → names j = names k → j = k) :
    ∀ (n : Nat) (lv : Option Nat) (i : Nat) (rest : List StackValue) (path : AMap String Nat),
      Bdd.depth lv = n → m.Live i → m.rank i ≤ n → n ≤ N → (∀ k, k < n → path.get (names k) = none) →
      Enum.Steps (pathStep m s) ⟨.node lv i :: rest, path, labels, edges⟩
        ((outs m s rng n i).map (fun a => addAll names n a path)) ⟨rest, path, labels, edges⟩ := by
  have undet : ∀ (n : Nat) (lv : Option Nat) (i : Nat) (rest : List StackValue) (path : AMap String Nat) (t : T),
      m.nodes[i]? = some (.term t) → s.und t = true →
      Enum.Steps (pathStep m s) ⟨.node lv i :: rest, path, labels, edges⟩
        ((outs m s rng n i).map (fun a => addAll names n a path)) ⟨rest, path, labels, edges⟩ := by
    intro n lv i rest path t hn hu
    have e : outs m s rng n i = [] := by
      rw [outs, List.filter_eq_nil_iff]
      intro a _ h
      have h : Sat m s i a := by classical exact of_decide_eq_true h
      rw [sat_term hn, hs t hu] at h
      cases h
    rw [e]
    exact .quiet (s1 := ⟨rest, path, labels, edges⟩)
      (by simp only [pathStep, pathTurn, hn, if_pos hu, Option.map_some]) (.refl _)
  intro n
  induction n with
  | zero =>
    intro lv i rest path hl hi hr _ _
    have hl : lv = none := by cases lv with | none => rfl | some k => simp [Bdd.depth] at hl
    subst hl
    obtain ⟨nd, hn⟩ := hi.node
    cases nd with
    | nt h ch => obtain ⟨hd, _, _, hrk, _⟩ := wf.nt hi hn; omega
    | term t =>
      by_cases hu : s.und t = true
      · exact undet 0 none i rest path t hn hu
      · have ha : ¬ above m none i = true := by rw [above_iff]; simp [Bdd.depth]
        by_cases hsel : s.sel t = true
        · have e : outs m s rng 0 i = [fun _ => 0] := by
            simp [outs, masg, sat_term hn, hsel]
          rw [e]
          exact .emit (s1 := ⟨rest, path, labels, edges⟩)
            (by simp only [pathStep, pathTurn, hn, if_neg hu, if_neg ha, if_pos hsel, Option.map_some]; rfl) (.refl _)
        · have e : outs m s rng 0 i = [] := by
            simp [outs, masg, sat_term hn, hsel]
          rw [e]
          exact .quiet (s1 := ⟨rest, path, labels, edges⟩)
            (by simp only [pathStep, pathTurn, hn, if_neg hu, if_neg ha, if_neg hsel, Option.map_some]) (.refl _)
  | succ n ih =>
    intro lv i rest path hl hi hr hN hp
    have hl : lv = some n := by
      cases lv with
      | none => simp [Bdd.depth] at hl
      | some k => simp [Bdd.depth] at hl; rw [hl]
    subst hl
    obtain ⟨hlb, hed⟩ := hlab n (by omega)
    -- once the node is replaced by the branches `cs`
    have run : ∀ cs : List Nat, cs.length = rng n → (∀ c ∈ cs, m.Live c ∧ m.rank c ≤ n) →
        (∀ x, x < rng n → ∀ a, Sat m s i (Function.update a n x) ↔ Sat m s (cs.getD x 0) a) →
        Enum.Steps (pathStep m s) ⟨branches (names n) (Bdd.pred? (some n)) 0 cs ++ rest, path, labels, edges⟩
          ((outs m s rng (n + 1) i).map (fun a => addAll names (n + 1) a path)) ⟨rest, path, labels, edges⟩ := by
      intro cs hlen hc hsat
      have h := branches_steps s (names n) (Bdd.pred? (some n)) labels edges path (hp n (by omega))
        (fun k c => (outs m s rng n c).map (fun a => addAll names n a (path.insert (names n) k))) cs 0 rest
        (fun c hcc k rest => ih (Bdd.pred? (some n)) c rest _ (Bdd.depth_pred n) (hc c hcc).1 (hc c hcc).2 (by omega)
          (fun j hj => by
            rw [AMap.get_insert_ne _ _ (fun e => by have := hinj n j (by omega) (by omega) e; omega)]
            exact hp j (by omega)))
      have e : (outs m s rng (n + 1) i).map (fun a => addAll names (n + 1) a path) =
          (List.range cs.length).flatMap fun k => (outs m s rng n (cs.getD k 0)).map
            (fun a => addAll names n a (path.insert (names n) (0 + k))) := by
        rw [outs_succ s rng n i cs hsat, List.map_flatMap, hlen]
        refine List.flatMap_congr fun k _ => ?_
        rw [List.map_map]
        refine List.map_congr_left fun a _ => ?_
        simp only [Function.comp, addAll, Function.update_self, Nat.zero_add]
        exact addAll_congr names n _ _ _ (fun j hj => Function.update_of_ne (by omega) _ _)
      rw [e]
      exact h
    have gap : m.rank i ≤ n → ∀ x, x < rng n → ∀ a, Sat m s i (Function.update a n x) ↔
        Sat m s ((List.replicate (rng n) i).getD x 0) a := by
      intro hle x hx a
      have : (List.replicate (rng n) i).getD x 0 = i := by
        simp [List.getD_eq_getElem?_getD, List.getElem?_replicate, hx]
      rw [this]
      exact sat_congr wf s hi fun l hl => Function.update_of_ne (by omega) _ _
    have gapL : m.rank i ≤ n → ∀ c ∈ List.replicate (rng n) i, m.Live c ∧ m.rank c ≤ n := by
      intro hle c hc
      rw [List.eq_of_mem_replicate hc]; exact ⟨hi, hle⟩
    obtain ⟨nd, hn⟩ := hi.node
    cases nd with
    | term t =>
      have hrk := rank_term hn
      by_cases hu : s.und t = true
      · exact undet _ _ i rest path t hn hu
      · have ha : above m (some n) i = true := by rw [above_iff]; simp only [Bdd.depth]; omega
        refine .quiet ?_ (run (List.replicate (rng n) i) (by simp) (gapL (by omega)) (gap (by omega)))
        simp only [pathStep, pathTurn, hn, if_neg hu, if_pos ha, hlb, hed, Option.map_some]
    | nt h ch =>
      obtain ⟨hd, hh, hlen, hrk, _, _, hk⟩ := wf.nt hi hn
      by_cases ha : above m (some n) i = true
      · have hle : m.rank i ≤ n := by rw [above_iff] at ha; simp only [Bdd.depth] at ha; omega
        refine .quiet ?_ (run (List.replicate (rng n) i) (by simp) (gapL hle) (gap hle))
        simp only [pathStep, pathTurn, hn, if_pos ha, hlb, hed, Option.map_some]
      · have hln : hd.level = n := by
          have : ¬ m.rank i < n + 1 := fun h => ha (above_iff.2 h)
          omega
        have hch : ch.length = rng n := by rw [hlen, hrng hd (List.mem_of_getElem? hh), hln]
        refine .quiet ?_ (run ch hch (fun c hc => ⟨(hk c hc).1, by have := (hk c hc).2; omega⟩) ?_)
        · simp only [pathStep, pathTurn, hn, if_neg ha, hlb, Option.map_some]
        · intro x hx a
          have hx' : x < ch.length := by omega
          obtain ⟨lc, rc⟩ := hk _ (getD_mem hx')
          rw [sat_nt hn hh, hln, Function.update_self]
          have : ch[x]? = some (ch.getD x 0) := by
            rw [List.getD_eq_getElem?_getD, List.getElem?_eq_getElem hx']; rfl
          rw [this]
          simp only [Option.some.injEq, exists_eq_left']
          exact sat_congr wf s lc fun l hl => Function.update_of_ne (by omega) _ _

/-! ## Fuel -/

theorem turns_branches (b : Nat) (x : String) (lv : Option Nat) (rest : List StackValue) :
    ∀ (cs : List Nat) (j : Nat), turns b (branches x lv j cs ++ rest) =
      cs.length * (2 + turnsNode b (Bdd.depth lv)) + turns b rest := by
  intro cs
  induction cs with
  | nil => intro j; simp [branches]
  | cons c cs ih =>
    intro j
    simp only [branches, List.cons_append, turns, ih, List.length_cons, Nat.add_mul]
    omega

theorem turnsNode_pos (b n : Nat) : 0 < turnsNode b n := by cases n <;> simp [turnsNode]

theorem le_sum_of_getElem? {l : List Nat} {k x : Nat} (h : l[k]? = some x) : x ≤ l.sum :=
  by
  have := List.mem_of_getElem? h
  clear h
  induction l with
  | nil => cases this
  | cons y l ih =>
    rw [List.sum_cons]
    rcases List.mem_cons.1 this with rfl | h
    · omega
    · have := ih h; omega

theorem branches_lt {b : Nat} {x : String} {l : Nat} {cs : List Nat} {rest : List StackValue} (h : cs.length ≤ b) :
    turns b (branches x (Bdd.pred? (some l)) 0 cs ++ rest) < turnsNode b (Bdd.depth (some l)) + turns b rest := by
  rw [turns_branches, Bdd.depth_pred]
  simp only [Bdd.depth, turnsNode]
  have := Nat.mul_le_mul_right (2 + turnsNode b l) h
  omega

theorem turns_decr {s : Sel T} (b : Nat) (st : PathSt) (o : Option (AMap String Nat)) (st' : PathSt)
    (hb : maxDeg m st = b) (h : pathStep m s st = some (some (o, st'))) :
    maxDeg m st' = b ∧ turns b st'.stack < turns b st.stack := by
  have hed : ∀ {l e : Nat}, st.edges[l]? = some e → e ≤ b := by
    intro l e h
    have := le_sum_of_getElem? h
    unfold maxDeg at hb
    omega
  have hch : ∀ {i h : Nat} {ch : List Nat}, m.nodes[i]? = some (.nt h ch) → ch.length ≤ b := by
    intro i h ch hn
    have : (m.nodes.map (fun n => n.kids.length))[i]? = some ch.length := by
      rw [List.getElem?_map, hn]; rfl
    have := le_sum_of_getElem? this
    unfold maxDeg at hb
    omega
  unfold pathStep at h
  cases hst : st.stack with
  | nil => rw [hst] at h; cases h
  | cons v rest =>
    rw [hst] at h
    simp only [Option.map_eq_some_iff, Option.some.injEq, exists_eq_right] at h
    cases v with
    | push x j =>
      simp only [pathTurn, Option.some.injEq, Prod.mk.injEq] at h
      rw [← h.2]; exact ⟨hb, by simp [turns]⟩
    | pop x =>
      simp only [pathTurn, Option.some.injEq, Prod.mk.injEq] at h
      rw [← h.2]; exact ⟨hb, by simp [turns]⟩
    | node lv i =>
      have hp := turnsNode_pos b (Bdd.depth lv)
      have fin : ∀ {o'}, some (o', ({ st with stack := rest } : PathSt)) = some (o, st') →
          maxDeg m st' = b ∧ turns b st'.stack < turns b (.node lv i :: rest) := by
        intro o' h
        simp only [Option.some.injEq, Prod.mk.injEq] at h
        rw [← h.2]
        refine ⟨hb, ?_⟩
        simp only [turns]
        omega
      have skip : (match (generalizing := false) lv with
          | none => none
          | some l =>
            match (generalizing := false) st.labels[l]?, st.edges[l]? with
            | some x, some e =>
              some ((none : Option (AMap String Nat)),
                ({ st with stack := branches x (Bdd.pred? lv) 0 (List.replicate e i) ++ rest } : PathSt))
            | _, _ => none) = some (o, st') → maxDeg m st' = b ∧ turns b st'.stack < turns b (.node lv i :: rest) := by
        intro h
        cases lv with
        | none => cases h
        | some l =>
          simp only at h
          cases e1 : st.labels[l]? with
          | none => rw [e1] at h; cases h
          | some x =>
            cases e2 : st.edges[l]? with
            | none => rw [e1, e2] at h; cases h
            | some e =>
              rw [e1, e2] at h
              simp only [Option.some.injEq, Prod.mk.injEq] at h
              rw [← h.2]
              exact ⟨hb, branches_lt (by simpa using hed e2)⟩
      simp only [pathTurn] at h
      cases hn : m.nodes[i]? with
      | none => rw [hn] at h; cases h
      | some nd =>
        rw [hn] at h
        cases nd with
        | nt hh ch =>
          simp only at h
          by_cases ha : above m lv i = true
          · rw [if_pos ha] at h; exact skip h
          · rw [if_neg ha] at h
            cases lv with
            | none => cases h
            | some l =>
              simp only at h
              cases e1 : st.labels[l]? with
              | none => rw [e1] at h; cases h
              | some x =>
                rw [e1] at h
                simp only [Option.some.injEq, Prod.mk.injEq] at h
                rw [← h.2]
                exact ⟨hb, branches_lt (hch hn)⟩
        | term t =>
          simp only at h
          by_cases hu : s.und t = true
          · rw [if_pos hu] at h; exact fin h
          · rw [if_neg hu] at h
            by_cases ha : above m lv i = true
            · rw [if_pos ha] at h; exact skip h
            · rw [if_neg ha] at h
              by_cases hsel : s.sel t = true
              · rw [if_pos hsel] at h; exact fin h
              · rw [if_neg hsel] at h; exact fin h

/-! ## The iterator -/

theorem fillPath_ok : ∀ (hs : List Header) (k : Nat) (ls : List String) (es : List Nat),
    (∀ (j : Nat) (hd : Header), hs[j]? = some hd → hd.level = k + j) → k + hs.length ≤ ls.length →
    k + hs.length ≤ es.length →
    ∃ ls' es', fillPath hs ls es = some (ls', es') ∧
      (∀ j, j < k → ls'[j]? = ls[j]? ∧ es'[j]? = es[j]?) ∧
      ∀ (j : Nat) (hd : Header), hs[j]? = some hd → ls'[k + j]? = some hd.label ∧ es'[k + j]? = some hd.edgeNum := by
  intro hs
  induction hs with
  | nil => intro k ls es _ _ _; exact ⟨ls, es, rfl, fun _ _ => ⟨rfl, rfl⟩, by simp⟩
  | cons h hs ih =>
    intro k ls es hl h1 h2
    have h0 := hl 0 h rfl
    simp only [List.length_cons] at h1 h2
    obtain ⟨ls', es', e1, e2, e3⟩ := ih (k + 1) (ls.set h.level h.label) (es.set h.level h.edgeNum)
      (fun j hd hj => by rw [hl (j + 1) hd (by simpa using hj)]; omega) (by simp; omega) (by simp; omega)
    refine ⟨ls', es', by simp only [fillPath]; rw [if_pos (by omega)]; exact e1, fun j hj => ?_, fun j hd hj => ?_⟩
    · obtain ⟨a1, a2⟩ := e2 j (by omega)
      rw [a1, a2, List.getElem?_set_ne (by omega), List.getElem?_set_ne (by omega)]
      exact ⟨rfl, rfl⟩
    · cases j with
      | zero =>
        simp at hj; subst hj
        obtain ⟨a1, a2⟩ := e2 k (by omega)
        rw [Nat.add_zero, a1, a2, h0, Nat.add_zero, List.getElem?_set_self (by omega), List.getElem?_set_self (by omega)]
        exact ⟨rfl, rfl⟩
      | succ j =>
        have := e3 j hd (by simpa using hj)
        rwa [show k + 1 + j = k + (j + 1) by omega] at this

/-- Name by level. -/
def nameOf (vs : List (String × Nat)) (l : Nat) : String := (vs.getD l ("", 0)).1

theorem nameOf_get {vs : List (String × Nat)} {l : Nat} {p : String × Nat} (h : vs[l]? = some p) :
    nameOf vs l = p.1 := by
  simp [nameOf, List.getD_eq_getElem?_getD, h]

theorem nameOf_inj {vs : List (String × Nat)} (hn : (vs.map Prod.fst).Nodup) {j k : Nat} (hj : j < vs.length)
    (hk : k < vs.length) (h : nameOf vs j = nameOf vs k) : j = k := by
  have e1 : (vs.map Prod.fst)[j]? = some (nameOf vs j) := by
    rw [List.getElem?_map, List.getElem?_eq_getElem hj, nameOf_get (List.getElem?_eq_getElem hj)]; rfl
  have e2 : (vs.map Prod.fst)[k]? = some (nameOf vs k) := by
    rw [List.getElem?_map, List.getElem?_eq_getElem hk, nameOf_get (List.getElem?_eq_getElem hk)]; rfl
  exact (List.getElem?_inj (by simpa using hj) hn).1 (by rw [e1, e2, h])

theorem path_ok (wf : WF R' m) {vs : List (String × Nat)} (hm : m.headers = mkH vs)
    (hnd : (vs.map Prod.fst).Nodup) {s : Sel T} (hs : ∀ t, s.und t = true → s.sel t = false) {i : Nat}
    (hi : m.Live i) :
    ∃ st, pathNew m vs.length i = some st ∧ Enum.Yields (pathNext m s) st
      ((outs m s (rngOf vs) (m.rank i) i).map (fun a => addAll (nameOf vs) (m.rank i) a AMap.empty)) := by
  have hlen : m.headers.length = vs.length := by rw [hm, mkH_length]
  obtain ⟨ls, es, e1, _, e3⟩ := fillPath_ok m.headers 0 (List.replicate vs.length "") (List.replicate vs.length 0) (by
    intro j hd hj
    rw [hm, mkH_get] at hj
    obtain ⟨p, _, rfl⟩ := hj
    simp) (by simp [hlen]) (by simp [hlen])
  refine ⟨⟨[.node (m.level? i) i], AMap.empty, ls, es⟩, ?_, ?_⟩
  · unfold pathNew
    rw [if_pos (by omega), List.take_of_length_le (by omega), e1]
  · have h := path_steps wf hs (rngOK hm) (names := nameOf vs) (N := vs.length) (labels := ls) (edges := es)
      (fun l hl => by
        have hp : vs[l]? = some vs[l] := List.getElem?_eq_getElem hl
        have := e3 l ⟨l, vs[l].1, vs[l].2⟩ (by rw [hm, mkH_get]; exact ⟨_, hp, rfl⟩)
        rw [Nat.zero_add] at this
        rw [nameOf_get hp, rngOf_get hp]
        exact this)
      (fun j k hj hk => nameOf_inj hnd hj hk) (m.rank i) (m.level? i) i [] AMap.empty (depth_level m i) hi
      (Nat.le_refl _) (rank_le_vs wf hm hi) (by simp)
    exact Enum.Steps.yieldsJ (μ := fun st : PathSt => turns (maxDeg m st) st.stack) (J := fun _ => True)
      (fun st o st' _ hstep => by
        obtain ⟨a1, a2⟩ := turns_decr (m := m) (s := s) (maxDeg m st) st o st' rfl hstep
        exact ⟨trivial, by rw [a1]; exact a2⟩) trivial h (by simp [pathStep])

theorem outs_nodup (s : Sel T) (rng : Nat → Nat) (n i : Nat) : (outs m s rng n i).Nodup :=
  (masg_nodup rng n).filter _

theorem mem_outs (s : Sel T) (rng : Nat → Nat) (n i : Nat) (a : Nat → Nat) :
    a ∈ outs m s rng n i ↔ (∀ k, k < n → a k < rng k) ∧ (∀ k, n ≤ k → a k = 0) ∧ Sat m s i a := by
  unfold outs
  rw [List.mem_filter, mem_masg, and_assoc]
  classical
  exact and_congr_right fun _ => and_congr_right fun _ => by simp

end Mda
end DD
