import Verif.Mss.Analysis
import Verif.Mss.Refine
import Verif.Bss.BmeasOk

/-!
# Correctness of `prob` and `bmeas` on MDDs and MTMDDs
-/

set_option autoImplicit false
set_option linter.unusedSectionVars false
set_option linter.unusedVariables false

namespace DD
open Arena
namespace Mda
variable {T : Type} [DecidableEq T] [Fixed T]

/-! ## Satisfying assignments -/

/-- The value read at `a` is selected. -/
def Sat (m : Arena T) (s : Sel T) (i : Nat) (a : Nat → Nat) : Prop := ∃ t, Eval m a i t ∧ s.sel t = true

theorem sat_term {m : Arena T} {s : Sel T} {i : Nat} {t : T} (hn : m.nodes[i]? = some (.term t)) (a : Nat → Nat) :
    Sat m s i a ↔ s.sel t = true := by
  unfold Sat
  simp only [eval_term_iff hn, exists_eq_left]

theorem sat_nt {m : Arena T} {s : Sel T} {i h : Nat} {ch : List Nat} {hd : Header}
    (hn : m.nodes[i]? = some (.nt h ch)) (hh : m.headers[h]? = some hd) (a : Nat → Nat) :
    Sat m s i a ↔ ∃ c, ch[a hd.level]? = some c ∧ Sat m s c a := by
  unfold Sat
  simp only [eval_nt_iff hn hh]
  constructor
  · rintro ⟨t, ⟨c, h1, h2⟩, h3⟩; exact ⟨c, h1, t, h2, h3⟩
  · rintro ⟨c, h1, t, h2, h3⟩; exact ⟨t, ⟨c, h1, h2⟩, h3⟩

theorem sat_congr {m : Arena T} {R' : List Nat → Prop} (wf : WF R' m) (s : Sel T) {i : Nat} (hi : m.Live i)
    {a b : Nat → Nat} (h : ∀ l, l < m.rank i → a l = b l) : Sat m s i a ↔ Sat m s i b := by
  unfold Sat
  simp only [wf.eval_congr_iff hi h]

/-! ## Sums over paths -/

section
variable {R : Type} [CommSemiring R]

/-- Sum over the paths to selected terminals of the product of the weights `q level state`. -/
def psumF (m : Arena T) (s : Sel T) (q : Nat → Nat → R) : Nat → Nat → R
  | 0, _ => 0
  | fuel + 1, i =>
    match m.nodes[i]? with
    | none => 0
    | some (.term t) => if s.sel t then 1 else 0
    | some (.nt _ ch) => ∑ j ∈ Finset.range ch.length, q (m.rank i - 1) j * psumF m s q fuel (ch.getD j 0)

/-- `psumF` with enough fuel. -/
def psum (m : Arena T) (s : Sel T) (q : Nat → Nat → R) (i : Nat) : R := psumF m s q (m.rank i + 1) i

variable {m : Arena T} {R' : List Nat → Prop}

theorem getD_mem {l : List Nat} {j : Nat} (h : j < l.length) : l.getD j 0 ∈ l := by
  rw [List.getD_eq_getElem?_getD, List.getElem?_eq_getElem h]
  exact List.getElem_mem h

theorem psumF_eq (wf : WF R' m) (s : Sel T) (q : Nat → Nat → R) : ∀ (fuel fuel' i : Nat), m.Live i →
    m.rank i < fuel → m.rank i < fuel' → psumF m s q fuel i = psumF m s q fuel' i := by
  intro fuel
  induction fuel with
  | zero => intro _ i _ h; omega
  | succ n ih =>
    intro fuel' i hi h1 h2
    obtain ⟨k, rfl⟩ : ∃ k, fuel' = k + 1 := ⟨fuel' - 1, by omega⟩
    obtain ⟨nd, hn⟩ := hi.node
    cases nd with
    | term t => simp only [psumF, hn]
    | nt h ch =>
      simp only [psumF, hn]
      refine Finset.sum_congr rfl fun j hj => ?_
      obtain ⟨lc, rc⟩ := wf.kid i h ch hi hn _ (getD_mem (Finset.mem_range.1 hj))
      rw [ih k _ lc (by omega) (by omega)]

theorem psum_term (s : Sel T) (q : Nat → Nat → R) {i : Nat} {t : T} (hn : m.nodes[i]? = some (.term t)) :
    psum m s q i = if s.sel t then 1 else 0 := by
  simp only [psum, psumF, hn]

theorem psum_nt (wf : WF R' m) (s : Sel T) (q : Nat → Nat → R) {i h : Nat} {ch : List Nat} {hd : Header}
    (hi : m.Live i) (hn : m.nodes[i]? = some (.nt h ch)) (hh : m.headers[h]? = some hd) :
    psum m s q i = ∑ j ∈ Finset.range ch.length, q hd.level j * psum m s q (ch.getD j 0) := by
  have hr := rank_nt hn hh
  unfold psum
  rw [psumF]
  simp only [hn]
  refine Finset.sum_congr rfl fun j hj => ?_
  obtain ⟨lc, rc⟩ := wf.kid i h ch hi hn _ (getD_mem (Finset.mem_range.1 hj))
  rw [psumF_eq wf s q (m.rank i) (m.rank (ch.getD j 0) + 1) _ lc rc (by omega), hr]
  rfl

/-- The weights matter only at the levels of the node. -/
theorem psum_congr (wf : WF R' m) (s : Sel T) {q q' : Nat → Nat → R} : ∀ (n i : Nat), m.Live i → m.rank i ≤ n →
    (∀ l, l < m.rank i → ∀ j, q l j = q' l j) → psum m s q i = psum m s q' i := by
  intro n
  induction n with
  | zero =>
    intro i hi hr _
    obtain ⟨nd, hn⟩ := hi.node
    cases nd with
    | term t => rw [psum_term s q hn, psum_term s q' hn]
    | nt h ch => obtain ⟨hd, _, _, hrk, _⟩ := wf.nt hi hn; omega
  | succ n ih =>
    intro i hi hr hq
    obtain ⟨nd, hn⟩ := hi.node
    cases nd with
    | term t => rw [psum_term s q hn, psum_term s q' hn]
    | nt h ch =>
      obtain ⟨hd, hh, _, hrk, _, _, hk⟩ := wf.nt hi hn
      rw [psum_nt wf s q hi hn hh, psum_nt wf s q' hi hn hh]
      refine Finset.sum_congr rfl fun j hj => ?_
      obtain ⟨lc, rc⟩ := hk _ (getD_mem (Finset.mem_range.1 hj))
      rw [ih _ lc (by omega) (fun l hl => hq l (by omega)), hq hd.level (by omega)]

end

/-! ## Sums over assignments -/

section
variable {R : Type} [CommSemiring R]

/-- Weighted sum over the assignments of the levels below `n`, `rng l` being the number of states of
level `l`. -/
def msum (rng : Nat → Nat) (q : Nat → Nat → R) (n : Nat) (G : (Nat → Nat) → R) : R :=
  wsum (D := fun l => Fin (rng l)) (fun _ x => x.val) 0 (fun l x => q l x) n G

theorem msum_zero (rng : Nat → Nat) (q : Nat → Nat → R) (G : (Nat → Nat) → R) :
    msum rng q 0 G = G (fun _ => 0) := wsum_zero _ _ _ _

theorem msum_succ (rng : Nat → Nat) (q : Nat → Nat → R) (n : Nat) (G : (Nat → Nat) → R) :
    msum rng q (n + 1) G = ∑ j ∈ Finset.range (rng n), q n j * msum rng q n (fun a => G (Function.update a n j)) := by
  unfold msum
  rw [wsum_succ]
  exact Fin.sum_univ_eq_sum_range (fun j => q n j * wsum (D := fun l => Fin (rng l)) (fun _ x => x.val) 0
    (fun l x => q l x) n (fun a => G (Function.update a n j))) (rng n)

open Classical in
/-- Indicator of the satisfying assignments. -/
noncomputable def sind (R : Type) [CommSemiring R] (m : Arena T) (s : Sel T) (i : Nat) (a : Nat → Nat) : R :=
  if Sat m s i a then 1 else 0

variable {m : Arena T} {R' : List Nat → Prop}

theorem sind_below (wf : WF R' m) (s : Sel T) {i : Nat} (hi : m.Live i) : Below (m.rank i) (sind R m s i) := by
  intro a b h
  classical
  exact if_congr (sat_congr wf s hi h) rfl rfl

/-- The number of states of a level, by the headers. -/
def RngOK (m : Arena T) (rng : Nat → Nat) : Prop := ∀ hd ∈ m.headers, hd.edgeNum = rng hd.level

/-- Above the node, a level contributes a factor. -/
theorem msum_skip (wf : WF R' m) (s : Sel T) (rng : Nat → Nat) (q : Nat → Nat → R) {i n : Nat} (hi : m.Live i)
    (hr : m.rank i ≤ n) : msum rng q (n + 1) (sind R m s i) =
      (∑ j ∈ Finset.range (rng n), q n j) * msum rng q n (sind R m s i) := by
  rw [msum_succ, Finset.sum_mul]
  refine Finset.sum_congr rfl fun j _ => ?_
  congr 2
  funext a
  exact sind_below wf s hi _ _ fun l hl => Function.update_of_ne (by omega) _ _

/-- At the level of the node, the sum splits over the children. -/
theorem msum_node (wf : WF R' m) (s : Sel T) {rng : Nat → Nat} (hrng : RngOK m rng) (q : Nat → Nat → R)
    {i h : Nat} {ch : List Nat} {hd : Header} (hi : m.Live i) (hn : m.nodes[i]? = some (.nt h ch))
    (hh : m.headers[h]? = some hd) : msum rng q (hd.level + 1) (sind R m s i) =
      ∑ j ∈ Finset.range ch.length, q hd.level j * msum rng q hd.level (sind R m s (ch.getD j 0)) := by
  obtain ⟨hd', hh', hlen, hrk, _, _, hk⟩ := wf.nt hi hn
  rw [hh] at hh'; cases hh'
  rw [msum_succ, ← hrng hd (List.mem_of_getElem? hh), ← hlen]
  refine Finset.sum_congr rfl fun j hj => ?_
  have hj := Finset.mem_range.1 hj
  obtain ⟨lc, rc⟩ := hk _ (getD_mem hj)
  congr 2
  funext a
  have e : Sat m s i (Function.update a hd.level j) ↔ Sat m s (ch.getD j 0) a := by
    rw [sat_nt hn hh, Function.update_self]
    have : ch[j]? = some (ch.getD j 0) := by
      rw [List.getD_eq_getElem?_getD, List.getElem?_eq_getElem hj]; rfl
    rw [this]
    simp only [Option.some.injEq, exists_eq_left']
    exact sat_congr wf s lc fun l hl => Function.update_of_ne (by omega) _ _
  classical
  exact if_congr e rfl rfl

theorem msum_term (s : Sel T) (rng : Nat → Nat) (q : Nat → Nat → R) {i : Nat} {t : T}
    (hn : m.nodes[i]? = some (.term t)) : msum rng q 0 (sind R m s i) = if s.sel t then 1 else 0 := by
  rw [msum_zero]
  unfold sind
  simp only [sat_term hn]

/-- If the weights of each level add up to one, the sum over paths is the sum over assignments. -/
theorem psum_msum (wf : WF R' m) (s : Sel T) {rng : Nat → Nat} (hrng : RngOK m rng) {q : Nat → Nat → R} :
    ∀ (n i : Nat), m.Live i → m.rank i ≤ n → (∀ l, l < n → ∑ j ∈ Finset.range (rng l), q l j = 1) →
      psum m s q i = msum rng q n (sind R m s i) := by
  intro n
  induction n with
  | zero =>
    intro i hi hr _
    obtain ⟨nd, hn⟩ := hi.node
    cases nd with
    | term t => rw [psum_term s q hn, msum_term s rng q hn]
    | nt h ch => obtain ⟨hd, _, _, hrk, _⟩ := wf.nt hi hn; omega
  | succ n ih =>
    intro i hi hr hq
    by_cases hle : m.rank i ≤ n
    · rw [msum_skip wf s rng q hi hle, hq n (by omega), one_mul]
      exact ih i hi hle (fun l hl => hq l (by omega))
    · obtain ⟨nd, hn⟩ := hi.node
      cases nd with
      | term t => rw [rank_term hn] at hle; omega
      | nt h ch =>
        obtain ⟨hd, hh, _, hrk, _, _, hk⟩ := wf.nt hi hn
        have hl : hd.level = n := by omega
        rw [psum_nt wf s q hi hn hh, ← hl, msum_node wf s hrng q hi hn hh]
        refine Finset.sum_congr rfl fun j hj => ?_
        obtain ⟨lc, rc⟩ := hk _ (getD_mem (Finset.mem_range.1 hj))
        rw [ih _ lc (by omega) (fun l hl => hq l (by omega)), hl]

end

/-! ## `prob` -/

section
variable {R : Type} [CommRing R] {m : Arena T} {R' : List Nat → Prop}

theorem dotKids_ok (fp : List R) (q : Nat → R) : ∀ (rs : List (Nat × R)) (i : Nat) (acc : R),
    (∀ j, j < rs.length → fp[i + j]? = some (q (i + j))) →
    dotKids fp i rs acc = some (acc + ∑ j ∈ Finset.range rs.length, q (i + j) * (rs.map (·.2)).getD j 0) := by
  intro rs
  induction rs with
  | nil => intro i acc _; simp [dotKids]
  | cons r rs ih =>
    intro i acc h
    obtain ⟨c, r⟩ := r
    have h0 := h 0 (by simp)
    simp only [Nat.add_zero] at h0
    simp only [dotKids, h0]
    rw [ih (i + 1) _ (fun j hj => by
      have := h (j + 1) (by simpa using hj)
      rwa [show i + 1 + j = i + (j + 1) by omega])]
    congr 1
    rw [List.length_cons, Finset.sum_range_succ']
    simp only [List.map_cons, List.getD_cons_zero, List.getD_cons_succ, Nat.add_zero]
    have : ∀ j, i + 1 + j = i + (j + 1) := fun j => by omega
    simp only [this]
    ring

theorem dotKids_some {fp : List R} : ∀ {rs : List (Nat × R)} {i : Nat} {acc r : R},
    dotKids fp i rs acc = some r → ∀ j, j < rs.length → i + j < fp.length := by
  intro rs
  induction rs with
  | nil => intro i acc r _ j hj; simp at hj
  | cons x rs ih =>
    intro i acc r h j hj
    obtain ⟨c, y⟩ := x
    simp only [dotKids] at h
    cases e : fp[i]? with
    | none => rw [e] at h; cases h
    | some p =>
      rw [e] at h
      cases j with
      | zero => exact (List.getElem?_eq_some_iff.1 e).1
      | succ j => have := ih h j (by simpa using hj); omega

/-- The table `pv` has, for the label of each non-terminal reachable from `i`, a probability for every
state. -/
def TableOK (m : Arena T) (pv : String → Option (List R)) (i : Nat) : Prop :=
  ∀ j h ch hd, Reach m i j → m.nodes[j]? = some (.nt h ch) → m.headers[h]? = some hd →
    ∃ fp, pv hd.label = some fp ∧ ch.length ≤ fp.length

/-- `q` lists the probabilities of the table. -/
def Reads (m : Arena T) (pv : String → Option (List R)) (q : Nat → Nat → R) : Prop :=
  ∀ hd ∈ m.headers, ∀ fp, pv hd.label = some fp → ∀ j, j < fp.length → fp[j]? = some (q hd.level j)

theorem label?_nt {i h : Nat} {ch : List Nat} {hd : Header} (hn : m.nodes[i]? = some (.nt h ch))
    (hh : m.headers[h]? = some hd) : m.label? i = some hd.label := by
  simp [label?, hn, hh]

theorem probC_ok (wf : WF R' m) {s : Sel T} (hs : ∀ t, s.und t = true → s.sel t = false)
    {pv : String → Option (List R)} {q : Nat → Nat → R} (hq : Reads m pv q) {i : Nat} (hi : m.Live i)
    (ht : TableOK m pv i) {c : AMap Nat R} (hc : MemoP (fun j r => r = psum m s q j) c) :
    ∃ c', probC m pv s i c = some (psum m s q i, c') ∧ MemoP (fun j r => r = psum m s q j) c' := by
  obtain ⟨r, c', h1, h2, h3⟩ := memoFold_ok wf (leaf := probLeaf (R := R) s) (comb := probComb m pv)
    (Q := fun j => Reach m i j) (P := fun j r => r = psum m s q j)
    (fun j h ch hj hn c hc => hj.step hn hc)
    (by
      intro j t _ _ hn
      refine ⟨_, ?_, rfl⟩
      rw [psum_term s q hn]
      unfold probLeaf
      by_cases hu : s.und t = true
      · rw [if_pos hu, hs t hu]; simp
      · rw [if_neg hu]; split <;> rfl)
    (by
      intro j h ch rs hj lj hn hl hrs
      refine ⟨_, ?_, rfl⟩
      obtain ⟨hd, hh, hlen, hrk, _, _, hk⟩ := wf.nt lj hn
      obtain ⟨fp, f1, f2⟩ := ht j h ch hd hj hn hh
      have hmap : (ch.zip rs).map (·.2) = rs := List.map_snd_zip (by omega)
      have hlz : (ch.zip rs).length = ch.length := by simp [hl]
      unfold probComb
      simp only [label?_nt hn hh, f1]
      rw [dotKids_ok fp (q hd.level) _ _ _ (fun k hk => by
        rw [Nat.zero_add]
        exact hq hd (List.mem_of_getElem? hh) fp f1 k (by omega)), hmap, hlz, zero_add,
        psum_nt wf s q lj hn hh]
      congr 1
      refine Finset.sum_congr rfl fun k hk => ?_
      have hk := Finset.mem_range.1 hk
      rw [Nat.zero_add]
      congr 1
      rw [List.getD_eq_getElem?_getD, List.getD_eq_getElem?_getD, List.getElem?_eq_getElem (by omega),
        List.getElem?_eq_getElem hk]
      exact hrs k _ _ (List.getElem?_eq_getElem hk) (List.getElem?_eq_getElem (by omega)))
    (m.rank i + 1) i c (.refl _) hi (Nat.lt_succ_self _) hc
  subst h2
  exact ⟨c', h1, h3⟩

theorem prob_ok (wf : WF R' m) {s : Sel T} (hs : ∀ t, s.und t = true → s.sel t = false)
    {pv : String → Option (List R)} {q : Nat → Nat → R} (hq : Reads m pv q) {i : Nat} (hi : m.Live i)
    (ht : TableOK m pv i) : prob m pv s i = some (psum m s q i) := by
  obtain ⟨c', h, _⟩ := probC_ok wf hs hq hi ht (memoP_empty _)
  unfold prob
  rw [h]; rfl

/-- If `prob` returns, every reachable non-terminal was looked up. -/
theorem prob_some (wf : WF R' m) {s : Sel T} {pv : String → Option (List R)} {i : Nat} (hi : m.Live i) {r : R}
    (h : prob m pv s i = some r) : TableOK m pv i := by
  have kids : ∀ (f : Nat → AMap Nat R → Option (R × AMap Nat R)) (G : Nat → Prop),
      ∀ (as : List Nat), (∀ a ∈ as, ∀ c r c', (∀ k x, c.get k = some x → G k) → f a c = some (r, c') →
        G a ∧ ∀ k x, c'.get k = some x → G k) → ∀ c rs c', (∀ k x, c.get k = some x → G k) →
        foldKids f as c = some (rs, c') → (∀ a ∈ as, G a) ∧ rs.length = as.length ∧ ∀ k x, c'.get k = some x → G k := by
    intro f G as
    induction as with
    | nil => intro _ c rs c' hc h; simp only [foldKids, Option.some.injEq, Prod.mk.injEq] at h; exact ⟨by simp, by simp [← h.1], h.2 ▸ hc⟩
    | cons a as ih =>
      intro hf c rs c' hc h
      simp only [foldKids] at h
      cases e : f a c with
      | none => rw [e] at h; cases h
      | some p =>
        obtain ⟨r1, c1⟩ := p
        rw [e] at h
        simp only at h
        cases e2 : foldKids f as c1 with
        | none => rw [e2] at h; cases h
        | some p =>
          obtain ⟨rs1, c2⟩ := p
          rw [e2] at h
          simp only [Option.some.injEq, Prod.mk.injEq] at h
          obtain ⟨g1, g2⟩ := hf a List.mem_cons_self c r1 c1 hc e
          obtain ⟨g3, g4, g5⟩ := ih (fun b hb => hf b (List.mem_cons_of_mem _ hb)) c1 rs1 c2 g2 e2
          refine ⟨fun b hb => ?_, by rw [← h.1]; simp [g4], h.2 ▸ g5⟩
          rcases List.mem_cons.1 hb with rfl | hb
          · exact g1
          · exact g3 b hb
  have key : ∀ (fuel i : Nat) (c : AMap Nat R) (r : R) (c' : AMap Nat R), (∀ k x, c.get k = some x → TableOK m pv k) →
      m.memoFold (probLeaf s) (probComb m pv) fuel i c = some (r, c') →
      TableOK m pv i ∧ ∀ k x, c'.get k = some x → TableOK m pv k := by
    intro fuel
    induction fuel with
    | zero => intro i c r c' _ h; cases h
    | succ n ih =>
      intro i c r c' hc h
      simp only [memoFold] at h
      have ins : ∀ {c : AMap Nat R} {r : R}, TableOK m pv i → (∀ k x, c.get k = some x → TableOK m pv k) →
          ∀ k x, (c.insert i r).get k = some x → TableOK m pv k := by
        intro c r hi hc k x hk
        rw [AMap.get_insert] at hk
        split at hk
        · rename_i e; exact e ▸ hi
        · exact hc k x hk
      cases hg : c.get i with
      | some x =>
        rw [hg] at h
        simp only [Option.some.injEq, Prod.mk.injEq] at h
        exact ⟨hc i x hg, h.2 ▸ hc⟩
      | none =>
        rw [hg] at h
        simp only at h
        cases hn : m.nodes[i]? with
        | none => rw [hn] at h; cases h
        | some nd =>
          rw [hn] at h
          cases nd with
          | term t =>
            have hT : TableOK m pv i := by
              intro j h' ch hd hr hj _
              rcases hr.cases_head with e | ⟨_, _, _, e, _⟩
              · subst e; rw [hn] at hj; cases hj
              · rw [hn] at e; cases e
            simp only at h
            cases e : probLeaf (R := R) s t with
            | none => rw [e] at h; cases h
            | some x =>
              rw [e] at h
              simp only [Option.some.injEq, Prod.mk.injEq] at h
              exact ⟨hT, h.2 ▸ ins hT hc⟩
          | nt h' ch =>
            simp only at h
            cases e : foldKids (m.memoFold (probLeaf s) (probComb m pv) n) ch c with
            | none => rw [e] at h; cases h
            | some p =>
              obtain ⟨rs, c1⟩ := p
              rw [e] at h
              simp only at h
              obtain ⟨g1, g2, g3⟩ := kids _ (TableOK m pv) ch (fun a _ c r c' hc hf => ih a c r c' hc hf) c rs c1 hc e
              cases e2 : probComb m pv i h' (ch.zip rs) with
              | none => rw [e2] at h; cases h
              | some x =>
                rw [e2] at h
                simp only [Option.some.injEq, Prod.mk.injEq] at h
                have hT : TableOK m pv i := by
                  intro j hj' chj hd hr hj hh
                  rcases hr.cases_head with e0 | ⟨h2, ch2, c2, e0, e1, e3⟩
                  · subst e0
                    rw [hn] at hj; cases hj
                    unfold probComb at e2
                    rw [label?_nt hn hh] at e2
                    simp only at e2
                    cases e4 : pv hd.label with
                    | none => rw [e4] at e2; cases e2
                    | some fp =>
                      rw [e4] at e2
                      refine ⟨fp, rfl, ?_⟩
                      have := dotKids_some e2
                      rcases Nat.eq_zero_or_pos ch.length with h0 | h0
                      · omega
                      · have := this (ch.length - 1) (by simp [g2]; omega)
                        omega
                  · rw [hn] at e0; cases e0
                    exact g1 c2 e1 j hj' chj hd e3 hj hh
                exact ⟨hT, h.2 ▸ ins hT g3⟩
  unfold prob probC at h
  cases e : m.memoFold (probLeaf s) (probComb m pv) (m.rank i + 1) i AMap.empty with
  | none => rw [e] at h; cases h
  | some p => exact (key _ i _ p.1 p.2 (by intro k x hk; simp at hk) e).1

end
end Mda
end DD
