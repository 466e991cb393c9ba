import Verif.Bss.Analysis
import Verif.Bss.Session
import Verif.Core.WSum

/-!
# Correctness of counting, probability and size
-/

set_option autoImplicit false
set_option linter.unusedSectionVars false
set_option linter.unusedVariables false

namespace DD
open Arena

/-- Weighted sum over the truth assignments of the levels below `n`, of `g` of the value of `F`. -/
def bsum {R : Type} [CommSemiring R] (q : Nat → Bool → R) (g : Bool → R) (n : Nat) (F : BFun) : R :=
  wsum (D := fun _ => Bool) (fun _ b => b) false q n (fun a => g (F a))

section
variable {R : Type} [CommSemiring R] (q : Nat → Bool → R) (g : Bool → R)

theorem cof_update (F : BFun) (l : Nat) (b : Bool) (a : Nat → Bool) :
    F (Function.update a l b) = F.cof l b a := by
  unfold BFun.cof
  congr 1
  funext x
  simp [Function.update_apply]

theorem bsum_succ (n : Nat) (F : BFun) : bsum q g (n + 1) F =
    q n false * bsum q g n (F.cof n false) + q n true * bsum q g n (F.cof n true) := by
  unfold bsum
  rw [wsum_succ]
  simp only [cof_update]
  rw [Fintype.sum_bool, add_comm]

theorem bsum_gap {n n' : Nat} (hn : n ≤ n') {F : BFun} (hF : DependsBelow n F) :
    bsum q g n' F = (∏ i ∈ Finset.Ico n n', (q i false + q i true)) * bsum q g n F := by
  unfold bsum
  rw [wsum_gap _ _ _ hn (fun a b h => by rw [hF a b h])]
  congr 1
  exact Finset.prod_congr rfl fun i _ => by rw [Fintype.sum_bool, add_comm]

end

namespace Bdd

theorem dependsBelow_rank {s : Bdd} (hs : Inv s) {i : Nat} {F : BFun} (h : Den s.arena i F) :
    DependsBelow (s.arena.rank i) F := fun a b hab => den_congr hs h hab

/-- Kids of a determined node are determined. -/
def Det (m : Arena T3) (i : Nat) : Prop := ∃ F, Den m i F

theorem det_kids {s : Bdd} (hs : Inv s) (inj : s.arena.LevInj) (i h : Nat) (ch : List Nat)
    (hd : Det s.arena i) (hn : s.arena.nodes[i]? = some (.nt h ch)) : ∀ c ∈ ch, Det s.arena c := by
  obtain ⟨F, hF⟩ := hd
  cases den_cases hs inj hF with
  | const b h1 => rw [show s.arena.nodes[i]? = _ from h1] at hn; cases hn
  | node h' lo hi hd h1 h2 h3 d0 d1 ht =>
    rw [show s.arena.nodes[i]? = _ from h1] at hn; cases hn
    intro c hc
    simp at hc
    rcases hc with rfl | rfl
    · exact ⟨_, d0⟩
    · exact ⟨_, d1⟩

theorem power_eq (x n : Nat) : power x n = x ^ n := by
  induction n with
  | zero => rfl
  | succ n ih => rw [power, ih, pow_succ]

/-- Indicator of membership in `ss`. -/
def ind {R : Type} [CommSemiring R] (ss : List Bool) (b : Bool) : R := if b ∈ ss then 1 else 0

theorem rank_lt_of_level {m : Arena T3} {c l : Nat} (h : m.level? c = some l) : m.rank c = l + 1 :=
  rank_eq_of_level h

theorem countKid_ok {s : Bdd} (hs : Inv s) {cur c r : Nat} (hc : s.arena.rank c ≤ cur) :
    countKid s.arena cur c r = some (2 ^ (cur - s.arena.rank c) * r) := by
  unfold countKid
  cases h : s.arena.level? c with
  | none =>
    have : s.arena.rank c = 0 := by simp [rank, h]
    simp [power_eq, this]
  | some l =>
    have h1 := rank_lt_of_level h
    simp only [power_eq]
    rw [if_pos (by omega), h1]
    congr 3

/-- `bdd_count` is the number of assignments of the levels up to the node's. -/
theorem count_ok {s : Bdd} (hs : Inv s) (inj : s.arena.LevInj) {i : Nat} {F : BFun}
    (h : Den s.arena i F) (ss : List Bool) :
    count s.arena ss i = some (bsum (fun _ _ => 1) (ind ss) (s.arena.rank i) F) := by
  obtain ⟨r, c, h1, h2, _⟩ := memoFold_ok hs.wf (leaf := countLeaf ss) (comb := countComb s.arena)
    (Q := Det s.arena)
    (P := fun j r => ∀ G, Den s.arena j G → r = bsum (fun _ _ => 1) (ind ss) (s.arena.rank j) G)
    (det_kids hs inj)
    (by
      rintro j t ⟨G, hG⟩ hj hn
      cases den_cases hs inj hG with
      | node h' lo hi hd k1 => rw [show s.arena.nodes[j]? = _ from k1] at hn; cases hn
      | const b k1 k2 k3 =>
        rw [show s.arena.nodes[j]? = _ from k1] at hn; cases hn
        refine ⟨ind ss b, ?_, ?_⟩
        · cases b <;> simp [countLeaf, T3.ofBool, ind]
        · intro G' hG'
          rw [← hG.fun_eq hG', rank_term (show s.arena.nodes[j]? = _ from k1)]
          unfold bsum
          rw [wsum_zero, k3])
    (by
      rintro j h' ch rs ⟨G, hG⟩ hj hn hlen hr
      cases den_cases hs inj hG with
      | const b k1 => rw [show s.arena.nodes[j]? = _ from k1] at hn; cases hn
      | node h'' lo hi hd k1 k2 k3 d0 d1 ht =>
        rw [show s.arena.nodes[j]? = _ from k1] at hn; cases hn
        have hrk := rank_nt (show s.arena.nodes[j]? = _ from k1) k2
        obtain ⟨_, e1, _, _, _, _, hk⟩ := hs.wf.nt hj (show s.arena.nodes[j]? = _ from k1)
        have r0 := (hk lo (by simp)).2
        have r1 := (hk hi (by simp)).2
        match rs, hlen with
        | [x, y], _ =>
          have hx := hr 0 lo x rfl rfl _ d0
          have hy := hr 1 hi y rfl rfl _ d1
          refine ⟨2 ^ (hd.level - s.arena.rank lo) * x + 2 ^ (hd.level - s.arena.rank hi) * y, ?_, ?_⟩
          · simp only [List.zip_cons_cons, List.zip_nil_right, countComb, k3,
              countKid_ok hs (show s.arena.rank lo ≤ hd.level by omega),
              countKid_ok hs (show s.arena.rank hi ≤ hd.level by omega), Nat.zero_add]
          · intro G' hG'
            rw [← hG.fun_eq hG', hrk, bsum_succ, hx, hy,
              bsum_gap _ _ (show s.arena.rank lo ≤ hd.level by omega) (dependsBelow_rank hs d0),
              bsum_gap _ _ (show s.arena.rank hi ≤ hd.level by omega) (dependsBelow_rank hs d1)]
            simp)
    (s.arena.rank i + 1) i AMap.empty ⟨F, h⟩ h.live (by omega) (memoP_empty _)
  rw [count, h1, Option.map_some, h2 F h]

section
variable {R : Type} [CommRing R]

/-- Probability weights. -/
def pw (p : Nat → R) (l : Nat) (b : Bool) : R := if b then p l else 1 - p l

theorem pw_sum (p : Nat → R) (l : Nat) : pw p l false + pw p l true = 1 := by
  simp [pw]

theorem bsum_pw_gap (p : Nat → R) (g : Bool → R) {n n' : Nat} (hn : n ≤ n') {F : BFun}
    (hF : DependsBelow n F) : bsum (pw p) g n' F = bsum (pw p) g n F := by
  rw [bsum_gap _ _ hn hF]
  simp [pw_sum]

/-- The probabilities by level agree with those by label. -/
def PvOK (m : Arena T3) (pv : String → Option R) (p : Nat → R) : Prop :=
  ∀ hd ∈ m.headers, p hd.level = (pv hd.label).getD 0

/-- What the `prob` memo holds. -/
def ProbOK (m : Arena T3) (p : Nat → R) (ss : List Bool) (j : Nat) (r : R) : Prop :=
  ∀ G, Den m j G → r = bsum (pw p) (ind ss) (m.rank j) G

theorem probC_ok {s : Bdd} (hs : Inv s) (inj : s.arena.LevInj) {i : Nat} {F : BFun}
    (h : Den s.arena i F) {pv : String → Option R} {p : Nat → R} (hp : PvOK s.arena pv p)
    (ss : List Bool) {c : AMap Nat R} (hc : MemoP (ProbOK s.arena p ss) c) :
    ∃ c', probC s.arena pv ss i c = some (bsum (pw p) (ind ss) (s.arena.rank i) F, c') ∧
      MemoP (ProbOK s.arena p ss) c' := by
  obtain ⟨r, c, h1, h2, h3⟩ := memoFold_ok hs.wf (leaf := probLeaf ss) (comb := probComb s.arena pv)
    (Q := Det s.arena) (P := ProbOK s.arena p ss) (det_kids hs inj)
    (by
      rintro j t ⟨G, hG⟩ hj hn
      cases den_cases hs inj hG with
      | node h' lo hi hd k1 => rw [show s.arena.nodes[j]? = _ from k1] at hn; cases hn
      | const b k1 k2 k3 =>
        rw [show s.arena.nodes[j]? = _ from k1] at hn; cases hn
        refine ⟨ind ss b, ?_, ?_⟩
        · cases b <;> simp [probLeaf, T3.ofBool, ind]
        · intro G' hG'
          rw [← hG.fun_eq hG', rank_term (show s.arena.nodes[j]? = _ from k1)]
          unfold bsum
          rw [wsum_zero, k3])
    (by
      rintro j h' ch rs ⟨G, hG⟩ hj hn hlen hr
      cases den_cases hs inj hG with
      | const b k1 => rw [show s.arena.nodes[j]? = _ from k1] at hn; cases hn
      | node h'' lo hi hd k1 k2 k3 d0 d1 ht =>
        rw [show s.arena.nodes[j]? = _ from k1] at hn; cases hn
        have hrk := rank_nt (show s.arena.nodes[j]? = _ from k1) k2
        obtain ⟨_, e1, _, _, _, _, hk⟩ := hs.wf.nt hj (show s.arena.nodes[j]? = _ from k1)
        have r0 := (hk lo (by simp)).2
        have r1 := (hk hi (by simp)).2
        have hlab : s.arena.label? j = some hd.label := by
          simp [label?, show s.arena.nodes[j]? = _ from k1, k2]
        match rs, hlen with
        | [x, y], _ =>
          have hx := hr 0 lo x rfl rfl _ d0
          have hy := hr 1 hi y rfl rfl _ d1
          refine ⟨(1 - (pv hd.label).getD 0) * x + (pv hd.label).getD 0 * y, ?_, ?_⟩
          · simp only [List.zip_cons_cons, List.zip_nil_right, probComb, hlab]
          · intro G' hG'
            rw [← hG.fun_eq hG', hrk, bsum_succ, hx, hy,
              bsum_pw_gap p _ (show s.arena.rank lo ≤ hd.level by omega) (dependsBelow_rank hs d0),
              bsum_pw_gap p _ (show s.arena.rank hi ≤ hd.level by omega) (dependsBelow_rank hs d1)]
            simp [pw, hp hd (List.mem_of_getElem? k2)])
    (s.arena.rank i + 1) i c ⟨F, h⟩ h.live (by omega) hc
  exact ⟨c, by rw [probC, h1, h2 F h], h3⟩

theorem prob_ok {s : Bdd} (hs : Inv s) (inj : s.arena.LevInj) {i : Nat} {F : BFun}
    (h : Den s.arena i F) {pv : String → Option R} {p : Nat → R} (hp : PvOK s.arena pv p)
    (ss : List Bool) {N : Nat} (hN : s.arena.rank i ≤ N) :
    prob s.arena pv ss i = some (bsum (pw p) (ind ss) N F) := by
  obtain ⟨c', h1, _⟩ := probC_ok hs inj h hp ss (memoP_empty _)
  rw [prob, h1, bsum_pw_gap p _ hN (dependsBelow_rank hs h)]
  rfl

end

/-- `size`: distinct reachable non-terminals, distinct reachable terminals, edges. -/
theorem nodeSize_ok {s : Bdd} (hs : Inv s) {i : Nat} (hi : s.arena.Live i) :
    ∃ L : List Nat, L.Nodup ∧ (∀ j, j ∈ L ↔ Reach s.arena i j) ∧
      nodeSize s.arena i = some (L.countP (s.arena.isNt ·), L.countP (!s.arena.isNt ·),
        2 * L.countP (s.arena.isNt ·)) := by
  obtain ⟨n, v, e, L, h1, h2, h3, h4⟩ := nodeCount_ok hs.wf (s.arena.rank i + 1) i [] hi (by omega)
    ⟨by simp, by simp⟩ (by simp)
  refine ⟨L, h2.ok.nodup, fun j => by rw [h3]; simp, ?_⟩
  have hdeg : ∀ l : List Nat, (∀ j ∈ l, s.arena.Live j) →
      (l.map s.arena.outDeg).sum = 2 * l.countP (s.arena.isNt ·) := by
    intro l hl
    induction l with
    | nil => rfl
    | cons j l ih =>
      have ih := ih (fun k hk => hl k (List.mem_cons_of_mem _ hk))
      obtain ⟨nd, hn⟩ := (hl j List.mem_cons_self).node
      rw [List.map_cons, List.sum_cons, ih, List.countP_cons]
      cases nd with
      | term t => simp [outDeg, isNt, hn]
      | nt h ch =>
        obtain ⟨hd, e1, e2, _⟩ := hs.wf.nt (hl j List.mem_cons_self) hn
        rw [hs.two hd (List.mem_of_getElem? e1)] at e2
        simp [outDeg, isNt, hn, e2]; omega
  have hn := h2.nts
  have hv := h2.terms
  have he := h2.edges
  simp only [List.countP_nil, Nat.zero_add, List.map_nil, List.sum_nil] at hn hv he
  rw [hdeg L h4] at he
  simp only [nodeSize, h1]
  rw [hn, hv, ← he, hn]
  simp

end Bdd
end DD
