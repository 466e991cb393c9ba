import Verif.Core.Width
import Verif.Bss.AnalysisOk
import Verif.Bss.Queries
import Verif.Zdd.Analysis
import Verif.Bss.ZReads

/-!
# Counting in machine integers: BDD and ZDD

`bdd_count` and `zdd_count` over an `Arith`; over `Arith.exact` they are the passes of `Verif/Bss/Analysis.lean`
and `Verif/Zdd/Analysis.lean`.
-/

set_option autoImplicit false
set_option linter.unusedSectionVars false
set_option linter.unusedVariables false

namespace DD
open Arena

/-- Lists that pair up to two pairs. -/
theorem zip_two {ch rs : List Nat} {c0 r0 c1 r1 : Nat} (hl : rs.length = ch.length)
    (h : ch.zip rs = [(c0, r0), (c1, r1)]) : ch = [c0, c1] ∧ rs = [r0, r1] := by
  have h1 := congrArg (List.map Prod.fst) h
  have h2 := congrArg (List.map Prod.snd) h
  rw [List.map_fst_zip (by omega)] at h1
  rw [List.map_snd_zip (by omega)] at h2
  exact ⟨h1, h2⟩

namespace Bdd

/-- One child's contribution, /repo/bss/src/bdd_count.rs:72-79 and 80-87. -/
def countKidA (A : Arith) (m : Arena T3) (cur : Nat) (c r : Nat) : Option Nat :=
  match (match m.level? c with
    | some next => if next < cur then A.power 2 (cur - next - 1) else none
    | none => A.power 2 cur) with
  | none => none
  | some p => A.mul p r

/-- Non-terminals, /repo/bss/src/bdd_count.rs:69-89. -/
def countCombA (A : Arith) (m : Arena T3) (i _h : Nat) : List (Nat × Nat) → Option Nat
  | [(c0, r0), (c1, r1)] =>
    match m.level? i with
    | none => none
    | some cur =>
      match countKidA A m cur c0 r0, countKidA A m cur c1 r1 with
      | some x, some y => A.sum [x, y]
      | _, _ => none
  | _ => none

/-- `bdd_count` with an empty cache, /repo/bss/src/bdd_count.rs:41-94 and bdd.rs:518-522. -/
def countA (A : Arith) (m : Arena T3) (ss : List Bool) (i : Nat) : Option Nat :=
  (m.memoFold (countLeaf ss) (countCombA A m) (m.rank i + 1) i AMap.empty).map (·.1)

theorem countKidA_exact (m : Arena T3) (cur c r : Nat) : countKidA .exact m cur c r = countKid m cur c r := by
  unfold countKidA countKid
  cases m.level? c with
  | none => simp only [Arith.exact_power, power_eq]; rfl
  | some next =>
    by_cases h : next < cur
    · simp only [if_pos h, Arith.exact_power, power_eq]; rfl
    · simp only [if_neg h]

theorem countCombA_exact (m : Arena T3) : countCombA .exact m = countComb m := by
  funext i h l
  match l with
  | [] => rfl
  | [_] => rfl
  | _ :: _ :: _ :: _ => rfl
  | [(c0, r0), (c1, r1)] =>
    simp only [countCombA, countComb, countKidA_exact]
    cases m.level? i with
    | none => rfl
    | some cur =>
      simp only
      cases countKid m cur c0 r0 <;> cases countKid m cur c1 r1 <;> simp [Arith.exact_sum]

theorem countA_exact (m : Arena T3) (ss : List Bool) (i : Nat) : countA .exact m ss i = count m ss i := by
  unfold countA count
  rw [countCombA_exact]

theorem countKidA_sim {A B : Arith} {γ : Nat → Nat → Prop} (S : Arith.Sim A B γ) (h1 : γ 1 1) (h2 : γ 2 2)
    {m : Arena T3} {cur c r r' x : Nat} (hr : γ r r') (h : countKidA A m cur c r = some x) :
    ∃ x', countKidA B m cur c r' = some x' ∧ γ x x' := by
  unfold countKidA at h ⊢
  cases hl : m.level? c with
  | none =>
    simp only [hl] at h ⊢
    split at h
    · cases h
    · rename_i p hp
      obtain ⟨p', k1, k2⟩ := S.power h1 h2 _ hp
      simp only [k1]
      exact S.mul _ _ _ _ _ k2 hr h
  | some next =>
    simp only [hl] at h ⊢
    by_cases hlt : next < cur
    · simp only [if_pos hlt] at h ⊢
      split at h
      · cases h
      · rename_i p hp
        obtain ⟨p', k1, k2⟩ := S.power h1 h2 _ hp
        simp only [k1]
        exact S.mul _ _ _ _ _ k2 hr h
    · simp [if_neg hlt] at h

theorem countLeaf_sim {γ : Nat → Nat → Prop} (h0 : γ 0 0) (h1 : γ 1 1) (ss : List Bool) (t : T3) (r : Nat)
    (h : countLeaf ss t = some r) : ∃ r', countLeaf ss t = some r' ∧ γ r r' := by
  refine ⟨r, h, ?_⟩
  cases t <;> simp only [countLeaf, Option.some.injEq] at h <;> subst h
  · split <;> assumption
  · split <;> assumption
  · exact h0

theorem countA_sim {A B : Arith} {γ : Nat → Nat → Prop} (S : Arith.Sim A B γ) (h0 : γ 0 0) (h1 : γ 1 1) (h2 : γ 2 2)
    {m : Arena T3} {ss : List Bool} {i r : Nat} (h : countA A m ss i = some r) :
    ∃ r', countA B m ss i = some r' ∧ γ r r' := by
  unfold countA at h ⊢
  rw [Option.map_eq_some_iff] at h
  obtain ⟨⟨x, d⟩, h, rfl⟩ := h
  obtain ⟨r', d', k1, k2, _⟩ := m.memoFold_sim (γ := γ) (leaf' := countLeaf ss) (comb' := countCombA B m)
    (countLeaf_sim h0 h1 ss) (by
      intro i h l l' r hl hc
      unfold countCombA at hc
      split at hc
      · rename_i c0 r0 c1 r1
        cases hl with
        | cons p0 hl => cases hl with
          | cons p1 hl => cases hl with
            | nil =>
              rename_i q0 q1
              obtain ⟨c0', r0'⟩ := q0
              obtain ⟨c1', r1'⟩ := q1
              obtain ⟨rfl, p0⟩ : c0 = c0' ∧ γ r0 r0' := p0
              obtain ⟨rfl, p1⟩ : c1 = c1' ∧ γ r1 r1' := p1
              split at hc
              · cases hc
              · rename_i cur hcur
                split at hc
                · rename_i x y hx hy
                  obtain ⟨x', k1, k2⟩ := countKidA_sim S h1 h2 p0 hx
                  obtain ⟨y', k3, k4⟩ := countKidA_sim S h1 h2 p1 hy
                  obtain ⟨r', k5, k6⟩ := S.sum h0 (.cons k2 (.cons k4 .nil)) hc
                  exact ⟨r', by simp only [countCombA, hcur, k1, k3, k5], k6⟩
                · cases hc
      · cases hc) _ _ _ _ _ _ MapRel.empty h
  exact ⟨r', by simp [k1], k2⟩

/-- Levels an edge skips. -/
def gap (m : Arena T3) (i c : Nat) : Nat := (m.rank i - 1) - m.rank c

/-- No edge below `i` skips so many levels that its factor leaves the type. -/
def Narrow (M : Nat) (m : Arena T3) (i : Nat) : Prop :=
  ∀ j h ch, Reach m i j → m.nodes[j]? = some (.nt h ch) → ∀ c ∈ ch, 2 ^ gap m j c < M

theorem countKidA_some {M : Nat} (hM : 1 < M) {m : Arena T3} {cur c r x : Nat}
    (h : countKidA (.checked M) m cur c r = some x) : 2 ^ (cur - m.rank c) < M := by
  unfold countKidA at h
  cases hl : m.level? c with
  | none =>
    simp only [hl] at h
    split at h
    · cases h
    · rename_i p hp
      obtain ⟨rfl, k⟩ := Arith.checked_power_lt hM hp
      simpa [rank, hl] using k
  | some next =>
    simp only [hl] at h
    split at h
    · cases h
    · rename_i p hp
      split at hp
      · obtain ⟨rfl, k⟩ := Arith.checked_power_lt hM hp
        rw [rank_eq_of_level hl, ← Nat.sub_sub]
        exact k
      · cases hp

theorem countKidA_ok {M : Nat} {m : Arena T3} {cur c r x : Nat} (h : countKid m cur c r = some x) (hx : x < M)
    (hg : 2 ^ (cur - m.rank c) < M) : r ≤ x ∧ countKidA (.checked M) m cur c r = some x := by
  unfold countKid at h
  unfold countKidA
  cases hl : m.level? c with
  | none =>
    simp only [hl, power_eq, Option.some.injEq] at h ⊢
    have : m.rank c = 0 := by simp [rank, hl]
    rw [this, Nat.sub_zero] at hg
    rw [Arith.checked_power (by omega) hg]
    subst h
    exact ⟨Nat.le_mul_of_pos_left _ (Nat.pos_of_ne_zero (by simp)), Arith.checked_mul hx⟩
  | some next =>
    simp only [hl] at h ⊢
    split at h
    · rename_i hlt
      rw [rank_eq_of_level hl, ← Nat.sub_sub] at hg
      simp only [power_eq, Option.some.injEq] at h
      rw [if_pos hlt, Arith.checked_power (by omega) hg]
      subst h
      exact ⟨Nat.le_mul_of_pos_left _ (Nat.pos_of_ne_zero (by simp)), Arith.checked_mul hx⟩
    · cases h

/-- Checked counting panics exactly if the count leaves the type or an edge skips too many levels. -/
theorem countA_checked {s : Bdd} (hs : Inv s) (inj : s.arena.LevInj) {M : Nat} (hM : 1 < M) {ss : List Bool} {i n : Nat}
    (hn : count s.arena ss i = some n) :
    (n < M → Narrow M s.arena i → countA (.checked M) s.arena ss i = some n) ∧
    (∀ r, countA (.checked M) s.arena ss i = some r → r = n ∧ n < M ∧ Narrow M s.arena i) := by
  constructor
  · intro h1 h2
    unfold count at hn
    rw [Option.map_eq_some_iff] at hn
    obtain ⟨⟨x, d⟩, hn, rfl⟩ := hn
    have := s.arena.memoFold_below (M := M) (Q := fun j => Reach s.arena i j) (leaf := countLeaf ss)
      (comb := countComb s.arena) (comb' := countCombA (.checked M) s.arena)
      (fun j h ch hj hnj c hc => .step hj hnj hc) (by
        intro j h ch rs r hj hnj hlen hc hr
        unfold countComb at hc
        split at hc
        · rename_i c0 r0 c1 r1 heq
          obtain ⟨rfl, rfl⟩ := zip_two hlen heq
          split at hc
          · cases hc
          · rename_i cur hcur
            have g0 := h2 j h _ hj hnj c0 (by simp)
            have g1 := h2 j h _ hj hnj c1 (by simp)
            unfold gap at g0 g1
            rw [rank_eq_of_level hcur, Nat.add_sub_cancel] at g0 g1
            split at hc
            · rename_i x' y' hx hy
              cases hc
              obtain ⟨q1, q2⟩ := countKidA_ok hx (by omega) g0
              obtain ⟨q3, q4⟩ := countKidA_ok hy (by omega) g1
              refine ⟨?_, ?_⟩
              · intro z hz
                simp only [List.mem_cons, List.not_mem_nil, or_false] at hz
                rcases hz with rfl | rfl <;> omega
              · simp only [List.zip_cons_cons, List.zip_nil_right, countCombA, hcur, q2, q4]
                rw [Arith.checked_sum (by simpa using hr)]
                simp
            · cases hc
        · cases hc) _ _ _ _ _ (.refl _) hn h1
    simp [countA, this]
  · intro r hr
    obtain ⟨r', k1, rfl⟩ := countA_sim (Arith.checked_exact M) rfl rfl rfl hr
    rw [countA_exact, hn] at k1
    cases k1
    refine ⟨rfl, ?_⟩
    unfold countA at hr
    rw [Option.map_eq_some_iff] at hr
    obtain ⟨⟨x, d⟩, hr, rfl⟩ := hr
    have := s.arena.memoFold_inv (leaf := countLeaf ss) (comb := countCombA (.checked M) s.arena)
      (P := fun j r => r < M ∧ Narrow M s.arena j) (by
        intro j t r hj ht
        refine ⟨?_, ?_⟩
        · cases t <;> simp only [countLeaf, Option.some.injEq] at ht <;> subst ht
          · split <;> omega
          · split <;> omega
          · omega
        · intro k h ch hk hnk
          have : k = j := by
            have key : ∀ a b, Reach s.arena a b → a = j → b = j := by
              intro a b hab
              induction hab with
              | refl => exact id
              | step hr hn hc ih =>
                intro e
                have := ih e
                subst this
                rw [hj] at hn
                cases hn
            exact key _ _ hk rfl
          subst this
          rw [hj] at hnk
          cases hnk) (by
        intro j h ch rs r hj hlen hP hc
        unfold countCombA at hc
        split at hc
        · rename_i c0 r0 c1 r1 heq
          obtain ⟨rfl, rfl⟩ := zip_two hlen heq
          have p0 := (hP 0 c0 r0 rfl rfl).2
          have p1 := (hP 1 c1 r1 rfl rfl).2
          split at hc
          · cases hc
          · rename_i cur hcur
            split at hc
            · rename_i x' y' hx hy
              refine ⟨Arith.checked_sum_lt _ (by omega) hc, ?_⟩
              intro k h' ch' hk hnk
              have key : ∀ a' b', Reach s.arena a' b' → a' = j → b' = j ∨ Reach s.arena c0 b' ∨ Reach s.arena c1 b' := by
                intro a' b' hab
                induction hab with
                | refl => exact fun e => Or.inl e
                | step hr hn hc ih =>
                  intro e
                  rcases ih e with rfl | h1 | h1
                  · rw [hj] at hn
                    cases hn
                    simp only [List.mem_cons, List.not_mem_nil, or_false] at hc
                    rcases hc with rfl | rfl
                    · exact Or.inr (Or.inl (.refl _))
                    · exact Or.inr (Or.inr (.refl _))
                  · exact Or.inr (Or.inl (.step h1 hn hc))
                  · exact Or.inr (Or.inr (.step h1 hn hc))
              rcases key _ _ hk rfl with rfl | h1 | h1
              · rw [hj] at hnk
                cases hnk
                intro c hc
                unfold gap
                rw [rank_eq_of_level hcur, Nat.add_sub_cancel]
                simp only [List.mem_cons, List.not_mem_nil, or_false] at hc
                rcases hc with rfl | rfl
                · exact countKidA_some hM hx
                · exact countKidA_some hM hy
              · exact p0 k h' ch' h1 hnk
              · exact p1 k h' ch' h1 hnk
            · cases hc
        · cases hc) _ _ _ _ _ (memoP_empty _) hr
    exact this.1

/-- Wrapping counting gives the count modulo the size of the type. -/
theorem countA_wrapping {m : Arena T3} {M : Nat} (hM : 2 < M) {ss : List Bool} {i n : Nat} (hn : count m ss i = some n) :
    countA (.wrapping M) m ss i = some (n % M) := by
  rw [← countA_exact] at hn
  obtain ⟨r, h1, h2⟩ := countA_sim (Arith.exact_wrapping M) (by simp) (by rw [Nat.mod_eq_of_lt]; omega)
    (by rw [Nat.mod_eq_of_lt]; omega) hn
  rw [h1, h2]

end Bdd

namespace Zdd

/-- Non-terminals, /repo/bss/src/zdd_count.rs:37-41. -/
def zcountCombA (A : Arith) (_i _h : Nat) : List (Nat × Nat) → Option Nat
  | [(_, e0), (_, e1)] => A.add e0 e1
  | _ => none

/-- `zdd_count` with an empty cache, /repo/bss/src/zdd_count.rs:10-46 and zdd.rs:287-292. -/
def zcountA (A : Arith) (m : Arena T3) (ss : List Bool) (i : Nat) : Option Nat :=
  (m.memoFold (fun t => some (if acc ss t then 1 else 0)) (zcountCombA A) (m.rank i + 1) i AMap.empty).map (·.1)

theorem zcountA_exact (m : Arena T3) (ss : List Bool) (i : Nat) : zcountA .exact m ss i = zcount m ss i := by
  unfold zcountA zcount
  have : zcountCombA .exact = zcountComb := by
    funext i h l
    match l with
    | [] => rfl
    | [_] => rfl
    | _ :: _ :: _ :: _ => rfl
    | [(_, _), (_, _)] => rfl
  rw [this]

theorem zcountA_sim {A B : Arith} {γ : Nat → Nat → Prop} (S : Arith.Sim A B γ) (h0 : γ 0 0) (h1 : γ 1 1)
    {m : Arena T3} {ss : List Bool} {i r : Nat} (h : zcountA A m ss i = some r) :
    ∃ r', zcountA B m ss i = some r' ∧ γ r r' := by
  unfold zcountA at h ⊢
  rw [Option.map_eq_some_iff] at h
  obtain ⟨⟨x, d⟩, h, rfl⟩ := h
  obtain ⟨r', d', k1, k2, _⟩ := m.memoFold_sim (γ := γ) (leaf' := fun t => some (if acc ss t then 1 else 0))
    (comb' := zcountCombA B) (by
      intro t r h
      cases h
      refine ⟨_, rfl, ?_⟩
      split <;> assumption) (by
      intro i h l l' r hl hc
      unfold zcountCombA at hc
      split at hc
      · cases hl with
        | cons p0 hl => cases hl with
          | cons p1 hl => cases hl with
            | nil => exact S.add _ _ _ _ _ p0.2 p1.2 hc
      · cases hc) _ _ _ _ _ _ MapRel.empty h
  exact ⟨r', by simp [k1], k2⟩

theorem zcountA_checked {m : Arena T3} {M : Nat} (hM : 1 < M) {ss : List Bool} {i n : Nat} (hn : zcount m ss i = some n) :
    zcountA (.checked M) m ss i = if n < M then some n else none := by
  split
  · rename_i h1
    unfold zcount at hn
    rw [Option.map_eq_some_iff] at hn
    obtain ⟨⟨x, d⟩, hn, rfl⟩ := hn
    have := m.memoFold_below (M := M) (Q := fun _ => True) (leaf := fun t => some (if acc ss t then 1 else 0))
      (comb := zcountComb) (comb' := zcountCombA (.checked M)) (fun _ _ _ _ _ _ _ => trivial) (by
        intro j h ch rs r _ hnj hlen hc hr
        unfold zcountComb at hc
        split at hc
        · rename_i c0 r0 c1 r1 heq
          obtain ⟨rfl, rfl⟩ := zip_two hlen heq
          cases hc
          refine ⟨?_, ?_⟩
          · intro z hz
            simp only [List.mem_cons, List.not_mem_nil, or_false] at hz
            rcases hz with rfl | rfl <;> omega
          · simp only [List.zip_cons_cons, List.zip_nil_right, zcountCombA]
            exact Arith.checked_add hr
        · cases hc) _ _ _ _ _ trivial hn h1
    simp [zcountA, this]
  · rename_i h1
    cases hr : zcountA (.checked M) m ss i with
    | none => rfl
    | some r =>
      exfalso
      obtain ⟨r', k1, rfl⟩ := zcountA_sim (Arith.checked_exact M) rfl rfl hr
      rw [zcountA_exact, hn] at k1
      cases k1
      unfold zcountA at hr
      rw [Option.map_eq_some_iff] at hr
      obtain ⟨⟨x, d⟩, hr, rfl⟩ := hr
      refine h1 (m.memoFold_inv (P := fun j r => r < M) (leaf := fun t => some (if acc ss t then 1 else 0))
        (comb := zcountCombA (.checked M)) ?_ ?_ _ _ _ _ _ (memoP_empty _) hr).1
      · intro j t r hj ht
        cases ht
        split <;> omega
      · intro j h ch rs r hj hlen hP hc
        unfold zcountCombA at hc
        split at hc
        · exact Arith.checked_lt_add hc
        · cases hc

theorem zcountA_wrapping {m : Arena T3} {M : Nat} (hM : 1 < M) {ss : List Bool} {i n : Nat} (hn : zcount m ss i = some n) :
    zcountA (.wrapping M) m ss i = some (n % M) := by
  rw [← zcountA_exact] at hn
  obtain ⟨r, h1, h2⟩ := zcountA_sim (Arith.exact_wrapping M) (by simp) (by rw [Nat.mod_eq_of_lt hM]) hn
  rw [h1, h2]

end Zdd

/-- The `+` and `*` of `u64`. -/
def Build.u64 : Build → Arith
  | .dev => .checked (2 ^ 64)
  | .release => .wrapping (2 ^ 64)

/-- `BddNode::bdd_count` in `u64`, /repo/bss/src/bdd.rs:518-522; also `BddPath::len`, /repo/bss/src/bdd_path.rs:43-45.
`none` = arithmetic overflow. -/
def World.countIn (w : World) (b : Build) (ss : List Bool) (f : Nat) : Option Nat :=
  match w.held.get f with
  | none => none
  | some i => Bdd.countA b.u64 w.mgr.bdd.arena ss i

/-- `ZddNode::count` in `u64`, /repo/bss/src/zdd.rs:287-292; also `ZddPath::len`, /repo/bss/src/zdd_path.rs:36-38. -/
def ZWorld.countIn (w : ZWorld) (b : Build) (ss : List Bool) (f : Nat) : Option Nat :=
  match w.hs.held.get f with
  | none => none
  | some i => Zdd.zcountA b.u64 w.mgr.w.eng.arena ss i

end DD
