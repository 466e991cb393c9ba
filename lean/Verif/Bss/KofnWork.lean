import Verif.Bss.Kofn
import Mathlib.Data.Finset.Prod
import Mathlib.Data.Finset.Card

/-!
# The work done by `kofn`

`kofnG` is the text of `kofn_rec` (/repo/bss/src/bdd_kofn.rs:42-66) with a hook at the entry and any `ite`;
counting the entries and the calls of `ite` gives the work.  Without the counters the result is that of `kofnF`
(`kofnG_erase`).
-/

set_option autoImplicit false
set_option linter.unusedSectionVars false
set_option linter.unusedVariables false

namespace DD
open Arena

namespace Bdd

/-- /repo/bss/src/bdd_kofn.rs:42-66 -/
def kofnG {S : Type} (enter : S → S) (ite : S → Nat → Nat → Nat → Option (Nat × S)) (node : List Nat) (n : Nat) :
    Nat → S × List (Option Nat) → Nat → Nat → Option (Nat × S × List (Option Nat))
  | 0, _, _, _ => none
  | fuel + 1, (s, memo), k, start =>
    let s := enter s
    if k = 0 then some (one, s, memo)
    else if n < start then none
    else if k > n - start then some (zero, s, memo)
    else
      match memo[k * (n + 1) + start]? with
      | none => none
      | some (some v) => some (v, s, memo)
      | some none =>
        match kofnG enter ite node n fuel (s, memo) (k - 1) (start + 1) with
        | none => none
        | some (t, st) =>
          match kofnG enter ite node n fuel st k (start + 1) with
          | none => none
          | some (e, s, memo) =>
            match node[start]? with
            | none => none
            | some x =>
              match ite s x t e with
              | none => none
              | some (r, s) => some (r, s, memo.set (k * (n + 1) + start) (some r))

/-- The manager with the number of calls of `kofn_rec` and the number of calls of `ite`. -/
structure Work where
  mgr : Bdd
  calls : Nat
  ites : Nat

/-- A call of `kofn_rec`. -/
def Work.enter (s : Work) : Work := { s with calls := s.calls + 1 }

/-- A call of `ite`. -/
def Work.ite (s : Work) (f g h : Nat) : Option (Nat × Work) :=
  (s.mgr.ite f g h).map fun p => (p.1, { s with mgr := p.2, ites := s.ites + 1 })

/-- `kofn` with its work: /repo/bss/src/bdd_kofn.rs:31-40. -/
def kofnWork (s : Bdd) (k : Nat) (node : List Nat) : Option (Nat × Work) :=
  match kofnG Work.enter Work.ite node node.length (node.length + 1)
      (⟨s, 0, 0⟩, List.replicate ((k + 1) * (node.length + 1)) none) k 0 with
  | none => none
  | some (r, s, _) => some (r, s)

/-- Counting does not change the result. -/
theorem kofnG_erase (node : List Nat) (n : Nat) : ∀ (fuel : Nat) (s : Work) (memo : List (Option Nat)) (k start : Nat),
    (kofnG Work.enter Work.ite node n fuel (s, memo) k start).map (fun p => (p.1, p.2.1.mgr, p.2.2)) =
      kofnF node n fuel (s.mgr, memo) k start := by
  intro fuel
  induction fuel with
  | zero => intro _ _ _ _; rfl
  | succ fuel ih =>
    intro s memo k start
    unfold kofnG kofnF
    simp only
    split
    · rfl
    split
    · rfl
    split
    · rfl
    cases memo[k * (n + 1) + start]? with
    | none => rfl
    | some o =>
      cases o with
      | some v => rfl
      | none =>
        simp only
        have h1 := ih s.enter memo (k - 1) (start + 1)
        rw [show s.enter.mgr = s.mgr from rfl] at h1
        rw [← h1]
        cases kofnG Work.enter Work.ite node n fuel (s.enter, memo) (k - 1) (start + 1) with
        | none => rfl
        | some p =>
          obtain ⟨t, s1, m1⟩ := p
          simp only [Option.map_some]
          rw [← ih s1 m1 k (start + 1)]
          cases kofnG Work.enter Work.ite node n fuel (s1, m1) k (start + 1) with
          | none => rfl
          | some p =>
            obtain ⟨e, s2, m2⟩ := p
            simp only [Option.map_some]
            cases node[start]? with
            | none => rfl
            | some x =>
              simp only [Work.ite]
              cases s2.mgr.ite x t e with
              | none => rfl
              | some q => rfl

theorem kofnWork_erase (s : Bdd) (k : Nat) (node : List Nat) :
    (kofnWork s k node).map (fun p => (p.1, p.2.mgr)) = s.kofn k node := by
  unfold kofnWork kofn
  rw [← kofnG_erase node node.length (node.length + 1) ⟨s, 0, 0⟩]
  cases kofnG Work.enter Work.ite node node.length (node.length + 1)
      (⟨s, 0, 0⟩, List.replicate ((k + 1) * (node.length + 1)) none) k 0 with
  | none => rfl
  | some p => rfl

/-! ## The subproblems -/

/-- The subproblems `(j, t)` met below `(k, start)`. -/
def subs (n k start : Nat) : Finset (Nat × Nat) :=
  (Finset.range (k + 1) ×ˢ Finset.range (n + 1)).filter fun p => 1 ≤ p.1 ∧ start + k ≤ p.2 + p.1 ∧ p.2 + p.1 ≤ n

theorem mem_subs {n k start j t : Nat} :
    (j, t) ∈ subs n k start ↔ 1 ≤ j ∧ j ≤ k ∧ start + k ≤ t + j ∧ t + j ≤ n := by
  simp only [subs, Finset.mem_filter, Finset.mem_product, Finset.mem_range]
  omega

theorem card_subs (n k : Nat) : (subs n k 0).card = k * (n + 1 - k) := by
  have : subs n k 0 = (Finset.range k ×ˢ Finset.range (n + 1 - k)).image
      (fun p => (p.1 + 1, p.2 + (k - (p.1 + 1)))) := by
    ext ⟨j, t⟩
    rw [mem_subs]
    simp only [Finset.mem_image, Finset.mem_product, Finset.mem_range, Prod.mk.injEq, Prod.exists]
    constructor
    · rintro ⟨h1, h2, h3, h4⟩
      exact ⟨j - 1, t - (k - j), by omega, by omega, by omega⟩
    · rintro ⟨a, b, ⟨h1, h2⟩, rfl, rfl⟩
      omega
  rw [this, Finset.card_image_of_injOn, Finset.card_product, Finset.card_range, Finset.card_range]
  rintro ⟨a, b⟩ _ ⟨a', b'⟩ _ h
  simp only [Prod.mk.injEq] at h
  obtain ⟨h1, h2⟩ := h
  have : a = a' := by omega
  subst this
  simp; omega

/-- The filled cells of the memo table. -/
structure Filled (K n : Nat) (memo : List (Option Nat)) (S : Finset (Nat × Nat)) : Prop where
  len : memo.length = (K + 1) * (n + 1)
  cell : ∀ j t, j ≤ K → t ≤ n → (memo[j * (n + 1) + t]? = some none ↔ (j, t) ∉ S)
  closed : ∀ j t, (j, t) ∈ S → subs n j t ⊆ S

theorem kofnG_work {node : List Nat} {K n : Nat} : ∀ (fuel : Nat) (s : Work) (memo : List (Option Nat))
    (k start : Nat) (S : Finset (Nat × Nat)), Filled K n memo S → k ≤ K → start ≤ n → ∀ r s' memo',
    kofnG Work.enter Work.ite node n fuel (s, memo) k start = some (r, s', memo') →
    Filled K n memo' (S ∪ subs n k start) ∧ s'.ites + S.card = s.ites + (S ∪ subs n k start).card ∧
      s'.calls + 2 * S.card = s.calls + 1 + 2 * (S ∪ subs n k start).card := by
  intro fuel
  induction fuel with
  | zero => intro s memo k start S _ _ _ r s' memo' h; cases h
  | succ fuel ih =>
    intro s memo k start S hF hk hst r s' memo' h
    unfold kofnG at h
    simp only at h
    have stop : subs n k start ⊆ S → ∀ v, some (v, s.enter, memo) = some (r, s', memo') →
        Filled K n memo' (S ∪ subs n k start) ∧ s'.ites + S.card = s.ites + (S ∪ subs n k start).card ∧
          s'.calls + 2 * S.card = s.calls + 1 + 2 * (S ∪ subs n k start).card := by
      intro hsub v e
      cases e
      rw [Finset.union_eq_left.2 hsub]
      exact ⟨hF, rfl, rfl⟩
    split at h
    · rename_i hk0
      refine stop (fun p hp => ?_) _ h
      obtain ⟨j, t⟩ := p
      rw [mem_subs] at hp; omega
    rename_i hk0
    rw [if_neg (by omega)] at h
    split at h
    · rename_i hbig
      refine stop (fun p hp => ?_) _ h
      obtain ⟨j, t⟩ := p
      rw [mem_subs] at hp; omega
    rename_i hbig
    have hc := hF.cell k start hk hst
    revert h
    cases hm : memo[k * (n + 1) + start]? with
    | none => intro h; cases h
    | some o =>
      cases o with
      | some v =>
        intro h
        refine stop (hF.closed k start ?_) _ h
        rw [hm] at hc
        by_cases e : (k, start) ∈ S
        · exact e
        · cases hc.2 e
      | none =>
        intro h
        have hns : (k, start) ∉ S := hc.1 hm
        simp only at h
        revert h
        cases h1 : kofnG Work.enter Work.ite node n fuel (s.enter, memo) (k - 1) (start + 1) with
        | none => intro h; cases h
        | some p =>
          obtain ⟨t1, s1, m1⟩ := p
          obtain ⟨f1, c1, d1⟩ := ih s.enter memo (k - 1) (start + 1) S hF (by omega) (by omega) _ _ _ h1
          simp only
          cases h2 : kofnG Work.enter Work.ite node n fuel (s1, m1) k (start + 1) with
          | none => intro h; cases h
          | some p =>
            obtain ⟨t2, s2, m2⟩ := p
            obtain ⟨f2, c2, d2⟩ := ih s1 m1 k (start + 1) _ f1 hk (by omega) _ _ _ h2
            simp only
            generalize hS : S ∪ subs n (k - 1) (start + 1) = S1 at *
            generalize hS2 : S1 ∪ subs n k (start + 1) = S2 at *
            cases node[start]? with
            | none => intro h; cases h
            | some x =>
              simp only [Work.ite]
              cases s2.mgr.ite x t1 t2 with
              | none => intro h; cases h
              | some q =>
                intro h
                simp only [Option.map_some, Option.some.injEq, Prod.mk.injEq] at h
                obtain ⟨-, rfl, rfl⟩ := h
                have hn2 : (k, start) ∉ S2 := by
                  rw [← hS2, ← hS]
                  simp only [Finset.mem_union, mem_subs, hns, false_or]
                  omega
                have hU : S ∪ subs n k start = insert (k, start) S2 := by
                  ext ⟨j, t⟩
                  rw [← hS2, ← hS]
                  simp only [Finset.mem_insert, Finset.mem_union, mem_subs, Prod.mk.injEq]
                  by_cases hj : (j, t) ∈ S
                  · simp [hj]
                  · simp only [hj, false_or]
                    omega
                have hcard := Finset.card_insert_of_notMem hn2
                rw [hU]
                refine ⟨⟨by rw [List.length_set]; exact f2.len, ?_, ?_⟩, ?_, ?_⟩
                · intro j t hj ht
                  rw [List.getElem?_set, Finset.mem_insert, Prod.mk.injEq]
                  split
                  · rename_i e
                    obtain ⟨rfl, rfl⟩ := idx_inj hst ht e
                    rw [if_pos (by rw [f2.len]; exact idx_lt hk hst)]
                    simp
                  · rename_i e
                    have : ¬ (j = k ∧ t = start) := by rintro ⟨rfl, rfl⟩; exact e rfl
                    rw [f2.cell j t hj ht]
                    simp [this]
                · intro j t hjt
                  rcases Finset.mem_insert.1 hjt with e | e
                  · cases e
                    rw [← hU]; exact Finset.subset_union_right
                  · exact (f2.closed j t e).trans (Finset.subset_insert _ _)
                · rw [hcard]; simp only [Work.enter] at c1; simp only; omega
                · rw [hcard]; simp only [Work.enter] at d1; simp only; omega

/-- `kofn` over `n` nodes calls `ite` exactly `k * (n + 1 - k)` times. -/
theorem kofnWork_ok {s : Bdd} {k : Nat} {node : List Nat} {r : Nat} {s' : Bdd} (h : s.kofn k node = some (r, s')) :
    kofnWork s k node = some (r, ⟨s', 2 * (k * (node.length + 1 - k)) + 1, k * (node.length + 1 - k)⟩) := by
  have he := kofnWork_erase s k node
  rw [h] at he
  unfold kofnWork at he ⊢
  revert he
  cases h1 : kofnG Work.enter Work.ite node node.length (node.length + 1)
      (⟨s, 0, 0⟩, List.replicate ((k + 1) * (node.length + 1)) none) k 0 with
  | none => intro he; cases he
  | some p =>
    obtain ⟨r1, s1, m1⟩ := p
    intro he
    simp only [Option.map_some, Option.some.injEq, Prod.mk.injEq] at he
    obtain ⟨rfl, rfl⟩ := he
    obtain ⟨-, c, d⟩ := kofnG_work (K := k) (node.length + 1) ⟨s, 0, 0⟩ _ k 0 ∅
      ⟨by simp, fun j t hj ht => by
        rw [List.getElem?_replicate, if_pos (idx_lt hj ht)]; simp, fun j t h => by simp at h⟩
      (Nat.le_refl _) (by omega) _ _ _ h1
    rw [Finset.empty_union, card_subs] at c d
    simp only [Finset.card_empty] at c d
    obtain ⟨m, a, b⟩ := s1
    simp only at c d ⊢
    simp only [Option.some.injEq, Prod.mk.injEq, Work.mk.injEq, true_and]
    omega

end Bdd
end DD
