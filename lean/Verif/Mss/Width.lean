import Verif.Bss.Width
import Verif.Mss.Analysis
import Verif.Mss.ZmddMgr

/-!
# Counting in machine integers: MDD and ZMDD

`mdd_count` and `zmdd_count` over an `Arith`; over `Arith.exact` they are the passes of `Verif/Mss/Analysis.lean`
and `Verif/Mss/ZmddMgr.lean`.
-/

set_option autoImplicit false
set_option linter.unusedSectionVars false
set_option linter.unusedVariables false

namespace DD
open Arena

namespace Mda
variable {T : Type} [DecidableEq T] [Fixed T] {K : Type} [DecidableEq K]

/-- `edge_num() as u32`, /repo/mss/src/mdd_count.rs:156, 201. -/
def castU32 (n : Nat) : Nat := n % 2 ^ 32

/-- The arm of a skipped level, from the result of the call one level down, /repo/mss/src/mdd_count.rs:155-158,
200-203. -/
def skipA (A : Arith) (m : Arena T) (l2h : List Nat) (lv : Option Nat) (sub : Option (Nat × AMap K Nat)) :
    Option (Nat × AMap K Nat) :=
  match lv with
  | none => none
  | some l =>
    match l2h[l]? with
    | none => none
    | some h =>
      match m.headers[h]? with
      | none => none
      | some hd =>
        match sub with
        | none => none
        | some (r, c) => (A.mul (castU32 hd.edgeNum) r).map fun x => (x, c)

/-- The `match` on the node, /repo/mss/src/mdd_count.rs:154-177, 199-227; `rec` is the call one level down. -/
def armA (A : Arith) (m : Arena T) (s : Sel T) (l2h : List Nat) (lv : Option Nat) (i : Nat)
    (rec : Nat → AMap K Nat → Option (Nat × AMap K Nat)) (c : AMap K Nat) : Node T → Option (Nat × AMap K Nat)
  | .nt _ ch =>
    if above m lv i then skipA A m l2h lv (rec i c)
    else
      match foldKids rec ch c with
      | none => none
      | some (rs, c) => (A.sum rs).map fun x => (x, c)
  | .term t =>
    if s.und t then some (0, c)
    else if above m lv i then skipA A m l2h lv (rec i c)
    else some (if s.sel t then 1 else 0, c)

/-- `cache.insert(key, result.clone())`. -/
def keepA (k : K) : Option (Nat × AMap K Nat) → Option (Nat × AMap K Nat)
  | none => none
  | some (r, c) => some (r, c.insert k r)

/-- `vmdd_count` (`key i lv = (i, lv)`) and `bmdd_count` (`key i lv = i`),
/repo/mss/src/mdd_count.rs:138-180, 182-230. -/
def countFA (A : Arith) (key : Nat → Option Nat → K) (m : Arena T) (s : Sel T) (l2h : List Nat) :
    Nat → Option Nat → Nat → AMap K Nat → Option (Nat × AMap K Nat)
  | 0, _, _, _ => none
  | fuel + 1, lv, i, c =>
    match c.get (key i lv) with
    | some r => some (r, c)
    | none =>
      match m.nodes[i]? with
      | none => none
      | some n => keepA (key i lv) (armA A m s l2h lv i (countFA A key m s l2h fuel (Bdd.pred? lv)) c n)

/-- One arm of `mdd_count`, /repo/mss/src/mdd_count.rs:105-119, 120-134. -/
def countA (A : Arith) (key : Nat → Option Nat → K) (m : Arena T) (s : Sel T) (i : Nat) : Option Nat :=
  match m.level? i with
  | none => some 1
  | some l =>
    match fillL2H m.headers 0 (List.replicate m.headers.length 0) with
    | none => none
    | some l2h => (countFA A key m s l2h (m.rank i + 1) (some l) i AMap.empty).map (·.1)

theorem countFA_exact {key : Nat → Option Nat → K} {m : Arena T} (hE : ∀ hd ∈ m.headers, hd.edgeNum < 2 ^ 32) (s : Sel T)
    (l2h : List Nat) (n : Nat) : countFA .exact key m s l2h n = countF key m s l2h n := by
  induction n with
  | zero => rfl
  | succ n ih =>
    funext lv i c
    have hmul : ∀ (h : Nat) (hd : Header), m.headers[h]? = some hd → ∀ r, Arith.exact.mul (castU32 hd.edgeNum) r =
        some (hd.edgeNum * r) := by
      intro h hd hh r
      unfold castU32
      rw [Nat.mod_eq_of_lt (hE hd (List.mem_of_getElem? hh))]
      rfl
    simp only [countFA, countF, ih]
    cases c.get (key i lv) with
    | some r => rfl
    | none =>
      simp only
      have hskip : ∀ sub : Option (Nat × AMap K Nat), skipA .exact m l2h lv sub = (match lv with
          | none => none
          | some l =>
            match l2h[l]? with
            | none => none
            | some h =>
              match m.headers[h]? with
              | none => none
              | some hd =>
                match sub with
                | none => none
                | some (r, c) => some (hd.edgeNum * r, c)) := by
        intro sub
        unfold skipA
        cases lv with
        | none => rfl
        | some l =>
          simp only
          cases l2h[l]? with
          | none => rfl
          | some h =>
            simp only
            cases hh : m.headers[h]? with
            | none => rfl
            | some hd =>
              cases sub with
              | none => rfl
              | some p => simp only [hmul h hd hh, Option.map_some]
      cases m.nodes[i]? with
      | none => rfl
      | some nd =>
        cases nd with
        | nt hd ch =>
          simp only [armA, hskip]
          by_cases ha : above m lv i = true
          · simp only [if_pos ha]; rfl
          · simp only [if_neg ha]
            cases foldKids (countF key m s l2h n (Bdd.pred? lv)) ch c with
            | none => rfl
            | some p => simp only [Arith.exact_sum, Option.map_some]; rfl
        | term t =>
          simp only [armA, hskip]
          by_cases hu : s.und t = true
          · simp only [if_pos hu]; rfl
          · simp only [if_neg hu]
            by_cases ha : above m lv i = true
            · simp only [if_pos ha]; rfl
            · simp only [if_neg ha]; rfl

theorem countA_exact {key : Nat → Option Nat → K} {m : Arena T} (hE : ∀ hd ∈ m.headers, hd.edgeNum < 2 ^ 32) (s : Sel T)
    (i : Nat) : countA .exact key m s i = count key m s i := by
  unfold countA count
  simp only [countFA_exact hE]
  rfl

theorem skipA_some {A : Arith} {m : Arena T} {l2h : List Nat} {lv : Option Nat} {sub : Option (Nat × AMap K Nat)} {r : Nat}
    {d : AMap K Nat} (h : skipA A m l2h lv sub = some (r, d)) :
    ∃ l h hd x, lv = some l ∧ l2h[l]? = some h ∧ m.headers[h]? = some hd ∧ sub = some (x, d) ∧
      A.mul (castU32 hd.edgeNum) x = some r := by
  unfold skipA at h
  split at h
  · cases h
  · split at h
    · cases h
    · rename_i h1
      split at h
      · cases h
      · rename_i h2
        split at h
        · cases h
        · rw [Option.map_eq_some_iff] at h
          obtain ⟨y, hy, e⟩ := h
          cases e
          exact ⟨_, _, _, _, rfl, h1, h2, rfl, hy⟩

theorem skipA_eq {A : Arith} {m : Arena T} {l2h : List Nat} {l h : Nat} {hd : Header} (h1 : l2h[l]? = some h)
    (h2 : m.headers[h]? = some hd) {x y : Nat} {d : AMap K Nat} (hy : A.mul (castU32 hd.edgeNum) x = some y) :
    skipA A m l2h (some l) (some (x, d)) = some (y, d) := by
  simp only [skipA, h1, h2, hy, Option.map_some]

theorem countFA_sim {A B : Arith} {γ : Nat → Nat → Prop} (S : Arith.Sim A B γ) (h0 : γ 0 0) (h1 : γ 1 1)
    (hu : ∀ e, e < 2 ^ 32 → γ e e) {key : Nat → Option Nat → K} {m : Arena T} {s : Sel T} {l2h : List Nat} (n : Nat) :
    ∀ lv i c c' r d, MapRel γ c c' → countFA A key m s l2h n lv i c = some (r, d) →
      ∃ r' d', countFA B key m s l2h n lv i c' = some (r', d') ∧ γ r r' ∧ MapRel γ d d' := by
  induction n with
  | zero => intro lv i c c' r d _ h; cases h
  | succ n ih =>
    intro lv i c c' r d hc h
    have hk := hc (key i lv)
    simp only [countFA] at h ⊢
    cases hg : c.get (key i lv) with
    | some x =>
      rw [hg] at hk
      cases hg' : c'.get (key i lv) with
      | none => rw [hg'] at hk; cases hk
      | some x' =>
        rw [hg'] at hk
        simp only [hg, Option.some.injEq, Prod.mk.injEq] at h
        obtain ⟨rfl, rfl⟩ := h
        cases hk with
        | some hk => exact ⟨_, _, rfl, hk, hc⟩
    | none =>
      rw [hg] at hk
      cases hg' : c'.get (key i lv) with
      | some x' => rw [hg'] at hk; cases hk
      | none =>
        simp only [hg] at h
        cases hn : m.nodes[i]? with
        | none => simp [hn] at h
        | some nd =>
          simp only [hn] at h ⊢
          have hskip : ∀ {r d}, skipA A m l2h lv (countFA A key m s l2h n (Bdd.pred? lv) i c) = some (r, d) →
              ∃ r' d', skipA B m l2h lv (countFA B key m s l2h n (Bdd.pred? lv) i c') = some (r', d') ∧
                γ r r' ∧ MapRel γ d d' := by
            intro r d hh
            obtain ⟨l, h, hd, x, rfl, e1, e2, e3, e4⟩ := skipA_some hh
            obtain ⟨x', d', k1, k2, k3⟩ := ih _ _ _ _ _ _ hc e3
            obtain ⟨y', k4, k5⟩ := S.mul _ _ _ _ _ (hu _ (Nat.mod_lt _ (by decide))) k2 e4
            exact ⟨y', d', by rw [k1]; exact skipA_eq e1 e2 k4, k5, k3⟩
          have harm : ∀ {r d}, armA A m s l2h lv i (countFA A key m s l2h n (Bdd.pred? lv)) c nd = some (r, d) →
              ∃ r' d', armA B m s l2h lv i (countFA B key m s l2h n (Bdd.pred? lv)) c' nd = some (r', d') ∧
                γ r r' ∧ MapRel γ d d' := by
            intro r d hres
            cases nd with
            | nt hd ch =>
              simp only [armA] at hres ⊢
              split at hres
              · rename_i ha
                rw [if_pos ha]
                exact hskip hres
              · rename_i ha
                rw [if_neg ha]
                cases hx : foldKids (countFA A key m s l2h n (Bdd.pred? lv)) ch c with
                | none => simp [hx] at hres
                | some p =>
                  obtain ⟨rs, cx⟩ := p
                  simp only [hx] at hres
                  rw [Option.map_eq_some_iff] at hres
                  obtain ⟨y, hy, e⟩ := hres
                  cases e
                  obtain ⟨rs', d', k1, k2, k3⟩ := foldKids_sim (g := countFA B key m s l2h n (Bdd.pred? lv))
                    (fun i c c' r d h1 h2 => ih _ _ _ _ _ _ h1 h2) ch _ _ _ _ hc hx
                  obtain ⟨y', k4, k5⟩ := S.sum h0 k2 hy
                  exact ⟨y', d', by simp only [k1, k4, Option.map_some], k5, k3⟩
            | term t =>
              simp only [armA] at hres ⊢
              split at hres
              · rename_i hu'
                rw [if_pos hu']
                cases hres
                exact ⟨0, c', rfl, h0, hc⟩
              · rename_i hu'
                rw [if_neg hu']
                split at hres
                · rename_i ha
                  rw [if_pos ha]
                  exact hskip hres
                · rename_i ha
                  rw [if_neg ha]
                  cases hres
                  exact ⟨_, c', rfl, by split <;> assumption, hc⟩
          cases hr : armA A m s l2h lv i (countFA A key m s l2h n (Bdd.pred? lv)) c nd with
          | none => simp [hr, keepA] at h
          | some p =>
            obtain ⟨x, cx⟩ := p
            simp only [hr, keepA, Option.some.injEq, Prod.mk.injEq] at h
            obtain ⟨rfl, rfl⟩ := h
            obtain ⟨r', d', k1, k2, k3⟩ := harm hr
            exact ⟨r', _, by rw [k1]; rfl, k2, k3.insert _ k2⟩

/-- A run of the exact count that ends below `M` is also a run of the checked count. -/
theorem countFA_below {M : Nat} {m : Arena T} (hE : ∀ hd ∈ m.headers, 0 < castU32 hd.edgeNum) {key : Nat → Option Nat → K}
    {s : Sel T} {l2h : List Nat} (n : Nat) :
    ∀ lv i c r d, countFA .exact key m s l2h n lv i c = some (r, d) → r < M →
      countFA (.checked M) key m s l2h n lv i c = some (r, d) := by
  induction n with
  | zero => intro lv i c r d h; cases h
  | succ n ih =>
    intro lv i c r d h hr
    simp only [countFA] at h ⊢
    cases hg : c.get (key i lv) with
    | some x => simp only [hg] at h ⊢; exact h
    | none =>
      simp only [hg] at h ⊢
      cases hn : m.nodes[i]? with
      | none => simp [hn] at h
      | some nd =>
        simp only [hn] at h ⊢
        have hskip : ∀ {r d}, r < M → skipA .exact m l2h lv (countFA .exact key m s l2h n (Bdd.pred? lv) i c) = some (r, d) →
            skipA (.checked M) m l2h lv (countFA (.checked M) key m s l2h n (Bdd.pred? lv) i c) = some (r, d) := by
          intro r d hr hh
          obtain ⟨l, h, hd, x, rfl, e1, e2, e3, e4⟩ := skipA_some hh
          cases e4
          have hx : x ≤ castU32 hd.edgeNum * x := Nat.le_mul_of_pos_left _ (hE hd (List.mem_of_getElem? e2))
          rw [ih _ _ _ _ _ e3 (by omega)]
          exact skipA_eq e1 e2 (Arith.checked_mul hr)
        have harm : ∀ {r d}, r < M → armA .exact m s l2h lv i (countFA .exact key m s l2h n (Bdd.pred? lv)) c nd = some (r, d) →
            armA (.checked M) m s l2h lv i (countFA (.checked M) key m s l2h n (Bdd.pred? lv)) c nd = some (r, d) := by
          intro r d hr hres
          cases nd with
          | nt hd ch =>
            simp only [armA] at hres ⊢
            split at hres
            · rename_i ha
              rw [if_pos ha]
              exact hskip hr hres
            · rename_i ha
              rw [if_neg ha]
              cases hx : foldKids (countFA .exact key m s l2h n (Bdd.pred? lv)) ch c with
              | none => simp [hx] at hres
              | some p =>
                obtain ⟨rs, cx⟩ := p
                simp only [hx, Arith.exact_sum, Option.map_some, Option.some.injEq, Prod.mk.injEq] at hres
                obtain ⟨rfl, rfl⟩ := hres
                have := foldKids_below (M := M) (Q := fun _ => True) (g := countFA (.checked M) key m s l2h n (Bdd.pred? lv)) ch
                  (fun _ _ => trivial) (fun i c r d _ h1 h2 => ih _ _ _ _ _ h1 h2) _ _ _ hx
                  (fun x hx => Nat.lt_of_le_of_lt (le_sum_of_mem hx) hr)
                simp only [this, Arith.checked_sum hr, Option.map_some]
          | term t =>
            simp only [armA] at hres ⊢
            split at hres
            · rename_i hu'
              rw [if_pos hu']
              exact hres
            · rename_i hu'
              rw [if_neg hu']
              split at hres
              · rename_i ha
                rw [if_pos ha]
                exact hskip hr hres
              · rename_i ha
                rw [if_neg ha]
                exact hres
        cases hra : armA .exact m s l2h lv i (countFA .exact key m s l2h n (Bdd.pred? lv)) c nd with
        | none => simp [hra, keepA] at h
        | some p =>
          obtain ⟨x, cx⟩ := p
          simp only [hra, keepA, Option.some.injEq, Prod.mk.injEq] at h
          obtain ⟨rfl, rfl⟩ := h
          rw [harm hr hra]
          rfl

/-- Checked counting only returns numbers of the type. -/
theorem countFA_lt {M : Nat} (hM : 1 < M) {key : Nat → Option Nat → K} {m : Arena T} {s : Sel T} {l2h : List Nat} (n : Nat) :
    ∀ lv i c r d, (∀ k x, c.get k = some x → x < M) → countFA (.checked M) key m s l2h n lv i c = some (r, d) →
      r < M ∧ ∀ k x, d.get k = some x → x < M := by
  induction n with
  | zero => intro lv i c r d _ h; cases h
  | succ n ih =>
    intro lv i c r d hc h
    simp only [countFA] at h
    cases hg : c.get (key i lv) with
    | some x =>
      simp only [hg, Option.some.injEq, Prod.mk.injEq] at h
      obtain ⟨rfl, rfl⟩ := h
      exact ⟨hc _ _ hg, hc⟩
    | none =>
      simp only [hg] at h
      cases hn : m.nodes[i]? with
      | none => simp [hn] at h
      | some nd =>
        simp only [hn] at h
        have hskip : ∀ {r d}, skipA (.checked M) m l2h lv (countFA (.checked M) key m s l2h n (Bdd.pred? lv) i c) = some (r, d) →
            r < M ∧ ∀ k x, d.get k = some x → x < M := by
          intro r d hh
          obtain ⟨l, h, hd, x, rfl, e1, e2, e3, e4⟩ := skipA_some hh
          exact ⟨Arith.checked_lt_mul e4, (ih _ _ _ _ _ hc e3).2⟩
        have hkids : ∀ (ch : List Nat) (c : AMap K Nat) (rs : List Nat) (d : AMap K Nat), (∀ k x, c.get k = some x → x < M) →
            foldKids (countFA (.checked M) key m s l2h n (Bdd.pred? lv)) ch c = some (rs, d) →
            ∀ k x, d.get k = some x → x < M := by
          intro ch
          induction ch with
          | nil => intro c rs d hc h; cases h; exact hc
          | cons a as iha =>
            intro c rs d hc h
            simp only [foldKids] at h
            split at h
            · cases h
            · rename_i r c1 hr
              split at h
              · cases h
              · rename_i rs1 c2 hrs
                cases h
                exact iha _ _ _ (ih _ _ _ _ _ hc hr).2 hrs
        have harm : ∀ {r d}, armA (.checked M) m s l2h lv i (countFA (.checked M) key m s l2h n (Bdd.pred? lv)) c nd = some (r, d) →
            r < M ∧ ∀ k x, d.get k = some x → x < M := by
          intro r d hres
          cases nd with
          | nt hd ch =>
            simp only [armA] at hres
            split at hres
            · exact hskip hres
            · split at hres
              · cases hres
              · rename_i rs cx hx
                rw [Option.map_eq_some_iff] at hres
                obtain ⟨y, hy, e⟩ := hres
                cases e
                exact ⟨Arith.checked_sum_lt _ (by omega) hy, hkids _ _ _ _ hc hx⟩
          | term t =>
            simp only [armA] at hres
            split at hres
            · cases hres; exact ⟨by omega, hc⟩
            · split at hres
              · exact hskip hres
              · cases hres
                exact ⟨by split <;> omega, hc⟩
        cases hra : armA (.checked M) m s l2h lv i (countFA (.checked M) key m s l2h n (Bdd.pred? lv)) c nd with
        | none => simp [hra, keepA] at h
        | some p =>
          obtain ⟨x, cx⟩ := p
          simp only [hra, keepA, Option.some.injEq, Prod.mk.injEq] at h
          obtain ⟨rfl, rfl⟩ := h
          obtain ⟨q1, q2⟩ := harm hra
          refine ⟨q1, ?_⟩
          intro k y hy
          rw [AMap.get_insert] at hy
          split at hy
          · cases hy; exact q1
          · exact q2 _ _ hy

theorem countA_sim {A B : Arith} {γ : Nat → Nat → Prop} (S : Arith.Sim A B γ) (h0 : γ 0 0) (h1 : γ 1 1)
    (hu : ∀ e, e < 2 ^ 32 → γ e e) {key : Nat → Option Nat → K} {m : Arena T} {s : Sel T} {i r : Nat}
    (h : countA A key m s i = some r) : ∃ r', countA B key m s i = some r' ∧ γ r r' := by
  unfold countA at h ⊢
  cases hl : m.level? i with
  | none => simp only [hl] at h ⊢; cases h; exact ⟨1, rfl, h1⟩
  | some l =>
    simp only [hl] at h ⊢
    cases hf : fillL2H m.headers 0 (List.replicate m.headers.length 0) with
    | none => simp [hf] at h
    | some l2h =>
      simp only [hf] at h ⊢
      rw [Option.map_eq_some_iff] at h
      obtain ⟨⟨x, d⟩, h, rfl⟩ := h
      obtain ⟨r', d', k1, k2, _⟩ := countFA_sim S h0 h1 hu _ _ _ _ _ _ _ MapRel.empty h
      exact ⟨r', by simp [k1], k2⟩

/-- Checked counting panics exactly if the count leaves the type. -/
theorem countA_checked {M : Nat} (hM : 1 < M) {key : Nat → Option Nat → K} {m : Arena T}
    (hE : ∀ hd ∈ m.headers, 0 < hd.edgeNum ∧ hd.edgeNum < 2 ^ 32) {s : Sel T} {i n : Nat} (hn : count key m s i = some n) :
    countA (.checked M) key m s i = if n < M then some n else none := by
  rw [← countA_exact (fun hd h => (hE hd h).2)] at hn
  split
  · rename_i h1
    unfold countA at hn ⊢
    cases hl : m.level? i with
    | none => simp only [hl] at hn ⊢; exact hn
    | some l =>
      simp only [hl] at hn ⊢
      cases hf : fillL2H m.headers 0 (List.replicate m.headers.length 0) with
      | none => simp [hf] at hn
      | some l2h =>
        simp only [hf] at hn ⊢
        rw [Option.map_eq_some_iff] at hn
        obtain ⟨⟨x, d⟩, hn, rfl⟩ := hn
        rw [countFA_below (fun hd h => by unfold castU32; rw [Nat.mod_eq_of_lt (hE hd h).2]; exact (hE hd h).1) _ _ _ _ _ _ hn h1]
        rfl
  · rename_i h1
    cases hr : countA (.checked M) key m s i with
    | none => rfl
    | some r =>
      exfalso
      obtain ⟨r', k1, rfl⟩ := countA_sim (Arith.checked_exact M) rfl rfl (fun _ _ => rfl) hr
      rw [hn] at k1
      cases k1
      unfold countA at hr
      cases hl : m.level? i with
      | none => simp only [hl] at hr; cases hr; omega
      | some l =>
        simp only [hl] at hr
        cases hf : fillL2H m.headers 0 (List.replicate m.headers.length 0) with
        | none => simp [hf] at hr
        | some l2h =>
          simp only [hf] at hr
          rw [Option.map_eq_some_iff] at hr
          obtain ⟨⟨x, d⟩, hr, rfl⟩ := hr
          exact h1 (countFA_lt hM _ _ _ _ _ _ (by intro k x h; simp [AMap.get_empty] at h) hr).1

/-- Wrapping counting gives the count modulo the size of the type. -/
theorem countA_wrapping {M : Nat} (hM : 2 ^ 32 ≤ M) {key : Nat → Option Nat → K} {m : Arena T}
    (hE : ∀ hd ∈ m.headers, hd.edgeNum < 2 ^ 32) {s : Sel T} {i n : Nat} (hn : count key m s i = some n) :
    countA (.wrapping M) key m s i = some (n % M) := by
  rw [← countA_exact hE] at hn
  obtain ⟨r, h1, h2⟩ := countA_sim (Arith.exact_wrapping M) (by simp) (by rw [Nat.mod_eq_of_lt]; omega)
    (fun e he => by rw [Nat.mod_eq_of_lt]; omega) hn
  rw [h1, h2]

end Mda

namespace Zma

/-- `zmdd_count` with an empty cache, /repo/mss/src/zmdd.rs:273-278, 334-362. -/
def countA (A : Arith) (m : Arena (Option Int)) (ss : List Int) (i : Nat) : Option Nat :=
  (m.memoFold (countLeaf ss) (fun _ _ rs => A.sum (rs.map (·.2))) (m.rank i + 1) i AMap.empty).map (·.1)

theorem countA_exact (m : Arena (Option Int)) (ss : List Int) (i : Nat) : countA .exact m ss i = count m ss i := by
  unfold countA count
  simp only [Arith.exact_sum]

theorem countLeaf_le {ss : List Int} {t : Option Int} {r : Nat} (h : countLeaf ss t = some r) : r = 0 ∨ r = 1 := by
  cases t <;> simp only [countLeaf, Option.some.injEq] at h <;> subst h
  · exact Or.inl rfl
  · split
    · exact Or.inr rfl
    · exact Or.inl rfl

theorem countA_sim {A B : Arith} {γ : Nat → Nat → Prop} (S : Arith.Sim A B γ) (h0 : γ 0 0) (h1 : γ 1 1)
    {m : Arena (Option Int)} {ss : List Int} {i r : Nat} (h : countA A m ss i = some r) :
    ∃ r', countA B m ss i = some r' ∧ γ r r' := by
  unfold countA at h ⊢
  rw [Option.map_eq_some_iff] at h
  obtain ⟨⟨x, d⟩, h, rfl⟩ := h
  obtain ⟨r', d', k1, k2, _⟩ := m.memoFold_sim (γ := γ) (leaf' := countLeaf ss)
    (comb' := fun _ _ rs => B.sum (rs.map (·.2))) (by
      intro t r h
      refine ⟨r, h, ?_⟩
      rcases countLeaf_le h with rfl | rfl <;> assumption) (by
      intro i h l l' r hl hc
      refine S.sum h0 ?_ hc
      rw [List.forall₂_map_left_iff, List.forall₂_map_right_iff]
      exact hl.imp fun _ _ h => h.2) _ _ _ _ _ _ MapRel.empty h
  exact ⟨r', by simp [k1], k2⟩

theorem countA_checked {m : Arena (Option Int)} {M : Nat} (hM : 1 < M) {ss : List Int} {i n : Nat}
    (hn : count m ss i = some n) : countA (.checked M) m ss i = if n < M then some n else none := by
  split
  · rename_i h1
    unfold count at hn
    rw [Option.map_eq_some_iff] at hn
    obtain ⟨⟨x, d⟩, hn, rfl⟩ := hn
    have := m.memoFold_below (M := M) (Q := fun _ => True) (leaf := countLeaf ss)
      (comb := fun _ _ rs => some (rs.map (·.2)).sum) (comb' := fun _ _ rs => (Arith.checked M).sum (rs.map (·.2)))
      (fun _ _ _ _ _ _ _ => trivial) (by
        intro j h ch rs r _ hnj hlen hc hr
        cases hc
        rw [List.map_snd_zip (by omega)] at hr ⊢
        exact ⟨fun x hx => Nat.lt_of_le_of_lt (le_sum_of_mem hx) hr, Arith.checked_sum hr⟩) _ _ _ _ _ trivial hn h1
    simp [countA, this]
  · rename_i h1
    cases hr : countA (.checked M) m ss i with
    | none => rfl
    | some r =>
      exfalso
      obtain ⟨r', k1, rfl⟩ := countA_sim (Arith.checked_exact M) rfl rfl hr
      rw [countA_exact, hn] at k1
      cases k1
      unfold countA at hr
      rw [Option.map_eq_some_iff] at hr
      obtain ⟨⟨x, d⟩, hr, rfl⟩ := hr
      refine h1 (m.memoFold_inv (P := fun j r => r < M) (leaf := countLeaf ss)
        (comb := fun _ _ rs => (Arith.checked M).sum (rs.map (·.2))) ?_ ?_ _ _ _ _ _ (memoP_empty _) hr).1
      · intro j t r hj ht
        rcases countLeaf_le ht with rfl | rfl <;> omega
      · intro j h ch rs r hj hlen hP hc
        exact Arith.checked_sum_lt _ (by omega) hc

theorem countA_wrapping {m : Arena (Option Int)} {M : Nat} (hM : 1 < M) {ss : List Int} {i n : Nat}
    (hn : count m ss i = some n) : countA (.wrapping M) m ss i = some (n % M) := by
  rw [← countA_exact] at hn
  obtain ⟨r, h1, h2⟩ := countA_sim (Arith.exact_wrapping M) (by simp) (by rw [Nat.mod_eq_of_lt hM]) hn
  rw [h1, h2]

end Zma

/-- `MddNode::mdd_count` in `u64`, /repo/mss/src/mdd.rs:930-934; also `MddPath::len`, /repo/mss/src/mdd_path.rs:62-64. -/
def MWorld.countIn (w : MWorld) (b : Build) (ss : List Int) (f : Nat) : Option Nat :=
  w.query f (fun m i => Mda.countA b.u64 (fun i lv => (i, lv)) m (selV ss) i)
    (fun m i => Mda.countA b.u64 (fun i _ => i) m (selB ss) i)

/-- `ZmddNode::count` in `u64`, /repo/mss/src/zmdd.rs:273-278. -/
def ZMWorld.countIn (w : ZMWorld) (b : Build) (ss : List Int) (f : Nat) : Option Nat :=
  match w.hs.held.get f with
  | none => none
  | some z => Zma.countA b.u64 w.mgr.eng.arena ss z.node

end DD
