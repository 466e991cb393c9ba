import Verif.Core.FoldRel

/-!
# Machine integers

The counts of the public interface are `u64`.  `Arith` is the arithmetic of one integer type in one kind of
build; the counting passes are stated over it in `Verif/Bss/Width.lean` and `Verif/Mss/Width.lean`.
-/

set_option autoImplicit false
set_option linter.unusedSectionVars false
set_option linter.unusedVariables false

namespace DD

/-- How the crates are compiled: `cargo build` (overflow checks on) or `cargo build --release` (off); /repo has no
`[profile]` sections. -/
inductive Build where
  | dev
  | release
deriving DecidableEq, Repr

/-- Addition and multiplication; `none` = overflow panic. -/
structure Arith where
  add : Nat → Nat → Option Nat
  mul : Nat → Nat → Option Nat

namespace Arith

/-- Unbounded integers. -/
def exact : Arith := ⟨fun a b => some (a + b), fun a b => some (a * b)⟩

/-- Integers below `M`, builds without overflow checks (Rust's release profile). -/
def wrapping (M : Nat) : Arith := ⟨fun a b => some ((a + b) % M), fun a b => some ((a * b) % M)⟩

/-- Integers below `M`, builds with overflow checks (Rust's dev profile). -/
def checked (M : Nat) : Arith :=
  ⟨fun a b => if a + b < M then some (a + b) else none, fun a b => if a * b < M then some (a * b) else none⟩

/-- `result = result + x` over the list, from `acc`. -/
def sumFrom (A : Arith) (acc : Nat) : List Nat → Option Nat
  | [] => some acc
  | x :: xs =>
    match A.add acc x with
    | none => none
    | some y => A.sumFrom y xs

/-- `let mut result = T::from(0); for … { result = result + … }`. -/
def sum (A : Arith) (l : List Nat) : Option Nat := A.sumFrom 0 l

/-- `let mut result = T::from(1); for _ in 0..n { result = result * x }`. -/
def power (A : Arith) (x : Nat) : Nat → Option Nat
  | 0 => some 1
  | n + 1 =>
    match A.power x n with
    | none => none
    | some y => A.mul y x

/-- Every run of `A` that returns is matched by one of `B`, with related results. -/
structure Sim (A B : Arith) (γ : Nat → Nat → Prop) : Prop where
  add : ∀ a a' b b' r, γ a a' → γ b b' → A.add a b = some r → ∃ r', B.add a' b' = some r' ∧ γ r r'
  mul : ∀ a a' b b' r, γ a a' → γ b b' → A.mul a b = some r → ∃ r', B.mul a' b' = some r' ∧ γ r r'

theorem checked_exact (M : Nat) : Sim (checked M) exact Eq := by
  constructor
  · rintro a _ b _ r rfl rfl h
    simp only [checked] at h
    split at h <;> cases h
    exact ⟨_, rfl, rfl⟩
  · rintro a _ b _ r rfl rfl h
    simp only [checked] at h
    split at h <;> cases h
    exact ⟨_, rfl, rfl⟩

theorem exact_wrapping (M : Nat) : Sim exact (wrapping M) (fun n r => r = n % M) := by
  constructor
  · rintro a _ b _ r rfl rfl h
    cases h
    exact ⟨_, rfl, by rw [← Nat.add_mod]⟩
  · rintro a _ b _ r rfl rfl h
    cases h
    exact ⟨_, rfl, by rw [← Nat.mul_mod]⟩

variable {A B : Arith} {γ : Nat → Nat → Prop}

theorem Sim.sumFrom (S : Sim A B γ) {l l' : List Nat} (h : List.Forall₂ γ l l') :
    ∀ {acc acc' r}, γ acc acc' → A.sumFrom acc l = some r → ∃ r', B.sumFrom acc' l' = some r' ∧ γ r r' := by
  induction h with
  | nil => intro acc acc' r h0 h; cases h; exact ⟨_, rfl, h0⟩
  | cons hx _ ih =>
    intro acc acc' r h0 h
    simp only [Arith.sumFrom] at h
    split at h
    · cases h
    · rename_i y hy
      obtain ⟨y', h1, h2⟩ := S.add _ _ _ _ _ h0 hx hy
      obtain ⟨r', h3, h4⟩ := ih h2 h
      exact ⟨r', by simp only [Arith.sumFrom, h1, h3], h4⟩

theorem Sim.sum (S : Sim A B γ) (h0 : γ 0 0) {l l' : List Nat} (h : List.Forall₂ γ l l') {r : Nat}
    (hr : A.sum l = some r) : ∃ r', B.sum l' = some r' ∧ γ r r' := S.sumFrom h h0 hr

theorem Sim.power (S : Sim A B γ) (h1 : γ 1 1) {x x' : Nat} (hx : γ x x') (n : Nat) :
    ∀ {r}, A.power x n = some r → ∃ r', B.power x' n = some r' ∧ γ r r' := by
  induction n with
  | zero => intro r h; cases h; exact ⟨_, rfl, h1⟩
  | succ n ih =>
    intro r h
    simp only [Arith.power] at h
    split at h
    · cases h
    · rename_i y hy
      obtain ⟨y', k1, k2⟩ := ih hy
      obtain ⟨r', k3, k4⟩ := S.mul _ _ _ _ _ k2 hx h
      exact ⟨r', by simp only [Arith.power, k1, k3], k4⟩

/-! ## Exact values -/

theorem exact_sumFrom (l : List Nat) : ∀ acc, exact.sumFrom acc l = some (acc + l.sum) := by
  induction l with
  | nil => intro acc; simp [Arith.sumFrom]
  | cons x xs ih => intro acc; simp only [Arith.sumFrom, exact, List.sum_cons]; rw [← Nat.add_assoc]; exact ih _

theorem exact_sum (l : List Nat) : exact.sum l = some l.sum := by
  simp [sum, exact_sumFrom]

theorem exact_power (x n : Nat) : exact.power x n = some (x ^ n) := by
  induction n with
  | zero => rfl
  | succ n ih => simp only [Arith.power, ih]; rfl

/-! ## When the checks pass -/

theorem checked_add {M a b : Nat} (h : a + b < M) : (checked M).add a b = some (a + b) := by simp [checked, h]

theorem checked_mul {M a b : Nat} (h : a * b < M) : (checked M).mul a b = some (a * b) := by simp [checked, h]

theorem checked_sumFrom {M : Nat} (l : List Nat) : ∀ acc, acc + l.sum < M →
    (checked M).sumFrom acc l = some (acc + l.sum) := by
  induction l with
  | nil => intro acc h; simp [Arith.sumFrom]
  | cons x xs ih =>
    intro acc h
    rw [List.sum_cons] at h ⊢
    simp only [Arith.sumFrom, checked_add (show acc + x < M by omega)]
    rw [ih _ (by omega), Nat.add_assoc]

theorem checked_sum {M : Nat} {l : List Nat} (h : l.sum < M) : (checked M).sum l = some l.sum := by
  unfold sum
  rw [checked_sumFrom l 0 (by omega)]
  simp

theorem checked_power {M x n : Nat} (hx : 0 < x) (h : x ^ n < M) : (checked M).power x n = some (x ^ n) := by
  induction n with
  | zero => simp [Arith.power]
  | succ n ih =>
    have : x ^ n ≤ x ^ (n + 1) := Nat.pow_le_pow_right hx (by omega)
    simp only [Arith.power, ih (by omega)]
    rw [Nat.pow_succ] at h ⊢
    exact checked_mul h

theorem checked_lt_mul {M a b r : Nat} (h : (checked M).mul a b = some r) : r < M := by
  simp only [checked] at h
  split at h <;> cases h
  assumption

theorem checked_lt_add {M a b r : Nat} (h : (checked M).add a b = some r) : r < M := by
  simp only [checked] at h
  split at h <;> cases h
  assumption

theorem checked_power_lt {M x n r : Nat} (hM : 1 < M) (h : (checked M).power x n = some r) : r = x ^ n ∧ r < M := by
  constructor
  · obtain ⟨r', h1, h2⟩ := (checked_exact M).power rfl (rfl : x = x) n h
    rw [exact_power] at h1
    cases h1
    exact h2
  · cases n with
    | zero => cases h; exact hM
    | succ n =>
      simp only [Arith.power] at h
      split at h
      · cases h
      · exact checked_lt_mul h

theorem checked_sum_lt {M : Nat} (l : List Nat) : ∀ {acc r}, acc < M → (checked M).sumFrom acc l = some r → r < M := by
  induction l with
  | nil => intro acc r h h1; cases h1; exact h
  | cons x xs ih =>
    intro acc r h h1
    simp only [Arith.sumFrom] at h1
    split at h1
    · cases h1
    · rename_i y hy
      exact ih (checked_lt_add hy) h1

end Arith

/-! ## Memoised passes -/

section
variable {V V' : Type} {γ : V → V' → Prop}

theorem foldKids_sim {K : Type} [DecidableEq K] {f : Nat → AMap K V → Option (V × AMap K V)}
    {g : Nat → AMap K V' → Option (V' × AMap K V')}
    (hfg : ∀ i c c' r d, MapRel γ c c' → f i c = some (r, d) →
      ∃ r' d', g i c' = some (r', d') ∧ γ r r' ∧ MapRel γ d d') (as : List Nat) :
    ∀ c c' rs d, MapRel γ c c' → foldKids f as c = some (rs, d) →
      ∃ rs' d', foldKids g as c' = some (rs', d') ∧ List.Forall₂ γ rs rs' ∧ MapRel γ d d' := by
  induction as with
  | nil =>
    intro c c' rs d h h1
    cases h1
    exact ⟨[], c', rfl, .nil, h⟩
  | cons a as ih =>
    intro c c' rs d h h1
    simp only [foldKids] at h1
    split at h1
    · cases h1
    · rename_i r c1 hr
      split at h1
      · cases h1
      · rename_i rs1 c2 hrs
        cases h1
        obtain ⟨r', d', k1, k2, k3⟩ := hfg _ _ _ _ _ h hr
        obtain ⟨rs', d'', k4, k5, k6⟩ := ih _ _ _ _ k3 hrs
        exact ⟨r' :: rs', d'', by simp only [foldKids, k1, k4], .cons k2 k5, k6⟩

/-- A pass that returns is matched by one whose parts match. -/
theorem Arena.memoFold_sim {T : Type} [DecidableEq T] [Fixed T] (m : Arena T) {leaf : T → Option V}
    {leaf' : T → Option V'} {comb : Nat → Nat → List (Nat × V) → Option V}
    {comb' : Nat → Nat → List (Nat × V') → Option V'}
    (hl : ∀ t r, leaf t = some r → ∃ r', leaf' t = some r' ∧ γ r r')
    (hc : ∀ i h l l' r, List.Forall₂ (fun (p : Nat × V) (q : Nat × V') => p.1 = q.1 ∧ γ p.2 q.2) l l' →
      comb i h l = some r → ∃ r', comb' i h l' = some r' ∧ γ r r') (n : Nat) :
    ∀ i c c' r d, MapRel γ c c' → m.memoFold leaf comb n i c = some (r, d) →
      ∃ r' d', m.memoFold leaf' comb' n i c' = some (r', d') ∧ γ r r' ∧ MapRel γ d d' := by
  induction n with
  | zero => intro i c c' r d _ h; cases h
  | succ n ih =>
    intro i c c' r d h h1
    have h0 := h i
    simp only [Arena.memoFold] at h1 ⊢
    revert h0 h1
    cases c.get i <;> cases c'.get i <;> intro h1 h0 <;> cases h0
    · simp only at h1 ⊢
      cases hn : m.nodes[i]? with
      | none => simp [hn] at h1
      | some nd =>
        cases nd with
        | term t =>
          simp only [hn] at h1
          cases ht : leaf t with
          | none => simp [ht] at h1
          | some x =>
            simp only [ht, Option.some.injEq, Prod.mk.injEq] at h1
            obtain ⟨rfl, rfl⟩ := h1
            obtain ⟨r', k1, k2⟩ := hl t _ ht
            exact ⟨r', _, by simp only [k1], k2, h.insert i k2⟩
        | nt hd ch =>
          simp only [hn] at h1
          cases hk : foldKids (m.memoFold leaf comb n) ch c with
          | none => simp [hk] at h1
          | some p =>
            obtain ⟨rs, c1⟩ := p
            simp only [hk] at h1
            cases hcb : comb i hd (ch.zip rs) with
            | none => simp [hcb] at h1
            | some x =>
              simp only [hcb, Option.some.injEq, Prod.mk.injEq] at h1
              obtain ⟨rfl, rfl⟩ := h1
              obtain ⟨rs', d', k1, k2, k3⟩ := foldKids_sim ih ch _ _ _ _ h hk
              obtain ⟨r', k4, k5⟩ := hc _ _ _ _ _ (zip_rel k2 ch) hcb
              exact ⟨r', _, by simp only [k1, k4], k5, k3.insert i k5⟩
    · rename_i h0
      simp only [Option.some.injEq, Prod.mk.injEq] at h1
      obtain ⟨rfl, rfl⟩ := h1
      exact ⟨_, _, rfl, h0, h⟩

end

/-- If the exact pass returns less than `M` and every node's value bounds those of its kids, then a pass that agrees
with the exact one on values below `M` returns the same, on a kid-closed set of nodes. -/
theorem foldKids_below {K : Type} {M : Nat} {f g : Nat → AMap K Nat → Option (Nat × AMap K Nat)} {Q : Nat → Prop} (as : List Nat)
    (hQ : ∀ a ∈ as, Q a)
    (h : ∀ i c r d, Q i → f i c = some (r, d) → r < M → g i c = some (r, d)) :
    ∀ c rs d, foldKids f as c = some (rs, d) → (∀ r ∈ rs, r < M) → foldKids g as c = some (rs, d) := by
  induction as with
  | nil => intro c rs d h1 _; exact h1
  | cons a as ih =>
    intro c rs d h1 h2
    simp only [foldKids] at h1
    split at h1
    · cases h1
    · rename_i r c1 hr
      split at h1
      · cases h1
      · rename_i rs1 c2 hrs
        cases h1
        simp only [foldKids, h _ _ _ _ (hQ a (by simp)) hr (h2 r (by simp)),
          ih (fun b hb => hQ b (by simp [hb])) _ _ _ hrs (fun x hx => h2 x (by simp [hx]))]

theorem le_sum_of_mem {l : List Nat} {x : Nat} (h : x ∈ l) : x ≤ l.sum := by
  induction l with
  | nil => cases h
  | cons y ys ih =>
    rw [List.sum_cons]
    rcases List.mem_cons.1 h with rfl | h
    · omega
    · have := ih h; omega

theorem foldKids_length {A R C : Type} {f : A → C → Option (R × C)} (as : List A) :
    ∀ {c rs d}, foldKids f as c = some (rs, d) → rs.length = as.length := by
  induction as with
  | nil => intro c rs d h; cases h; rfl
  | cons a as ih =>
    intro c rs d h
    simp only [foldKids] at h
    split at h
    · cases h
    · split at h
      · cases h
      · rename_i hrs
        cases h
        simp [ih hrs]

namespace Arena
variable {T : Type} [DecidableEq T] [Fixed T]

theorem memoFold_below (m : Arena T) {M : Nat} {Q : Nat → Prop} {leaf : T → Option Nat}
    {comb comb' : Nat → Nat → List (Nat × Nat) → Option Nat}
    (kids : ∀ i h ch, Q i → m.nodes[i]? = some (.nt h ch) → ∀ c ∈ ch, Q c)
    (hc : ∀ i h ch rs r, Q i → m.nodes[i]? = some (.nt h ch) → rs.length = ch.length → comb i h (ch.zip rs) = some r →
      r < M → (∀ x ∈ rs, x < M) ∧ comb' i h (ch.zip rs) = some r) (n : Nat) :
    ∀ i c r d, Q i → m.memoFold leaf comb n i c = some (r, d) → r < M → m.memoFold leaf comb' n i c = some (r, d) := by
  induction n with
  | zero => intro i c r d _ h; cases h
  | succ n ih =>
    intro i c r d hQ h1 hr
    simp only [Arena.memoFold] at h1 ⊢
    cases hg : c.get i with
    | some x => simp only [hg] at h1 ⊢; exact h1
    | none =>
      simp only [hg] at h1 ⊢
      cases hn : m.nodes[i]? with
      | none => simp [hn] at h1
      | some nd =>
        cases nd with
        | term t => simp only [hn] at h1 ⊢; exact h1
        | nt hd ch =>
          simp only [hn] at h1 ⊢
          cases hk : foldKids (m.memoFold leaf comb n) ch c with
          | none => simp [hk] at h1
          | some p =>
            obtain ⟨rs, c1⟩ := p
            simp only [hk] at h1
            cases hcb : comb i hd (ch.zip rs) with
            | none => simp [hcb] at h1
            | some x =>
              simp only [hcb, Option.some.injEq, Prod.mk.injEq] at h1
              obtain ⟨rfl, rfl⟩ := h1
              obtain ⟨k1, k2⟩ := hc i hd ch rs _ hQ hn (foldKids_length _ hk) hcb hr
              simp only [foldKids_below ch (kids i hd ch hQ hn) ih _ _ _ hk k1, k2]

/-- What holds of the parts of a pass that returns holds of its result. -/
theorem memoFold_inv (m : Arena T) {R : Type} {leaf : T → Option R} {comb : Nat → Nat → List (Nat × R) → Option R}
    {P : Nat → R → Prop}
    (hl : ∀ i t r, m.nodes[i]? = some (.term t) → leaf t = some r → P i r)
    (hc : ∀ i h ch rs r, m.nodes[i]? = some (.nt h ch) → rs.length = ch.length →
      (∀ (k c : Nat) (x : R), ch[k]? = some c → rs[k]? = some x → P c x) → comb i h (ch.zip rs) = some r → P i r) (n : Nat) :
    ∀ i c r d, MemoP P c → m.memoFold leaf comb n i c = some (r, d) → P i r ∧ MemoP P d := by
  induction n with
  | zero => intro i c r d _ h; cases h
  | succ n ih =>
    intro i c r d hP h1
    simp only [Arena.memoFold] at h1
    cases hg : c.get i with
    | some x =>
      simp only [hg, Option.some.injEq, Prod.mk.injEq] at h1
      obtain ⟨rfl, rfl⟩ := h1
      exact ⟨hP _ _ hg, hP⟩
    | none =>
      simp only [hg] at h1
      cases hn : m.nodes[i]? with
      | none => simp [hn] at h1
      | some nd =>
        cases nd with
        | term t =>
          simp only [hn] at h1
          cases ht : leaf t with
          | none => simp [ht] at h1
          | some x =>
            simp only [ht, Option.some.injEq, Prod.mk.injEq] at h1
            obtain ⟨rfl, rfl⟩ := h1
            exact ⟨hl _ _ _ hn ht, hP.insert (hl _ _ _ hn ht)⟩
        | nt hd ch =>
          simp only [hn] at h1
          cases hk : foldKids (m.memoFold leaf comb n) ch c with
          | none => simp [hk] at h1
          | some p =>
            obtain ⟨rs, c1⟩ := p
            simp only [hk] at h1
            cases hcb : comb i hd (ch.zip rs) with
            | none => simp [hcb] at h1
            | some x =>
              simp only [hcb, Option.some.injEq, Prod.mk.injEq] at h1
              obtain ⟨rfl, rfl⟩ := h1
              have key : ∀ (as : List Nat) (c : AMap Nat R) (rs : List R) (d : AMap Nat R), MemoP P c →
                  foldKids (m.memoFold leaf comb n) as c = some (rs, d) →
                  (∀ (k c : Nat) (x : R), as[k]? = some c → rs[k]? = some x → P c x) ∧ MemoP P d := by
                intro as
                induction as with
                | nil => intro c rs d hc h; cases h; exact ⟨by intro k c x h; simp at h, hc⟩
                | cons a as iha =>
                  intro c rs d hc h
                  simp only [foldKids] at h
                  split at h
                  · cases h
                  · rename_i r c1 hr
                    split at h
                    · cases h
                    · rename_i rs1 c2 hrs
                      cases h
                      obtain ⟨q1, q2⟩ := ih _ _ _ _ hc hr
                      obtain ⟨q3, q4⟩ := iha _ _ _ q2 hrs
                      refine ⟨?_, q4⟩
                      intro k b x hb hx
                      cases k with
                      | zero => simp at hb hx; subst hb; subst hx; exact q1
                      | succ k => simp at hb hx; exact q3 k b x hb hx
              obtain ⟨q1, q2⟩ := key ch c rs c1 hP hk
              have := hc i hd ch rs _ hn (foldKids_length _ hk) q1 hcb
              exact ⟨this, q2.insert this⟩

end Arena
end DD
