import Verif.Core.Memo

/-!
# Recursion depth

The first argument of the recursive functions of the model is the number of nested calls still allowed. `Lim a b`:
`a` is the outcome under a limit and `b` the outcome under a higher one, so `a` is `b` unless the limit was hit.
-/

set_option autoImplicit false
set_option linter.unusedSectionVars false
set_option linter.unusedVariables false

namespace DD

/-- The outcome under a limit: none, or the outcome without it. -/
def Lim {α : Type} (a b : Option α) : Prop := a = none ∨ a = b

namespace Lim
variable {α β S : Type}

theorem rfl' {a : Option α} : Lim a a := .inr rfl

theorem none' {b : Option α} : Lim none b := .inl rfl

theorem eq {a b : Option α} {x : α} (h : Lim a b) (e : a = some x) : b = some x := by
  rcases h with h | h
  · rw [h] at e; cases e
  · rw [← h, e]

/-- Used in a larger computation. -/
theorem bind {a b : Option α} (h : Lim a b) {k k' : α → Option β} (hk : ∀ x, Lim (k x) (k' x)) :
    Lim (a.bind k) (b.bind k') := by
  rcases h with rfl | rfl
  · exact .inl rfl
  · cases a with
    | none => exact .inl rfl
    | some x => exact hk x

theorem memo {get : S → Option Nat} {put : S → Nat → S} {b b' : S → Option (Nat × S)} (h : ∀ s, Lim (b s) (b' s))
    (s : S) : Lim (DD.memo get put b s) (DD.memo get put b' s) := by
  unfold DD.memo
  cases get s with
  | some x => exact rfl'
  | none =>
    simp only
    rcases h s with e | e
    · rw [e]; exact none'
    · rw [e]; exact rfl'

theorem mapS {r r' : S → α → Option (β × S)} (h : ∀ s x, Lim (r s x) (r' s x)) (l : List α) (s : S) :
    Lim (DD.mapS r s l) (DD.mapS r' s l) := by
  induction l generalizing s with
  | nil => exact rfl'
  | cons x xs ih =>
    unfold DD.mapS
    rcases h s x with e | e
    · rw [e]; exact none'
    · rw [e]
      cases r' s x with
      | none => exact none'
      | some p =>
        simp only
        rcases ih p.2 with e | e
        · rw [e]; exact none'
        · rw [e]; exact rfl'

theorem branchS {mk : S → Nat → List Nat → Option (Nat × S)} {r r' : S → α → Option (Nat × S)}
    (h : ∀ s x, Lim (r s x) (r' s x)) (s : S) (hx : Nat) (l : List α) :
    Lim (DD.branchS mk r s hx l) (DD.branchS mk r' s hx l) := by
  unfold DD.branchS
  rcases mapS h l s with e | e
  · rw [e]; exact none'
  · rw [e]; exact rfl'

theorem arms2 {mk : S → Nat → List Nat → Option (Nat × S)} {r r' : S → Nat × Nat → Option (Nat × S)}
    (h : ∀ s x, Lim (r s x) (r' s x)) (s : S) (lf lg : Option Nat) (hx f hf : Nat) (cf : List Nat) (g hg : Nat)
    (cg : List Nat) : Lim (DD.arms2 mk r s lf lg hx f hf cf g hg cg) (DD.arms2 mk r' s lf lg hx f hf cf g hg cg) := by
  unfold DD.arms2
  cases lf with
  | none => exact rfl'
  | some lf =>
    cases lg with
    | none => exact rfl'
    | some lg =>
      simp only
      split
      · exact branchS h _ _ _
      · split
        · exact branchS h _ _ _
        · exact branchS h _ _ _

/-- A function whose outcomes with one more call allowed are `Lim` gives the same outcome under every higher limit. -/
theorem mono {F : Nat → Option α} (h : ∀ n, Lim (F n) (F (n + 1))) {n m : Nat} (hnm : n ≤ m) : Lim (F n) (F m) := by
  induction hnm with
  | refl => exact rfl'
  | step _ ih =>
    rcases ih with e | e
    · exact .inl e
    · rw [e]; exact h _

end Lim
end DD
