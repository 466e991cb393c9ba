import Verif.Mtmdd.Ops
import Verif.Core.Clean

/-!
# MTMDD operations leave no garbage
-/

set_option autoImplicit false
set_option linter.unusedSectionVars false
set_option linter.unusedVariables false

namespace DD
namespace Mtmdd
open Arena
variable {cf : Codes}

theorem value_clean {s s' : Mtmdd} (hs : InvA cf s) {v : Int} {r : Nat} (h : s.value v = some (r, s')) :
    Clean s.arena s'.arena r := by
  unfold value at h
  split at h
  · cases h
  · rename_i r1 m1 h1
    cases h
    intro j hj
    rcases hs.wf.mkNode_new h1 j hj with hj | rfl
    · exact .inl hj
    · exact .inr (.refl _)

/-- The two operands in the order in which they are used. -/
theorem live_ord {s : Mtmdd} {f g : Nat} (comm : Bool) (lf : s.arena.Live f) (lg : s.arena.Live g) :
    s.arena.Live (if comm then Min.min f g else f) ∧ s.arena.Live (if comm then Max.max f g else g) ∧
      Max.max (s.arena.rank (if comm then Min.min f g else f)) (s.arena.rank (if comm then Max.max f g else g)) =
        Max.max (s.arena.rank f) (s.arena.rank g) := by
  cases comm with
  | false => exact ⟨lf, lg, rfl⟩
  | true =>
    simp only [if_true]
    rcases Nat.le_total f g with h | h
    · rw [Nat.min_eq_left h, Nat.max_eq_right h]; exact ⟨lf, lg, rfl⟩
    · rw [Nat.min_eq_right h, Nat.max_eq_left h]; exact ⟨lg, lf, Nat.max_comm _ _⟩

theorem binF_clean (hsn : cf.Sane) {op : Nat} {comm : Bool} {tt ex : Int → Int → Option (Option Int)}
    (hop : cf op = some ex) (hsub : ∀ x y z, tt x y = some z → ex x y = some z)
    (hcomm : comm = true → ∀ a b, tt a b = tt b a) (hcomm' : comm = true → ∀ a b, ex a b = ex b a) :
    ∀ n s f g r s', InvA cf s → s.arena.Live f → s.arena.Live g → Max.max (s.arena.rank f) (s.arena.rank g) < n →
      binF op comm tt n s (f, g) = some (r, s') → Clean s.arena s'.arena r := by
  intro n
  induction n with
  | zero => intro s f g r s' _ _ _ h; omega
  | succ n ih =>
    intro s f0 g0 r s' hs lf0 lg0 hr h
    have cl : View.Cl2 (vwA cf) (vwA cf) (binF op comm tt n) n := by
      intro s f g r s' hs lf lg hn hr
      obtain ⟨h1, h2, h3, h4⟩ := (binF_pok hsn hop hsub hcomm hcomm' n s f g hs lf lg hn).facts hr
      exact ⟨h1, h2, h3, h4, ih s f g r s' hs lf lg hn hr⟩
    unfold binF at h
    simp only at h
    obtain ⟨lf, lg, hrk⟩ := live_ord comm lf0 lg0
    generalize (if comm then Min.min f0 g0 else f0) = f at *
    generalize (if comm then Max.max f0 g0 else g0) = g at *
    refine Eng.memo_clean (E := engA cf) h (fun s r => by split <;> rfl) (fun r s' h => ?_)
    have hn : Max.max (s.arena.rank f) (s.arena.rank g) ≤ n := by omega
    split at h
    · cases h; exact Clean.refl _ _
    · cases h; exact Clean.refl _ _
    · split at h
      · cases h
      · cases h; exact Clean.refl _ _
      · exact value_clean hs h
    · rename_i x hg cg n1 n2
      have h1 := rank_term n1
      obtain ⟨hd, _, _, hrk, _⟩ := hs.wf.nt lg n2
      exact View.armR_clean (vwA cf) (vwA cf) cl hs lf lg n2 (show s.arena.rank f < s.arena.rank g by omega) hn h
    · rename_i hf cf' x n1 n2
      have h1 := rank_term n2
      obtain ⟨hd, _, _, hrk, _⟩ := hs.wf.nt lf n1
      exact View.armL_clean (vwA cf) (vwA cf) cl hs lf lg n1 (show s.arena.rank g < s.arena.rank f by omega) hn h
    · rename_i hf cf' hg cg n1 n2
      exact View.arms2_clean (vwA cf) (vwA cf) cl hs lf lg n1 n2 (.inl rfl) hn h
    · cases h

theorem bin_clean {op : Nat} {comm : Bool} {tt : Int → Int → Option Int} (hop : codeFn op = some tt)
    (hcomm : comm = true → ∀ a b, tt a b = tt b a) {s s' : Mtmdd} (hs : Inv s) {f g r : Nat}
    (lf : s.arena.Live f) (lg : s.arena.Live g) (h : bin op comm (total tt) s f g = some (r, s')) :
    Clean s.arena s'.arena r :=
  binF_clean exact_sane (tt := total tt) (op := op) (ex := total tt) (by simp [exactFn, hop]) (fun _ _ _ h => h)
    (fun h a b => by simp only [total, hcomm h a b]) (fun h a b => by simp only [total, hcomm h a b])
    _ s f g r s' hs lf lg (Nat.lt_succ_self _) h

theorem replaceF_clean (hsn : cf.Sane) : ∀ n s f g r s', InvA cf s → s.arena.Live f → s.arena.Live g →
    Max.max (s.arena.rank f) (s.arena.rank g) < n → replaceF n s (f, g) = some (r, s') → Clean s.arena s'.arena r := by
  intro n
  induction n with
  | zero => intro s f g r s' _ _ _ h; omega
  | succ n ih =>
    intro s f g r s' hs lf lg hr h
    unfold replaceF at h
    refine Eng.memo_clean (E := engA cf) h (fun _ _ => rfl) (fun r s' h => ?_)
    split at h
    · cases h; exact Clean.refl _ _
    · cases h; exact Clean.refl _ _
    · cases h; exact Clean.refl _ _
    · rename_i hf cf' t n1 n2
      have h1 := rank_term n2
      obtain ⟨hd, _, _, hrk, _⟩ := hs.wf.nt lf n1
      exact View.armL_clean (vwA cf) (vwA cf) (View.Cl2.of_ok (vwA cf) (vwA cf) (replaceF_ok hsn n) ih) hs lf lg n1
        (show s.arena.rank g < s.arena.rank f by omega) (Nat.le_of_lt_succ hr) h
    · rename_i hf cf' hg cg n1 n2
      exact View.arms2_clean (vwA cf) (vwA cf) (View.Cl2.of_ok (vwA cf) (vwA cf) (replaceF_ok hsn n) ih) hs lf lg n1
        n2 (.inl rfl) (Nat.le_of_lt_succ hr) h
    · cases h

theorem replace_clean {s s' : Mtmdd} (hs : Inv s) {f g r : Nat} (lf : s.arena.Live f) (lg : s.arena.Live g)
    (h : s.replace f g = some (r, s')) : Clean s.arena s'.arena r :=
  replaceF_clean exact_sane _ s f g r s' hs lf lg (Nat.lt_succ_self _) h

/-- The terminal tables used at handle level. -/
theorem arith_clean {s s' : Mtmdd} (hs : Inv s) {f g r : Nat} (lf : s.arena.Live f) (lg : s.arena.Live g) :
    (s.add f g = some (r, s') → Clean s.arena s'.arena r) ∧ (s.sub f g = some (r, s') → Clean s.arena s'.arena r) ∧
    (s.mul f g = some (r, s') → Clean s.arena s'.arena r) ∧ (s.div f g = some (r, s') → Clean s.arena s'.arena r) ∧
    (s.rem f g = some (r, s') → Clean s.arena s'.arena r) ∧ (s.min f g = some (r, s') → Clean s.arena s'.arena r) ∧
    (s.max f g = some (r, s') → Clean s.arena s'.arena r) :=
  ⟨bin_clean rfl (fun _ a b => by rw [Int.add_comm]) hs lf lg, bin_clean rfl no_comm hs lf lg,
    bin_clean rfl (fun _ a b => by rw [Int.mul_comm]) hs lf lg, bin_clean rfl no_comm hs lf lg,
    bin_clean rfl no_comm hs lf lg, bin_clean rfl (fun _ a b => by rw [Int.min_comm]) hs lf lg,
    bin_clean rfl (fun _ a b => by rw [Int.max_comm]) hs lf lg⟩

end Mtmdd
end DD
