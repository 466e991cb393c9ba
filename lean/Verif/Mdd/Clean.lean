import Verif.Mdd.Ops
import Verif.Core.Clean

/-!
# MDD operations leave no garbage
-/

set_option autoImplicit false
set_option linter.unusedSectionVars false
set_option linter.unusedVariables false

namespace DD
namespace Mdd
open Arena

theorem notF_clean : ∀ n s f r s', Inv s → s.arena.Live f → s.arena.rank f < n → notF n s f = some (r, s') →
    Clean s.arena s'.arena r := by
  intro n
  induction n with
  | zero => intro s f r s' _ _ h; omega
  | succ n ih =>
    intro s f r s' hs lf hr h
    unfold notF at h
    refine Eng.memo_clean (E := eng) h (fun _ _ => rfl) (fun r s' h => ?_)
    split at h
    · cases h
    · cases h; exact Clean.refl _ _
    · cases h; exact Clean.refl _ _
    · cases h; exact Clean.refl _ _
    · rename_i hf cf hn
      exact View.arm1_clean vw (View.Cl1.of_ok vw (notF_ok n) ih) hs lf hn (Nat.le_of_lt_succ hr) h

theorem not_clean {s s' : Mdd} (hs : Inv s) {f r : Nat} (lf : s.arena.Live f) (h : s.not f = some (r, s')) :
    Clean s.arena s'.arena r := notF_clean _ s f r s' hs lf (Nat.lt_succ_self _) h

/-- The two operands in order of id. -/
theorem live_minmax {s : Mdd} {f g : Nat} (lf : s.arena.Live f) (lg : s.arena.Live g) :
    s.arena.Live (min f g) ∧ s.arena.Live (max f g) ∧
      Max.max (s.arena.rank (min f g)) (s.arena.rank (max f g)) = Max.max (s.arena.rank f) (s.arena.rank g) := by
  rcases Nat.le_total f g with h | h
  · rw [Nat.min_eq_left h, Nat.max_eq_right h]; exact ⟨lf, lg, rfl⟩
  · rw [Nat.min_eq_right h, Nat.max_eq_left h]; exact ⟨lg, lf, Nat.max_comm _ _⟩

theorem andF_clean : ∀ n s f g r s', Inv s → s.arena.Live f → s.arena.Live g →
    Max.max (s.arena.rank f) (s.arena.rank g) < n → andF n s (f, g) = some (r, s') → Clean s.arena s'.arena r := by
  intro n
  induction n with
  | zero => intro s f g r s' _ _ _ h; omega
  | succ n ih =>
    intro s f0 g0 r s' hs lf lg hr h
    unfold andF at h
    simp only at h
    obtain ⟨lf', lg', hrk⟩ := live_minmax lf lg
    refine Eng.memo_clean (E := eng) h (fun _ _ => rfl) (fun r s' h => ?_)
    split at h
    · rename_i hf cf hg cg n1 n2
      split at h
      · cases h; exact Clean.refl _ _
      · exact View.arms2_clean vw vw (View.Cl2.of_ok vw vw (andF_ok n) ih) hs lf' lg' n1 n2 (.inr rfl)
          (show Max.max (s.arena.rank _) (s.arena.rank _) ≤ n by omega) h
    all_goals cases h
    all_goals exact Clean.refl _ _

theorem orF_clean : ∀ n s f g r s', Inv s → s.arena.Live f → s.arena.Live g →
    Max.max (s.arena.rank f) (s.arena.rank g) < n → orF n s (f, g) = some (r, s') → Clean s.arena s'.arena r := by
  intro n
  induction n with
  | zero => intro s f g r s' _ _ _ h; omega
  | succ n ih =>
    intro s f0 g0 r s' hs lf lg hr h
    unfold orF at h
    simp only at h
    obtain ⟨lf', lg', hrk⟩ := live_minmax lf lg
    refine Eng.memo_clean (E := eng) h (fun _ _ => rfl) (fun r s' h => ?_)
    split at h
    · rename_i hf cf hg cg n1 n2
      split at h
      · cases h; exact Clean.refl _ _
      · exact View.arms2_clean vw vw (View.Cl2.of_ok vw vw (orF_ok n) ih) hs lf' lg' n1 n2 (.inr rfl)
          (show Max.max (s.arena.rank _) (s.arena.rank _) ≤ n by omega) h
    all_goals cases h
    all_goals exact Clean.refl _ _

theorem xorF_clean : ∀ n s f g r s', Inv s → s.arena.Live f → s.arena.Live g →
    Max.max (s.arena.rank f) (s.arena.rank g) < n → xorF n s (f, g) = some (r, s') → Clean s.arena s'.arena r := by
  intro n
  induction n with
  | zero => intro s f g r s' _ _ _ h; omega
  | succ n ih =>
    intro s f0 g0 r s' hs lf lg hr h
    unfold xorF at h
    simp only at h
    obtain ⟨lf', lg', hrk⟩ := live_minmax lf lg
    refine Eng.memo_clean (E := eng) h (fun _ _ => rfl) (fun r s' h => ?_)
    split at h
    · rename_i hf cf hg cg n1 n2
      split at h
      · cases h; exact Clean.refl _ _
      · exact View.arms2_clean vw vw (View.Cl2.of_ok vw vw (xorF_ok n) ih) hs lf' lg' n1 n2 (.inr rfl)
          (show Max.max (s.arena.rank _) (s.arena.rank _) ≤ n by omega) h
    · cases h; exact Clean.refl _ _
    · cases h; exact Clean.refl _ _
    · cases h; exact Clean.refl _ _
    · exact not_clean hs lg' h
    · cases h; exact Clean.refl _ _
    · exact not_clean hs lf' h
    · cases h

theorem replaceF_clean : ∀ n s f g r s', Inv s → s.arena.Live f → s.arena.Live g →
    Max.max (s.arena.rank f) (s.arena.rank g) < n → replaceF n s (f, g) = some (r, s') → Clean s.arena s'.arena r := by
  intro n
  induction n with
  | zero => intro s f g r s' _ _ _ h; omega
  | succ n ih =>
    intro s f g r s' hs lf lg hr h
    unfold replaceF at h
    refine Eng.memo_clean (E := eng) h (fun _ _ => rfl) (fun r s' h => ?_)
    split at h
    · cases h; exact Clean.refl _ _
    · cases h; exact Clean.refl _ _
    · cases h; exact Clean.refl _ _
    · cases h; exact Clean.refl _ _
    · rename_i hf cf t _ n1 n2
      have h1 := rank_term n2
      obtain ⟨hd, _, _, hrk, _⟩ := hs.wf.nt lf n1
      exact View.armL_clean vw vw (View.Cl2.of_ok vw vw (replaceF_ok n) ih) hs lf lg n1
        (show s.arena.rank g < s.arena.rank f by omega) (Nat.le_of_lt_succ hr) h
    · rename_i hf cf hg cg n1 n2
      exact View.arms2_clean vw vw (View.Cl2.of_ok vw vw (replaceF_ok n) ih) hs lf lg n1 n2 (.inr rfl)
        (Nat.le_of_lt_succ hr) h
    · cases h


theorem iteF_clean : ∀ n s f g k r s', Inv s → s.arena.Live f → s.arena.Live g → s.arena.Live k →
    Max.max (s.arena.rank f) (Max.max (s.arena.rank g) (s.arena.rank k)) < n → iteF n s (f, g, k) = some (r, s') →
    Clean s.arena s'.arena r := by
  intro n
  induction n with
  | zero => intro s f g k r s' _ _ _ _ h; omega
  | succ n ih =>
    intro s f g k r s' hs lf lg lk hr h
    unfold iteF at h
    split at h
    · cases h
    · cases h; exact Clean.refl _ _
    · cases h; exact Clean.refl _ _
    · cases h; exact Clean.refl _ _
    · rename_i hf' cf hf
      have hf : s.arena.nodes[f]? = some (.nt hf' cf) := hf
      split at h
      · cases h; exact Clean.refl _ _
      · refine Eng.memo_clean (E := eng) h (fun _ _ => rfl) (fun r s' h => ?_)
        obtain ⟨hd, hh, hl, hrk, hlv, _, _⟩ := hs.wf.nt lf hf
        simp only [hlv] at h
        obtain ⟨t1, t2, t3⟩ := topLevel_ge s.arena [g, k] hd.level
        generalize s.arena.topLevel hd.level [g, k] = top at *
        have hex : ∃ x ∈ [f, g, k], s.arena.level? x = some top := by
          rcases t3 with t3 | ⟨x, hx, t3⟩
          · exact ⟨f, List.mem_cons_self, by rw [hlv, t3]⟩
          · exact ⟨x, List.mem_cons_of_mem _ hx, t3⟩
        obtain ⟨hx, hdx, e1, e2, e3⟩ := hs.wf.topHeader_spec (by simp [lf, lg, lk]) hex
        simp only [e1] at h
        refine View.arm3_clean vw vw vw (View.Cl3.of_ok vw vw vw (iteF_ok n) ih) hs lf lg lk e2 e3 ?_
          (t2 g (by simp)) (t2 k (by simp)) ?_ (Nat.le_of_lt_succ hr) h
        · show s.arena.rank f ≤ _
          omega
        · obtain ⟨x, hx, hlx⟩ := hex
          have := rank_eq_of_level hlx
          simp at hx
          rcases hx with rfl | rfl | rfl
          · exact Or.inl this
          · exact Or.inr (Or.inl this)
          · exact Or.inr (Or.inr this)

theorem and_clean {s s' : Mdd} (hs : Inv s) {f g r : Nat} (lf : s.arena.Live f) (lg : s.arena.Live g)
    (h : s.and f g = some (r, s')) : Clean s.arena s'.arena r :=
  andF_clean _ s f g r s' hs lf lg (Nat.lt_succ_self _) h

theorem or_clean {s s' : Mdd} (hs : Inv s) {f g r : Nat} (lf : s.arena.Live f) (lg : s.arena.Live g)
    (h : s.or f g = some (r, s')) : Clean s.arena s'.arena r :=
  orF_clean _ s f g r s' hs lf lg (Nat.lt_succ_self _) h

theorem xor_clean {s s' : Mdd} (hs : Inv s) {f g r : Nat} (lf : s.arena.Live f) (lg : s.arena.Live g)
    (h : s.xor f g = some (r, s')) : Clean s.arena s'.arena r :=
  xorF_clean _ s f g r s' hs lf lg (Nat.lt_succ_self _) h

theorem ite_clean {s s' : Mdd} (hs : Inv s) {f g k r : Nat} (lf : s.arena.Live f) (lg : s.arena.Live g)
    (lk : s.arena.Live k) (h : s.ite f g k = some (r, s')) : Clean s.arena s'.arena r :=
  iteF_clean _ s f g k r s' hs lf lg lk (Nat.lt_succ_self _) h

theorem replace_clean {s s' : Mdd} (hs : Inv s) {f g r : Nat} (lf : s.arena.Live f) (lg : s.arena.Live g)
    (h : s.replace f g = some (r, s')) : Clean s.arena s'.arena r :=
  replaceF_clean _ s f g r s' hs lf lg (Nat.lt_succ_self _) h

end Mdd
end DD
