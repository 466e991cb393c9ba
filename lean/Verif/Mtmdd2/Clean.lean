import Verif.Mdd.Clean
import Verif.Mtmdd.Clean
import Verif.Mtmdd2.Reach
import Verif.Core.Pres

/-!
# Operations on two forests leave no garbage
-/

set_option autoImplicit false
set_option linter.unusedSectionVars false
set_option linter.unusedVariables false

namespace DD
namespace Mtmdd2
open Arena

theorem cmpF_clean {op : Nat} {p : Int → Int → Bool} (hop : cmpFn op = some p) : ∀ n s f g r s', Inv s →
    s.mtmdd.arena.Live f → s.mtmdd.arena.Live g → Max.max (s.mtmdd.arena.rank f) (s.mtmdd.arena.rank g) < n →
    cmpF op p n s (f, g) = some (r, s') → Clean s.mdd.arena s'.mdd.arena r := by
  intro n
  induction n with
  | zero => intro s f g r s' _ _ _ h; omega
  | succ n ih =>
    intro s f g r s' hs lf lg hr h
    have cl := View.Cl2.of_ok vVB vVB (cmpF_ok hop n) ih
    unfold cmpF at h
    refine Eng.memo_clean (E := engB) h (fun _ _ => rfl) (fun r s' h => ?_)
    split at h
    · cases h; exact Clean.refl _ _
    · cases h; exact Clean.refl _ _
    · split at h <;> cases h <;> exact Clean.refl _ _
    · rename_i x hg cg n1 n2
      have h1 := rank_term n1
      obtain ⟨hd, _, _, hrk, _⟩ := hs.v.wf.nt lg n2
      exact View.armR_clean vVB vVB cl hs lf lg n2
        (show s.mtmdd.arena.rank f < s.mtmdd.arena.rank g by omega) (Nat.le_of_lt_succ hr) h
    · rename_i hf cf' x n1 n2
      have h1 := rank_term n2
      obtain ⟨hd, _, _, hrk, _⟩ := hs.v.wf.nt lf n1
      exact View.armL_clean vVB vVB cl hs lf lg n1
        (show s.mtmdd.arena.rank g < s.mtmdd.arena.rank f by omega) (Nat.le_of_lt_succ hr) h
    · rename_i hf cf' hg cg n1 n2
      exact View.arms2_clean vVB vVB cl hs lf lg n1 n2 (.inl rfl) (Nat.le_of_lt_succ hr) h
    · cases h

theorem mkB_pres (v : Mtmdd) : PresMk (fun s : Mtmdd2 => s.mtmdd = v) mkB := by
  intro s h ch r s' hp hr
  unfold mkB at hr
  split at hr
  · cases hr
  · cases hr; exact hp

theorem mkV_pres (b : Mdd) : PresMk (fun s : Mtmdd2 => s.mdd = b) mkV := by
  intro s h ch r s' hp hr
  unfold mkV at hr
  split at hr
  · cases hr
  · cases hr; exact hp

/-- Comparisons leave the value forest as it is. -/
theorem cmpF_same (op : Nat) (p : Int → Int → Bool) (v : Mtmdd) : ∀ n,
    Pres (fun s : Mtmdd2 => s.mtmdd = v) (cmpF op p n) := by
  intro n
  induction n with
  | zero => intro s x r s' _ h; cases h
  | succ n ih =>
    rintro s ⟨f, g⟩ r s' hp h
    unfold cmpF at h
    refine memo_pres (P := fun s : Mtmdd2 => s.mtmdd = v) ?_ hp ?_ h
    · exact fun _ _ h => h
    clear h
    intro r s' h
    split at h
    · cases h; exact hp
    · cases h; exact hp
    · split at h <;> cases h <;> exact hp
    · exact branchS_pres (mkB_pres v) ih hp h
    · exact branchS_pres (mkB_pres v) ih hp h
    · exact arms2_pres (mkB_pres v) ih hp h
    · cases h

theorem vifF_clean : ∀ n s f g r s', Inv s →
    s.mdd.arena.Live f → s.mtmdd.arena.Live g → Max.max (s.mdd.arena.rank f) (s.mtmdd.arena.rank g) < n →
    vifF n s (f, g) = some (r, s') → Clean s.mtmdd.arena s'.mtmdd.arena r := by
  intro n
  induction n with
  | zero => intro s f g r s' _ _ _ h; omega
  | succ n ih =>
    intro s f g r s' hs lf lg hr h
    have cl := View.Cl2.of_ok vBV vVV (vifF_ok n) ih
    unfold vifF at h
    refine Eng.memo_clean (E := engV) h (fun _ _ => rfl) (fun r s' h => ?_)
    split at h
    · cases h; exact Clean.refl _ _
    · cases h; exact Clean.refl _ _
    · cases h; exact Clean.refl _ _
    · cases h; exact Clean.refl _ _
    · rename_i hf cf' x n1 n2
      have h1 := rank_term n2
      obtain ⟨hd, _, _, hrk, _⟩ := hs.b.wf.nt lf n1
      exact View.armL_clean vBV vVV cl hs lf lg n1
        (show s.mtmdd.arena.rank g < s.mdd.arena.rank f by omega) (Nat.le_of_lt_succ hr) h
    · rename_i hf cf' hg cg n1 n2
      exact View.arms2_clean vBV vVV cl hs lf lg n1 n2 (.inl rfl) (Nat.le_of_lt_succ hr) h
    · cases h

theorem vifF_same (b : Mdd) : ∀ n, Pres (fun s : Mtmdd2 => s.mdd = b) (vifF n) := by
  intro n
  induction n with
  | zero => intro s x r s' _ h; cases h
  | succ n ih =>
    rintro s ⟨f, g⟩ r s' hp h
    unfold vifF at h
    refine memo_pres (P := fun s : Mtmdd2 => s.mdd = b) ?_ hp ?_ h
    · exact fun _ _ h => h
    clear h
    intro r s' h
    split at h
    · cases h; exact hp
    · cases h; exact hp
    · cases h; exact hp
    · cases h; exact hp
    · exact branchS_pres (mkV_pres b) ih hp h
    · exact arms2_pres (mkV_pres b) ih hp h
    · cases h

theorem viteF_clean : ∀ n s f g k r s', Inv s → s.mdd.arena.Live f → s.mtmdd.arena.Live g → s.mtmdd.arena.Live k →
    Max.max (s.mdd.arena.rank f) (Max.max (s.mtmdd.arena.rank g) (s.mtmdd.arena.rank k)) < n → viteF n s (f, g, k) = some (r, s') →
    Clean s.mtmdd.arena s'.mtmdd.arena r := by
  intro n
  induction n with
  | zero => intro s f g k r s' _ _ _ _ h; omega
  | succ n ih =>
    intro s f g k r s' hs lf lg lk hr h
    unfold viteF at h
    split at h
    · cases h
    · cases h; exact Clean.refl _ _
    · cases h; exact Clean.refl _ _
    · cases h; exact Clean.refl _ _
    · rename_i hf' cf hf
      have hf : s.mdd.arena.nodes[f]? = some (.nt hf' cf) := hf
      split at h
      · cases h; exact Clean.refl _ _
      · refine Eng.memo_clean (E := engV) h (fun _ _ => rfl) (fun r s' h => ?_)
        obtain ⟨hd, hh, hl, hrk, hlv, _, _⟩ := hs.b.wf.nt lf hf
        simp only [hlv] at h
        obtain ⟨t1, t2, t3⟩ := topLevel_ge s.mtmdd.arena [g, k] hd.level
        generalize s.mtmdd.arena.topLevel hd.level [g, k] = top at *
        have hth : ∃ hx hdx, s.viteTopHeader f g k top = some (hx, hdx.edgeNum) ∧
            s.mtmdd.arena.headers[hx]? = some hdx ∧ hdx.level = top := by
          unfold viteTopHeader
          by_cases hft : hd.level = top
          · obtain ⟨hx, hdx, e1, e2, e3⟩ := hs.b.wf.topHeader_spec (top := top) (xs := [f])
              (by simp [lf]) ⟨f, by simp, by rw [hlv, hft]⟩
            exact ⟨hx, hdx, by rw [e1], by rw [← hs.hdr]; exact e2, e3⟩
          · have e0 : s.mdd.arena.topHeader top [f] = none := by
              simp [topHeader, hlv, hft]
            rw [e0]
            simp only
            refine hs.v.wf.topHeader_spec (by simp [lg, lk]) ?_
            rcases t3 with t3 | t3
            · exact absurd t3.symm hft
            · exact t3
        obtain ⟨hx, hdx, e1, e2, e3⟩ := hth
        simp only [e1] at h
        refine View.arm3_clean vBV vVV vVV (View.Cl3.of_ok vBV vVV vVV (viteF_ok n) ih) hs lf lg lk e2 e3 ?_
          (t2 g (by simp)) (t2 k (by simp)) ?_ (Nat.le_of_lt_succ hr) h
        · show s.mdd.arena.rank f ≤ _
          omega
        · rcases t3 with t3 | ⟨x, hx, hlx⟩
          · exact Or.inl (show s.mdd.arena.rank f = _ by omega)
          · have := rank_eq_of_level hlx
            simp at hx
            rcases hx with rfl | rfl
            · exact Or.inr (Or.inl this)
            · exact Or.inr (Or.inr this)

theorem viteF_same (b : Mdd) : ∀ n, Pres (fun s : Mtmdd2 => s.mdd = b) (viteF n) := by
  intro n
  induction n with
  | zero => intro s x r s' _ h; cases h
  | succ n ih =>
    rintro s ⟨f, g, k⟩ r s' hp h
    unfold viteF at h
    split at h
    · cases h
    · cases h; exact hp
    · cases h; exact hp
    · cases h; exact hp
    · split at h
      · cases h; exact hp
      · refine memo_pres (P := fun s : Mtmdd2 => s.mdd = b) ?_ hp ?_ h
        · exact fun _ _ h => h
        clear h
        intro r s' h
        split at h
        · cases h
        · simp only at h
          split at h
          · cases h
          · exact branchS_pres (mkV_pres b) ih hp h

end Mtmdd2
end DD
