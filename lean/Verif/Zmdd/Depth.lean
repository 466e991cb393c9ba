import Verif.Core.Depth
import Verif.Zmdd.Model

/-!
# Recursion depth of the zero-suppressed MDD operations
-/

set_option autoImplicit false
set_option linter.unusedSectionVars false
set_option linter.unusedVariables false

namespace DD
namespace Zmdd

theorem onFirst_lim {r r' : Zmdd → Nat → Option (Nat × Zmdd)} (hr : ∀ s c, Lim (r s c) (r' s c)) (s : Zmdd) (h : Nat)
    (ch : List Nat) : Lim (onFirst r s h ch) (onFirst r' s h ch) := by
  cases ch with
  | nil => exact .rfl'
  | cons c cs =>
    unfold onFirst
    simp only
    rcases hr s c with e | e <;> rw [e]
    · exact .none'
    · exact .rfl'

theorem first_lim {r r' : Zmdd → Nat → Option (Nat × Zmdd)} (hr : ∀ s c, Lim (r s c) (r' s c)) (s : Zmdd)
    (ch : List Nat) : Lim (first r s ch) (first r' s ch) := by
  cases ch with
  | nil => exact .rfl'
  | cons c cs => exact hr s c

section
variable {r r' : Zmdd → Nat × Nat → Option (Nat × Zmdd)} (hr : ∀ s x, Lim (r s x) (r' s x))
include hr

theorem intersectNN_lim (s : Zmdd) (lf lg : Option Nat) (f hf : Nat) (cf : List Nat) (g : Nat) (cg : List Nat) :
    Lim (intersectNN r s lf lg f hf cf g cg) (intersectNN r' s lf lg f hf cf g cg) := by
  rcases lf with _ | lf
  · exact .rfl'
  rcases lg with _ | lg
  · exact .rfl'
  unfold intersectNN
  simp only
  split
  · exact first_lim (fun s c => hr s _) _ _
  · split
    · exact first_lim (fun s c => hr s _) _ _
    · exact .branchS hr _ _ _

theorem setdiffNN_lim (s : Zmdd) (lf lg : Option Nat) (f hf : Nat) (cf : List Nat) (g : Nat) (cg : List Nat) :
    Lim (setdiffNN r s lf lg f hf cf g cg) (setdiffNN r' s lf lg f hf cf g cg) := by
  rcases lf with _ | lf
  · exact .rfl'
  rcases lg with _ | lg
  · exact .rfl'
  unfold setdiffNN
  simp only
  split
  · exact onFirst_lim (fun s c => hr s _) _ _ _
  · split
    · exact first_lim (fun s c => hr s _) _ _
    · exact .branchS hr _ _ _

end

theorem setBaselineF_lim (v : Int) : ∀ n s f, Lim (setBaselineF v n s f) (setBaselineF v (n + 1) s f)
  | 0, _, _ => .none'
  | n + 1, s, f => by
    unfold setBaselineF
    rcases s.arena.node? f with _ | ⟨_ | _⟩ | ⟨h, ch⟩
    · exact .rfl'
    · exact .rfl'
    · exact .rfl'
    · exact onFirst_lim (setBaselineF_lim v n) _ _ _

theorem intersectF_lim : ∀ n s x, Lim (intersectF n s x) (intersectF (n + 1) s x)
  | 0, _, _ => .none'
  | n + 1, s, (f, g) => by
    unfold intersectF
    refine Lim.memo (fun s => ?_) s
    rcases s.arena.node? (min f g) with _ | ⟨_ | _⟩ | ⟨hf, cf⟩ <;>
    rcases s.arena.node? (max f g) with _ | ⟨_ | _⟩ | ⟨hg, cg⟩ <;>
    first
    | exact .rfl'
    | exact intersectNN_lim (intersectF_lim n) _ _ _ _ _ _ _ _
    | exact first_lim (fun s c => intersectF_lim n s _) _ _
    | exact onFirst_lim (fun s c => intersectF_lim n s _) _ _ _

theorem setdiffF_lim : ∀ n s x, Lim (setdiffF n s x) (setdiffF (n + 1) s x)
  | 0, _, _ => .none'
  | n + 1, s, (f, g) => by
    unfold setdiffF
    refine Lim.memo (fun s => ?_) s
    rcases s.arena.node? f with _ | ⟨_ | _⟩ | ⟨hf, cf⟩ <;>
    rcases s.arena.node? g with _ | ⟨_ | _⟩ | ⟨hg, cg⟩ <;>
    first
    | exact .rfl'
    | exact setdiffNN_lim (setdiffF_lim n) _ _ _ _ _ _ _ _
    | exact first_lim (fun s c => setdiffF_lim n s _) _ _
    | exact onFirst_lim (fun s c => setdiffF_lim n s _) _ _ _

end Zmdd
end DD
