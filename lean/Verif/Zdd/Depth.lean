import Verif.Core.Depth
import Verif.Zdd.Model

/-!
# Recursion depth of the ZDD operations
-/

set_option autoImplicit false
set_option linter.unusedSectionVars false
set_option linter.unusedVariables false

namespace DD
namespace Zdd

section
variable {r r' : Zdd → Nat × Nat → Option (Nat × Zdd)} (hr : ∀ s x, Lim (r s x) (r' s x))
include hr

theorem lowS_lim (s : Zdd) (h : Nat) (x : Nat × Nat) (high : Nat) : Lim (lowS r s h x high) (lowS r' s h x high) := by
  unfold lowS
  rcases hr s x with e | e <;> rw [e]
  · exact .none'
  · exact .rfl'

theorem bothS_lim (s : Zdd) (h : Nat) (x y : Nat × Nat) : Lim (bothS r s h x y) (bothS r' s h x y) := by
  unfold bothS
  rcases hr s x with e | e <;> rw [e]
  · exact .none'
  · rcases r' s x with _ | ⟨low, s1⟩
    · exact .rfl'
    · simp only
      rcases hr s1 y with e | e <;> rw [e]
      · exact .none'
      · exact .rfl'

theorem productEq_lim (s : Zdd) (h f0 f1 g0 g1 : Nat) :
    Lim (productEq r s h f0 f1 g0 g1) (productEq r' s h f0 f1 g0 g1) := by
  unfold productEq
  rcases hr s (f0, g0) with e | e <;> rw [e]
  · exact .none'
  rcases r' s (f0, g0) with _ | ⟨low, s1⟩
  · exact .rfl'
  simp only
  rcases hr s1 (f1, g1) with e | e <;> rw [e]
  · exact .none'
  rcases r' s1 (f1, g1) with _ | ⟨high, s2⟩
  · exact .rfl'
  simp only
  rcases hr s2 (f1, g0) with e | e <;> rw [e]
  · exact .none'
  rcases r' s2 (f1, g0) with _ | ⟨tmp, s3⟩
  · exact .rfl'
  simp only
  rcases s3.union high tmp with _ | ⟨high, s4⟩
  · exact .rfl'
  simp only
  rcases hr s4 (f0, g1) with e | e <;> rw [e]
  · exact .none'
  · exact .rfl'

theorem divideEq_lim (s : Zdd) (f0 f1 g0 g1 : Nat) : Lim (divideEq r s f0 f1 g0 g1) (divideEq r' s f0 f1 g0 g1) := by
  unfold divideEq
  rcases hr s (f0, g0) with e | e <;> rw [e]
  · exact .none'
  rcases r' s (f0, g0) with _ | ⟨x, s1⟩
  · exact .rfl'
  simp only
  rcases hr s1 (f1, g1) with e | e <;> rw [e]
  · exact .none'
  · exact .rfl'

end

theorem byLevel_lim {α : Type} {m : Arena T3} {f g : Nat} {a b c a' b' c' : Option α} (ha : Lim a a') (hb : Lim b b')
    (hc : Lim c c') : Lim (byLevel m f g a b c) (byLevel m f g a' b' c') := by
  unfold byLevel
  split
  · split
    · exact ha
    · split
      · exact hb
      · exact hc
  · exact .rfl'

theorem intersectF_lim : ∀ n s x, Lim (intersectF n s x) (intersectF (n + 1) s x)
  | 0, _, _ => .none'
  | n + 1, s, (f, g) => by
    unfold intersectF
    split
    · exact .rfl'
    · refine Lim.memo (fun s => ?_) s
      rcases s.arena.node? f with _ | ⟨_ | _ | _⟩ | ⟨hf, _ | ⟨f0, _ | ⟨f1, _ | ⟨_, _⟩⟩⟩⟩ <;>
      rcases s.arena.node? g with _ | ⟨_ | _ | _⟩ | ⟨hg, _ | ⟨g0, _ | ⟨g1, _ | ⟨_, _⟩⟩⟩⟩ <;>
      first
      | exact .rfl'
      | exact byLevel_lim (intersectF_lim n _ _) (intersectF_lim n _ _) (bothS_lim (intersectF_lim n) _ _ _ _)

theorem unionF_lim : ∀ n s x, Lim (unionF n s x) (unionF (n + 1) s x)
  | 0, _, _ => .none'
  | n + 1, s, (f, g) => by
    unfold unionF
    split
    · exact .rfl'
    · refine Lim.memo (fun s => ?_) s
      rcases s.arena.node? f with _ | ⟨_ | _ | _⟩ | ⟨hf, _ | ⟨f0, _ | ⟨f1, _ | ⟨_, _⟩⟩⟩⟩ <;>
      rcases s.arena.node? g with _ | ⟨_ | _ | _⟩ | ⟨hg, _ | ⟨g0, _ | ⟨g1, _ | ⟨_, _⟩⟩⟩⟩ <;>
      first
      | exact .rfl'
      | exact byLevel_lim (lowS_lim (unionF_lim n) _ _ _ _) (lowS_lim (unionF_lim n) _ _ _ _) (bothS_lim (unionF_lim n) _ _ _ _)
      | exact lowS_lim (unionF_lim n) _ _ _ _

theorem setdiffF_lim : ∀ n s x, Lim (setdiffF n s x) (setdiffF (n + 1) s x)
  | 0, _, _ => .none'
  | n + 1, s, (f, g) => by
    unfold setdiffF
    split
    · exact .rfl'
    · refine Lim.memo (fun s => ?_) s
      rcases s.arena.node? f with _ | ⟨_ | _ | _⟩ | ⟨hf, _ | ⟨f0, _ | ⟨f1, _ | ⟨_, _⟩⟩⟩⟩ <;>
      rcases s.arena.node? g with _ | ⟨_ | _ | _⟩ | ⟨hg, _ | ⟨g0, _ | ⟨g1, _ | ⟨_, _⟩⟩⟩⟩ <;>
      first
      | exact .rfl'
      | exact byLevel_lim (lowS_lim (setdiffF_lim n) _ _ _ _) (setdiffF_lim n _ _) (bothS_lim (setdiffF_lim n) _ _ _ _)
      | exact lowS_lim (setdiffF_lim n) _ _ _ _
      | exact setdiffF_lim n _ _

theorem productF_lim : ∀ n s x, Lim (productF n s x) (productF (n + 1) s x)
  | 0, _, _ => .none'
  | n + 1, s, (f, g) => by
    unfold productF
    refine Lim.memo (fun s => ?_) s
    rcases s.arena.node? f with _ | ⟨_ | _ | _⟩ | ⟨hf, _ | ⟨f0, _ | ⟨f1, _ | ⟨_, _⟩⟩⟩⟩ <;>
    rcases s.arena.node? g with _ | ⟨_ | _ | _⟩ | ⟨hg, _ | ⟨g0, _ | ⟨g1, _ | ⟨_, _⟩⟩⟩⟩ <;>
    first
    | exact .rfl'
    | exact byLevel_lim (bothS_lim (productF_lim n) _ _ _ _) (bothS_lim (productF_lim n) _ _ _ _) (productEq_lim (productF_lim n) _ _ _ _ _ _)

theorem divideF_lim : ∀ n s x, Lim (divideF n s x) (divideF (n + 1) s x)
  | 0, _, _ => .none'
  | n + 1, s, (f, g) => by
    unfold divideF
    refine Lim.memo (fun s => ?_) s
    rcases s.arena.node? f with _ | ⟨_ | _ | _⟩ | ⟨hf, _ | ⟨f0, _ | ⟨f1, _ | ⟨_, _⟩⟩⟩⟩ <;>
    rcases s.arena.node? g with _ | ⟨_ | _ | _⟩ | ⟨hg, _ | ⟨g0, _ | ⟨g1, _ | ⟨_, _⟩⟩⟩⟩ <;>
    first
    | exact .rfl'
    | exact byLevel_lim (divideF_lim n _ _) .rfl' (divideEq_lim (divideF_lim n) _ _ _ _ _)

end Zdd
end DD
