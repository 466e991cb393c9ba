import Verif.Core.Depth
import Verif.Mdd.Model

/-!
# Recursion depth of the MDD operations
-/

set_option autoImplicit false
set_option linter.unusedSectionVars false
set_option linter.unusedVariables false

namespace DD
namespace Mdd

theorem notF_lim : ∀ n s f, Lim (notF n s f) (notF (n + 1) s f)
  | 0, _, _ => .none'
  | n + 1, s, f => by
    unfold notF
    refine Lim.memo (fun s => ?_) s
    rcases s.arena.node? f with _ | ⟨t⟩ | ⟨h, ch⟩
    · exact .rfl'
    · cases t <;> exact .rfl'
    · exact .branchS (notF_lim n) _ _ _

theorem andF_lim : ∀ n s x, Lim (andF n s x) (andF (n + 1) s x)
  | 0, _, _ => .none'
  | n + 1, s, (f, g) => by
    unfold andF
    refine Lim.memo (fun s => ?_) s
    rcases s.arena.node? (min f g) with _ | ⟨t⟩ | ⟨h, ch⟩ <;> rcases s.arena.node? (max f g) with _ | ⟨t'⟩ | ⟨h', ch'⟩ <;>
      first
      | exact .arms2 (andF_lim n) _ _ _ _ _ _ _ _ _ _
      | exact .branchS (andF_lim n) _ _ _
      | (simp only; split <;> first | exact .rfl' | exact .arms2 (andF_lim n) _ _ _ _ _ _ _ _ _ _)
      | exact .rfl'
      | (cases t <;> first | exact .rfl' | exact .branchS (andF_lim n) _ _ _)
      | (cases t' <;> first | exact .rfl' | exact .branchS (andF_lim n) _ _ _)
      | (cases t <;> cases t' <;> first | exact .rfl' | exact .branchS (andF_lim n) _ _ _)

theorem orF_lim : ∀ n s x, Lim (orF n s x) (orF (n + 1) s x)
  | 0, _, _ => .none'
  | n + 1, s, (f, g) => by
    unfold orF
    refine Lim.memo (fun s => ?_) s
    rcases s.arena.node? (min f g) with _ | ⟨t⟩ | ⟨h, ch⟩ <;> rcases s.arena.node? (max f g) with _ | ⟨t'⟩ | ⟨h', ch'⟩ <;>
      first
      | exact .arms2 (orF_lim n) _ _ _ _ _ _ _ _ _ _
      | exact .branchS (orF_lim n) _ _ _
      | (simp only; split <;> first | exact .rfl' | exact .arms2 (orF_lim n) _ _ _ _ _ _ _ _ _ _)
      | exact .rfl'
      | (cases t <;> first | exact .rfl' | exact .branchS (orF_lim n) _ _ _)
      | (cases t' <;> first | exact .rfl' | exact .branchS (orF_lim n) _ _ _)
      | (cases t <;> cases t' <;> first | exact .rfl' | exact .branchS (orF_lim n) _ _ _)

theorem xorF_lim : ∀ n s x, Lim (xorF n s x) (xorF (n + 1) s x)
  | 0, _, _ => .none'
  | n + 1, s, (f, g) => by
    unfold xorF
    refine Lim.memo (fun s => ?_) s
    rcases s.arena.node? (min f g) with _ | ⟨t⟩ | ⟨h, ch⟩ <;> rcases s.arena.node? (max f g) with _ | ⟨t'⟩ | ⟨h', ch'⟩ <;>
      first
      | exact .arms2 (xorF_lim n) _ _ _ _ _ _ _ _ _ _
      | exact .branchS (xorF_lim n) _ _ _
      | (simp only; split <;> first | exact .rfl' | exact .arms2 (xorF_lim n) _ _ _ _ _ _ _ _ _ _)
      | exact .rfl'
      | (cases t <;> first | exact .rfl' | exact .branchS (xorF_lim n) _ _ _)
      | (cases t' <;> first | exact .rfl' | exact .branchS (xorF_lim n) _ _ _)
      | (cases t <;> cases t' <;> first | exact .rfl' | exact .branchS (xorF_lim n) _ _ _)

theorem iteF_lim : ∀ n s x, Lim (iteF n s x) (iteF (n + 1) s x)
  | 0, _, _ => .none'
  | n + 1, s, (f, g, h) => by
    unfold iteF
    rcases s.arena.node? f with _ | ⟨t⟩ | ⟨hf, ch⟩
    · exact .rfl'
    · cases t <;> exact .rfl'
    · simp only
      split
      · exact .rfl'
      · refine Lim.memo (fun s => ?_) s
        rcases s.arena.level? f with _ | lf
        · exact .rfl'
        · simp only
          rcases s.arena.topHeader (s.arena.topLevel lf [g, h]) [f, g, h] with _ | ⟨hx, k⟩
          · exact .rfl'
          · exact .branchS (iteF_lim n) _ _ _

theorem replaceF_lim : ∀ n s x, Lim (replaceF n s x) (replaceF (n + 1) s x)
  | 0, _, _ => .none'
  | n + 1, s, (f, g) => by
    unfold replaceF
    refine Lim.memo (fun s => ?_) s
    rcases s.arena.node? f with _ | ⟨t⟩ | ⟨h, ch⟩ <;> rcases s.arena.node? g with _ | ⟨t'⟩ | ⟨h', ch'⟩ <;>
      first
      | exact .arms2 (replaceF_lim n) _ _ _ _ _ _ _ _ _ _
      | exact .branchS (replaceF_lim n) _ _ _
      | exact .rfl'
      | (cases t <;> first | exact .rfl' | exact .branchS (replaceF_lim n) _ _ _)
      | (cases t' <;> first | exact .rfl' | exact .branchS (replaceF_lim n) _ _ _)
      | (cases t <;> cases t' <;> first | exact .rfl' | exact .branchS (replaceF_lim n) _ _ _)

end Mdd
end DD
