import Verif.Core.Depth
import Verif.Mtmdd.Model

/-!
# Recursion depth of the MTMDD operations
-/

set_option autoImplicit false
set_option linter.unusedSectionVars false
set_option linter.unusedVariables false

namespace DD
namespace Mtmdd

theorem binF_lim {op : Nat} {comm : Bool} {tt : Int → Int → Option (Option Int)} : ∀ n s x, Lim (binF op comm tt n s x) (binF op comm tt (n + 1) s x)
  | 0, _, _ => .none'
  | n + 1, s, (f, g) => by
    unfold binF
    refine Lim.memo (fun s => ?_) s
    rcases s.arena.node? (if comm then Min.min f g else f) with _ | ⟨t⟩ | ⟨h, ch⟩ <;> rcases s.arena.node? (if comm then Max.max f g else g) with _ | ⟨t'⟩ | ⟨h', ch'⟩ <;>
      first
      | exact .arms2 (binF_lim n) _ _ _ _ _ _ _ _ _ _
      | exact .branchS (binF_lim n) _ _ _
      | exact .rfl'
      | (cases t <;> first | exact .rfl' | exact .branchS (binF_lim n) _ _ _)
      | (cases t' <;> first | exact .rfl' | exact .branchS (binF_lim n) _ _ _)
      | (cases t <;> cases t' <;> first | exact .rfl' | exact .branchS (binF_lim n) _ _ _)

theorem replaceF_lim : ∀ n s x, Lim (replaceF n s x) (replaceF (n + 1) s x)
  | 0, _, _ => .none'
  | n + 1, s, (f, g) => by
    unfold replaceF
    refine Lim.memo (fun s => ?_) s
    rcases s.arena.node? f with _ | ⟨t⟩ | ⟨h, ch⟩ <;> rcases s.arena.node? g with _ | ⟨t'⟩ | ⟨h', ch'⟩ <;>
      first
      | exact .arms2 (replaceF_lim n) _ _ _ _ _ _ _ _ _ _
      | exact .branchS (replaceF_lim n) _ _ _
      | exact .rfl'
      | (cases t <;> first | exact .rfl' | exact .branchS (replaceF_lim n) _ _ _)
      | (cases t' <;> first | exact .rfl' | exact .branchS (replaceF_lim n) _ _ _)
      | (cases t <;> cases t' <;> first | exact .rfl' | exact .branchS (replaceF_lim n) _ _ _)

end Mtmdd
end DD
