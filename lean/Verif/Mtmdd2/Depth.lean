import Verif.Core.Depth
import Verif.Mtmdd2.Model

/-!
# Recursion depth of the two-forest MTMDD operations
-/

set_option autoImplicit false
set_option linter.unusedSectionVars false
set_option linter.unusedVariables false

namespace DD
namespace Mtmdd2

theorem cmpF_lim {op : Nat} {p : Int → Int → Bool} : ∀ n s x, Lim (cmpF op p n s x) (cmpF op p (n + 1) s x)
  | 0, _, _ => .none'
  | n + 1, s, (f, g) => by
    unfold cmpF
    refine Lim.memo (fun s => ?_) s
    rcases s.mtmdd.arena.node? f with _ | ⟨t⟩ | ⟨h, ch⟩ <;> rcases s.mtmdd.arena.node? g with _ | ⟨t'⟩ | ⟨h', ch'⟩ <;>
      first
      | exact .arms2 (cmpF_lim n) _ _ _ _ _ _ _ _ _ _
      | exact .branchS (cmpF_lim n) _ _ _
      | exact .rfl'
      | (cases t <;> first | exact .rfl' | exact .branchS (cmpF_lim n) _ _ _)
      | (cases t' <;> first | exact .rfl' | exact .branchS (cmpF_lim n) _ _ _)
      | (cases t <;> cases t' <;> first | exact .rfl' | exact .branchS (cmpF_lim n) _ _ _)

theorem vifF_lim : ∀ n s x, Lim (vifF n s x) (vifF (n + 1) s x)
  | 0, _, _ => .none'
  | n + 1, s, (f, g) => by
    unfold vifF
    refine Lim.memo (fun s => ?_) s
    rcases s.mdd.arena.node? f with _ | ⟨t⟩ | ⟨h, ch⟩ <;> rcases s.mtmdd.arena.node? g with _ | ⟨t'⟩ | ⟨h', ch'⟩ <;>
      first
      | exact .arms2 (vifF_lim n) _ _ _ _ _ _ _ _ _ _
      | exact .branchS (vifF_lim n) _ _ _
      | exact .rfl'
      | (cases t <;> first | exact .rfl' | exact .branchS (vifF_lim n) _ _ _)
      | (cases t' <;> first | exact .rfl' | exact .branchS (vifF_lim n) _ _ _)
      | (cases t <;> cases t' <;> first | exact .rfl' | exact .branchS (vifF_lim n) _ _ _)

theorem viteF_lim : ∀ n s x, Lim (viteF n s x) (viteF (n + 1) s x)
  | 0, _, _ => .none'
  | n + 1, s, (f, g, h) => by
    unfold viteF
    rcases s.mdd.arena.node? f with _ | ⟨t⟩ | ⟨hf, ch⟩
    · exact .rfl'
    · cases t <;> exact .rfl'
    · simp only
      split
      · exact .rfl'
      · refine Lim.memo (fun s => ?_) s
        rcases s.mdd.arena.level? f with _ | lf
        · exact .rfl'
        · simp only
          rcases s.viteTopHeader f g h (s.mtmdd.arena.topLevel lf [g, h]) with _ | ⟨hx, k⟩
          · exact .rfl'
          · exact .branchS (viteF_lim n) _ _ _

end Mtmdd2
end DD
