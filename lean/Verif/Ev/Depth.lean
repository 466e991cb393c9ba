import Verif.Core.Depth
import Verif.Ev.Model

/-!
# Recursion depth of the edge-valued MDD operations
-/

set_option autoImplicit false
set_option linter.unusedSectionVars false
set_option linter.unusedVariables false

namespace DD
namespace Ev

theorem mapS_lim {r r' : Ev → EvEdge → EvEdge → Option (EvEdge × Ev)} (hr : ∀ s x y, Lim (r s x y) (r' s x y)) :
    ∀ (ps : List (EvEdge × EvEdge)) (s : Ev), Lim (mapS r s ps) (mapS r' s ps)
  | [], _ => .rfl'
  | (x, y) :: ps, s => by
    unfold mapS
    rcases hr s x y with e | e <;> rw [e]
    · exact .none'
    rcases r' s x y with _ | ⟨z, s1⟩
    · exact .rfl'
    simp only
    rcases mapS_lim hr ps s1 with e | e <;> rw [e]
    · exact .none'
    · exact .rfl'

theorem applyF_lim (o : EvOp) : ∀ n s x y, Lim (applyF o n s x y) (applyF o (n + 1) s x y)
  | 0, _, _, _ => .none'
  | n + 1, s, x, y => by
    unfold applyF
    cases s.cache.get (o, x.node, y.node, x.value - y.value) with
    | some r => exact .rfl'
    | none =>
      simp only
      rcases s.nodes[x.node]? with _ | nf
      · exact .rfl'
      rcases s.nodes[y.node]? with _ | ng
      · exact .rfl'
      simp only
      cases base o x.value x.node y.value y.node nf ng with
      | some e => exact .rfl'
      | none =>
        simp only
        rcases expand s x.value x.node y.value y.node nf ng with _ | ⟨h, ps⟩
        · exact .rfl'
        simp only
        rcases mapS_lim (applyF_lim o n) ps s with e | e <;> rw [e]
        · exact .none'
        · exact .rfl'

end Ev
end DD
