import Verif.Mss.MddMgr
import Verif.Common.Text

/-! # Texts of MDD expressions -/

set_option autoImplicit false
set_option linter.unusedSectionVars false
set_option linter.unusedVariables false

namespace DD

/-- Tokens of a text, /repo/mss/src/mdd.rs:300-301. -/
def mlex (s : String) : List MTok := (splitWs s.toList []).map (fun cs => parseMTok (String.ofList cs))

end DD
