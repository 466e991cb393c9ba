import Verif.Bss.BddMgr
import Verif.Common.Text

/-! # Texts of BDD expressions -/

set_option autoImplicit false
set_option linter.unusedSectionVars false
set_option linter.unusedVariables false

namespace DD

/-- Tokens of a text, /repo/bss/src/bdd.rs:267-268. -/
def lex (s : String) : List Tok := (splitWs s.toList []).map (fun cs => parseTok (String.ofList cs))

end DD
