import Verif.Bss.ZddMgr
import Verif.Bss.BssMgr

/-!
# Statistics of the BDD and ZDD managers
-/

set_option autoImplicit false

namespace DD

/-- /repo/bss/src/bdd.rs:157-159 -/
def BddMgr.size (m : BddMgr) : Nat × Nat × Nat := m.bdd.size

/-- /repo/bss/src/bdd.rs:144-146 -/
def BddMgr.liveNodeCount (m : BddMgr) : Nat := m.bdd.liveNodeCount

/-- /repo/bss/src/zdd.rs:135-137 -/
def ZddMgr.size (m : ZddMgr) : Nat × Nat × Nat := m.w.eng.size

/-- /repo/bss/src/zdd.rs:131-133 -/
def ZddMgr.liveNodeCount (m : ZddMgr) : Nat := m.w.eng.liveNodeCount

/-- /repo/bss/src/bss.rs:89-91 -/
def BssW.size (w : BssW) : Nat × Nat × Nat := w.bdd.mgr.size

end DD
