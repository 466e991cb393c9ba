import Verif.Mss.ZmStable
import Verif.Props.MssAnalysis
import Verif.Props.Mss

/-!
# C70 for the multi-state managers

See `Verif/Props/Iter.lean`; `f` is the handle the iterator keeps.
-/

set_option autoImplicit false
set_option linter.unusedSectionVars false
set_option linter.unusedVariables false

namespace DD.Props
open DD

/-- C70 for `MddPath`: whatever calls are made between the calls of `next`, the `k`-th call of `next` returns the
`k`-th of the assignments `C39` describes, as of the moment the iterator was made, and `None` ever after. -/
theorem C70_mdd {w : MWorld} (hw : w.Reachable) {vs : List (String × Nat)} (hv : MVars w vs) {f : Nat} {F : MFun}
    (hf : w.Has f F) {t : Option Nat} (ht : MTop vs F t) (ss : List Int) :
    ∃ (st : Mda.PathSt) (out : List (AMap String Nat)), w.extract f = some st ∧
      Enumerates vs (levels t) ss F out ∧
      ∀ (as : List (Enum.Act MCmd)) (w' : MWorld),
        Enum.Goes MWorld.after (fun w c => w.Checked c ∧ c ≠ .drop f) w (Enum.calls as) w' →
        ∃ st', Enum.weave MWorld.after (fun w => w.next ss f) w st as =
          some ((List.range (Enum.nexts as)).map fun k => out[k]?, w', st') := by
  obtain ⟨st, out, h1, h2, h3, _⟩ := C39_extract hw hv hf ht ss
  exact ⟨st, out, h1, h3, fun as w' hg => MWorld.weave_path (mrel hw hv) h1 h2 hg⟩

/-- C70 for the `MddPath` of a `MssMgr`: also `minpath`, `mincut` and everything on the vector-family side may be
called in between. -/
theorem C70_mss_mdd {w : MssW} (hw : w.Reachable) {vs : List (String × Nat)} (hv : MVars w.mdd vs) {f : Nat}
    {F : MFun} (hf : w.mdd.Has f F) {t : Option Nat} (ht : MTop vs F t) (ss : List Int) :
    ∃ (st : Mda.PathSt) (out : List (AMap String Nat)), w.mdd.extract f = some st ∧
      Enumerates vs (levels t) ss F out ∧
      ∀ (as : List (Enum.Act MssCmd)) (w' : MssW),
        Enum.Goes MssW.after (fun w c => w.Checked c ∧ c ≠ .mdd (.drop f)) w (Enum.calls as) w' →
        ∃ st', Enum.weave MssW.after (fun w => w.mdd.next ss f) w st as =
          some ((List.range (Enum.nexts as)).map fun k => out[k]?, w', st') := by
  obtain ⟨st, out, h1, h2, h3, _⟩ := C39_extract hw.mdd hv hf ht ss
  exact ⟨st, out, h1, h3, fun as w' hg => MssW.weave_mdd hw h1 h2 hg⟩

/-- C70 for `ZmddPath`, the iterator over the minimal path or cut vectors. -/
theorem C70_zmdd {w : MssW} (hw : w.Reachable) {f : Nat} {vars : List (String × Nat)} {cut : Bool}
    (hk : FamKind w.z f vars cut) (ss : List Int) :
    ∃ (st : Zma.PathSt) (out : List (AMap String Nat)), w.z.extract ss f = some st ∧
      ListsVec vars out (fun a => ∃ v ∈ ss, FamHas w.z f a v) ∧
      ∀ (as : List (Enum.Act MssCmd)) (w' : MssW),
        Enum.Goes MssW.after (fun w c => w.Checked c ∧ c ≠ .zmdd (.drop f)) w (Enum.calls as) w' →
        ∃ st', Enum.weave MssW.after (fun w => w.z.next) w st as =
          some ((List.range (Enum.nexts as)).map fun k => out[k]?, w', st') := by
  obtain ⟨st, out, h1, h2, h3⟩ := C49_extract hw hk ss
  exact ⟨st, out, h1, h3, fun as w' hg => MssW.weave_zmdd hw h1 h2 hg⟩

/-- The assignments on which the sum of `x < 3` and `y < 2` is 1; in between handles are dropped, everything not
held is collected, a variable is added and the cut vectors of the sum are computed. -/
example : ((after sumDemo).mdd.extract 2).bind (fun st =>
      (Enum.weave MssW.after (fun w => w.mdd.next [1] 2) (after sumDemo) st
        [.next, .call (.mdd (.setThreshold 0)), .call (.mdd (.drop 0)), .call (.mdd (.gc [])),
          .call (.mdd (.defvar "z" 2)), .call (.mincut 2), .next, .call .clearCache, .next, .next]).map (·.1)) =
    some [some ⟨[("x", 1), ("y", 0)]⟩, some ⟨[("x", 0), ("y", 1)]⟩, none, none] := by
  decide +kernel

/-- The minimal path vectors to 2 and 3; in between the diagrams they came from are dropped. -/
example : ((after sumDemo).z.extract [2, 3] 0).bind (fun st =>
      (Enum.weave MssW.after (fun w => w.z.next) (after sumDemo) st
        [.call (.mdd (.drop 2)), .next, .call (.zmdd (.drop 1)), .call (.mdd (.gc [])), .next,
          .call (.zmdd (.intersect 0 0)), .call .clearCache, .next, .call (.minpath 0), .next, .next]).map (·.1)) =
    some [some ⟨[("x", 2), ("y", 0)]⟩, some ⟨[("x", 1), ("y", 1)]⟩, some ⟨[("x", 2), ("y", 1)]⟩, none, none] := by
  decide +kernel

end DD.Props
