import Verif.Bss.BssStable
import Verif.Props.Bss
import Verif.Props.BddAnalysis

/-!
# C70: an open iterator is unaffected by the calls made between two `next`

The iterator structures of the four diagram types keep a clone of the handle they were made from.  In the model
this is the handle `f`: the client may do anything between two calls of `next` except dropping this one.
-/

set_option autoImplicit false
set_option linter.unusedSectionVars false
set_option linter.unusedVariables false

namespace DD.Props
open DD

/-- C70 for `BddPath`: whatever calls are made between the calls of `next` (new variables, operations, automatic
and explicit collections, dropping other handles, clearing the caches), the `k`-th call of `next` returns the `k`-th
of the variable lists `C13` describes, as of the moment the iterator was made, and `None` ever after. -/
theorem C70_bdd {w : World} (hw : w.Reachable) {f : Nat} {F : BFun} (hf : w.Denotes f F) {n : Nat}
    (hn : Height F n) {names : List String} (hnm : Names w names) (ss : List Bool) :
    ∃ (st : Bdd.PathSt) (out : List (List String)), w.bddExtract ss f = some st ∧ out.Nodup ∧
      (∀ r, r ∈ out ↔ ∃ a : Fin n → Bool, F (extend a) ∈ ss ∧ r = literals names a) ∧
      ∀ (as : List (Enum.Act Cmd)) (w' : World),
        Enum.Goes World.after (fun w c => w.Ordered c ∧ c ≠ .drop f) w (Enum.calls as) w' →
        ∃ st', Enum.weave World.after World.bddNext w st as =
          some ((List.range (Enum.nexts as)).map fun k => out[k]?, w', st') := by
  obtain ⟨st, out, h1, h2, h3, h4, _, _⟩ := C13_extract hw hf hn hnm ss
  obtain ⟨A, R⟩ := hw.rel
  exact ⟨st, out, h1, h3, h4, fun as w' hg => World.weave_path R h1 h2 hg⟩

/-- Between the two results of `x ∨ z` a variable is added, a node built, another handle dropped, and everything
else collected; threshold 0 makes every wrapped result collect as well. -/
example : (World.new.run [.defvar "x", .defvar "z", .or 0 1]).bind (fun p =>
    (p.2.bddExtract [true] 2).bind fun st =>
      (Enum.weave World.after World.bddNext p.2 st
        [.next, .call (.setThreshold 0), .call (.defvar "y"), .call (.drop 0), .call (.and 1 3), .call (.gc []),
          .next, .call .clearCache, .next, .next]).map (·.1)) =
    (World.new.run [.defvar "x", .defvar "z", .or 0 1]).bind (fun p =>
      (p.2.bddExtract [true] 2).bind fun st =>
        (Enum.weave World.after World.bddNext p.2 st [.next, .next, .next, .next]).map (·.1)) := by
  decide +kernel

/-- C70 for `ZddPath`. -/
theorem C70_zdd {w : ZWorld} (hw : w.Reachable) {f : Nat} {𝓕 : Set (Set String)} (hf : w.Denotes f 𝓕) :
    ∃ (st : Zdd.ZPath) (out : List (List String)), w.extract [true] f = some st ∧
      (∀ l ∈ out, l.Nodup) ∧ (∀ S, S ∈ 𝓕 ↔ ∃ l ∈ out, S = {x | x ∈ l}) ∧
      out.Pairwise (fun l l' => ({x | x ∈ l} : Set String) ≠ {x | x ∈ l'}) ∧
      ∀ (as : List (Enum.Act ZCmd)) (w' : ZWorld),
        Enum.Goes ZWorld.after (fun _ c => c ≠ .drop f) w (Enum.calls as) w' →
        ∃ st', Enum.weave ZWorld.after ZWorld.next w st as =
          some ((List.range (Enum.nexts as)).map fun k => out[k]?, w', st') := by
  obtain ⟨st, out, h1, h2, h3, h4, h5, _⟩ := C23_extract hw hf
  exact ⟨st, out, h1, h3, h4, h5, fun as w' hg => ZWorld.weave_path hw.zheld h1 h2 hg⟩

/-- C70 for the `BddPath` of a `BssMgr`: also `minpath`, `mincut` and everything on the set-family side may be
called in between. -/
theorem C70_bss_bdd {w : BssW} (hw : w.Reachable) {f : Nat} {F : BFun} (hf : w.bdd.Denotes f F) {n : Nat}
    (hn : Height F n) {names : List String} (hnm : Names w.bdd names) (ss : List Bool) :
    ∃ (st : Bdd.PathSt) (out : List (List String)), w.bdd.bddExtract ss f = some st ∧ out.Nodup ∧
      (∀ r, r ∈ out ↔ ∃ a : Fin n → Bool, F (extend a) ∈ ss ∧ r = literals names a) ∧
      ∀ (as : List (Enum.Act BssCmd)) (w' : BssW),
        Enum.Goes BssW.after (fun w c => w.Ordered c ∧ c ≠ .bdd (.drop f)) w (Enum.calls as) w' →
        ∃ st', Enum.weave BssW.after (fun w => w.bdd.bddNext) w st as =
          some ((List.range (Enum.nexts as)).map fun k => out[k]?, w', st') := by
  obtain ⟨st, out, h1, h2, h3, h4, _, _⟩ := C13_extract (bss_bdd_reachable hw) hf hn hnm ss
  exact ⟨st, out, h1, h3, h4, fun as w' hg => BssW.weave_bdd hw h1 h2 hg⟩

/-- C70 for the `ZddPath` of a `BssMgr`, for example of a result of `minpath` or `mincut`. -/
theorem C70_bss_zdd {w : BssW} (hw : w.Reachable) {f : Nat} {𝓕 : Set (Set String)} (hf : w.zdd.Denotes f 𝓕) :
    ∃ (st : Zdd.ZPath) (out : List (List String)), w.zdd.extract [true] f = some st ∧
      (∀ l ∈ out, l.Nodup) ∧ (∀ S, S ∈ 𝓕 ↔ ∃ l ∈ out, S = {x | x ∈ l}) ∧
      out.Pairwise (fun l l' => ({x | x ∈ l} : Set String) ≠ {x | x ∈ l'}) ∧
      ∀ (as : List (Enum.Act BssCmd)) (w' : BssW),
        Enum.Goes BssW.after (fun w c => w.Ordered c ∧ c ≠ .zdd (.drop f)) w (Enum.calls as) w' →
        ∃ st', Enum.weave BssW.after (fun w => w.zdd.next) w st as =
          some ((List.range (Enum.nexts as)).map fun k => out[k]?, w', st') := by
  obtain ⟨st, out, h1, h2, h3, h4, h5, _⟩ := C23_bss_extract hw hf
  exact ⟨st, out, h1, h3, h4, h5, fun as w' hg => BssW.weave_zdd hw h1 h2 hg⟩

/-- The two minimal path sets of `x ∧ (y ∨ z)`; in between a cut family is computed, everything not held is
collected, and the Boolean handle is dropped. -/
example : (BssW.new.run [.zdd (.setThreshold 0), .bdd (.defvar "z"), .bdd (.defvar "y"), .bdd (.defvar "x"),
      .bdd (.or 0 1), .bdd (.and 2 3), .minpath 4]).bind (fun p =>
    (p.2.zdd.extract [true] 0).bind fun st =>
      (Enum.weave BssW.after (fun w => w.zdd.next) p.2 st
        [.call (.mincut 4), .next, .call (.zdd (.drop 1)), .call (.bdd (.drop 4)), .call (.zdd .empty),
          .call .clearCache, .next, .call (.minpath 3), .next, .next]).map (·.1)) =
    some [some ["z", "x"], some ["y", "x"], none, none] := by
  decide +kernel

end DD.Props
