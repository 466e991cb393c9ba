import Verif.Props.Bss
import Verif.Bss.Queries

/-!
# The repository's own tests of the crate `bss`, on the model

As in `Tests/Engines.lean`: tests on one input each, with the expectations of the repository's authors.  Handle numbers are
in order of creation; the results of the calls that the Rust text leaves unnamed take numbers too.
-/

set_option autoImplicit false

namespace DD.Tests
open DD.Props

/-- `minpath` answers of a session. -/
def fams : List BssOut → List Bool
  | [] => []
  | .fam h :: os => h.isSome :: fams os
  | _ :: os => fams os

/-- Answers of `eq`. -/
def eqs : List BssOut → List Bool
  | [] => []
  | .bdd (.bool b) :: os => b :: eqs os
  | _ :: os => eqs os

/-- /repo/bss/tests/test_bss.rs, `test_minpath_monotone_detection`. -/
example : (BssW.new.run [.bdd (.defvar "x"), .bdd (.defvar "y"), .bdd (.defvar "z"), .bdd (.and 0 1), .bdd (.or 3 2),
    .minpath 4, .bdd (.xor 0 1), .minpath 5, .bdd (.not 1), .bdd (.and 0 6), .minpath 7, .bdd (.not 2),
    .minpath 8]).map (fun p => fams p.1) = some [true, false, false, false] := by
  decide +kernel

/-- /repo/bss/tests/test_bss.rs, `test_dual_and_mincut`: 2 = series, 3 = its dual, 4 = parallel, 5 = its dual,
6 = the dual of 3; 7 and 8 are the temporary handles of `mincut`; 9 = xor. -/
def dualCmds : List BssCmd :=
  [.bdd (.defvar "x"), .bdd (.defvar "y"), .bdd (.and 0 1), .bdd (.dual 2), .bdd (.or 0 1), .bdd (.eq 3 4),
   .bdd (.dual 4), .bdd (.eq 5 2), .bdd (.dual 3), .bdd (.eq 6 2), .mincut 2, .minpath 2, .mincut 4, .minpath 4,
   .bdd (.xor 0 1), .mincut 9]

example : (BssW.new.run dualCmds).map (fun p => (eqs p.1, fams p.1)) =
    some ([true, true, true], [true, true, true, true, false]) := by
  decide +kernel

example : (BssW.new.run dualCmds).map (fun p => ([0, 1].map (p.2.zdd.count [true]),
    [0, 1, 2, 3].map (fun h => listSets p.2.zdd h 9))) =
    some ([some 2, some 1], [[["x"], ["y"]], [["x", "y"]], [["x", "y"]], [["x"], ["y"]]]) := by
  decide +kernel

/-- /repo/bss/tests/test_bss.rs, `test_zdd_setops`: families 0 = A, 1 = B, 2 = union, 3 = intersect, 4 = setdiff,
5 = {{x}}, 6 = {{y}}, 7 = product, 8 = divide. -/
def setopCmds : List BssCmd :=
  [.bdd (.defvar "x"), .bdd (.defvar "y"), .bdd (.defvar "z"), .bdd (.and 0 1), .bdd (.or 3 2), .minpath 4,
   .bdd (.or 0 2), .minpath 5, .zdd (.union 0 1), .zdd (.intersect 0 1), .zdd (.setdiff 0 1), .minpath 0, .minpath 1,
   .zdd (.product 5 6), .zdd (.divide 7 6)]

example : (BssW.new.run setopCmds).map (fun p => List.isPerm ((listSets p.2.zdd 2 9)) [["x", "y"], ["x"], ["z"]]) =
    some true := by
  decide +kernel

example : (BssW.new.run setopCmds).map (fun p => [0, 1, 3, 4, 7, 8].map (fun h => (listSets p.2.zdd h 9))) =
    some [[["x", "y"], ["z"]], [["x"], ["z"]], [["z"]], [["x", "y"]], [["x", "y"]], [["x"]]] := by
  decide +kernel

/-- /repo/bss/tests/test_bss.rs, `test_zdd_standalone`: 0 = empty, 1 = base, 2 = a, 3, 4 = singletons, 5 = b, 6 = union,
7 = intersect, 8 = setdiff, 9, 10 = singletons, 11 = product, 12 = {{y}}, 13 = divide. -/
def standaloneCmds : List ZCmd :=
  [.empty, .base, .fromSets [["x", "y"], ["z"]], .singleton "x", .singleton "z", .union 3 4, .union 2 5,
   .intersect 2 5, .setdiff 2 5, .singleton "x", .singleton "y", .product 9 10, .singleton "y", .divide 11 12]

example : (ZWorld.new.run standaloneCmds).map (fun p => [0, 1].map (p.2.count [true])) = some [some 0, some 1] := by
  decide +kernel

example : (ZWorld.new.run standaloneCmds).map (fun p => [(listSets p.2 1 9).isPerm [[]],
      (listSets p.2 2 9).isPerm [["x", "y"], ["z"]], (listSets p.2 5 9).isPerm [["x"], ["z"]],
      (listSets p.2 6 9).isPerm [["x", "y"], ["x"], ["z"]], (listSets p.2 7 9).isPerm [["z"]],
      (listSets p.2 8 9).isPerm [["x", "y"]], (listSets p.2 11 9).isPerm [["x", "y"]],
      (listSets p.2 13 9).isPerm [["x"]]]) = some (List.replicate 8 true) := by
  decide +kernel

/-! ### `test_minpath_exhaustive_brute_force` -/

/-- The session of one round: `n` variables, then the sum of the minterms of the truth table `t`.  Returns the handle of
the function. -/
def tableCmds (n t : Nat) : List BssCmd × Nat :=
  let vars := (List.range n).map (fun i => BssCmd.bdd (.defvar ("x" ++ toString i)))
  let nots := (List.range n).map (fun i => BssCmd.bdd (.not i))
  let start := (vars ++ nots ++ [.bdd (.const false)], 2 * n)
  (List.range (2 ^ n)).foldl (init := start) fun (cs, f) a =>
    if (t >>> a) % 2 = 1 then
      let next := cs.length
      let (ms, m) := (List.range n).foldl (init := ([BssCmd.bdd (.const true)], next)) fun (ms, m) i =>
        (ms ++ [.bdd (.and m (if (a >>> i) % 2 = 1 then i else n + i))], next + ms.length)
      (cs ++ ms ++ [.bdd (.or f m)], next + ms.length)
    else (cs, f)

/-- Minimal true sets by enumeration; `none` if the table is not monotone. -/
def bruteMin (n t : Nat) : Option (List (List String)) :=
  let pts := List.range (2 ^ n)
  let f := fun a => decide ((t >>> a) % 2 = 1)
  if pts.all (fun a => pts.all (fun b => decide ((a &&& b) ≠ a) || !f a || f b)) then
    let ts := pts.filter f
    some ((ts.filter (fun a => !ts.any (fun b => decide (b ≠ a) && decide ((b &&& a) = b)))).map fun a =>
      ((List.range n).filter (fun i => decide ((a >>> i) % 2 = 1))).map (fun i => "x" ++ toString i))
  else none

/-- One round of the test. -/
def minpathRound (n t : Nat) : Bool :=
  let (cs, f) := tableCmds n t
  match BssW.new.run cs with
  | none => false
  | some (_, w) =>
    match w.step (.minpath f), bruteMin n t with
    | some (.fam none, _), none => true
    | some (.fam (some h), w'), some l => (listSets w'.zdd h 9).isPerm l
    | _, _ => false

example : (List.range (2 ^ 2)).all (minpathRound 1) = true := by decide +kernel
example : (List.range (2 ^ 4)).all (minpathRound 2) = true := by decide +kernel

/-! ### Tests of /repo/bss/src/bdd.rs -/

/-- `test_kofn_minterms` for `n = 8`. -/
example : (World.new.run ((List.range 8).map (fun i => .defvar ("x" ++ toString i)) ++
    [.kofn 0 (List.range 8), .kofn 1 (List.range 8), .kofn 2 (List.range 8), .kofn 4 (List.range 8),
     .kofn 8 (List.range 8)])).map (fun p => ((p.2.bddSize 8).map (·.1), [9, 10, 11, 12].map (p.2.bddCount [true]))) =
    some (some 0, [some 255, some 247, some 163, some 1]) := by
  decide +kernel

/-- /repo/bss/tests/test_autogc.rs, `auto_gc_preserves_kept_results`, with 4 variables, threshold 10 and 3 rounds. -/
def autoCmds : List Cmd :=
  [.setThreshold 10] ++ (List.range 4).map (fun i => .defvar ("x" ++ toString i)) ++ [.and 0 1, .or 4 2, .drop 4] ++
  ((List.range 3).foldl (init := (([] : List Cmd), 6)) fun (cs, next) i =>
    let (ds, f) := (List.range 4).foldl (init := ([Cmd.const true], next)) fun (ds, f) j =>
      (ds ++ [if (i >>> j) % 2 = 1 then .and f j else .or f j, .drop f], f + 1)
    (cs ++ ds ++ [.drop f], f + 1)).1

example : (World.new.run (autoCmds.take 8)).map (fun p => p.2.bddSize 5) =
    (World.new.run autoCmds).map (fun p => p.2.bddSize 5) := by
  decide +kernel

end DD.Tests
