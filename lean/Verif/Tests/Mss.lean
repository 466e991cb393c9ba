import Verif.Mss.MssMgr
import Verif.Mss.Analysis
import Verif.Mss.Dot

/-!
# The repository's own tests of the crate `mss`, on the model

As in `Tests/Engines.lean`: tests on one input each, with the expectations of the repository's authors; `f64` is replaced by
rational numbers.
-/

set_option autoImplicit false

namespace DD.Tests

deriving instance DecidableEq for MssOut

/-- A session of one MDD manager. -/
def mrun (w : MWorld) : List MCmd → Option MWorld
  | [] => some w
  | c :: cs =>
    match w.step c with
    | none => none
    | some (_, w') => mrun w' cs

/-! ### Tests of /repo/mss/src/mdd_count.rs -/

/-- `create_mdd` on the level of handles: 4 = `(x + y) * z`, 6 = `(x + y) * z == 0`. -/
def mddCmds : List MCmd :=
  [.defvar "x" 3, .defvar "y" 3, .defvar "z" 3, .bin .add 0 1, .bin .mul 3 2, .value 0, .bin .eq 4 5]

/-- `test_mdd_count`, `test_mddnode_count`, `test_mddnode_count2`. -/
example : (mrun MWorld.new mddCmds).map (fun p => (p.count [0] 4, p.nodeSize 4, p.nodeSize 6)) =
    some (some 11, some (9, 7, 27), some (3, 2, 9)) := by
  decide +kernel

/-! ### /repo/mss/tests/test_mss.rs -/

/-- Answers of `minpath` and `mincut`. -/
def mfams : List MssOut → List Bool
  | [] => []
  | .fam h :: os => h.isSome :: mfams os
  | _ :: os => mfams os

/-- `test_minpath_coherence_detection` -/
example : (MssW.new.run [.mdd (.defvar "x" 3), .mdd (.defvar "y" 3), .mdd (.bin .add 0 1), .minpath 2,
    .mdd (.bin .max 0 1), .minpath 3, .mdd (.bin .sub 0 1), .minpath 4, .mdd (.value 1), .mdd (.bin .gte 0 5), .minpath 6,
    .mdd (.bin .lt 0 1), .minpath 7, .mdd (.bin .eq 0 1), .minpath 8, .mincut 4]).map (fun p => mfams p.1) =
    some [true, true, false, true, false, false, false] := by
  decide +kernel

/-- All vectors of an iterator, at most `n`, as the values of the given names. -/
def vectors (w : ZMWorld) (names : List String) (ss : List Int) (h n : Nat) : Option (List (List (Option Nat))) :=
  match w.extract ss h with
  | none => none
  | some st => go n st
where
  go : Nat → Zma.PathSt → Option (List (List (Option Nat)))
    | 0, _ => none
    | n + 1, st =>
      match w.next st with
      | some (some o, st') => (go n st').map (names.map o.get :: ·)
      | some (none, _) => some []
      | none => none

/-- The answer of `extract_level`. -/
def levelVecs (w : ZMWorld) (names : List String) (v : Int) (h : Nat) : Option (List (List (Option Nat))) :=
  match w.step (.extractLevel v h) with
  | some (.vectors l, _) => some (l.map fun o => names.map o.get)
  | _ => none

/-- The same vectors in any order. -/
def same (a : Option (List (List (Option Nat)))) (b : List (List Nat)) : Bool :=
  match a with
  | none => false
  | some l => l.isPerm (b.map (·.map some))

/-- `test_minpath_no_spurious_vectors`, `test_zmdd_intersect_setdiff`, `test_zmdd_dot`: handle 4 = `max(min(x,y), z)`,
families 0 = its paths, 1 = the paths of `min(x,y)`, 2 = intersect, 3 = setdiff. -/
def setCmds : List MssCmd :=
  [.mdd (.defvar "x" 3), .mdd (.defvar "y" 3), .mdd (.defvar "z" 3), .mdd (.bin .min 0 1), .mdd (.bin .max 3 2),
   .minpath 4, .minpath 3, .zmdd (.intersect 0 1), .zmdd (.setdiff 0 1)]

example : (MssW.new.run setCmds).map (fun p =>
    (same (vectors p.2.z ["x", "y", "z"] [1, 2] 0 9) [[0, 0, 1], [0, 0, 2], [1, 1, 0], [2, 2, 0]],
     same (vectors p.2.z ["x", "y", "z"] [1, 2] 2 9) [[1, 1, 0], [2, 2, 0]],
     same (vectors p.2.z ["x", "y", "z"] [1, 2] 3 9) [[0, 0, 1], [0, 0, 2]])) = some (true, true, true) := by
  decide +kernel

example : (MssW.new.run (setCmds ++ [.zmdd (.count [1, 2] 2), .zmdd (.count [1, 2] 3)])).map
    (fun p => p.1.drop 9) = some [.zmdd (.nat 2), .zmdd (.nat 2)] := by
  decide +kernel

/-- `test_mincut_levels_vs_strata`: `φ = min(4a, b + c)`, families 0 = cuts, 1 = paths. -/
def strataCmds : List MssCmd :=
  [.mdd (.defvar "a" 2), .mdd (.defvar "b" 3), .mdd (.defvar "c" 3), .mdd (.value 4), .mdd (.bin .mul 0 3),
   .mdd (.bin .add 1 2), .mdd (.bin .min 4 5), .mincut 6, .minpath 6]

example : (MssW.new.run (strataCmds ++ [.zmdd (.isCut 0), .zmdd (.labels 0), .zmdd (.isCut 1)])).map
    (fun p => p.1.drop 9) = some [.zmdd (.bool true), .zmdd (.labels [0, 1, 2, 3, 4]), .zmdd (.bool false)] := by
  decide +kernel

example : (MssW.new.run strataCmds).map (fun p =>
    let abc := ["a", "b", "c"]
    [same (vectors p.2.z abc [1] 0 9) [[1, 0, 1], [1, 1, 0]],
     same (levelVecs p.2.z abc 1 0) [[0, 2, 2], [1, 0, 1], [1, 1, 0]],
     same (levelVecs p.2.z abc 3 0) [[0, 2, 2], [1, 1, 2], [1, 2, 1]],
     same (vectors p.2.z abc [4] 0 9) [[1, 2, 2]],
     same (levelVecs p.2.z abc 4 0) [[1, 2, 2]],
     (vectors p.2.z abc [0] 0 9) == levelVecs p.2.z abc 0 0,
     same (vectors p.2.z abc [0] 1 9) [[0, 0, 0]],
     same (levelVecs p.2.z abc 0 1) [[0, 0, 0]]]) = some (List.replicate 8 true) := by
  decide +kernel

/-- The probability vectors of `test_bmeas_matches_pinned_prob`. -/
def basePv : String → Option (List Rat)
  | "x" => some [1/5, 3/10, 1/2]
  | "y" => some [1/2, 1/10, 2/5]
  | "z" => some [1/4, 1/4, 1/2]
  | _ => none

/-- `x` pinned to state `j`. -/
def pin (x : String) (j : Nat) : String → Option (List Rat) := fun y =>
  if y = x then some ((List.range 3).map fun i => if i = j then 1 else 0) else basePv y

/-- `bmeas` of handle `h` equals the differences of pinned probabilities for the given variables. -/
def bmeasOk (w : MWorld) (ss : List Int) (h : Nat) (names : List String) : Bool :=
  match w.bmeas basePv ss h with
  | none => false
  | some ev => decide (ev.len = names.length) && names.all fun x =>
    match ev.get x with
    | none => false
    | some l => decide (l.length = 2) && (List.range 2).all fun d =>
      match w.prob (pin x (d + 1)) ss h, w.prob (pin x d) ss h with
      | some p, some q => decide (l[d]? = some (p - q))
      | _, _ => false

/-- `test_bmeas_matches_pinned_prob`, both functions. -/
example : (mrun MWorld.new [.defvar "x" 3, .defvar "y" 3, .defvar "z" 3, .bin .min 0 1, .bin .max 3 2]).map
    (fun p => bmeasOk p [1, 2] 4 ["x", "y", "z"]) = some true := by
  decide +kernel

example : (mrun MWorld.new [.defvar "x" 3, .defvar "y" 3, .value 1, .value 2, .bin .gte 0 2, .bin .gte 1 3,
    .bin .and 4 5]).map (fun p => bmeasOk p [1] 6 ["x", "y"]) = some true := by
  decide +kernel

/-! `test_mincut_matches_bruteforce` -/

/-- All state vectors of the given variables. -/
def stateVecs : List (String × Nat) → List (List Nat)
  | [] => [[]]
  | (_, m) :: vs => (List.range m).flatMap fun s => (stateVecs vs).map (s :: ·)

/-- `eval_all`: the value at a vector, found through point-mass probabilities. -/
def phiOf (w : MWorld) (h : Nat) (vs : List (String × Nat)) (maxval : Nat) (x : List Nat) : Option Int :=
  let pv : String → Option (List Rat) := fun y =>
    ((vs.zip x).find? (fun p => p.1.1 == y)).map fun p => (List.range p.1.2).map fun i => if i = p.2 then 1 else 0
  (((List.range (maxval + 1)).map Int.ofNat).find? fun v => w.prob pv [v] h == some (1 : Rat))

/-- `check`: the family holds exactly the vectors that are maximal within `φ ≤ φ x`, under the label `φ x`. -/
def cutOk (w : MssW) (h fam : Nat) (vs : List (String × Nat)) (maxval : Nat) : Bool :=
  let table := (stateVecs vs).map fun x => (x, phiOf w.mdd h vs maxval x)
  (List.range (maxval + 1)).all fun v =>
    let max := table.filter fun (x, p) => p == some (v : Int) &&
      !table.any fun (y, q) => y != x && (y.zip x).all (fun (a, b) => decide (b ≤ a)) &&
        match q with | some q => decide (q ≤ v) | none => true
    same (vectors w.z (vs.map (·.1)) [(v : Int)] fam 40) (max.map (·.1))

example : (MssW.new.run [.mdd (.defvar "x" 3), .mdd (.defvar "y" 3), .mdd (.defvar "z" 3), .mdd (.bin .min 0 1),
    .mdd (.bin .max 3 2), .mincut 4]).map (fun p => cutOk p.2 4 0 [("x", 3), ("y", 3), ("z", 3)] 2) = some true := by
  decide +kernel

example : (MssW.new.run [.mdd (.defvar "x" 3), .mdd (.defvar "y" 3), .mdd (.value 1), .mdd (.value 2),
    .mdd (.bin .gte 0 2), .mdd (.bin .gte 1 3), .mdd (.bin .and 4 5), .mincut 6]).map
    (fun p => cutOk p.2 6 0 [("x", 3), ("y", 3)] 1) = some true := by
  decide +kernel

example : (MssW.new.run [.mdd (.defvar "a" 2), .mdd (.defvar "b" 3), .mdd (.defvar "c" 3), .mdd (.bin .max 1 2),
    .mdd (.bin .min 0 3), .mincut 4]).map (fun p => cutOk p.2 4 0 [("a", 2), ("b", 3), ("c", 3)] 2) = some true := by
  decide +kernel

end DD.Tests
