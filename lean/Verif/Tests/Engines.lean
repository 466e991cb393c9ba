import Verif.Mtmdd2.Model
import Verif.Zdd.Model
import Verif.Bdd.Model

/-!
# The repository's own tests of the engines, on the model

Each example replays one test of the repository on the model and checks what the test asserts.  These are tests: they
compare the model with expectations that the authors of the code wrote down, on one input each.
-/

set_option autoImplicit false

namespace DD.Tests

/-- /repo/bddcore/tests/test_gc.rs:4-33 (`bdd_gc_retains_live_cache_entries`) and 36-58
(`bdd_gc_keeps_roots_and_reclaims_rest`). -/
def bddGc : Option (List Bool) := do
  let (hx, s) := Bdd.new.createHeader 0 "x"
  let (hy, s) := s.createHeader 1 "y"
  let (hz, s) := s.createHeader 2 "z"
  let (x, s) ← s.createNode hx Bdd.zero Bdd.one
  let (y, s) ← s.createNode hy Bdd.zero Bdd.one
  let (z, s) ← s.createNode hz Bdd.zero Bdd.one
  let (a, s) ← s.and x y
  let (_, s) ← s.or x z
  let cacheBefore := s.size.2.2
  let liveBefore := s.liveNodeCount
  let (reclaimed, s) ← s.gc [a, x, y]
  let cacheAfter := s.size.2.2
  let liveAfter := s.liveNodeCount
  let (a', _) ← s.and x y
  return [decide (0 < cacheBefore), decide (0 < reclaimed), decide (0 < cacheAfter), decide (cacheAfter < cacheBefore),
    decide (liveAfter < liveBefore), decide (a' = a)]

example : bddGc = some [true, true, true, true, true, true] := by decide +kernel

/-- /repo/bddcore/tests/test_gc.rs:61-74 (`bdd_gc_empty_roots_frees_all_nonterminals`) and 77-94
(`bdd_gc_slots_are_reused_without_growth`). -/
def bddGcEmpty : Option (List Bool) := do
  let (hx, s) := Bdd.new.createHeader 0 "x"
  let (hy, s) := s.createHeader 1 "y"
  let (x, s) ← s.createNode hx Bdd.zero Bdd.one
  let (y, s) ← s.createNode hy Bdd.zero Bdd.one
  let (_, s) ← s.and x y
  let total := s.size.2.1
  let (reclaimed, s) ← s.gc []
  let live := s.liveNodeCount
  let slots := s.size.2.1
  let (hw, s) := s.createHeader 3 "w"
  let (_, s) ← s.createNode hw Bdd.zero Bdd.one
  return [decide (reclaimed + 3 = total), decide (live = 3), decide (live < slots), decide (s.size.2.1 = slots)]

example : bddGcEmpty = some [true, true, true, true] := by decide +kernel

/-- /repo/bddcore/tests/test_gc.rs:97-114 (`zdd_gc_keeps_roots_and_reclaims_rest`). -/
def zddGc : Option (List Bool) := do
  let (ha, s) := Zdd.new.createHeader 0 "a"
  let (hb, s) := s.createHeader 1 "b"
  let (a, s) ← s.createNode ha Zdd.zero Zdd.one
  let (b, s) ← s.createNode hb Zdd.zero Zdd.one
  let (u, s) ← s.union a b
  let (_, s) ← s.product a b
  let liveBefore := s.liveNodeCount
  let (reclaimed, s) ← s.gc [u, a, b]
  let (u', s') ← s.union a b
  let (all, s'') ← s.gc []
  return [decide (0 < reclaimed), decide (s.liveNodeCount < liveBefore), decide (u' = u),
    decide (s'.size.2.1 = s.size.2.1), decide (0 < all), decide (s''.liveNodeCount = 3)]

example : zddGc = some [true, true, true, true, true, true] := by decide +kernel

/-- /repo/bddcore/tests/test_gc.rs:117-130 (`zdd_gc_empty_roots_frees_all_nonterminals`). -/
def zddGcEmpty : Option (List Bool) := do
  let (ha, s) := Zdd.new.createHeader 0 "a"
  let (hb, s) := s.createHeader 1 "b"
  let (a, s) ← s.createNode ha Zdd.zero Zdd.one
  let (b, s) ← s.createNode hb Zdd.zero Zdd.one
  let (_, s) ← s.union a b
  let total := s.size.2.1
  let (reclaimed, s) ← s.gc []
  return [decide (reclaimed + 3 = total), decide (s.liveNodeCount = 3)]

example : zddGcEmpty = some [true, true] := by decide +kernel

/-- /repo/mddcore/tests/test_gc.rs:4-20 (`mdd_gc_keeps_roots_and_reclaims_rest`) and 23-32
(`mdd_gc_empty_roots_frees_all_nonterminals`). -/
def mddGc : Option (List Bool) := do
  let (h0, s) := Mdd.new.createHeader 0 "x" 2
  let (h1, s) := s.createHeader 1 "y" 2
  let (x, s) ← s.createNode h0 [Mdd.zero, Mdd.one]
  let (y, s) ← s.createNode h1 [Mdd.zero, Mdd.one]
  let (f, s) ← s.createNode h0 [Mdd.zero, y]
  let (_, s) ← s.createNode h1 [Mdd.one, Mdd.zero]
  let liveBefore := s.liveNodeCount
  let (reclaimed, s) ← s.gc [f, x, y]
  let (f', _) ← s.createNode h0 [Mdd.zero, y]
  let (h, t) := Mdd.new.createHeader 0 "x" 2
  let (_, t) ← t.createNode h [Mdd.zero, Mdd.one]
  let total := t.size.2.1
  let (all, t) ← t.gc []
  return [decide (0 < reclaimed), decide (s.liveNodeCount < liveBefore), decide (f' = f),
    decide (all + 3 = total), decide (t.liveNodeCount = 3)]

example : mddGc = some [true, true, true, true, true] := by decide +kernel

/-- /repo/mddcore/tests/test_gc.rs:35-54 (`mtmdd_gc_reclaims_unreferenced_value_terminals`). -/
def mtmddGc : Option (List Bool) := do
  let (h0, s) := Mtmdd.new.createHeader 0 "x" 2
  let (v0, s) ← s.value 0
  let (v1, s) ← s.value 1
  let (x, s) ← s.createNode h0 [v0, v1]
  let (v2, s) ← s.value 9
  let (h1, s) := s.createHeader 1 "y" 2
  let (_, s) ← s.createNode h1 [v1, v2]
  let liveBefore := s.liveNodeCount
  let (reclaimed, s) ← s.gc [x]
  let liveAfter := s.liveNodeCount
  let (v0', s) ← s.value 0
  let (x', _) ← s.createNode h0 [v0, v1]
  return [decide (0 < reclaimed), decide (liveAfter < liveBefore), decide (v0' = v0), decide (x' = x)]

example : mtmddGc = some [true, true, true, true] := by decide +kernel

/-- /repo/mddcore/tests/test_gc.rs:57-84 (`mtmdd2_gc_collects_both_subforests`). -/
def mtmdd2Gc : Option (List Bool) := do
  let (h0, s) ← Mtmdd2.new.createHeader 0 "x" 2
  let (v0, s) ← s.value 0
  let (v1, s) ← s.value 1
  let (x, s) ← s.createNode h0 [v0, v1]
  let (b, s) ← s.createNode h0 [Mtmdd2.zero, Mtmdd2.one]
  let (v2, s) ← s.value 9
  let (_, s) ← s.createNode h0 [v1, v2]
  let liveBefore := s.liveNodeCount
  let ((rv, _), s) ← s.gc [x, b]
  let liveAfter := s.liveNodeCount
  let (x', s) ← s.createNode h0 [v0, v1]
  let (b', _) ← s.createNode h0 [Mtmdd2.zero, Mtmdd2.one]
  return [decide (0 < rv), decide (liveAfter < liveBefore), decide (x' = x), decide (b' = b)]

example : mtmdd2Gc = some [true, true, true, true] := by decide +kernel

end DD.Tests
