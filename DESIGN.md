# Design: a Lean 4 model of okamumu/rust-dd

## What is modelled

Workspace members `common`, `bddcore`, `mddcore`, `bss`, `mss` (the crates the workspace builds), and of the
crate `evmdd_core` (not a member, no `lib.rs`, trait `EdgeValue` not in the repository) the manager and its four
operations. Not modelled: `evmdd_core`'s `dot`, `benches`, and the files `*_stack.rs`, which no `lib.rs` declares and so are never compiled.

Layers, bottom up (all under `lean/Verif/`):

| module | code |
|---|---|
| `Common/AMap` | `HashMap` as association list: `get`, `insert`, `remove`, `retain`, `keys`. Iteration order is the list order; every theorem quantifies over all states, so over every order. |
| `Common/ComputeCache` | `common/src/compute_cache.rs`, slot array, real hash, growth, pruning |
| `Common/Text`, `Bss/Text`, `Mss/Text` | `str::split_whitespace` and the token syntax of `rpn` |
| `Core/Dot`, `Core/DotRead`, `Common/DotText`, `Bss/Dot`, `Mss/Dot` | `common/src/dot.rs` and the `*_dot.rs` of the engines; a reader of the graph; the text. A node's own id (`fnode.id()`) is its slot. |
| `Core/Arena` | node arena shared by the five engines: headers, nodes, unique table, free list, allocation, levels |
| `Core/Gc` | mark loop and sweep shared by the five engines |
| `Core/Sem` | reading of a diagram at an assignment (`Eval`), zero-suppressed reading (`EvalZ`) |
| `Bdd/*`, `Zdd/*`, `Mdd/*`, `Mtmdd/*`, `Mtmdd2/*`, `Zmdd/*` | the engines, one definition per Rust function |
| `Ev/*` | `evmdd_core/src/evplus_mdd.rs`: `create_header`, `create_node`, `min`, `max`, `add`, `sub`; edge values are `Int` |
| `Bss/*`, `Mss/*` | wrappers (handles, reference counts, automatic gc), rpn, prob, bmeas, count, extract, minpath, mincut, dual |
| `Props/*` | property theorems only, one file per group of properties |
| `Tests/*` | the repository's own tests replayed on the model (tests, not claims; see Trusted base) |

### Conventions

* A Rust function is a Lean function returning `Option (result × state)`; `none` is a panic
  (index out of range, `unwrap` on `None`, `unreachable!`) or exhausted fuel. Recursive functions take fuel; the
  public entry point sets it to the largest level of its arguments plus two (one nested call per level; C75). Theorems state that the
  result **is** `some …`, so they include termination and absence of panics.
* `Node T` has terminals carrying `T` and non-terminals with a header id and a child list. Binary
  engines use two-element lists. `T = T3 = {zero, one, undet}` for BDD/ZDD/MDD, `T = Option V` for
  MTMDD/ZMDD (`none` = Undet).
* The unique table and the value table of an engine are one map keyed by node content
  (their keys are disjoint).
* `Vec` used as a free-list stack is a list whose head is the top.
* `as u32` narrowing of ids is the identity (an arena has < 2^32-1 slots). `Level::MAX` for terminals is `none`.
* `usize`/`u64`/`i32` arithmetic on counts and values is over `Nat`/`Int` (C71 treats the `u64` of the count methods and C72 the `i32`/`i64` values, in builds with and without overflow checks); `f64` is any commutative ring (in C62, any type with 0, 1, +, −, ×; in C73, IEEE binary64 with rounding to nearest).
* Integer-valued diagrams have values in `Int` (no overflow; C72 relates this to machine integers); `/` truncates (`Int.tdiv`).
* The sub-managers exposed by `Mtmdd2Manager::mdd_mut/mtmdd_mut` are not used by the client directly.
* `step` says nothing about the state after a panic. C80 gives that state for `BddMgr` and `MddMgr`
  (`Bss/Halt.lean`, `Mss/Halt.lean`); for the other managers it is outside the model.
* `Rc/RefCell/Weak`: one shared state threaded through. Borrow panics and handles that outlive their manager are not part
  of that state; C79 treats them separately, on a table of the borrows of every public call (`Wrap/BorrowCalls.lean`) that
  was read off the source by hand and is not derived from the functional model.

### Invariant

`WF`: free slots are in range and distinct; live non-terminals have an existing header, children
live and at strictly lower levels, arity as in the header; table lookup finds exactly the live node
with that content; nodes are reduced; headers of one level have one arity. Plus: every cache entry
is semantically sound and mentions live nodes only.

`Ext m m'`: live nodes of `m` are live with the same content in `m'`. An operation gives
`Ext m m'`; a collection gives `Ext (gc m) m`. Readings (`Eval`) of live nodes are the same in
both arenas, so the meaning of a handle survives both.

## Per property

| id | plan |
|---|---|
| C01 | induction on fuel; generic Shannon-expansion lemma over cofactors; cache-soundness invariant |
| C02 | strong induction on level: distinct live reduced nodes differ at some assignment; `LevelInj` from `defvar` |
| C03, C07 | state machine of API calls over worlds (manager, root table, client handles); invariant preserved by each call |
| C04 | loop invariant of the mark loop (marked ∪ stack closed), sweep counts |
| C05 | slot-level lemmas; history theorem over arbitrary call sequences |
| C06 | refinement of two runs to one abstract algebra of functions |
| C08 | invariant on variable table: i-th defined name has level i |
| C09, C10 | abstract stack machine over Boolean functions vs. concrete one; compile of expression trees |
| C11 | induction on list / on (k, suffix) with memo invariant |
| C12, C13 | count: induction on level with gap factors; extract: traversal invariant on stack |
| C14, C15 | sums over assignments; bmeas by linearity over the topological order |
| C16 | induction; canonicity for involution |
| C17, C18 | minimal solutions: family characterisation of `minsol`/`without`, conversion to the ZDD forest |
| C19, C40 | DFS visited-set invariant |
| C20 | families as predicates on level sets; induction |
| C21, C22 | the code violates both: refutation with witnesses; `_partial` theorems for the cases that hold |
| C23, C24, C25 | as C09/C12/C13, C02, C03 for the zero-suppressed engine |
| C26-C29 | as C01/C02 with the generic lemmas at arity n |
| C30 | cross-forest instance of the Shannon lemma |
| C31, C32 | violated: refutation with witnesses, `_partial` theorem for the part that holds |
| C33, C34 | as C03/C04 for the pair of forests |
| C35 | as C09 with typed stack |
| C36, C37 | as C14/C15 with finite state ranges |
| C38 | violated for Boolean roots (memo key ignores level) and constants: refutation; `_partial` for value roots, and for Boolean roots in whose diagram each node that counts is reached from one level (`OneGap`). `C38_bool_exact`: each node is counted for one of the levels from which it is reached; by an invariant on the memo (`GInv`) |
| C39, C49 | traversal invariant |
| C41, C42 | zero-suppressed n-ary induction |
| C43-C46 | minimal / maximal vectors per level |
| C47 | induction |
| C54 | every wrapping call is one `wrap` at the end of a computation that does not look at the threshold (`Lens.Form`), so runs with different thresholds agree up to that `wrap`; `live_node_count` equals a count of used slots by the invariant |
| C55 | every vector of a stratum is above a minimal vector of the same stratum |
| C56 | cache invariant: each slot holds the entry for its own hash, `len` counts the filled slots (`LenOK`, for ids below `u32::MAX`); `len` never underflows in `retain_live` (`LenLe`, an underflow is a panic in the model); slots in use are a duplicate-free list by `WF` |
| C57 | violated after an earlier collection; `_partial`: exact when the free list was empty, and in general what is returned |
| C58 | relational description of words, numerals and keywords; the lexer computes exactly that relation |
| C59 | the statements are exactly those of the nodes reached through drawn children (induction on the traversal); reading them agrees with `Eval`/`Lab` |
| C60 | violated for names with quotation marks; `_partial`: the text is uniquely decodable, so C59 gives the function back |
| C61 | `intersect` stops reading an operand at `One`; induction over levels with the closed form `Inter`. `divide`: the recursion `quo` over levels, then over names (`divOf`) |
| C62 | `prob`/`bmeas` respect every relation that 0, 1, +, −, × respect (`Stands`); induction over the pass and the loop with related memos. Point results by C14, C15, C36, C37. Closed intervals are an instance |
| C63 | `kofnWork`: `kofn` with counters in its state; erasure; induction over the recursion with the set of filled memo entries (`subs`), each subproblem computed once, their number in closed form |
| C64 | `memoFoldW`/`dualW`: the passes with a tally; erasure; `Walk`: the tally grows by exactly the nodes reached and not yet in the memo; compared with `nodeCount` for `size` |
| C65 | `Ev.Inv`: edges of a node have least value 0 and lead to lower levels; `createNode_ok`; sessions `EvReachable` |
| C66 | cache entry `(op, f, g, d)` fits every pair of values with difference `d` (`evop_shift`); fuel = largest rank + 1 |
| C67 | induction on the level of the two nodes: the minimum is attained at edge value 0 below, so values and children agree; disagreement: with infinite values two edges for (∞, 8), `C67_infinite_not_canonical` |
| C68 | `Placed` (every entry sits in its own slot) makes the doubling injective: an entry of slot i goes to i or i + 2^bits, so no two old entries meet; then `put` is one slot write. The load bound is an invariant of the calls (`Loaded`), using `LenOK` (len = number of used slots) |
| C69 | `memo_again`: the write of the own key is the last thing a memoised call does, so the next lookup of that key hits whatever was evicted before; `ite` and the division arm that skips the cache also need that operands keep their nodes (`Step`). Compositions (nand, imp, …) are left out: their first part's entry may be evicted by their second part |
| C70 | `Enum.weave` interleaves `next` with other calls. `Shape` says two arenas look alike below a node; every call keeps it for nodes under a held handle (`Grow`/`Step`), and an iterator's state stays under its handle, so `next` computes the same in both. The step bound of the model's `next` depends on the whole arena; `nextF_congr_enough` shows any sufficient bound gives the same answer |
| C71 | The count passes are written once more over an `Arith` (partial `+`, `*`); a simulation between two `Arith`s carries through the memoised fold, so wrapping gives the residue; for checked arithmetic every intermediate value is bounded by the result, except the BDD's factor `2^gap`, hence `ShortEdges` |
| C72 | The terminal arm of the engine's operations may panic (`binF` over `tt : Int → Int → Option (Option Int)`). `bin_pok`: the recursion returns with the right meaning, or panics and some valid assignment hits a panicking pair. A run that returns is the same for any arm that agrees where this one is defined (`binF_sub`), so checked runs are exact runs. `FitE`: stored terminals are in range, kept by every operation and every session step; an overflow at an assignment would be a stored terminal out of range. Release semantics: engine invariant with the wrapped arms (`InvA (machFn b n)`) |
| C73 | `IsF64`: the numbers `m·2^e` with `-2^53 < m < 2^53`, `-1074 ≤ e ≤ 971`; `Nearest x y`: no such number is closer to `x`. One node of the recursion: absolute error grows by four half-steps below 1, the result stays ≤ 1 since nothing lies between 1 and 1 + 2^-52; relative errors are counted by `RelErr e`. The pass over the diagram with a relation indexed by node height (`memoFold_memoRel`), against the exact pass of C14/C36 |
| C74 | `Arena.Clean m m' r`: every node of `m'` was in `m` or is reachable from `r`; each recursion of the code keeps it (a node made by `create_node` is the result of that call, results of sub-calls become its children). `Trail`: following one path in the result and in the operands at once maps its nodes injectively into tuples of operand nodes, because the diagrams are reduced. For MDDs `MClean` ranges over both node arrays, and `bin_two` splits the operations made of two recursions |
| C75 | the fuel of the recursive functions is a limit on nested calls. `Lim`: the outcome under a limit is nothing or the outcome under any higher limit (per engine in `*/Depth.lean`); the totality lemmas succeed with `rank + 1`; ranks are at most the number of variables |
| C76 | `prob` is the expectation `pr` over the declared variables (`Bss/ProbLaws.lean`, from C14); each law is then an identity or inequality of `pr`. Stated only through `bddProb`, `bddBmeas`, `bddCount` and `Denotes` |
| C77 | C17/C18 (minpath, mincut), C23 (extract), C09 (rpn) and C02 (equality of handles) chained; a monotone function is the disjunction of its minimal paths and the conjunction of its minimal cuts. MSS: C43, C44, C55 and existence of minimal (maximal) vectors |
| C48 | as C28 |
| C50 | C01/C20/C26/C28 + canonicity |
| C51 | list induction |
| C52 | allocation lemma: the slot was not live |
| C53 | as C08 |
| C78 | Bookkeeping relation `Bill` over sessions on top of C54's description of a collecting call; potential 2·used − trigger. A concrete session shows that the sweep over free slots is outside the bound |
| C79 | Small language of borrow scopes with the rules of `RefCell` and `Weak`; one program per public call; a checker proved sound and run on the table with all managers merged, which covers every choice of managers |
| C80 | `rpnHalt`: the state at the failing token; the tokens before it followed by `0 0` make an expression that ends with `Err` in that very state, so it is reachable without a panic; C03, C10, C34 give the rest. Partial for `MddMgr`: not for a variable with zero states |
| C81 | `prob` is the weighted sum `msum` over the declared variables (`Mss/ProbLaws.lean`, from C36); each law is then an identity or inequality of `msum`; the sensitivity law is summation by parts over the states. Stated only through `prob`, `bmeas`, `count` and `Has` |
| C82 | A function of the names `Φ` stands between the two sessions (`Named`, `NamedM`); `prob` is split by conditioning on each name in turn (C76_pivot, C81_pivot) down to point masses, where it is the value of `Φ`; entries of `bmeas` are matched to the names on which `Φ` depends; minimal sets are rewritten as those of `Φ`. Expressions by C09 and C35 |
| C83 | Every reachable node computes the function with the levels from its rank on fixed as on some path to it (`WF.reach_dir`), and depends on its own variable (`nt_depends`); conversely following the fixed levels from the root ends at a node computing the subfunction (`WF.follow`), at the very level on which it depends; nodes with the same function are equal (`WF.canon`). For `kofn` the subfunctions are the thresholds `u + 1` of the lowest `u + v + 1` variables, for `u < k` and `v ≤ n - k`. For ZDDs `WF.reachZ` and `WF.followZ` play the same part, with skipped levels read as 0, and canonicity is `WF.canonZ` |
| C84 | `prob` is split by conditioning on the names of X in turn; a name that cannot matter may be given any probability, as it has no entry in `bmeas` (C15). Minimal sets of a threshold function are counted by `Finset.powersetCard`; cuts are the paths of the threshold `n - k + 1` |
| C85 | Composes C09/C35 (rpn means the expression) with C02/C27 (equal functions have equal handles); every assignment of the levels comes from a valuation because names are distinct (C08) |
| C86 | Expressions are run by `ZWorld.step`, so collections and cache hits in between are included; C20, C23 give the families and C24 turns equality of families into equality of handles |
| C87 | `World.header`, `World.label` (Props/Walk.lean) model `BddNode::get_header`, `get_label`. The evaluation loops `walk`, `walkM` are client code written with public calls, not part of the library; each turn lowers the top level, so one step per variable suffices |
| C88 | `Expectation` is what a client computes from prob calls, value by value; the theorems never mention how prob works. Each call add, sub, … is a step of the session and the expectation of its result is taken in the state after the call |
| C89 | `Combined` spells out the five calls and their results; `Apart` says that no name matters to both functions. Pure set-family lemmas (`minPaths_and`, `minPaths_or`, duals for cuts) are combined with C01, C17, C18, C20, C23 |
| C90 | `eq` compares node ids; `is_zero` and `is_one` need only that a nonterminal node of a reduced diagram has a set containing its variable. `C90_eq_incomplete` is a run of the model |
| C91 | `inclExcl` is the formula of Poincaré over a list of sets, `Bounds` the three inequalities. `prob` is the mean of the function's indicator (`prob_mean`, from C14), which the listed sets determine (as in C77); the independence bound is Mathlib's FKG inequality, applied set by set (`harris_list`) |
| C92 | `Critical` is spelled out in terms of the function of names; from C15 and C84 |

## Disagreements between code and properties

| property | what the code does | theorem |
|---|---|---|
| C21 | ZDD `intersect` with a terminal operand answers as for BDDs: {∅} ∩ {{x}} = {{x}} | `C21_violated`, `C21_intersect_exact` |
| C31 | `lte` compares for equality as whole diagrams, not pointwise: it is strict less-than unless the operands are equal everywhere | `C31_lte_not_le`, `C31_handles_exact`, `C31_handles_partial` |
| C32 | `undet_boolean()` returns slot 0 of the Boolean forest, which is the constant false | `C32_undet_boolean_false`, `C32_handles_false` |
| C35 | `rpn` panics (`unwrap` on an empty stack) when an operator lacks operands; only leftover operands give `Err` | `C35_unbalanced_panics`, `C35_outcome` |
| C53 | `get_varorder` panics when some variable has one state: its node is a terminal without header | `C53_varorder_panics`, `C53_violated` |
| C38 | `mdd_count` memoises Boolean nodes by node id only, so a node reached over different level gaps is miscounted (`1 ≤ x + y` gives 2, not 3); a constant always gives 1 | `C38_violated`, `C38_violated_constant`, `C38_constant` |
| C41 | `ZmddNode::intersect`/`setdiff` of a path family with a cut family compares distances from different baselines (state 0, last state), so common vectors are lost | `C41_violated`, `C41_handles_exact` |
| C43, C44 | `minpath`/`mincut` panic (in `get_varorder`) when some variable has one state | `C43_violated`, `C43_one_state_panics` |
| C45 | `extract_level(v)` lists the minimal vectors of value ≥ v (maximal ≤ v), as its comment says, not the vectors labelled v. C55 is the documented behaviour | `C45_violated`, `C55_extract_level_path` |
| C22 | ZDD `divide` ignores dividend levels above the divisor: {{x,y}} / {{x}} = ∅ when y is above x | `C22_violated`, `C22_divide_exact` |
| C57 | `gc` returns the length of the rebuilt free list: all free slots, including those reclaimed by earlier collections. The comments say "number of slots reclaimed" | `C57_violated`, `C57_bdd_partial`, `C57_mdd_partial` |
| C60 | `dot` writes variable names between quotation marks without escaping them. A name with a quotation mark breaks the graph; two sessions can give the same text for different functions | `C60_violated`, `C60_*_partial` |
| C71 | with overflow checks `bdd_count` panics although the count fits, when an edge skips 64 or more levels: `power(2, 64)` overflows before it is multiplied by the child's count, which may be 0 (`x₀ ∧ x₆₄` over 65 variables, count 2^63) | `C71_violated`, exact condition `C71_bdd_dev_partial` |

Not a violation, but worth knowing: each `BssMgr::minpath` call creates its own ZDD headers, so equal families from two
calls are different nodes (`eq` is false). The BSS theorems therefore use a weaker ZDD invariant (`ZLab`) than the
stand-alone ZDD manager (`ZRel`), and canonicity (C24) is stated for the stand-alone manager.

## Trusted base

Lean kernel; the axioms `propext`, `Classical.choice`, `Quot.sound` (checked with `#print axioms`); the faithfulness of
the hand-written model to the Rust source as described in each definition's comment; the conventions above.

A check of that faithfulness: `Tests/Engines.lean`, `Tests/Bss.lean` and `Tests/Mss.lean` replay on the model every test of
the repository that asserts a value (collection, minpath and mincut against brute force, set operations, counts, levels and
strata, bmeas against pinned probabilities) and the model gives what the tests expect. Left out or cut down for size:
`test_kofn_minterms` beyond n = 8, `test_minpath_exhaustive_brute_force` beyond n = 2, the two long runs of
`test_autogc.rs` (one is replayed with fewer rounds), and `test_zmdd_dot`.

## Wrong-program tests (`seeded/LOG.jsonl`)

One line per edit of the model in a scratch copy, followed by a build of the modules of the claim. `theorems_failed` are
the theorems Lean reported errors in; a build stops at the first modules that fail, so theorems further on are not in it.
`claim_theorems_not_built` lists the theorems of the claim when their modules were not built any more. It says nothing
about each of them singly: an edit of `and` that breaks the lemma on `and` leaves all of C01 unbuilt, also the part on
`not`. Where the failing theorem is a lemma on an intermediate function, the test shows that the proof needs the code as it
is; it does not show that the claim could not be proved in another way. Up to line 247 the field was called
`claim_theorems_no_longer_proved`, which said more than was tested; it was renamed.
From line 248 on the field has only the theorems that depend on a failed one.
