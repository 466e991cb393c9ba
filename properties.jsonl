{"id": "C01", "title": "BDD connectives compute the Boolean connective", "statement": "For BddNode handles f,g,h of one BddMgr, not/and/or/xor/imp/nand/nor/xnor/ite terminate without panic and return a handle whose function is the corresponding pointwise connective of the operands' functions: at every assignment where the operands are determined, the result is determined and has the right truth value.", "quantifier": "all reachable forests (any interleaving of earlier operations and collections, any cache content), all operand handles, all assignments", "why_tests_cant": "The answer depends on the whole node arena, unique table and lossy cache left behind by the history; the space of diagrams and assignments is unbounded.", "anchors": ["bddcore/src/bdd_ops.rs: BddManager::{not,and,or,xor,imp,nand,nor,xnor,ite}", "bddcore/src/bdd.rs: create_node, cache_get, cache_put"]}
{"id": "C02", "title": "BDD handles are canonical", "statement": "Two BddNode handles of one BddMgr whose variables were all made by defvar compare equal with eq if and only if they denote the same function from assignments to {0,1,undetermined}.", "quantifier": "all reachable managers and all pairs of live handles, including nodes made before and after collections", "why_tests_cant": "Uniqueness is a global invariant over every history of allocations, slot reuse and table pruning.", "anchors": ["bss/src/bdd.rs: BddNode::eq, BddMgr::defvar", "bddcore/src/bdd.rs: create_node, gc"]}
{"id": "C03", "title": "A BDD handle keeps its meaning while it is alive", "statement": "From the moment a BddNode is returned until it is dropped, the function it denotes never changes, whatever operations, clones, drops, explicit gc calls, automatic collections, cache clears, variable definitions or threshold changes happen in between, and no such operation on live handles panics.", "quantifier": "all finite histories of public BddMgr/BddNode calls", "why_tests_cant": "Use-after-free style faults show only for particular interleavings of drops, collections and slot reuse.", "anchors": ["bss/src/bdd.rs: maybe_gc, BddNode::from_weak, Clone, Drop, BddMgr::{gc,wrap}", "bddcore/src/bdd.rs: gc, new_nonterminal"]}
{"id": "C04", "title": "Collection reclaims exactly the unreachable nodes", "statement": "BddMgr::gc(keep) / automatic gc frees a node slot if and only if the node is not a terminal and not reachable from a pinned handle or a kept node; the number returned is the number of free slots afterwards, and live_node_count afterwards equals the number of reachable nodes plus unreachable terminals.", "quantifier": "all arenas, all root multisets", "why_tests_cant": "Reachability is over arbitrary DAGs; the mark loop's termination and completeness needs an invariant.", "anchors": ["bddcore/src/bdd.rs: gc, live_node_count", "bss/src/bdd.rs: BddMgr::gc"]}
{"id": "C05", "title": "The lossy compute cache never returns a wrong entry", "statement": "After any sequence of put, lookup, grow, clear and post-collection pruning, a lookup of a key either misses or returns the value of the most recent put for exactly that key, and after pruning it never returns an entry that mentions a reclaimed node; the number of occupied slots reported by len is exact.", "quantifier": "all operation sequences, all keys and values below the sentinel, all table sizes, any hash collisions", "why_tests_cant": "Collisions, growth and rehashing depend on key sets far larger than tests explore.", "anchors": ["common/src/compute_cache.rs: ComputeCache::{get,put,put_nogrow,grow,retain_live,retain_live3,clear,len}"]}
{"id": "C06", "title": "The gc threshold is unobservable in results", "statement": "Running the same sequence of BDD API calls with different set_gc_threshold values (or different points of explicit gc and clear_cache) gives handles that denote the same functions and the same answers to eq, is_zero, is_one.", "quantifier": "all call sequences and all pairs of threshold settings", "why_tests_cant": "It is a relation between two infinite families of executions.", "anchors": ["bss/src/bdd.rs: BddMgr::{set_gc_threshold,gc,clear_cache}, maybe_gc"]}
{"id": "C07", "title": "Root reference counts equal the number of live handles", "statement": "At every point the gc root table maps each node to exactly the number of live handles on it (clones and variables included) and has no entry for other nodes, so dropping one of several handles to a node never unpins it.", "quantifier": "all histories of handle creation, clone and drop", "why_tests_cant": "Counting errors only surface after particular clone/drop orders followed by a collection.", "anchors": ["bss/src/bdd.rs: BddNode::{from_weak,clone,drop}", "bss/src/zdd.rs", "mss/src/mdd.rs"]}
{"id": "C08", "title": "defvar is idempotent and get_varorder lists variables by level", "statement": "defvar on a name already defined returns a handle equal to the first one and defines nothing new; on a new name it returns the projection function of a fresh variable whose level is the number of variables so far; get_varorder never panics and lists exactly the defined names, in order of definition.", "quantifier": "all sequences of defvar / rpn calls and collections", "why_tests_cant": "Order depends on every earlier definition, including those implicit in rpn.", "anchors": ["bss/src/bdd.rs: BddMgr::{defvar,get_varorder}"]}
{"id": "C09", "title": "rpn evaluates the expression", "statement": "For every well-formed postfix expression (constants, variables, & | ^ ~ ?, save/load), BddMgr::rpn returns Ok of a handle denoting the expression's truth function, with load(id) meaning the sub-expression most recently saved as id.", "quantifier": "all expressions of any size, all starting managers", "why_tests_cant": "Expressions are unbounded; sub-results live only as raw ids on the stack while new nodes are allocated.", "anchors": ["bss/src/bdd.rs: BddMgr::rpn"]}
{"id": "C10", "title": "rpn fails exactly on malformed input", "statement": "rpn returns Err exactly when a load names an unsaved id, a save meets an empty stack, or the final stack does not hold exactly one node; it panics exactly when an operator meets too few operands; a failing rpn leaves every live handle's function unchanged.", "quantifier": "all token sequences", "why_tests_cant": "Token sequences are unbounded.", "anchors": ["bss/src/bdd.rs: BddMgr::rpn"]}
{"id": "C11", "title": "and/or/kofn of a list of nodes", "statement": "BddMgr::and(ns) denotes the conjunction (true on the empty list), or(ns) the disjunction (false on the empty list), and kofn(k,ns) is true at an assignment iff at least k of the listed nodes are true there (repetitions counted); kofn never panics for any k.", "quantifier": "all lists, all k, all assignments", "why_tests_cant": "k and list length are unbounded; memo indexing must be right for all of them.", "anchors": ["bss/src/bdd_kofn.rs: and, or, kofn, kofn_rec"]}
{"id": "C12", "title": "bdd_count counts assignments", "statement": "bdd_count(ss) equals the number of assignments of the variables at levels not above the handle's top level at which the function's value is in ss.", "quantifier": "all diagrams, all ss (mathematical integers; u64 wrap-around excluded)", "why_tests_cant": "Level-skipping factors have to be right for every diagram shape.", "anchors": ["bss/src/bdd_count.rs: bdd_count, power"]}
{"id": "C13", "title": "bdd_extract enumerates each assignment once", "statement": "Iterating bdd_extract(ss) terminates and yields, without repetition, exactly the literal lists of the assignments of the variables at levels up to the top level whose value is in ss; its length is bdd_count(ss).", "quantifier": "all diagrams and ss", "why_tests_cant": "Needs an invariant of the explicit-stack traversal for any diagram.", "anchors": ["bss/src/bdd_path.rs: BddPath::{new,next,len}", "bss/src/bdd.rs: bdd_extract"]}
{"id": "C14", "title": "prob is the probability that the value lies in ss", "statement": "For independent variables with P(x)=pv[x] (0 if absent), prob(pv,ss) equals the sum over all assignments with value in ss of the product of the variable probabilities.", "quantifier": "all determined diagrams, all pv in any commutative ring, all ss", "why_tests_cant": "Sum has exponentially many terms; identity must hold for every diagram.", "anchors": ["bss/src/bdd_prob.rs: prob"]}
{"id": "C15", "title": "bmeas is the Birnbaum measure", "statement": "bmeas(pv,ss)[x], for every variable x in the diagram, is the partial derivative of prob(pv,ss) in pv[x], i.e. prob with pv[x]=1 minus prob with pv[x]=0; variables absent from the map have derivative zero.", "quantifier": "all determined diagrams, all pv in any commutative ring, all ss", "why_tests_cant": "Correctness depends on a topological order of an arbitrary DAG and accumulated path weights.", "anchors": ["bss/src/bdd_prob.rs: bmeas, topological_sort, visit"]}
{"id": "C16", "title": "dual", "statement": "dual(f) denotes x -> not f(not x); dualising twice returns a handle equal to the original.", "quantifier": "all live handles, all assignments", "why_tests_cant": "Quantifies over all diagrams and assignments.", "anchors": ["bss/src/bdd_dual.rs: dual", "bss/src/bdd.rs: BddNode::dual"]}
{"id": "C17", "title": "minpath gives exactly the minimal path sets, and None exactly for non-monotone functions", "statement": "BssMgr::minpath(f) is None iff f is not monotone; otherwise it is a ZDD handle whose family is exactly the set of inclusion-minimal sets of variables whose truth (all others false) makes f true.", "quantifier": "all determined BDDs over any number of variables, all states of the ZDD manager", "why_tests_cant": "Minimality is a universally quantified statement over all subsets of variables.", "anchors": ["bss/src/bss.rs: minpath", "bss/src/bdd_minsol.rs: minsol, without", "bss/src/zdd_convert.rs: to_zdd"]}
{"id": "C18", "title": "mincut gives exactly the minimal cut sets", "statement": "BssMgr::mincut(f) is None iff f is not monotone; otherwise its family is exactly the inclusion-minimal sets of variables whose falsity (all others true) makes f false.", "quantifier": "all determined BDDs", "why_tests_cant": "As C17, composed with the dual.", "anchors": ["bss/src/bss.rs: mincut", "bss/src/bdd_dual.rs"]}
{"id": "C19", "title": "size reports the reachable subgraph", "statement": "BddNode::size and ZddNode::size return (number of distinct reachable non-terminal nodes, number of distinct reachable terminals, number of edges = twice the first number).", "quantifier": "all diagrams", "why_tests_cant": "Shared sub-DAGs of any shape.", "anchors": ["bss/src/bdd_count.rs: node_count", "bss/src/zdd_count.rs: node_count"]}
{"id": "C20", "title": "ZDD union, setdiff and product compute the set-family operations", "statement": "union, setdiff and product of ZddNode handles without undetermined parts terminate without panic and return the union, difference, and {a ∪ b} join of the families.", "quantifier": "all reachable ZDD forests, all operand handles", "why_tests_cant": "Families are exponentially large, results depend on memo state.", "anchors": ["bddcore/src/zdd_ops.rs: union, setdiff, product"]}
{"id": "C21", "title": "ZDD intersect computes the intersection", "statement": "intersect returns the intersection of the two families.", "quantifier": "all reachable ZDD forests, all operand handles", "why_tests_cant": "Wrong only for some shapes (a unit family against a family with non-empty sets).", "anchors": ["bddcore/src/zdd_ops.rs: intersect"]}
{"id": "C22", "title": "ZDD divide computes the family quotient", "statement": "divide(f,g) for non-empty g returns the largest family q whose members are disjoint from members of g and whose join with g lies within f.", "quantifier": "all reachable ZDD forests, all operand handles", "why_tests_cant": "Quotient is a second-order property of families.", "anchors": ["bddcore/src/zdd_ops.rs: divide"]}
{"id": "C23", "title": "ZDD construction, counting and enumeration agree with the family", "statement": "empty, base, singleton and from_sets denote ∅, {∅}, {{x}} and the listed family (repeated elements and repeated sets collapse); count([true]) is the number of member sets; extract([true]) terminates and yields each member set exactly once, as a list of distinct labels.", "quantifier": "all lists of lists of names, all handles", "why_tests_cant": "Unbounded inputs; relies on product/union correctness in a growing forest.", "anchors": ["bss/src/zdd.rs: ZddMgr::{singleton,from_sets,empty,base}", "bss/src/zdd_count.rs: zdd_count", "bss/src/zdd_path.rs: ZddPath::next"]}
{"id": "C24", "title": "ZDD handles are canonical", "statement": "Two handles of one ZddMgr built from singleton/from_sets and the set operations are eq iff they denote the same family.", "quantifier": "all reachable managers and all pairs of live handles", "why_tests_cant": "Global invariant over all histories.", "anchors": ["bss/src/zdd.rs: ZddNode::eq", "bddcore/src/zdd.rs: create_node"]}
{"id": "C25", "title": "A ZDD handle keeps its family while it is alive", "statement": "As C03 for ZddMgr/ZddNode: the family denoted by a live handle never changes across any operations, drops and collections.", "quantifier": "all finite histories of public ZddMgr/ZddNode calls", "why_tests_cant": "Interleavings of collection and slot reuse.", "anchors": ["bss/src/zdd.rs: maybe_gc, wrap, rewrap, Clone, Drop", "bddcore/src/zdd.rs: gc"]}
{"id": "C26", "title": "MDD connectives compute the Boolean connective on multi-valued variables", "statement": "not/and/or/xor/imp/nand/nor/xnor/ite of the Boolean MDD forest terminate without panic and return the pointwise connective wherever the operands are determined.", "quantifier": "all reachable forests, all variable ranges, all operands, all assignments", "why_tests_cant": "Ranges, diagrams and histories are unbounded.", "anchors": ["mddcore/src/mdd_ops.rs: not, and, or, xor, imp, nand, nor, xnor, ite"]}
{"id": "C27", "title": "MDD / MTMDD handles are canonical", "statement": "Two handles of one MddMgr of the same kind are eq iff they denote the same (Boolean or value) function of the variables defined by defvar.", "quantifier": "all reachable managers, all pairs of live handles", "why_tests_cant": "Global invariant.", "anchors": ["mddcore/src/mdd.rs: create_node", "mddcore/src/mtmdd.rs: create_node, value", "mss/src/mdd.rs"]}
{"id": "C28", "title": "Value arithmetic is pointwise", "statement": "add/sub/mul/div/rem/min/max of MTMDD handles terminate and return the pointwise result; the result is undetermined at an assignment exactly when an operand is, or when a division/remainder has divisor 0 there.", "quantifier": "all reachable forests, all operands, all assignments (mathematical integers; machine overflow excluded)", "why_tests_cant": "Value sets, diagrams and cache states are unbounded.", "anchors": ["mddcore/src/mtmdd_ops.rs: add, sub, mul, div, rem, min, max"]}
{"id": "C29", "title": "Value terminals are unique", "statement": "value(v) returns equal handles for equal v and distinct handles for distinct v, at any time, including after collections that reclaimed the terminal.", "quantifier": "all histories", "why_tests_cant": "Depends on the value table being pruned consistently with slot reuse.", "anchors": ["mddcore/src/mtmdd.rs: value, gc"]}
{"id": "C30", "title": "Comparisons and if-then-else on value diagrams are pointwise", "statement": "eq/neq/lt/gt/gte on value handles give Boolean handles with the pointwise comparison wherever both operands are determined; ite(c,t,e) selects pointwise.", "quantifier": "all reachable forests, all operands, all assignments", "why_tests_cant": "Cross-forest memo tables and two arenas.", "anchors": ["mddcore/src/mtmdd2_ops.rs: eq, veq, neq, lt, vlt, gt, gte, ite, vif, vite"]}
{"id": "C31", "title": "lte is pointwise less-or-equal", "statement": "lte (MddNode::le, rpn <=) returns the pointwise comparison f <= g.", "quantifier": "all reachable forests, all operands, all assignments", "why_tests_cant": "Wrong only when operands are equal at some assignments but not everywhere.", "anchors": ["mddcore/src/mtmdd2_ops.rs: lte"]}
{"id": "C32", "title": "undet_boolean is the undetermined Boolean", "statement": "undet_boolean() returns a Boolean node that is undetermined at every assignment.", "quantifier": "all managers", "why_tests_cant": "States a relation between two arenas' id conventions that no test checks.", "anchors": ["mddcore/src/mtmdd2.rs: undet_boolean"]}
{"id": "C33", "title": "Collecting the two-forest manager preserves both forests", "statement": "MtMdd2Manager::gc(roots) keeps the function of every node reachable from a root in the forest the root is tagged with, and later operations (including comparisons that cross forests) are still correct.", "quantifier": "all arenas, root lists and later operations", "why_tests_cant": "Cross-forest memo entries could survive pointing at reused slots.", "anchors": ["mddcore/src/mtmdd2.rs: gc"]}
{"id": "C34", "title": "An MddNode handle keeps its meaning while it is alive", "statement": "As C03 for MddMgr/MddNode, for both Boolean- and value-tagged handles.", "quantifier": "all finite histories of public MddMgr/MddNode calls", "why_tests_cant": "Interleavings of collection and slot reuse in two arenas.", "anchors": ["mss/src/mdd.rs: maybe_gc, from_weak, Clone, Drop, wrap, rewrap, gc"]}
{"id": "C35", "title": "MddMgr::rpn evaluates the expression", "statement": "For every well-formed, well-typed postfix expression over + - * / min max == != < > >= && || ! ? constants, save/load and previously defined variables, rpn returns Ok of a handle denoting the expression's pointwise value; an unknown identifier panics and an unbalanced expression is Err.", "quantifier": "all expressions, all managers", "why_tests_cant": "Unbounded expressions.", "anchors": ["mss/src/mdd.rs: MddMgr::rpn"]}
{"id": "C36", "title": "MddNode::prob is the probability that the value lies in ss", "statement": "prob equals the sum, over all assignments with value in ss, of the product of the per-variable state probabilities, provided each variable's probabilities sum to one; missing variables or states are handled as the code documents.", "quantifier": "all diagrams, all probability tables in a commutative ring, all ss", "why_tests_cant": "Exponentially many assignments.", "anchors": ["mss/src/mdd_prob.rs: vprob, bprob"]}
{"id": "C37", "title": "MddNode::bmeas is the state-wise derivative of prob", "statement": "bmeas(...)[x][i] is the coefficient of the i-th state probability of x in prob (the probability of the event given x=i minus that given x = 0 / per code), for every variable and state.", "quantifier": "all diagrams, tables, ss", "why_tests_cant": "Depends on path weights over arbitrary DAGs.", "anchors": ["mss/src/mdd_prob.rs: vbmeas, bbmeas, topo_postorder"]}
{"id": "C38", "title": "mdd_count counts assignments", "statement": "mdd_count(ss) equals the number of assignments of the variables at levels up to the top level whose value is in ss, and equals the number of items of mdd_extract(ss).", "quantifier": "all diagrams, all ss", "why_tests_cant": "Wrong only for diagrams where one node is reached over different level gaps, or constants.", "anchors": ["mss/src/mdd_count.rs: mdd_count, vmdd_count, bmdd_count"]}
{"id": "C39", "title": "mdd_extract enumerates each assignment once", "statement": "mdd_extract(ss) terminates and yields exactly the assignments of variables at levels up to the top level with value in ss, each once.", "quantifier": "all diagrams, all ss", "why_tests_cant": "Explicit-stack traversal over arbitrary DAGs.", "anchors": ["mss/src/mdd_path.rs: MddPath::{new,vnext,bnext}"]}
{"id": "C40", "title": "MddNode::size reports the reachable subgraph", "statement": "size returns the numbers of distinct reachable non-terminals, terminals and edges.", "quantifier": "all diagrams", "why_tests_cant": "Shared sub-DAGs of any shape.", "anchors": ["mss/src/mdd_count.rs: mddnode_count"]}
{"id": "C41", "title": "ZMDD intersect and setdiff", "statement": "ZmddNode::intersect / setdiff keep exactly the vectors whose label agrees in both / that are in the first and not in the second, for families of labelled state vectors.", "quantifier": "all reachable ZMDD forests, all operand handles", "why_tests_cant": "Unbounded families; suppressed levels make many structural cases.", "anchors": ["mddcore/src/zmdd_ops.rs: intersect, setdiff"]}
{"id": "C42", "title": "ZMDD handles are canonical", "statement": "Two ZMDD nodes over the same headers are identical iff they denote the same partial labelling of state vectors.", "quantifier": "all reachable forests", "why_tests_cant": "Global invariant.", "anchors": ["mddcore/src/zmdd.rs: create_node, value"]}
{"id": "C43", "title": "MssMgr::minpath gives the minimal path vectors per performance level", "statement": "minpath(f) is None iff f is not monotone; otherwise for each level v>φ(0) the vectors labelled v are exactly the minimal state vectors x with φ(x)=v; Boolean f likewise with label 1.", "quantifier": "all determined diagrams over any ranges", "why_tests_cant": "Minimality quantifies over all state vectors.", "anchors": ["mss/src/mss.rs: minpath, eval_extreme", "mss/src/mdd_minsol.rs: minsol, vminsol, vwithout, bminsol, bwithout", "mss/src/zmdd_convert.rs"]}
{"id": "C44", "title": "MssMgr::mincut gives the maximal cut vectors per performance level", "statement": "mincut(f) is None iff f is not monotone; otherwise for each level v the vectors labelled v are exactly the maximal x with φ(x)=v.", "quantifier": "all determined diagrams over any ranges", "why_tests_cant": "Maximality quantifies over all state vectors.", "anchors": ["mss/src/mss.rs: mincut", "mss/src/mdd_minsol.rs: maxsol, vmaxsol, vupwithout, bmaxsol, bupwithout"]}
{"id": "C45", "title": "extract_level selects one level's boundary", "statement": "ZmddNode::extract_level(v) gives the family of vectors labelled v, i.e. the v-minimal (maximal) vectors.", "quantifier": "all path/cut results and all v", "why_tests_cant": "As C43.", "anchors": ["mss/src/zmdd.rs: extract_level"]}
{"id": "C46", "title": "The baseline is the function's value at the extreme state", "statement": "minpath's / mincut's result labels unsuppressed extreme vector with the value at the all-0 / all-max state.", "quantifier": "all determined diagrams", "why_tests_cant": "As C43.", "anchors": ["mss/src/mss.rs: eval_extreme", "mddcore/src/zmdd.rs: set_baseline"]}
{"id": "C47", "title": "ZMDD labels and count", "statement": "labels() lists each label occurring in the family, and count(ss) is the number of vectors whose label is in ss.", "quantifier": "all ZMDD handles, all ss", "why_tests_cant": "Unbounded families.", "anchors": ["mss/src/zmdd.rs: labels, count, zmdd_count"]}
{"id": "C48", "title": "replace overrides undetermined points", "statement": "replace(f,g) takes f's value wherever f is determined and g's elsewhere (MTMDD and MDD).", "quantifier": "all diagrams, all assignments", "why_tests_cant": "Shortcuts on terminals must agree with the pointwise rule in every diagram.", "anchors": ["mddcore/src/mdd_ops.rs: replace", "mddcore/src/mtmdd_ops.rs: replace"]}
{"id": "C49", "title": "ZMDD extract yields dense state vectors", "statement": "extract(ss) terminates and yields each vector of the family with label in ss exactly once, with suppressed variables filled with their default state.", "quantifier": "all ZMDD handles, all ss", "why_tests_cant": "Explicit-stack traversal over arbitrary DAGs.", "anchors": ["mss/src/zmdd.rs: ZmddPath::{new,next}"]}
{"id": "C50", "title": "Commutative operations give the same handle in either order", "statement": "and/or/xor (BDD, MDD) and add/mul/min/max (MTMDD), union/product (ZDD) called with swapped operands return eq handles; and, or are associative and idempotent up to eq, and De Morgan / double negation laws hold up to eq for determined functions.", "quantifier": "all reachable managers, all operands", "why_tests_cant": "Relates two runs with different intermediate allocations and cache contents.", "anchors": ["bddcore/src/bdd_ops.rs", "mddcore/src/mdd_ops.rs", "mddcore/src/mtmdd_ops.rs", "bddcore/src/zdd_ops.rs"]}
{"id": "C51", "title": "min/max/and/or folds of MddMgr", "statement": "MddMgr::min/max of a non-empty list denote the pointwise minimum/maximum; and/or of a list the conjunction/disjunction; min/max of an empty list panics.", "quantifier": "all lists", "why_tests_cant": "Unbounded lists.", "anchors": ["mss/src/mdd.rs: and, or, min, max"]}
{"id": "C52", "title": "A free slot is never live and allocation never overwrites a live node", "statement": "Whenever an operation of any forest allocates, the slot given out is not one reachable from a live handle nor from any node in use by the running operation.", "quantifier": "all histories of all five forests", "why_tests_cant": "Aliasing depends on histories.", "anchors": ["bddcore/src/bdd.rs: new_nonterminal, gc", "bddcore/src/zdd.rs", "mddcore/src/mdd.rs", "mddcore/src/mtmdd.rs: alloc", "mddcore/src/zmdd.rs: alloc"]}
{"id": "C53", "title": "MddMgr::defvar denotes the variable's state", "statement": "defvar(x,r) on a new name denotes the value function 'state of x' for r>=1; on an existing name it returns an equal handle; get_varorder lists names by level.", "quantifier": "all sequences of definitions and ranges r>=1", "why_tests_cant": "Depends on every earlier definition.", "anchors": ["mss/src/mdd.rs: defvar, get_varorder"]}
{"id": "C54", "title": "Automatic collection happens exactly at the threshold", "statement": "A call that wraps a new node ends with a collection iff the nodes in use at its end reach the threshold; the collection keeps exactly what handles (and variables) reach and sets the threshold to max(2*nodes in use, floor), otherwise the threshold is unchanged. In both cases the nodes in use are below the threshold afterwards, and the call is the one that would be made with collections off. No other call changes threshold or floor except set_gc_threshold, which sets both.", "quantifier": "all sessions, all wrapping calls of BddMgr, ZddMgr, MddMgr and of the family managers inside BssMgr and MssMgr, all thresholds", "why_tests_cant": "Tests fix one threshold and look at one run; a collection that is late, early or resets the threshold wrongly only shows as memory growth or time.", "anchors": ["bss/src/bdd.rs: maybe_gc, wrap, set_gc_threshold", "bss/src/zdd.rs: maybe_gc", "mss/src/mdd.rs: maybe_gc", "mss/src/zmdd.rs: maybe_gc"]}
{"id": "C55", "title": "extract_level(v) gives the boundary of the level set", "statement": "ZmddNode::extract_level(v) of a minpath (mincut) result lists exactly, and once each, the minimal vectors with φ(x) ≥ v (the maximal vectors with φ(x) ≤ v), as dense maps.", "quantifier": "all path/cut families of determined monotone functions, all v", "why_tests_cant": "Minimality over a level set quantifies over all state vectors and all structure functions.", "anchors": ["mss/src/zmdd.rs: extract_level, extract, labels"]}
{"id": "C56", "title": "Managers report exact statistics", "statement": "size() of BddMgr, ZddMgr, MddMgr and of the family manager of MssMgr reports exactly the number of variables (headers), of slots ever allocated, of values in use and of cached results that a lookup can find; live_node_count() is exactly the number of slots in use.", "quantifier": "all sessions; cache counts for forests with fewer than 2^32 slots", "why_tests_cant": "The counters are kept incrementally through growth, eviction and pruning of the cache, so exactness is an invariant of all histories.", "anchors": ["common/src/compute_cache.rs: len, put, retain_live", "bss/src/bdd.rs: size, live_node_count", "bss/src/zdd.rs: size, live_node_count", "mss/src/mdd.rs: size, live_node_count", "mddcore/src/*: size"]}
{"id": "C57", "title": "gc() returns the number of slots it reclaimed", "statement": "The number returned by gc is the number of slots in use before minus the number in use after.", "quantifier": "all sessions", "why_tests_cant": "The returned number depends on earlier collections.", "anchors": ["bddcore/src/bdd.rs: gc", "bddcore/src/zdd.rs: gc", "mddcore/src/*.rs: gc", "bss/src/bdd.rs: gc"]}
{"id": "C58", "title": "How expression texts are read", "statement": "rpn reads a text as its whitespace-separated words; a word is the operator, constant, save(..)/load(..) or (MddMgr) decimal i32 it spells, and any other word is a variable of that name; a text has no other reading.", "quantifier": "all texts", "why_tests_cant": "Infinitely many texts, with corner cases (signs, range of i32, empty save names, Unicode white space).", "anchors": ["bss/src/bdd.rs: rpn", "mss/src/mdd.rs: rpn"]}
{"id": "C59", "title": "dot() draws exactly the diagram", "statement": "dot() of a handle is a graph that starts with the handle's node, contains nothing twice and nothing not reached from it, and has one statement per node. Following it from the first node by the states of the variables gives the handle's value (BDD, MDD; undetermined values are left out); its paths to square 1, resp. to square v, are exactly the sets, resp. the state vectors labelled v, of the family (ZDD, ZMDD).", "quantifier": "all sessions, all handles", "why_tests_cant": "Depends on the shape of an arbitrary shared diagram and on the order of traversal.", "anchors": ["common/src/dot.rs", "bddcore/src/bdd_dot.rs", "bddcore/src/zdd_dot.rs", "mddcore/src/mdd_dot.rs", "mddcore/src/mtmdd_dot.rs", "mddcore/src/mtmdd2_dot.rs", "mddcore/src/zmdd_dot.rs", "bss/src/bdd.rs: dot", "bss/src/zdd.rs: dot", "mss/src/mdd.rs: dot", "mss/src/zmdd.rs: dot"]}
{"id": "C60", "title": "The text of dot() determines the function", "statement": "Handles with the same dot() text, in whatever sessions, stand for the same function of the named variables (the same family).", "quantifier": "all pairs of sessions and handles", "why_tests_cant": "A statement about all pairs of texts, including names with special characters.", "anchors": ["common/src/dot.rs", "bddcore/src/bdd_dot.rs: format of labels", "mddcore/src/*_dot.rs: format of labels"]}
{"id": "C61", "title": "What ZDD intersect and divide return", "statement": "intersect returns the sets of either family at which reading the other family, from the highest variable down, has come down to the empty set alone. divide returns the family given by a recursion over the variables from the highest down, or the undetermined constant where the recursion says so.", "quantifier": "all reachable ZDD sessions, all operand handles", "why_tests_cant": "An equation for all pairs of families, independent of caching, sharing and collection.", "anchors": ["bddcore/src/zdd_ops.rs: intersect, divide", "bss/src/zdd.rs: intersect, divide"]}
{"id": "C62", "title": "Interval probabilities enclose the point results", "statement": "prob and bmeas work for any type of numbers. If its operations are sound for a membership relation, such as interval arithmetic, then the results of prob and bmeas on boxes of probabilities contain the probability, and the Birnbaum importance of every variable and state step, for every choice of probabilities within the boxes. Degenerate boxes give the boxes of the point results.", "quantifier": "all reachable BDD and MDD sessions, all handles, all number types with sound operations, all boxes and all points within them", "why_tests_cant": "The claim ranges over all points of a box and all diagrams; tests sample points.", "anchors": ["mss/src/mdd_prob.rs:136-146", "bss/src/bdd_prob.rs: prob, bmeas", "mss/src/mdd.rs: MddNode::bmeas"]}
{"id": "C63", "title": "kofn makes O(n*k) calls", "statement": "kofn(k) over n handles calls ite exactly k*(n+1-k) times (not at all if k is 0 or above n) and its recursive function twice as often plus once, whatever the handles, so at most n*k ite calls.", "quantifier": "all reachable BDD sessions, all k, all lists of handles", "why_tests_cant": "Work is not a result; timing tests see one n, and an exponential recursion with the right result passes them for small n.", "anchors": ["bss/src/bdd_kofn.rs:25-80", "docs/developer-guide.md"]}
{"id": "C64", "title": "Analyses visit each node once", "statement": "prob and count of a BDD, dual, prob of an MDD, count of a ZDD and of a ZMDD compute each node of the diagram exactly once, and enter the recursion once per edge and once for the root: as many computations as size() reports nodes, one more call than size() reports edges.", "quantifier": "all reachable sessions, all handles", "why_tests_cant": "Work is not a result; a dropped memo insert leaves every result right.", "anchors": ["bss/src/bdd_prob.rs: prob", "bss/src/bdd_count.rs", "bss/src/bdd_dual.rs", "mss/src/mdd_prob.rs: prob", "bss/src/zdd_count.rs", "mss/src/zmdd.rs:334-362"]}
{"id": "C65", "title": "Edge-valued nodes mean a case distinction", "statement": "From a new EvMddManager, a client that creates one header per level and builds nodes on existing edges of lower levels never makes it panic; create_node/create_edge returns an edge whose value at an assignment is the value of the edge numbered by the state of the variable; no later call changes what an edge means.", "quantifier": "all call sequences, all levels and arities, all assignments", "why_tests_cant": "The tests build a handful of nodes over at most three variables.", "anchors": ["evmdd_core/src/evplus_mdd.rs:189-220 create_header, create_node, create_edge"]}
{"id": "C66", "title": "Edge-valued min, max, add, sub work pointwise", "statement": "min, max, add, sub of two edges terminate without panic and return an edge whose value at every assignment is the operation on the operands' values; infinity is neutral for min and absorbing for the others. Cached results, stored relative to the smaller operand value, are right for every later call they serve.", "quantifier": "all reachable managers (with any cache contents), all pairs of edges, all assignments", "why_tests_cant": "The cache is keyed by the difference of the two edge values; whether the entry fits depends on the history.", "anchors": ["evmdd_core/src/evplus_mdd.rs:257-337 min", "evmdd_core/src/evplus_mdd.rs:339-418 max", "evmdd_core/src/evplus_mdd.rs:420-499 add", "evmdd_core/src/evplus_mdd.rs:501-580 sub"]}
{"id": "C67", "title": "Edge-valued diagrams are canonical where finite", "statement": "Two edges with the same function, finite at every assignment, are equal (value and node); the edge's value is then the minimum of the function. For functions with infinite values this fails: create_node normalises by the smallest edge value including the values on edges to infinity.", "quantifier": "all reachable managers, all pairs of edges", "why_tests_cant": "Quantifies over all ways to build a function.", "anchors": ["evmdd_core/src/evplus_mdd.rs:197-215 create_node"]}
{"id": "C68", "title": "Compute cache: size, growth and eviction", "statement": "A compute cache starts with 2^14 slots and never has more than 2^24. While it can grow it is at most three quarters full up to the entry put last; a put on a table that full doubles it, and nothing else changes the size. A put makes its own key found with the value put, loses only entries whose key falls into the same slot of the table after the put, and leaves every other lookup as it was; doubling itself loses no entry.", "quantifier": "all sequences of put, get, clear and the two prunes, all keys, values below the empty marker", "why_tests_cant": "Quantifies over all key sequences and table sizes; the growth path needs 12288 entries to run once.", "anchors": ["common/src/compute_cache.rs:16-142 ComputeCache::{new, put, grow, put_nogrow, get, clear, retain_live}"]}
{"id": "C69", "title": "A repeated operation is answered from the cache", "statement": "An operation run a second time directly after the first returns the same node and changes nothing: no node, no cache entry, no table. This holds for not, and, or, xor, ite (BDD and MDD), replace (MDD, MTMDD), the arithmetic of MTMDD, the value comparisons and conditionals of the mixed engine, union, intersect, setdiff, product, divide (ZDD), intersect and setdiff (ZMDD); the commutative ones also with their operands swapped.", "quantifier": "all states and operands; results below the cache's empty marker 2^32-1", "why_tests_cant": "Quantifies over all cache contents, including those where the operation's own sub-results were evicted by collisions.", "anchors": ["bddcore/src/bdd_ops.rs:29-267", "bddcore/src/zdd_ops.rs:15-252", "mddcore/src/mdd_ops.rs:29-340", "mddcore/src/mtmdd_ops.rs:40-490", "mddcore/src/mtmdd2_ops.rs:122-408", "mddcore/src/zmdd_ops.rs:38-144"]}
{"id": "C70", "title": "Open iterators are unaffected by other calls", "statement": "An iterator over paths, sets, assignments or vectors (BddPath, ZddPath, MddPath, ZmddPath) returns, call by call of next, exactly the list fixed when it was made and then None, whatever public calls are made on the manager between two calls of next: new variables, operations, dropped handles, explicit and automatic collections, cleared caches, minpath and mincut. Only the clone of the handle that the iterator itself owns must stay.", "quantifier": "all reachable managers, all diagrams, all interleavings of next with other calls", "why_tests_cant": "Quantifies over all interleavings; collections between two next calls move freed slots to new nodes only in some of them.", "anchors": ["bss/src/bdd_path.rs:10-124", "bss/src/bdd.rs:524-526", "bss/src/zdd_path.rs:16-80", "bss/src/zdd.rs:295-297", "mss/src/mdd_path.rs:11-190", "mss/src/mdd.rs:936-938", "mss/src/zmdd.rs:300-302, 374-465"]}
{"id": "C71", "title": "Counts in 64-bit integers", "statement": "bdd_count, ZddNode::count, mdd_count, ZmddNode::count and the len methods of the iterators return the mathematical count whenever it fits in u64. When it does not fit, a build with overflow checks panics and a build without them returns the count modulo 2^64.", "quantifier": "all reachable managers with any number of variables, all handles, all selections of values, both kinds of build", "why_tests_cant": "Overflow needs diagrams over 64 or more levels with particular gaps; the intermediate products overflow although the result is small only for some shapes.", "anchors": ["bss/src/bdd_count.rs:4-13", "bss/src/bdd_count.rs:41-94", "bss/src/bdd.rs:518-522", "bss/src/bdd_path.rs:43-45", "bss/src/zdd_count.rs:10-46", "bss/src/zdd.rs:287-292", "bss/src/zdd_path.rs:36-38", "mss/src/mdd_count.rs:95-230", "mss/src/mdd.rs:930-934", "mss/src/mdd_path.rs:62-64", "mss/src/zmdd.rs:273-278", "mss/src/zmdd.rs:334-362"]}
{"id": "C72", "title": "Value diagrams over machine integers", "statement": "For MddMgr over i32 or i64 in a build with overflow checks: add, sub, mul, div on handles panic exactly when the exact result at some assignment is not in the type (division only MIN / -1), and otherwise give the exact result; rpn panics exactly when it panics over the mathematical integers or an operation of the expression overflows at some assignment; every call that returns gives the same output and state as over the mathematical integers, and the same as without overflow checks. Without overflow checks the operations of MtMddManager give at every assignment the exact result reduced to the type, and only MIN / -1 and MIN % -1 panic. In both builds every integer read back is in the type.", "quantifier": "all reachable managers, all handles, expressions and integer widths of at least 32 bits, both kinds of build; variables with at most 2^31 states", "why_tests_cant": "Overflow at a single assignment out of exponentially many decides between a panic and a result; cached sub-results of earlier operations are reused.", "anchors": ["mddcore/src/mtmdd_ops.rs:40-330", "mddcore/src/mtmdd2_ops.rs:64-90", "mddcore/src/nodes.rs:68-86", "mss/src/mdd.rs:213-228", "mss/src/mdd.rs:297-470", "mss/src/mdd.rs:748-866"]}
{"id": "C73", "title": "Probabilities in f64", "statement": "BddNode::prob in f64, for probabilities in [0, 1], returns a number in [0, 1] that differs from the probability of the selected values by at most n times f64::EPSILON, n the number of variables. If moreover products of n of the probabilities (or of their complements) stay in the normal range, the relative error is at most 3n times f64::EPSILON. MddNode::prob in f64, for state probabilities given with a relative rounding error and adding up to one before rounding, has relative error at most (M+2)n times f64::EPSILON, M the largest number of states, under the same condition on tiny numbers.", "quantifier": "all reachable managers, all handles, all probability tables, all selections, all tie-breaking rules of rounding to nearest", "why_tests_cant": "Rounding errors depend on the shape of the diagram and on every bit of the inputs; tests compare with a tolerance on a few diagrams.", "anchors": ["bss/src/bdd_prob.rs:5-45", "bss/src/bdd.rs:478-491", "mss/src/mdd_prob.rs:6-114"]}
{"id": "C74", "title": "Result sizes and no garbage", "statement": "A handle whose function is determined, assignment by assignment, by the values of other handles has at most as many nodes as the product of the node counts of those handles. not, and, or, xor and ite, and on multi-valued diagrams every operation made of one recursion, leave behind no node that is not part of their result or was live before. They raise live_node_count by at most the product of the node counts of the operands; the operations on multi-valued diagrams made of two recursions (eq of Booleans, neq, lte, gte of values) by at most twice that. This holds whatever the caches contain; for multi-valued diagrams the growth bound is for operands without undetermined Boolean points.", "quantifier": "all reachable managers, all handles, all collection points", "why_tests_cant": "The bound concerns every pair of diagrams, including those with exponentially many assignments, and every state of the caches; a recursion that builds spare nodes still returns correct functions.", "anchors": ["docs/developer-guide.md:45-52", "bddcore/src/bdd_ops.rs:20-330", "bss/src/bdd.rs:40-120", "mddcore/src/mdd_ops.rs:1-341", "mddcore/src/mtmdd_ops.rs:1-491", "mddcore/src/mtmdd2_ops.rs:1-453"]}
{"id": "C75", "title": "Recursion depth", "statement": "not, and, or, xor, ite on BDDs and MDDs, the arithmetic operations, comparisons, selections and replace on value diagrams, union, intersect, setdiff, product, divide on ZDDs, intersect, setdiff, set_baseline on zero-suppressed MDDs, and min, max, add, sub on edge-valued MDDs return, and nest at most one recursive call per variable, plus one; so the stack they need grows with the number of variables and not with the number of nodes. A call from one operation to another (xor to not, product to union, divide to intersect) starts a recursion with the same bound.", "quantifier": "all reachable managers, all handles, all cache contents", "why_tests_cant": "Stack overflow shows only on diagrams deeper than any test builds, and the depth of a recursion depends on the interleaving of the levels of both operands.", "anchors": ["bddcore/src/bdd_ops.rs:20-330", "bddcore/src/zdd_ops.rs:15-252", "mddcore/src/mdd_ops.rs:1-341", "mddcore/src/mtmdd_ops.rs:1-491", "mddcore/src/mtmdd2_ops.rs:1-453", "mddcore/src/zmdd_ops.rs:38-144", "evmdd_core/src/evplus_mdd.rs:257-580"]}
{"id": "C76", "title": "Laws relating the analyses", "statement": "For exact arithmetic: the probabilities of true and false of a handle add to 1; negation complements; or and and satisfy inclusion-exclusion; the conjunction of handles that share no relevant variable has the product of the probabilities; the probability splits by conditioning on a variable; changing the probability of one variable by d changes the probability of the function by exactly d times its bmeas entry; the dual at p has one minus the probability of the function at 1-p. If all given values lie between 0 and 1, so does prob; it grows with the function and, for a monotone function, with the variables; bmeas of a monotone function lies between 0 and 1. bdd_count is 2^n times prob with all variables at one half.", "quantifier": "all reachable managers, all handles, all probability maps (missing names count as 0) over a commutative ring, and over an ordered field for the inequalities", "why_tests_cant": "These are identities between several queries over all functions and all probability maps; they hold only if every query agrees with one and the same measure.", "anchors": ["bss/src/bdd_prob.rs:1-144", "bss/src/bdd_count.rs:1-94", "bss/src/bdd_dual.rs:1-37"]}
{"id": "C77", "title": "Minimal path and cut sets determine the function", "statement": "For a monotone BDD handle, minpath succeeds, extracting its sets and entering their sum of products through rpn gives a handle that compares equal to the original; likewise mincut and the product of sums. For a coherent multi-state function, the vectors of extract_level at v of the minpath family decide, for every state vector, whether the function is at least v (some vector lies below it), and those of mincut whether it is at most v; two coherent functions whose minpath families hold the same vectors with the same values are equal.", "quantifier": "all reachable managers, all monotone handles, all levels, all state vectors", "why_tests_cant": "No enumeration of functions covers the claim that nothing is lost by the conversion for every monotone function.", "anchors": ["bss/src/bss.rs:109-137", "bss/src/bdd_minsol.rs:12-57", "bss/src/zdd_path.rs:24-80", "mss/src/mss.rs:170-210", "mss/src/zmdd.rs:200-302"]}
{"id": "C78", "title": "Doubling the trigger pays for automatic collections", "statement": "Over any run of calls without set_gc_threshold, the nodes in use at the starts of the automatic collections sum up to at most twice the nodes the calls added, plus what twice the nodes in use at the beginning exceed the trigger by (nothing for a new manager). The bound is on nodes in use: slots freed earlier are swept as well and are not covered.", "quantifier": "all reachable BddMgr, ZddMgr (without from_sets), MddMgr and family managers of BssMgr and MssMgr, all sessions of any length", "why_tests_cant": "A bound over all sessions; a wrong re-arming of the trigger leaves every result right and only costs time.", "anchors": ["docs/developer-guide.md", "bss/src/bdd.rs:35-47 maybe_gc", "bss/src/zdd.rs:22-34", "mss/src/mdd.rs:29-44", "mss/src/zmdd.rs:24-39"]}
{"id": "C79", "title": "No public call trips over its own borrows, and handles fail cleanly once their forest is gone", "statement": "A public call of bss or mss (managers, handles, iterators) made while the caller holds no borrow never panics with 'already borrowed', and afterwards nothing is borrowed, also if it panicked for another reason; so for sessions of any length with caught panics and managers dropped in between. While the caller holds shared borrows of forests from get_mgr(), the reading calls of handles and iterators still work, and the operators, prob, bmeas and bdd_count panic. Once a forest has no strong reference left, the calls of its handles that use it panic before they borrow anything; clone, drop, eq, get_id and the like do not. A manager's own calls never miss a forest except that of a foreign node passed to minpath or mincut.", "quantifier": "all public calls of the table, all managers (the same or different ones), all runs, sessions of any length", "why_tests_cant": "Borrow panics depend on whether a collection happens to be due inside a call and on which guards are alive; tests see few of these combinations.", "anchors": ["bss/src/bdd.rs:35-47, 73-118, 120-535", "bss/src/zdd.rs:22-34, 53-326", "bss/src/bss.rs:93-137", "bss/src/bdd_path.rs", "bss/src/zdd_path.rs", "mss/src/mdd.rs:29-44, 71-945", "mss/src/mss.rs:149-211", "mss/src/zmdd.rs:24-39, 49-458", "mss/src/mdd_path.rs"]}
{"id": "C80", "title": "A caught panic leaves the manager usable", "statement": "If a call of BddMgr/BddNode or MddMgr/MddNode on held handles panics and the client catches the panic, the manager is in a state that some sequence of calls without any panic also reaches, and every held handle still denotes the function it denoted before. So every property of reachable managers also holds for clients that catch panics, in sessions of any length.", "quantifier": "all sessions with any number of caught panics, all expressions, all handles", "why_tests_cant": "The state left behind depends on the token at which an expression fails and on what earlier tokens defined; tests end at the panic.", "anchors": ["bss/src/bdd.rs:264-334", "mss/src/mdd.rs:213-240, 297-470, 496-518", "mddcore/src/mtmdd2_ops.rs:293-312"]}
{"id": "C81", "title": "Laws relating the multi-state analyses", "statement": "For exact arithmetic and a table whose rows add up to one: MddNode::prob of disjoint sets of values adds up, a set that contains every value has probability 1, complementary conditions on two handles (f and not f, lt and gte, eq and neq) have complementary probabilities, conditions related as conjunction and disjunction satisfy inclusion-exclusion, and conditions on handles that share no relevant variable multiply. prob splits by conditioning on the state of a variable. Replacing the row of one variable changes prob by exactly the sum over d of the change of the probability of being above state d times number d of the variable's bmeas entry. For rows without negative numbers prob lies between 0 and 1 and grows with the event; for an event that higher states cannot destroy, prob grows when higher states become more likely, and the numbers in bmeas lie between 0 and 1. For a value diagram, mdd_count is the number of assignments up to the top variable times prob with equally likely states.", "quantifier": "all reachable managers, all handles, all selections of values, all tables whose rows add up to one over a commutative ring, and over an ordered ring for the inequalities", "why_tests_cant": "These are identities between several queries over all functions and all tables; they hold only if every query agrees with one and the same measure, also where an edge skips a variable.", "anchors": ["mss/src/mdd_prob.rs:1-276", "mss/src/mdd_count.rs:1-281"]}
{"id": "C82", "title": "Results do not depend on the variable order", "statement": "Take two sessions in which the variables were declared in different orders, possibly among different further variables, and in each a handle of the same function of the variables' names; reading one and the same expression with rpn in both sessions gives such handles. Then prob gives the same number in both for every table and every selection, bmeas gives the same map, with entries for exactly the variables that can change the function, minpath and mincut both refuse or both give the same families of sets of names, namely the minimal ones of the function of the names. MssMgr::minpath and mincut of a structure function over the same variables, declared in any order, both refuse or both give the minimal (maximal) state vectors of each value, read by name. The same holds for prob and bmeas of multi-state diagrams whose common variables have the same numbers of states, for tables whose rows add up to one.", "quantifier": "all pairs of reachable managers, all pairs of handles of the same function of the names, all expressions, all tables, all selections", "why_tests_cant": "It compares every pair of declaration orders over every function; diagrams of one function in two orders may have entirely different shapes, so no diagram of one is found in the other.", "anchors": ["bss/src/bdd.rs: defvar, rpn", "bss/src/bdd_prob.rs: prob, bmeas", "bss/src/bss.rs: minpath, mincut", "mss/src/mdd.rs: defvar, rpn", "mss/src/mdd_prob.rs: prob, bmeas", "mss/src/mss.rs: minpath, mincut"]}
{"id": "C83", "title": "The nodes of a diagram are the subfunctions of its function", "statement": "For every handle in every reachable BDD manager, the number of non-terminal nodes that size reports is exactly the number of distinct functions that arise from the handle's function by fixing all variables above some level and that depend on the variable of that level; the number of terminals is the number of values the function takes; and the number of edges is twice the number of non-terminals. So k-of-n of n distinct variables, with k from 1 to n, has exactly k(n-k+1) non-terminal nodes in every order. For multi-state diagrams the same holds level by level for the assignments within the ranges, for Boolean and for integer diagrams, and the number of edges is the sum over the levels of the number of states times the number of subfunctions. For ZDDs the non-terminals are exactly the distinct families that arise by fixing all elements above some level and have a member with the element of that level; the terminals are the labels that are read, and the zero terminal exactly if the family is empty or some such subfamily has the element of its level in all its members.", "quantifier": "all reachable managers, all handles, all functions; all k, n, and all lists of n distinct variables in any order", "why_tests_cant": "It gives the size of every diagram in terms of its function alone, over unboundedly many functions and levels; a test checks the size of particular diagrams.", "anchors": ["bss/src/bdd.rs: BddNode::size, BddMgr::kofn", "bss/src/bdd_count.rs: node_count", "mss/src/mdd.rs: MddNode::size", "bddcore/src/bdd.rs: create_node", "mddcore/src/mdd.rs: create_node", "mddcore/src/mtmdd.rs: create_node", "bss/src/zdd.rs: ZddNode::size", "bddcore/src/zdd.rs: create_node"]}
{"id": "C84", "title": "prob sums over the sets of names that can matter, and k-out-of-n systems obey the textbook formulas", "statement": "For every handle whose function is a function of the variables' names, and every finite set X of names containing those that can change the function, prob equals the sum, over the subsets A of X at which the function's value is selected, of the product of the probabilities of the names in A and of the complementary probabilities of the names in X outside A. The handle that kofn returns for handles of n distinct variables is true exactly when at least k of those names are true, wherever they are in the order and whatever other variables exist. For such a handle with k at most n: minpath returns exactly the sets of k of the names, n choose k many by the ZDD's count; mincut returns exactly the sets of n-k+1 of the names; prob is the sum over the sets of at least k names, hence with one probability p for all the upper tail of the binomial distribution; and for k at least 1 bmeas has entries for exactly the n names, each the probability that exactly k-1 of the others are true.", "quantifier": "all reachable managers, all handles, all finite sets of names, all k and n, all probabilities in any commutative ring", "why_tests_cant": "It ranges over all k and n, all orders of the variables and all probabilities; tests check particular small systems.", "anchors": ["bss/src/bdd.rs: kofn", "bss/src/bdd_kofn.rs: kofn", "bss/src/bdd_prob.rs: prob, bmeas", "bss/src/bss.rs: minpath, mincut", "bss/src/zdd_count.rs: count"]}
{"id": "C85", "title": "rpn with ==, is_zero and is_one decides formulas", "statement": "For every expression whose loads are preceded by saves, read by rpn in any reachable BddMgr: is_zero of the returned handle is true iff no valuation of the names makes the expression true, and is_one iff every valuation does. For two expressions read one after the other in one manager, == of their handles is true iff they have the same truth value under every valuation, whatever the order in which their variables were defined; and == of the handles of e and of e & e' is true iff every valuation that makes e true makes e' true (e' without dependence on saved values). For two multi-state expressions that have values in all states, the handles in one MddMgr hold the same node iff the expressions have the same value in all states of the variables.", "quantifier": "all reachable managers, all expressions, all valuations and states", "why_tests_cant": "Equivalence of two formulas is a claim about all valuations, and the decision must be right for every pair of formulas in every manager state.", "anchors": ["bss/src/bdd.rs: rpn, ==", "bss/src/bdd.rs: is_zero, is_one", "mss/src/mdd.rs: rpn, get_node"]}
{"id": "C86", "title": "ZDD handles obey the laws of set families", "statement": "For all expressions over held handles, empty, base and singleton with union, setdiff and product, evaluated by public calls one after the other: eq of the two resulting handles is true iff the two families are equal. In particular union and product make the handles of a manager a commutative idempotent semiring with zero empty and one base, and f.setdiff(f.setdiff(g)) is the intersection of the families for all f and g, including those on which intersect itself goes wrong (C21). Counts: |f union g| = |f setdiff g| + |g| <= |f| + |g| with equality iff the families are disjoint; |f product g| <= |f| * |g| with equality if different pairs have different unions. from_sets of the sets that extract yields gives an eq handle in the same manager and a handle of the same family in every other manager, whatever its variables and order.", "quantifier": "all reachable managers, all handles without undetermined part, all expressions", "why_tests_cant": "The laws are identities over all families, expressions and manager states.", "anchors": ["bss/src/zdd.rs: union, setdiff, product, empty, base, singleton, from_sets, eq", "bss/src/zdd_count.rs: count", "bss/src/zdd_path.rs: extract"]}
{"id": "C87", "title": "The accessors describe the diagram", "statement": "For every handle of a BddMgr: get_header and get_level give the level of the highest variable on which the function depends (None for a constant) and get_label its name; get_children of a non-constant returns handles for the function with that variable false and with it true; create_node of the header and the two children returns a handle == to the first; and the client loop that reads the label, goes to the child of that variable's value and asks is_one at a terminal computes the function's value within one step per variable. For MddNode handles: the same with one child per state, and the loop ends at a terminal holding the function's value. For ZDD handles: with label x, the children are the members without x and the members with x after removing x, some member contains x, and lo union ({x} product hi) is eq to the handle; without label the family is empty or {empty set}. All calls keep the meaning of all handles.", "quantifier": "all reachable managers, all handles, all valuations and states", "why_tests_cant": "It ranges over all functions, orders and manager states.", "anchors": ["bss/src/bdd.rs: get_header, get_level, get_label, get_children, create_node, is_one", "bss/src/zdd.rs: get_label, get_children", "mss/src/mdd.rs: get_header, get_level, get_label, get_children, create_node"]}
{"id": "C88", "title": "Expected performance, series and parallel multi-state systems", "statement": "For an integer-valued MddNode handle, exact arithmetic and a table whose rows add up to one, the sum over a list of values that contains all values of the function of the value times prob of that value is the expected value: the sum over all state vectors of the value times the product of the states' probabilities. Expectation is additive for the handles returned by add and sub; for functions that share no relevant variable that of mul is the product; those of min and max add up to those of the operands. For such functions the probability that min reaches v is the product of the operands' (series system), and the probability that max stays at most v is the product (parallel system). For values 0..M the expectation is the sum over the levels 1..M of the probability of reaching the level. With non-negative numbers, a function that is nowhere smaller has no smaller expectation.", "quantifier": "all reachable managers, all handles, all tables with rows summing to one over any commutative ring (ordered for the last part)", "why_tests_cant": "It ranges over all functions, all diagrams and all tables.", "anchors": ["mss/src/mdd.rs: MddNode::prob, add, sub, mul, min, max", "mss/src/mdd_prob.rs"]}
{"id": "C89", "title": "Minimal path and cut sets of series and parallel systems", "statement": "For two BDD handles f, g of one BssMgr whose functions are monotone and share no variable that matters to both: minpath of the handle returned by f.and(g) is the same family as the ZDD product of minpath(f) and minpath(g), and its count is the product of the counts; unless f or g is always true, minpath of f.or(g) is the same family as the union, and its count is the sum; mincut of f.or(g) is the same family as the product of mincut(f) and mincut(g), with the product of the counts; unless f or g is always false, mincut of f.and(g) is the same family as the union, with the sum. All calls return, in this order, from any state of the manager.", "quantifier": "all reachable BssMgr states, all pairs of handles with monotone functions on separate variables, in any order of the variables", "why_tests_cant": "It ranges over all functions, variable orders and manager states, and relates five calls.", "anchors": ["bss/src/bss.rs: minpath, mincut", "bss/src/bdd.rs: and, or", "bss/src/zdd.rs: product, union, count"]}
{"id": "C90", "title": "Comparing the families of one BssMgr", "statement": "For ZDD handles of one BssMgr (results of minpath, mincut and set operations on them): eq answers and is true only of handles of the same family; is_zero is true exactly of the empty family and is_one exactly of the family whose only set is the empty set; two handles have the same family exactly when is_zero is true of setdiff taken both ways. eq is not complete: two calls of minpath on one handle give the same family and eq of the two is false.", "quantifier": "all reachable BssMgr states, all handles and families", "why_tests_cant": "Soundness ranges over all families and histories of the manager, with any number of headers per label.", "anchors": ["bss/src/zdd.rs: PartialEq, is_zero, is_one, setdiff", "bss/src/bss.rs: minpath"]}
{"id": "C91", "title": "Reliability from the minimal path and cut sets", "statement": "For a handle f of a BssMgr with a monotone function: the formula of inclusion and exclusion over the sets that extract([true]) lists after minpath(f) gives prob(pv,[true]) exactly, and over those listed after mincut(f), with 1-p in place of p, prob(pv,[false]). With probabilities between 0 and 1 (absent names count as 0): the sets that extract([true]) lists after minpath(f) bound prob(pv,[true]) of f: it is at least the product of the probabilities of each listed set, at most 1 minus the product over the sets of (1 minus that product) (Esary-Proschan), and at most the sum of the products (rare-event approximation). The sets listed after mincut(f) bound prob(pv,[false]) in the same way, with 1-p in place of p.", "quantifier": "all reachable BssMgr states, all monotone functions, all variable orders, all probabilities in any linearly ordered commutative ring", "why_tests_cant": "It ranges over all monotone functions and real-valued probabilities, and rests on the positive correlation of monotone functions.", "anchors": ["bss/src/bss.rs: minpath, mincut", "bss/src/bdd.rs: prob", "bss/src/zdd.rs: extract"]}
{"id": "C92", "title": "What the Birnbaum measures count", "statement": "For a handle f with a monotone function: bmeas has an entry for exactly the names that occur in some minimal path set, which are exactly those that occur in some minimal cut set; bmeas(pv,[true]) at x is the probability that the true names among the others are critical for x (function false, and true with x added); with all probabilities 1/2 it is the number of critical sets divided by the number of all sets of the other names (structural importance); with probabilities strictly between 0 and 1 every entry is positive.", "quantifier": "all reachable states, all monotone functions and variable orders, all probabilities in a commutative (for positivity: linearly ordered) ring", "why_tests_cant": "It ranges over all monotone functions and all probabilities.", "anchors": ["bss/src/bdd.rs: bmeas", "bss/src/bdd_prob.rs: bmeas", "bss/src/bss.rs: minpath, mincut"]}
