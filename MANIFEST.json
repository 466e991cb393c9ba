{
 "claims": [
  {
   "property": "C01",
   "status": "proved",
   "theorems": [
    "DD.Props.C01_connectives",
    "DD.Props.C01_ite_selects",
    "DD.Props.C01_total",
    "DD.Props.C01_not",
    "DD.Props.C01_and",
    "DD.Props.C01_or",
    "DD.Props.C01_xor",
    "DD.Props.C01_ite",
    "DD.Props.C01_const",
    "DD.Props.C01_createNode"
   ],
   "note": "Core engine over all reachable states (C01_connectives etc.) and the handle API over all reachable sessions."
  },
  {
   "property": "C02",
   "status": "proved",
   "theorems": [
    "DD.Props.C02_canonical",
    "DD.Props.C02_eq",
    "DD.Props.C02_constants",
    "DD.Props.C02_level",
    "DD.Props.C02_label",
    "DD.Props.C02_id"
   ],
   "note": "Node ids (core), eq on handles, get_id / get_header / get_label."
  },
  {
   "property": "C03",
   "status": "proved",
   "theorems": [
    "DD.Props.C03_step",
    "DD.Props.C03_history",
    "DD.Props.C03_no_panic"
   ],
   "note": ""
  },
  {
   "property": "C04",
   "status": "proved",
   "theorems": [
    "DD.Props.C04_gc_exact",
    "DD.Props.C04_live_count"
   ],
   "note": "Roots must be live nodes, which the wrapper guarantees (C07)."
  },
  {
   "property": "C05",
   "status": "proved",
   "theorems": [
    "DD.Props.C05_hit_is_last_put",
    "DD.Props.C05_len_exact",
    "DD.Props.C05_put_hits",
    "DD.Props.C05_prune_exact"
   ],
   "note": ""
  },
  {
   "property": "C06",
   "status": "proved",
   "theorems": [
    "DD.Props.C06_gc_unobservable"
   ],
   "note": ""
  },
  {
   "property": "C07",
   "status": "proved",
   "theorems": [
    "DD.Props.C07_root_counts",
    "DD.Props.C07_drop_keeps_other",
    "DD.Props.C07_zdd_root_counts",
    "DD.Props.C07_zdd_drop_keeps_other",
    "DD.Props.C07_mdd_root_counts",
    "DD.Props.C07_mdd_drop_keeps_other",
    "DD.Props.C07_zmdd_root_counts",
    "DD.Props.C07_zmdd_drop_keeps_other"
   ],
   "note": "BDD, ZDD, MDD and ZMDD managers."
  },
  {
   "property": "C08",
   "status": "proved",
   "theorems": [
    "DD.Props.C08_varorder",
    "DD.Props.C08_defvar_new",
    "DD.Props.C08_defvar_again",
    "DD.Props.C08_others"
   ],
   "note": ""
  },
  {
   "property": "C09",
   "status": "proved",
   "theorems": [
    "DD.Props.C09_rpn",
    "DD.Props.C09_lex_write"
   ],
   "note": ""
  },
  {
   "property": "C10",
   "status": "proved",
   "theorems": [
    "DD.Props.C10_rpn_outcome",
    "DD.Props.C10_rpn_keeps"
   ],
   "note": ""
  },
  {
   "property": "C11",
   "status": "proved",
   "theorems": [
    "DD.Props.C11_and",
    "DD.Props.C11_or",
    "DD.Props.C11_kofn"
   ],
   "note": ""
  },
  {
   "property": "C12",
   "status": "proved",
   "theorems": [
    "DD.Props.C12_count"
   ],
   "note": "Over mathematical integers / an arbitrary commutative ring; u64 wrap-around and float rounding are not modelled."
  },
  {
   "property": "C13",
   "status": "proved",
   "theorems": [
    "DD.Props.C13_extract"
   ],
   "note": ""
  },
  {
   "property": "C14",
   "status": "proved",
   "theorems": [
    "DD.Props.C14_prob"
   ],
   "note": "Over mathematical integers / an arbitrary commutative ring; u64 wrap-around and float rounding are not modelled."
  },
  {
   "property": "C15",
   "status": "proved",
   "theorems": [
    "DD.Props.C15_bmeas"
   ],
   "note": "Over mathematical integers / an arbitrary commutative ring; u64 wrap-around and float rounding are not modelled."
  },
  {
   "property": "C16",
   "status": "proved",
   "theorems": [
    "DD.Props.C16_dual",
    "DD.Props.C16_dual_dual"
   ],
   "note": ""
  },
  {
   "property": "C17",
   "status": "proved",
   "theorems": [
    "DD.Props.C17_minpath"
   ],
   "note": "For all worlds reachable through BssMgr and its two managers; minpath of handles of the same BssMgr."
  },
  {
   "property": "C18",
   "status": "proved",
   "theorems": [
    "DD.Props.C18_mincut",
    "DD.Props.monoB_dual",
    "DD.Props.C18_cut_meets_paths"
   ],
   "note": "As C17, via the dual; the temporary dual handle is modelled."
  },
  {
   "property": "C19",
   "status": "proved",
   "theorems": [
    "DD.Props.C19_bdd_size",
    "DD.Props.C19_zdd_size"
   ],
   "note": ""
  },
  {
   "property": "C20",
   "status": "proved",
   "theorems": [
    "DD.Props.C20_union",
    "DD.Props.C20_setdiff",
    "DD.Props.C20_product",
    "DD.Props.C20_bss_union",
    "DD.Props.C20_bss_setdiff",
    "DD.Props.C20_bss_product"
   ],
   "note": "All states of a standalone ZddMgr; handles without undetermined parts."
  },
  {
   "property": "C21",
   "status": "partial",
   "theorems": [
    "DD.Props.C21_intersect_partial",
    "DD.Props.C21_intersect_exact",
    "DD.Props.C21_violated"
   ],
   "note": "The code violates the property ({∅} ∩ {{x}} = {{x}}, C21_violated). Proved: bounds on the result and exactness when no member of one family is a proper subset of a member of the other. What is returned in all cases: C21_intersect_exact."
  },
  {
   "property": "C22",
   "status": "partial",
   "theorems": [
    "DD.Props.C22_divide_partial",
    "DD.Props.C22_divide_exact",
    "DD.Props.C22_violated",
    "DD.Props.quot_largest"
   ],
   "note": "The code violates the property ({{x,y}}/{{x}} = ∅ with y above x, C22_violated). Proved: quotient by {∅}, by {{top label}}, and of a non-empty family by itself. What is returned in all cases: C22_divide_exact."
  },
  {
   "property": "C23",
   "status": "proved",
   "theorems": [
    "DD.Props.C23_empty",
    "DD.Props.C23_base",
    "DD.Props.C23_singleton",
    "DD.Props.C23_fromSets",
    "DD.Props.C23_count",
    "DD.Props.C23_extract",
    "DD.Props.C23_bss_count",
    "DD.Props.C23_bss_extract"
   ],
   "note": "Counts in ℕ (u64 overflow not modelled)."
  },
  {
   "property": "C24",
   "status": "proved",
   "theorems": [
    "DD.Props.C24_eq",
    "DD.Props.C24_eq_reads"
   ],
   "note": "Also for handles with undetermined parts (C24_eq_reads)."
  },
  {
   "property": "C25",
   "status": "proved",
   "theorems": [
    "DD.Props.C25_step",
    "DD.Props.C25_history",
    "DD.Props.C25_denotes",
    "DD.Props.C25_no_panic",
    "DD.Props.C25_bss_step"
   ],
   "note": ""
  },
  {
   "property": "C26",
   "status": "proved",
   "theorems": [
    "DD.Props.C26_connectives",
    "DD.Props.C26_ite_selects",
    "DD.Props.C26_total"
   ],
   "note": "All variable ranges; operands must be nodes in use."
  },
  {
   "property": "C27",
   "status": "proved",
   "theorems": [
    "DD.Props.C27_handles",
    "DD.Props.C27_mdd_canonical",
    "DD.Props.C27_mtmdd_canonical"
   ],
   "note": "Handles (C27_handles) and node ids of both forests."
  },
  {
   "property": "C28",
   "status": "proved",
   "theorems": [
    "DD.Props.C28_arith",
    "DD.Props.C28_undet_iff"
   ],
   "note": "Mathematical integers (overflow excluded); Rust / and % are truncating."
  },
  {
   "property": "C29",
   "status": "proved",
   "theorems": [
    "DD.Props.C29_value_unique",
    "DD.Props.C29_value_reading"
   ],
   "note": "Holds whatever collections happened in between: the statement is about an arbitrary reachable state."
  },
  {
   "property": "C30",
   "status": "proved",
   "theorems": [
    "DD.Props.C30_compare",
    "DD.Props.C30_ite"
   ],
   "note": "eq, neq, lt, gt, gte and ite."
  },
  {
   "property": "C31",
   "status": "partial",
   "theorems": [
    "DD.Props.C31_lte_not_le",
    "DD.Props.C31_lte_partial",
    "DD.Props.C31_lte_exact",
    "DD.Props.C31_handles_exact",
    "DD.Props.C31_handles_partial"
   ],
   "note": "The property is false for this code (C31_lte_not_le): lte is strict less-than unless the operands are equal everywhere. C31_handles_exact says exactly what it computes in every session, C31_lte_exact on engine states; C31_handles_partial: the answer is the pointwise comparison iff the operands are equal at every assignment or at none; C31_lte_partial: right wherever the operands differ."
  },
  {
   "property": "C32",
   "status": "partial",
   "theorems": [
    "DD.Props.C32_undet_boolean_false",
    "DD.Props.C32_undet_boolean_partial",
    "DD.Props.C32_handles_false"
   ],
   "note": "The property is false for this code in every state (C32_undet_boolean_false; in every session: C32_handles_false): undet_boolean() is the constant false. What holds: it is a Boolean node in use."
  },
  {
   "property": "C33",
   "status": "proved",
   "theorems": [
    "DD.Props.C33_gc",
    "DD.Props.C33_then_op"
   ],
   "note": "Roots must be nodes in use, which the wrapper guarantees."
  },
  {
   "property": "C34",
   "status": "proved",
   "theorems": [
    "DD.Props.C34_denotes",
    "DD.Props.C34_step",
    "DD.Props.C34_history",
    "DD.Props.C34_effect",
    "DD.Props.C34_legal"
   ],
   "note": "One call, whole histories, effect of every call, and the exact misuse that panics."
  },
  {
   "property": "C35",
   "status": "partial",
   "theorems": [
    "DD.Props.C35_rpn",
    "DD.Props.C35_outcome",
    "DD.Props.C35_unknown_panics",
    "DD.Props.C35_unbalanced_panics",
    "DD.Props.C35_unbalanced_partial"
   ],
   "note": "Value of every well-typed expression and the fate of every token list are proved. Violated for unbalanced expressions with too few operands: the code panics instead of Err (C35_unbalanced_panics); leftover operands do give Err."
  },
  {
   "property": "C36",
   "status": "proved",
   "theorems": [
    "DD.Props.C36_prob",
    "DD.Props.C36_returns"
   ],
   "note": "any commutative ring; panics exactly when a variable the function depends on lacks weights"
  },
  {
   "property": "C37",
   "status": "proved",
   "theorems": [
    "DD.Props.C37_bmeas",
    "DD.Props.C36_returns"
   ],
   "note": "as the code documents: entry d of a variable is prob given state d+1 minus prob given state d"
  },
  {
   "property": "C38",
   "status": "partial",
   "theorems": [
    "DD.Props.C38_value_partial",
    "DD.Props.C38_bool_partial",
    "DD.Props.C38_bool_exact",
    "DD.Props.C38_constant",
    "DD.Props.C38_violated",
    "DD.Props.C38_violated_constant"
   ],
   "note": "Violated by the code: constants always give 1, and a Boolean diagram in which a node is reached from different levels is miscounted (witnesses proved). Proved for integer-valued non-constants and for Boolean diagrams in which each node that counts is reached from one level only. What is returned for any Boolean non-constant: C38_bool_exact."
  },
  {
   "property": "C39",
   "status": "proved",
   "theorems": [
    "DD.Props.C39_extract",
    "DD.Props.mtop_exists"
   ],
   "note": "iterator run to exhaustion between two session calls"
  },
  {
   "property": "C40",
   "status": "proved",
   "theorems": [
    "DD.Props.C40_size"
   ],
   "note": ""
  },
  {
   "property": "C41",
   "status": "partial",
   "theorems": [
    "DD.Props.C41_intersect",
    "DD.Props.C41_setdiff",
    "DD.Props.C41_after_gc",
    "DD.Props.C41_handles_exact",
    "DD.Props.C41_handles_partial",
    "DD.Props.C41_violated"
   ],
   "note": "Core ZmddManager level in full (also after gc). Handle level for two path families, and for two cut families over the same variables; mixing a path family with a cut family is refuted (C41_violated). What is returned for any two families: C41_handles_exact."
  },
  {
   "property": "C42",
   "status": "proved",
   "theorems": [
    "DD.Props.C42_canonical",
    "DD.Props.C42_labelling"
   ],
   "note": "Node ids over one header per level; families are partial labellings."
  },
  {
   "property": "C43",
   "status": "partial",
   "theorems": [
    "DD.Props.C43_minpath_partial",
    "DD.Props.C43_returned",
    "DD.Props.C43_kept",
    "DD.Props.C43_one_state_panics",
    "DD.Props.C43_violated"
   ],
   "note": "Everything, provided each variable has at least two states; with a one-state variable the call panics (C43_violated). Families persist across later calls (C43_kept)."
  },
  {
   "property": "C44",
   "status": "partial",
   "theorems": [
    "DD.Props.C44_mincut_partial",
    "DD.Props.C44_returned",
    "DD.Props.C43_kept",
    "DD.Props.C43_one_state_panics",
    "DD.Props.C43_violated"
   ],
   "note": "As C43."
  },
  {
   "property": "C45",
   "status": "partial",
   "theorems": [
    "DD.Props.C45_extreme_level_partial",
    "DD.Props.C45_violated"
   ],
   "note": "False as stated (C45_violated): the code, as its comment says, gives the boundary of the level set, proved as C55. Holds at the extreme level."
  },
  {
   "property": "C46",
   "status": "proved",
   "theorems": [
    "DD.Props.C46_baseline"
   ],
   "note": "For every call that returns a family."
  },
  {
   "property": "C47",
   "status": "proved",
   "theorems": [
    "DD.Props.C47_labels",
    "DD.Props.C47_count"
   ],
   "note": ""
  },
  {
   "property": "C48",
   "status": "proved",
   "theorems": [
    "DD.Props.C48_mtmdd_replace",
    "DD.Props.C48_mdd_replace"
   ],
   "note": "Both forests."
  },
  {
   "property": "C49",
   "status": "proved",
   "theorems": [
    "DD.Props.C49_extract"
   ],
   "note": "Enumeration within one world."
  },
  {
   "property": "C50",
   "status": "proved",
   "theorems": [
    "DD.Props.C50_comm",
    "DD.Props.C50_idem",
    "DD.Props.C50_identities",
    "DD.Props.C50_zdd_comm",
    "DD.Props.C50_mdd_swap",
    "DD.Props.C50_mdd_handles_swap",
    "DD.Props.C50_mdd_identities"
   ],
   "note": "BDD, ZDD, MDD and MTMDD. Swapped operands for MDD/MTMDD unconditionally; identities for determined Boolean operands and all value operands."
  },
  {
   "property": "C51",
   "status": "proved",
   "theorems": [
    "DD.Props.C51_and",
    "DD.Props.C51_or",
    "DD.Props.C51_min",
    "DD.Props.C51_max",
    "DD.Props.C51_empty"
   ],
   "note": "Undetermined values included for min/max; and/or at determined assignments."
  },
  {
   "property": "C52",
   "status": "proved",
   "theorems": [
    "DD.Props.C52_alloc_fresh",
    "DD.Props.C52_bdd",
    "DD.Props.C52_zdd",
    "DD.Props.C52_mdd",
    "DD.Props.C52_mtmdd",
    "DD.Props.C52_mtmdd2",
    "DD.Props.C52_zmdd",
    "DD.Props.C52_zmdd_make"
   ],
   "note": "All five forests and the two-forest combination."
  },
  {
   "property": "C53",
   "status": "partial",
   "theorems": [
    "DD.Props.C53_defvar_new",
    "DD.Props.C53_defvar_again",
    "DD.Props.C53_varorder_partial",
    "DD.Props.C53_varorder_panics",
    "DD.Props.C53_violated"
   ],
   "note": "defvar proved for all r>=1. get_varorder proved when every variable has at least two states; violated for a one-state variable (panic)."
  },
  {
   "property": "C54",
   "status": "proved",
   "theorems": [
    "DD.Props.C54_new",
    "DD.Props.C54_bdd",
    "DD.Props.C54_bdd_other",
    "DD.Props.C54_bdd_set",
    "DD.Props.C54_zdd",
    "DD.Props.C54_zdd_from_sets",
    "DD.Props.C54_zdd_other",
    "DD.Props.C54_zdd_set",
    "DD.Props.C54_mdd",
    "DD.Props.C54_mdd_other",
    "DD.Props.C54_mdd_set",
    "DD.Props.C54_bss",
    "DD.Props.C54_mss"
   ],
   "note": "from_sets makes several handles; for it only the end state is described. The collection inside children() does not exist in the code (it pins only)."
  },
  {
   "property": "C55",
   "status": "proved",
   "theorems": [
    "DD.Props.C55_extract_level_path",
    "DD.Props.C55_extract_level_cut"
   ],
   "note": ""
  },
  {
   "property": "C56",
   "status": "proved",
   "theorems": [
    "DD.Props.C56_bdd",
    "DD.Props.C56_zdd",
    "DD.Props.C56_mdd",
    "DD.Props.C56_mdd_live",
    "DD.Props.C56_zmdd"
   ],
   "note": "size() and live_node_count() of all managers; cache counts for forests with < 2^32 slots."
  },
  {
   "property": "C57",
   "status": "partial",
   "theorems": [
    "DD.Props.C57_violated",
    "DD.Props.C57_bdd_partial",
    "DD.Props.C57_mdd_partial"
   ],
   "note": "The code returns all free slots; exact if none were free before. Negation proved with a witness."
  },
  {
   "property": "C58",
   "status": "proved",
   "theorems": [
    "DD.Props.C58_bdd_word",
    "DD.Props.C58_bdd_text",
    "DD.Props.C58_mdd_word",
    "DD.Props.C58_mdd_text"
   ],
   "note": "Both directions, for BDD and MDD expressions."
  },
  {
   "property": "C59",
   "status": "proved",
   "theorems": [
    "DD.Props.C59_bdd",
    "DD.Props.C59_mdd",
    "DD.Props.C59_zdd",
    "DD.Props.C59_bss_zdd",
    "DD.Props.C59_zmdd"
   ],
   "note": "Per manager; PicOK/Follow/PicPath are a reader of the statements that knows nothing of the forest. ZDD handles both of a stand-alone ZddMgr and of a BssMgr."
  },
  {
   "property": "C60",
   "status": "partial",
   "theorems": [
    "DD.Props.C60_bdd_partial",
    "DD.Props.C60_mdd_partial",
    "DD.Props.C60_zdd_partial",
    "DD.Props.C60_bss_zdd_partial",
    "DD.Props.C60_zmdd_partial",
    "DD.Props.C60_violated"
   ],
   "note": "Violated: names are written without escaping, and with quotation marks in names two sessions have the same text for different functions (C60_violated). Proved for names without quotation marks."
  },
  {
   "property": "C61",
   "status": "proved",
   "theorems": [
    "DD.Props.C21_intersect_exact",
    "DD.Props.C22_divide_exact"
   ],
   "note": "The closed form for intersect and the recursion for divide, over names; both hold for every pair of operands."
  },
  {
   "property": "C62",
   "status": "proved",
   "theorems": [
    "DD.Props.C62_bdd_prob",
    "DD.Props.C62_bdd_bmeas",
    "DD.Props.C62_bdd_degenerate",
    "DD.Props.C62_mdd_prob",
    "DD.Props.C62_mdd_bmeas",
    "DD.Props.C62_mdd_degenerate",
    "DD.Props.Ivl.stands"
   ],
   "note": "Any number type whose operations respect membership; closed intervals over an ordered ring are an instance (Ivl.stands). MDD point probabilities add up to one, as in C36."
  },
  {
   "property": "C63",
   "status": "proved",
   "theorems": [
    "DD.Props.C63_same",
    "DD.Props.C63_kofn_work",
    "DD.Props.C63_bound"
   ],
   "note": "exact number of ite calls and of recursive calls, for the counted version whose erasure is kofn"
  },
  {
   "property": "C64",
   "status": "proved",
   "theorems": [
    "DD.Props.C64_same",
    "DD.Props.C64_dual_same",
    "DD.Props.C64_size",
    "DD.Props.C64_bdd_prob",
    "DD.Props.C64_bdd_count",
    "DD.Props.C64_bdd_dual",
    "DD.Props.C64_mdd_prob",
    "DD.Props.C64_zdd_count",
    "DD.Props.C64_zmdd_count"
   ],
   "note": "counted versions erase to the passes; each reachable node computed once, one call per edge and root; C64_size compares with size()"
  },
  {
   "property": "C65",
   "status": "proved",
   "theorems": [
    "DD.Props.C65_total",
    "DD.Props.C65_keep",
    "DD.Props.C65_create_node",
    "DD.Props.C65_constants"
   ],
   "note": "Values are Int; i64 overflow is not modelled."
  },
  {
   "property": "C66",
   "status": "proved",
   "theorems": [
    "DD.Props.C66_op",
    "DD.Props.C65_total"
   ],
   "note": "Values are Int; i64 overflow is not modelled."
  },
  {
   "property": "C67",
   "status": "proved",
   "theorems": [
    "DD.Props.C67_canonical",
    "DD.Props.C67_least",
    "DD.Props.C67_once",
    "DD.Props.C67_infinite_not_canonical"
   ],
   "note": "Canonical for functions finite everywhere; the property says, and C67_infinite_not_canonical proves, that it fails with infinite values."
  },
  {
   "property": "C68",
   "status": "proved",
   "theorems": [
    "DD.Props.C68_load",
    "DD.Props.C68_grows",
    "DD.Props.C68_must_grow",
    "DD.Props.C68_put_exact"
   ],
   "note": "Model of the cache keeps slots as a total function of the index; only indices below 2^bits are read."
  },
  {
   "property": "C69",
   "status": "proved",
   "theorems": [
    "DD.Props.C69_bdd",
    "DD.Props.C69_bdd_swap",
    "DD.Props.C69_mdd",
    "DD.Props.C69_mdd_swap",
    "DD.Props.C69_mtmdd",
    "DD.Props.C69_compare",
    "DD.Props.C69_vif",
    "DD.Props.C69_vite",
    "DD.Props.C69_zdd",
    "DD.Props.C69_zmdd"
   ],
   "note": "Primitive (separately memoised) operations; compositions are excluded because their first part may be evicted. The bound on the result id is the cache's own marker value."
  },
  {
   "property": "C70",
   "status": "proved",
   "theorems": [
    "DD.Props.C70_bdd",
    "DD.Props.C70_zdd",
    "DD.Props.C70_bss_bdd",
    "DD.Props.C70_bss_zdd",
    "DD.Props.C70_mdd",
    "DD.Props.C70_mss_mdd",
    "DD.Props.C70_zmdd"
   ],
   "note": "One theorem per iterator, alone and within the BSS and MSS managers."
  },
  {
   "property": "C71",
   "status": "partial",
   "theorems": [
    "DD.Props.C71_bdd_release",
    "DD.Props.C71_bdd_dev_partial",
    "DD.Props.C71_bdd_dev_low",
    "DD.Props.C71_violated",
    "DD.Props.C71_zdd",
    "DD.Props.C71_mdd_words",
    "DD.Props.C71_mdd_value_partial",
    "DD.Props.C71_mdd_bool_partial",
    "DD.Props.C71_zmdd"
   ],
   "note": "Release builds: exact residue for all four diagram kinds. Builds with overflow checks: exact for ZDD, ZMDD and MDD; for BDD the code violates the property (C71_violated), the exact condition under which a count is returned is proved, and the property holds up to 64 levels. MDD: within the scope of C38, variables with fewer than 2^32 states."
  },
  {
   "property": "C72",
   "status": "proved",
   "theorems": [
    "DD.Props.C72_dev_exact",
    "DD.Props.C72_dev_reachable",
    "DD.Props.C72_other_calls",
    "DD.Props.C72_bin",
    "DD.Props.C72_rpn_panics",
    "DD.Props.C72_in_range",
    "DD.Props.C72_engine_panics",
    "DD.Props.C72_engine_value",
    "DD.Props.C72_engine_release"
   ],
   "note": "Sessions of MddMgr with overflow checks; the wrapped results of builds without them at the level of MtMddManager."
  },
  {
   "property": "C73",
   "status": "proved",
   "theorems": [
    "DD.Props.C73_bdd",
    "DD.Props.C73_bdd_relative",
    "DD.Props.C73_mdd"
   ],
   "note": "Binary64 as the rationals m*2^e with any rounding to nearest (Core/Float.lean); that the hardware's f64 behaves so is trusted. bmeas in f64 is not treated."
  },
  {
   "property": "C74",
   "status": "proved",
   "theorems": [
    "DD.Props.C74_bdd_size",
    "DD.Props.C74_bdd_same_size",
    "DD.Props.C74_bdd_no_garbage",
    "DD.Props.C74_bdd_growth",
    "DD.Props.C74_mdd_size",
    "DD.Props.C74_mdd_same_size",
    "DD.Props.C74_mdd_no_garbage",
    "DD.Props.C74_mdd_growth"
   ],
   "note": "Managers of BDDs and of MDDs; node counts are non-terminals plus terminals as reported by size."
  },
  {
   "property": "C75",
   "status": "proved",
   "theorems": [
    "DD.Props.C75_bdd_depth",
    "DD.Props.C75_zdd_depth",
    "DD.Props.C75_mdd_depth",
    "DD.Props.C75_mtmdd_depth",
    "DD.Props.C75_zmdd_depth",
    "DD.Props.C75_ev_depth"
   ],
   "note": "The nested calls of one operation. The passes prob, count, minsol, dual and the conversions are defined with the same limit (rank + 1) and shown to return, which is not repeated here."
  },
  {
   "property": "C76",
   "status": "proved",
   "theorems": [
    "DD.Props.C76_total",
    "DD.Props.C76_not",
    "DD.Props.C76_incl_excl",
    "DD.Props.C76_independent",
    "DD.Props.C76_pivot",
    "DD.Props.C76_sensitivity",
    "DD.Props.C76_dual",
    "DD.Props.C76_range",
    "DD.Props.C76_mono",
    "DD.Props.C76_bmeas_range",
    "DD.Props.C76_count"
   ],
   "note": "Exact arithmetic (any commutative ring, ordered field for the inequalities); the binary64 error of prob is C73. bmeas_range is for monotone functions."
  },
  {
   "property": "C77",
   "status": "proved",
   "theorems": [
    "DD.Props.C77_paths",
    "DD.Props.C77_cuts",
    "DD.Props.C77_mss_paths",
    "DD.Props.C77_mss_cuts",
    "DD.Props.C77_mss_determined"
   ],
   "note": "The multi-state claims are about families returned by minpath and mincut (PathFamily, CutFamily; see C43 and C44 for when these are returned)."
  },
  {
   "property": "C78",
   "status": "proved",
   "theorems": [
    "DD.Props.C78_bdd",
    "DD.Props.C78_zdd",
    "DD.Props.C78_mdd",
    "DD.Props.C78_bss",
    "DD.Props.C78_mss",
    "DD.Props.C78_new",
    "DD.Props.C78_bill",
    "DD.Props.C78_sweep"
   ],
   "note": "C78_bill: every session that does not panic has a bill. C78_sweep: a reachable collection that starts with 9 nodes in use and goes through 24 slots, so the time of the sweep itself is not bounded this way. from_sets may collect several times within one call and is left out of the ZddMgr sessions."
  },
  {
   "property": "C79",
   "status": "proved",
   "theorems": [
    "DD.Props.C79_call",
    "DD.Props.C79_session",
    "DD.Props.C79_reader",
    "DD.Props.C79_writer",
    "DD.Props.C79_gone",
    "DD.Props.C79_gone_extract",
    "DD.Props.C79_free",
    "DD.Props.C79_mgr"
   ],
   "note": "About a table of the borrows of each call, read off the source by hand (checked line by line against it), not derived from the functional model. Not followed: handles dropped while a panic unwinds. The table covers the crates bss and mss only."
  },
  {
   "property": "C80",
   "status": "partial",
   "theorems": [
    "DD.Props.C80_bdd",
    "DD.Props.C80_bdd_session",
    "DD.Props.C80_bdd_goes_on",
    "DD.Props.C80_mdd_partial",
    "DD.Props.C80_mdd_session",
    "DD.Props.C80_mdd_goes_on_partial"
   ],
   "note": "Full for BddMgr. For MddMgr without the definition of a variable with zero states, which panics after the forest has got the variable's header and leaves that header behind. Integer overflow panics, stack overflow and running out of memory are not considered."
  },
  {
   "property": "C81",
   "status": "proved",
   "theorems": [
    "DD.Props.C81_total",
    "DD.Props.C81_complement",
    "DD.Props.C81_incl_excl",
    "DD.Props.C81_independent",
    "DD.Props.C81_pivot",
    "DD.Props.C81_sensitivity",
    "DD.Props.C81_range",
    "DD.Props.C81_mono",
    "DD.Props.C81_bmeas_range",
    "DD.Props.C81_count"
   ],
   "note": "Rows that do not add up to one are left out: prob is then a sum over paths and not a measure. The counting law is for value diagrams that are not constant, because of what C38 shows about the others."
  },
  {
   "property": "C82",
   "status": "proved",
   "theorems": [
    "DD.Props.C82_prob",
    "DD.Props.C82_bmeas",
    "DD.Props.C82_min",
    "DD.Props.C82_rpn",
    "DD.Props.C82_expr",
    "DD.Props.C82_mdd_prob",
    "DD.Props.C82_mdd_bmeas",
    "DD.Props.C82_mdd_rpn",
    "DD.Props.C82_mss"
   ],
   "note": "Exact arithmetic. Counts are left out: bdd_count and mdd_count count up to the top variable and so do depend on the order (C14, C38). For multi-state tables whose rows do not add up to one prob depends on which variables the paths visit, hence on the order, and is left out. MssMgr::minpath and mincut for variables of at least two states (C43)."
  },
  {
   "property": "C83",
   "status": "proved",
   "theorems": [
    "DD.Props.C83_bdd_size",
    "DD.Props.C83_kofn",
    "DD.Props.C83_mdd_size",
    "DD.Props.C83_zdd_size"
   ],
   "note": "Sizes of nodes held by handles; ZMDD handles have no size call."
  },
  {
   "property": "C84",
   "status": "proved",
   "theorems": [
    "DD.Props.C84_prob",
    "DD.Props.C84_kofn",
    "DD.Props.C84_min",
    "DD.Props.C84_kofn_prob",
    "DD.Props.C84_kofn_binomial",
    "DD.Props.C84_kofn_bmeas"
   ],
   "note": "Exact arithmetic; counts are unbounded natural numbers."
  },
  {
   "property": "C85",
   "status": "proved",
   "theorems": [
    "DD.Props.C85_sat",
    "DD.Props.C85_equiv",
    "DD.Props.C85_implies",
    "DD.Props.C85_mdd_equiv"
   ],
   "note": "Expressions with the MDD operator <= have no value in all states (it fails in the code, C35), so they do not meet the hypotheses."
  },
  {
   "property": "C86",
   "status": "proved",
   "theorems": [
    "DD.Props.C86_identities",
    "DD.Props.C86_semiring",
    "DD.Props.C86_intersection",
    "DD.Props.C86_count_union",
    "DD.Props.C86_count_product",
    "DD.Props.C86_roundtrip"
   ],
   "note": "Counts are unbounded natural numbers (C71 treats u64). Families are those of Denotes: no undetermined part."
  },
  {
   "property": "C87",
   "status": "proved",
   "theorems": [
    "DD.Props.C87_top",
    "DD.Props.C87_children",
    "DD.Props.C87_recompose",
    "DD.Props.C87_walk",
    "DD.Props.C87_mdd_children",
    "DD.Props.C87_mdd_recompose",
    "DD.Props.C87_mdd_walk",
    "DD.Props.C87_zdd_children",
    "DD.Props.C87_zdd_recompose"
   ],
   "note": "ZDD families are those of Denotes (no undetermined part)."
  },
  {
   "property": "C88",
   "status": "proved",
   "theorems": [
    "DD.Props.C88_expect",
    "DD.Props.C88_linear",
    "DD.Props.C88_product",
    "DD.Props.C88_min_max",
    "DD.Props.C88_series",
    "DD.Props.C88_parallel",
    "DD.Props.C88_tail",
    "DD.Props.C88_mono"
   ],
   "note": "Exact arithmetic; the table has a row for every variable of the manager. For f64 see C73."
  },
  {
   "property": "C89",
   "status": "proved",
   "theorems": [
    "DD.Props.C89_paths_and",
    "DD.Props.C89_paths_or",
    "DD.Props.C89_cuts_or",
    "DD.Props.C89_cuts_and"
   ],
   "note": "Equality of families, not of handles: families converted from BDDs in separate calls may have separate headers, so eq of a BssMgr's ZDD handles is only sound, not complete."
  },
  {
   "property": "C90",
   "status": "proved",
   "theorems": [
    "DD.Props.C90_eq_sound",
    "DD.Props.C90_is_zero",
    "DD.Props.C90_is_one",
    "DD.Props.C90_same",
    "DD.Props.C90_eq_incomplete"
   ],
   "note": "In a ZddMgr used alone eq is complete (C24); in a BssMgr it is not, because each conversion makes headers of its own."
  },
  {
   "property": "C91",
   "status": "proved",
   "theorems": [
    "DD.Props.C91_paths",
    "DD.Props.C91_cuts"
   ],
   "note": "Exact arithmetic; C73 bounds the f64 error of prob."
  },
  {
   "property": "C92",
   "status": "proved",
   "theorems": [
    "DD.Props.C92_relevant",
    "DD.Props.C92_bmeas",
    "DD.Props.C92_structural",
    "DD.Props.C92_positive"
   ],
   "note": "MinPathsN and MinCutsN are the families that minpath and mincut return (C82_min)."
  }
 ]
}
