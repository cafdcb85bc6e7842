{
 "claims": [
  {
   "property": "C01",
   "status": "proved",
   "theorems": [
    "Rowan.C01_lossless",
    "Rowan.C01_child_offsets"
   ],
   "note": ""
  },
  {
   "property": "C02",
   "status": "proved",
   "theorems": [
    "Rowan.C02_replace_child",
    "Rowan.C02_insert_child",
    "Rowan.C02_remove_child",
    "Rowan.C02_splice_children",
    "Rowan.C02_lengths_exact"
   ],
   "note": ""
  },
  {
   "property": "C03",
   "status": "proved",
   "theorems": [
    "Rowan.C03_structural_eq",
    "Rowan.C03_structural_eq_token",
    "Rowan.C03_eq_hash"
   ],
   "note": ""
  },
  {
   "property": "C04",
   "status": "proved",
   "theorems": [
    "Rowan.C04_exact_below",
    "Rowan.C04_checked_rejects",
    "Rowan.C04_wrapping_is_wrong"
   ],
   "note": "Both build modes of u32 addition; TextSize::of conversion panics modelled."
  },
  {
   "property": "C05",
   "status": "proved",
   "theorems": [
    "Rowan.C05_round_trip",
    "Rowan.C05_runs_exist"
   ],
   "note": ""
  },
  {
   "property": "C06",
   "status": "proved",
   "theorems": [
    "Rowan.C06_wrap",
    "Rowan.C06_panics_exactly"
   ],
   "note": ""
  },
  {
   "property": "C07",
   "status": "proved",
   "theorems": [
    "Rowan.C07_transparent",
    "Rowan.C07_results_wellformed",
    "Rowan.C07_runs_exist"
   ],
   "note": ""
  },
  {
   "property": "C08",
   "status": "proved",
   "theorems": [
    "Rowan.C08_shared",
    "Rowan.C08_tokens",
    "Rowan.C08_small_trees"
   ],
   "note": ""
  },
  {
   "property": "C09",
   "status": "proved",
   "theorems": [
    "Rowan.C09_panics"
   ],
   "note": ""
  },
  {
   "property": "C10",
   "status": "partial",
   "theorems": [
    "Rowan.C10_counterexample",
    "Rowan.C10_finish_exact_partial"
   ],
   "note": "The property is false of the code: an open node is silently dropped by finish (counterexample proved). The exact acceptance condition of finish is proved."
  },
  {
   "property": "C11",
   "status": "proved",
   "theorems": [
    "Rowan.C11_ranges",
    "Rowan.C11_contents",
    "Rowan.C11_handles_are_positions"
   ],
   "note": ""
  },
  {
   "property": "C12",
   "status": "proved",
   "theorems": [
    "Rowan.C12_parent",
    "Rowan.C12_index",
    "Rowan.C12_children",
    "Rowan.C12_siblings",
    "Rowan.C12_node_siblings",
    "Rowan.C12_token_siblings"
   ],
   "note": ""
  },
  {
   "property": "C13",
   "status": "proved",
   "theorems": [
    "Rowan.C13_in_place",
    "Rowan.C13_children",
    "Rowan.C13_by_kind"
   ],
   "note": ""
  },
  {
   "property": "C14",
   "status": "proved",
   "theorems": [
    "Rowan.C14_preorder_with_tokens",
    "Rowan.C14_preorder",
    "Rowan.C14_walk_meaning",
    "Rowan.C14_descendants"
   ],
   "note": ""
  },
  {
   "property": "C15",
   "status": "proved",
   "theorems": [
    "Rowan.C15_skip_with_tokens",
    "Rowan.C15_skip",
    "Rowan.C15_early_skip_panics"
   ],
   "note": "Also proved: skip_subtree before the first next on a root panics."
  },
  {
   "property": "C16",
   "status": "proved",
   "theorems": [
    "Rowan.C16_ancestors",
    "Rowan.C16_token_ancestors",
    "Rowan.C16_siblings_with_tokens",
    "Rowan.C16_siblings"
   ],
   "note": ""
  },
  {
   "property": "C17",
   "status": "proved",
   "theorems": [
    "Rowan.C17_token_at_offset"
   ],
   "note": ""
  },
  {
   "property": "C18",
   "status": "proved",
   "theorems": [
    "Rowan.C18_covering_element"
   ],
   "note": ""
  },
  {
   "property": "C19",
   "status": "proved",
   "theorems": [
    "Rowan.C19_child_at_range",
    "Rowan.C19_std_search"
   ],
   "note": "Parametrised by any binary search that meets the documented contract; the standard library's loop is shown to meet it."
  },
  {
   "property": "C20",
   "status": "partial",
   "theorems": [
    "Rowan.C20_counterexample",
    "Rowan.C20_exact_partial",
    "Rowan.C20_node_exact_partial",
    "Rowan.C20_first_last_partial",
    "Rowan.C20_sound_partial",
    "Rowan.C20_right_iff_partial"
   ],
   "note": "False of the code for trees with childless nodes (counterexample proved); proved exactly for trees in which every node has a child, and the exact result is characterised for all trees, with the exact condition for it to be right (C20_right_iff_partial: no childless node before the first or after the last token)."
  },
  {
   "property": "C21",
   "status": "partial",
   "theorems": [
    "Rowan.C21_counterexample",
    "Rowan.C21_next_prev_partial",
    "Rowan.C21_sound_partial",
    "Rowan.C21_exact_partial",
    "Rowan.C21_right_iff_partial",
    "Rowan.C21_inverse_partial"
   ],
   "note": "False of the code for trees with childless nodes (counterexample proved); proved for trees in which every node has a child. For all trees the exact result is proved, and exactly when it is the right one (C21_right_iff_partial)."
  },
  {
   "property": "C22",
   "status": "proved",
   "theorems": [
    "Rowan.C22_replace_node",
    "Rowan.C22_replace_token",
    "Rowan.C22_substitution_meaning",
    "Rowan.C22_sharing"
   ],
   "note": ""
  },
  {
   "property": "C23",
   "status": "proved",
   "theorems": [
    "Rowan.C23_clone_subtree",
    "Rowan.C23_clone_for_update"
   ],
   "note": ""
  },
  {
   "property": "C24",
   "status": "proved",
   "theorems": [
    "Rowan.C24_identity",
    "Rowan.C24_equivalence",
    "Rowan.C24_empty_counterexample",
    "Rowan.C24_builder_trees_coherent"
   ],
   "note": "Identity of handles is exact for elements with non-empty text; two empty siblings sharing one green object compare equal (proved)."
  },
  {
   "property": "C25",
   "status": "proved",
   "theorems": [
    "Rowan.C25_dump",
    "Rowan.C25_token",
    "Rowan.C25_node"
   ],
   "note": ""
  },
  {
   "property": "C26",
   "status": "proved",
   "theorems": [
    "Rowan.C26_to_string",
    "Rowan.C26_chunks",
    "Rowan.C26_len",
    "Rowan.C26_node_text"
   ],
   "note": ""
  },
  {
   "property": "C27",
   "status": "proved",
   "theorems": [
    "Rowan.C27_slice",
    "Rowan.C27_forms",
    "Rowan.C27_compose",
    "Rowan.C27_wrapping"
   ],
   "note": ""
  },
  {
   "property": "C28",
   "status": "proved",
   "theorems": [
    "Rowan.C28_contains_char",
    "Rowan.C28_find_char",
    "Rowan.C28_char_at"
   ],
   "note": ""
  },
  {
   "property": "C29",
   "status": "proved",
   "theorems": [
    "Rowan.C29_eq_str",
    "Rowan.C29_eq"
   ],
   "note": ""
  },
  {
   "property": "C30",
   "status": "partial",
   "theorems": [
    "Rowan.C30_resolve",
    "Rowan.C30_round_trip_partial",
    "Rowan.C30_mutable_panics",
    "Rowan.C30_empty_counterexample",
    "Rowan.C30_exact_partial",
    "Rowan.C30_round_trip_iff_partial"
   ],
   "note": "False of the code for nodes with empty text (counterexample proved); proved for every node with non-empty text. For all nodes, also empty ones, it is proved exactly which pointers resolve (C30_exact_partial, C30_round_trip_iff_partial)."
  },
  {
   "property": "C31",
   "status": "proved",
   "theorems": [
    "Rowan.C31_children",
    "Rowan.C31_token",
    "Rowan.C31_cast_ptr",
    "Rowan.C31_ptr_resolution",
    "Rowan.C31_ptr_round_trip_partial",
    "Rowan.C31_clone"
   ],
   "note": ""
  },
  {
   "property": "C32",
   "status": "proved",
   "theorems": [
    "Rowan.C32_heap",
    "Rowan.C32_sorted_ring",
    "Rowan.C32_insert",
    "Rowan.C32_link_finds",
    "Rowan.C32_unlink",
    "Rowan.C32_adjust"
   ],
   "note": ""
  },
  {
   "property": "C33",
   "status": "proved",
   "theorems": [
    "Rowan.C33_detach",
    "Rowan.C33_detach_root",
    "Rowan.C33_detach_immutable"
   ],
   "note": "For every reachable state of a program over the cursor API."
  },
  {
   "property": "C34",
   "status": "partial",
   "theorems": [
    "Rowan.C34_splice",
    "Rowan.C34_partial",
    "Rowan.C34_leaves_children"
   ],
   "note": "False of the code: only the first child of the range is deleted (proved, with a concrete case). The exact behaviour is proved for all ranges; the property itself for ranges of length 0 and 1."
  },
  {
   "property": "C35",
   "status": "partial",
   "theorems": [
    "Rowan.C35_detach_loop",
    "Rowan.C35_loop_leaves_children",
    "Rowan.C35_partial",
    "Rowan.C35_by_kind"
   ],
   "note": "False of the code: the loop stops after the first detached child (proved, with a concrete case). It holds if the loop is about at most one child, and for the by_kind iterators."
  },
  {
   "property": "C36",
   "status": "proved",
   "theorems": [
    "Rowan.C36_view",
    "Rowan.C36_reads",
    "Rowan.C36_step",
    "Rowan.C36_kind",
    "Rowan.C36_content"
   ],
   "note": "index() of the top element of a tree keeps the old index of a detached element (example)."
  },
  {
   "property": "C37",
   "status": "proved",
   "theorems": [
    "Rowan.C37_mutability",
    "Rowan.C37_immutable",
    "Rowan.C37_immutable_reads",
    "Rowan.C37_same_tree",
    "Rowan.C37_green",
    "Rowan.C37_splice_immutable",
    "Rowan.C37_not_mixed",
    "Rowan.C37_clone_for_update"
   ],
   "note": "Green data are values with an address in the model: nothing in the code writes to one after construction. Detaching an immutable element: C33_detach_immutable."
  },
  {
   "property": "C38",
   "status": "partial",
   "theorems": [
    "Rowan.C38_partial",
    "Rowan.C38_after_panic",
    "Rowan.C38_no_stray",
    "Rowan.C38_drop_after_panic",
    "Rowan.C38_counts",
    "Rowan.C38_live",
    "Rowan.C38_green",
    "Rowan.C38_owned",
    "Rowan.C38_fails",
    "Rowan.C38_wide_fails",
    "Rowan.C38_overflow_fails"
   ],
   "note": "False of the code: after a caught index-out-of-range panic of splice_children a remaining handle on the moved element has dangling green data (C38_fails), and with an index of 2^32 or more, which is cut to 32 bits, the siblings are renumbered although nothing is inserted, so later edits free green data in use (C38_wide_fails). In builds with overflow checks, a caught overflow panic of an insertion that makes a text 2^32 bytes long has the effect of the first (C38_overflow_fails). Proved for all other histories. C38_after_panic says exactly what the remaining ones look like: an element that could not be inserted is left behind, and a handle leads to it. Dropping handles is still safe there (C38_drop_after_panic)."
  },
  {
   "property": "C39",
   "status": "partial",
   "theorems": [
    "Rowan.C39_needed",
    "Rowan.C39_partial",
    "Rowan.C39_drop_all",
    "Rowan.C39_fails",
    "Rowan.C39_cycle_leaks"
   ],
   "note": "False of the code: to_next_sibling[_or_token] on the only handle of an immutable root leaks the tree (C39_fails), and a cycle left behind by a panic of splice_children is never freed (C39_cycle_leaks). Proved for all histories of HReach without lost handles."
  },
  {
   "property": "C40",
   "status": "partial",
   "theorems": [
    "Rowan.C40_cyclic_never_returns",
    "Rowan.C40_cyclic_panics",
    "Rowan.C40_cyclic_fails",
    "Rowan.C40_others_return"
   ],
   "note": "False of the code: attaching an element below itself is not rejected but never returns, or panics and leaves a cycle if the index is too large (proved). All other calls return or panic."
  },
  {
   "property": "C41",
   "status": "proved",
   "theorems": [
    "Rowan.C41_freed_once",
    "Rowan.C41_last_drop",
    "Rowan.C41_progress",
    "Rowan.C41_unique",
    "Rowan.C41_fresh_get_mut"
   ],
   "note": "All interleavings, any number of threads, under release/acquire memory semantics with stale reads; fewer than 2^63 threads."
  },
  {
   "property": "C42",
   "status": "proved",
   "theorems": [
    "Rowan.C42_no_wrap",
    "Rowan.C42_drop",
    "Rowan.C42_cursor",
    "Rowan.C42_cursor_clone",
    "Rowan.C42_handles",
    "Rowan.C42_room",
    "Rowan.C42_no_abort"
   ],
   "note": "Arc counter: all interleavings; cursor counter: every reachable state; a cursor counter never exceeds the number of handles the program holds (or leaked), so a call cannot abort while fewer than 2^32-1 minus the cost of the call are held."
  },
  {
   "property": "C43",
   "status": "proved",
   "theorems": [
    "Rowan.C43_layout",
    "Rowan.C43_bounds"
   ],
   "note": ""
  },
  {
   "property": "C44",
   "status": "proved",
   "theorems": [
    "Rowan.C44_accepts",
    "Rowan.C44_safe",
    "Rowan.C44_contents"
   ],
   "note": ""
  },
  {
   "property": "C45",
   "status": "proved",
   "theorems": [
    "Rowan.C45_token_at_offset"
   ],
   "note": ""
  },
  {
   "property": "C46",
   "status": "proved",
   "theorems": [
    "Rowan.C46_serialize",
    "Rowan.C46_faithful"
   ],
   "note": ""
  },
  {
   "property": "C47",
   "status": "partial",
   "theorems": [
    "Rowan.C47_counterexample",
    "Rowan.C47_exact_partial",
    "Rowan.C47_nodes_exact_partial"
   ],
   "note": "The property is false of the code (counterexample proved); the exact behaviour is proved."
  },
  {
   "property": "C48",
   "status": "proved",
   "theorems": [
    "Rowan.C48_display"
   ],
   "note": ""
  },
  {
   "property": "C49",
   "status": "proved",
   "theorems": [
    "Rowan.C49_reading",
    "Rowan.C49_no_abort",
    "Rowan.C49_only_the_tree",
    "Rowan.C49_denotes",
    "Rowan.C49_place",
    "Rowan.C49_start",
    "Rowan.C49_start_one",
    "Rowan.C49_unwind",
    "Rowan.C49_unwind_frees"
   ],
   "note": "The only exception is the abort when a reference count would overflow, for which at least 2^32-3 handles must exist at once."
  },
  {
   "property": "C50",
   "status": "proved",
   "theorems": [
    "Rowan.C50_children",
    "Rowan.C50_ancestors",
    "Rowan.C50_siblings_with_tokens",
    "Rowan.C50_siblings",
    "Rowan.C50_by_kind",
    "Rowan.C50_cast_children",
    "Rowan.C50_preorder",
    "Rowan.C50_first_last_token",
    "Rowan.C50_next_prev_token",
    "Rowan.C50_token_at_offset",
    "Rowan.C50_covering_element",
    "Rowan.C50_child_at_range",
    "Rowan.C50_try_to_node",
    "Rowan.C50_text_chunks",
    "Rowan.C50_replace_with",
    "Rowan.C50_replace_token_with"
   ],
   "note": "Up to the abort at 2^32-3 handles. first/last/next/prev token: as the code is (see C20, C21)."
  },
  {
   "property": "C51",
   "status": "proved",
   "theorems": [
    "Rowan.GMem.C51_safe",
    "Rowan.GMem.C51_ub_iff",
    "Rowan.GMem.C51_exact",
    "Rowan.GMem.C51_freed_iff",
    "Rowan.GMem.C51_all_freed",
    "Rowan.GMem.C51_destructors_end",
    "Rowan.GMem.C51_immutable",
    "Rowan.GMem.C51_at",
    "Rowan.GMem.C51_holds_tree",
    "Rowan.GMem.C51_new_token",
    "Rowan.GMem.C51_new_node",
    "Rowan.GMem.C51_clone"
   ],
   "note": "Steps are interleaved atomically (with the memory orderings of the code: C65); the depth of nested destructors on the machine stack is not modelled."
  },
  {
   "property": "C52",
   "status": "proved",
   "theorems": [
    "Rowan.C52_kind",
    "Rowan.C52_by_kind",
    "Rowan.C52_children_by_kind",
    "Rowan.C52_element_ancestors",
    "Rowan.C52_pointer_confusion"
   ],
   "note": "kind_from_raw is an arbitrary total function. Pointers: C30, C31, which are stated with typed kinds."
  },
  {
   "property": "C53",
   "status": "proved",
   "theorems": [
    "Rowan.C53_token",
    "Rowan.C53_token_eq",
    "Rowan.C53_node_accepts",
    "Rowan.C53_node",
    "Rowan.C53_node_safe",
    "Rowan.C53_children",
    "Rowan.C53_children_consume"
   ],
   "note": "Text lengths are unbounded numbers here (the 32-bit side is C04); std::slice::Iter and UTF-8 decoding are modelled from their documentation."
  },
  {
   "property": "C54",
   "status": "proved",
   "theorems": [
    "Rowan.C54_token",
    "Rowan.C54_node",
    "Rowan.C54_mutable",
    "Rowan.C54_mutable_needed"
   ],
   "note": "Histories are those of HReach (see C38 for what is left out)."
  },
  {
   "property": "C55",
   "status": "proved",
   "theorems": [
    "Rowan.C55_reach",
    "Rowan.C55_content",
    "Rowan.C55_progress",
    "Rowan.C55_list"
   ],
   "note": "Which children are deleted: as the code is (see C34). Histories are those of HReach (see C38 for what is left out)."
  },
  {
   "property": "C56",
   "status": "proved",
   "theorems": [
    "Rowan.C56_ranges",
    "Rowan.C56_positions",
    "Rowan.C56_texts"
   ],
   "note": "The results with exact arithmetic are those of C11, C17-C19 and C26-C29. Lengths and relative offsets stored in green nodes: C04."
  },
  {
   "property": "C57",
   "status": "proved",
   "theorems": [
    "Rowan.C57_total",
    "Rowan.C57_edits",
    "Rowan.C57_safe",
    "Rowan.C57_overflow",
    "Rowan.C57_case"
   ],
   "note": "Proved for texts that are together shorter than 2^32 bytes (C57_edits, C57_safe) for calls that do not insert an element below itself; what happens beyond: C57_overflow, C38_overflow_fails."
  },
  {
   "property": "C58",
   "status": "proved",
   "theorems": [
    "Rowan.SExpr.C58_lex",
    "Rowan.SExpr.C58_parse",
    "Rowan.SExpr.C58_text",
    "Rowan.SExpr.C58_unique",
    "Rowan.SExpr.C58_runs_exist"
   ],
   "note": "The crate m_lexer is not in the repository and is modelled from its documentation. The depth of the machine stack (recursion for nested lists) is not modelled."
  },
  {
   "property": "C59",
   "status": "proved",
   "theorems": [
    "Rowan.Math.C59_parse",
    "Rowan.Math.C59_unique",
    "Rowan.Math.C59_precedence",
    "Rowan.Math.C59_lossless_fails",
    "Rowan.Math.C59_runs_exist"
   ],
   "note": "The iterator of tokens is finite. C59_lossless_fails is the counterexample to losslessness, which the property does not claim."
  },
  {
   "property": "C60",
   "status": "proved",
   "theorems": [
    "Rowan.SExpr.C60_eval",
    "Rowan.SExpr.C60_file",
    "Rowan.SExpr.C60_text",
    "Rowan.SExpr.C60_unique",
    "Rowan.SExpr.C60_unique_file",
    "Rowan.SExpr.C60_value",
    "Rowan.SExpr.C60_checked",
    "Rowan.SExpr.C60_some",
    "Rowan.SExpr.C60_range",
    "Rowan.SExpr.C60_panic",
    "Rowan.SExpr.C60_min",
    "Rowan.SExpr.C60_heap",
    "Rowan.SExpr.C60_main",
    "Rowan.SExpr.C60_main_heap"
   ],
   "note": "As everywhere on the heap, the abort at 2^32 - 1 handles of one object is the only other outcome. C60_min is the counterexample to the absence of panics, which the property does not claim."
  },
  {
   "property": "C61",
   "status": "proved",
   "theorems": [
    "Rowan.C61_init",
    "Rowan.C61_start",
    "Rowan.C61_run",
    "Rowan.C61_no_abort",
    "Rowan.C61_unwind",
    "Rowan.C61_unwind_frees",
    "Rowan.C61_only_the_forest",
    "Rowan.C61_immutable",
    "Rowan.C61_move_back"
   ],
   "note": "splice_children on the forest deletes only the first element of its range, as the code does (C34). Nothing is said about programs that catch a panic that left an element in no tree and go on; C38 shows that this can be undefined behaviour. Nothing is said about programs that compare two different elements of equal content and range: whether they are equal depends on shared green nodes."
  },
  {
   "property": "C62",
   "status": "proved",
   "theorems": [
    "Rowan.C62_dump_iff",
    "Rowan.C62_dump",
    "Rowan.C62_long_tokens"
   ],
   "note": "C62_long_tokens is the counterexample for tokens of 25 bytes and more. The Debug output of kinds, ranges and strings is a parameter; rustEnv shows that the assumptions can be met (its escapes of strings are a part of those of Rust)."
  },
  {
   "property": "C63",
   "status": "proved",
   "theorems": [
    "Rowan.Math.C63_print",
    "Rowan.Math.C63_unique",
    "Rowan.Math.C63_injective",
    "Rowan.Math.C63_parse",
    "Rowan.Math.C63_main",
    "Rowan.Math.C63_unknown"
   ],
   "note": "print takes its argument by value: the theorems call it with a clone. Lines printed before a panic are not modelled. As everywhere on the heap, the abort at 2^32 - 1 handles of one object is the only other outcome."
  },
  {
   "property": "C64",
   "status": "partial",
   "theorems": [
    "Rowan.C64_children_partial",
    "Rowan.C64_siblings_partial",
    "Rowan.C64_pure_children",
    "Rowan.C64_pure_siblings",
    "Rowan.C64_fails",
    "Rowan.C64_stale"
   ],
   "note": "False of the code, see C64_fails (use after free during the search) and C64_stale (a handle of a child that is gone, and a use after free later). Proved for immutable nodes with any closure and for mutable nodes with closures that do not edit at or below the searched node (they may edit other places of the same tree, other trees, and move the node). Missing: closures that edit the searched node, where it fails. Panics of the closure end the search and are not a case of the model."
  },
  {
   "property": "C65",
   "status": "proved",
   "theorems": [
    "Rowan.GWeak.C65_race_free",
    "Rowan.GWeak.C65_happens_before",
    "Rowan.GWeak.C65_load",
    "Rowan.GWeak.C65_same",
    "Rowan.GWeak.C65_release_needed",
    "Rowan.GWeak.C65_acquire_needed"
   ],
   "note": "Release/acquire fragment of C11 in its view-based operational form. References move between threads by synchronising steps (lend, giveBack); Rust's Send/Sync rules and the standard library guarantee that. The uniqueness check in GreenNode::new is part of the step that makes the node."
  },
  {
   "property": "C66",
   "status": "partial",
   "theorems": [
    "Rowan.C66_search",
    "Rowan.C66_child_at_range_partial",
    "Rowan.C66_covering_element_partial",
    "Rowan.C66_try_to_node_partial",
    "Rowan.C66_replace_partial",
    "Rowan.C66_replace_token_partial",
    "Rowan.C66_replace_bound",
    "Rowan.C66_replace_not_proportional",
    "Rowan.C66_link_rounds",
    "Rowan.C66_link_not_logarithmic"
   ],
   "note": "Proved for the searches on immutable trees, for every search function that conforms to the contract of binary_search_by and makes at most m+1 comparisons among 2^m elements; the one of the standard library does. Two parts are false of the code. replace_with makes one green node per level, but copies all siblings on each level (C66_replace_not_proportional: depth 1, more copies than any bound). In mutable trees making a handle searches the ring of the siblings that have objects, one round per later sibling (C66_link_rounds, C66_link_not_logarithmic); the ring of the latter is a heap state given directly, not one shown to be reached by a program. Steps are comparisons, rounds, handles made, nodes made and children copied; the cost of a step is not modelled."
  },
  {
   "property": "C67",
   "status": "proved",
   "theorems": [
    "Rowan.C67_feed",
    "Rowan.C67_prefix",
    "Rowan.C67_token",
    "Rowan.C67_node",
    "Rowan.C67_green",
    "Rowan.C67_text",
    "Rowan.C67_text_debug",
    "Rowan.C67_debug",
    "Rowan.C67_dump",
    "Rowan.C67_serialize"
   ],
   "note": "A sink is any function that answers a call with success or an error and a new state. C67_feed and C67_prefix say what feeding a sink means."
  },
  {
   "property": "C68",
   "status": "partial",
   "theorems": [
    "Rowan.C68_token",
    "Rowan.C68_node_partial",
    "Rowan.C68_text_partial",
    "Rowan.C68_node_fails",
    "Rowan.C68_text_fails",
    "Rowan.C68_green_fails"
   ],
   "note": "True of tokens. False of nodes and texts: the formatter is passed on with its options to every token or chunk, so each is padded or cut by itself; false of green nodes and tokens, which ignore the options (counterexamples proved). Proved for nodes: the exact output, which is right for one token or without width and precision; for texts: right without width and precision, and C67_text gives the exact output."
  },
  {
   "property": "C69",
   "status": "proved",
   "theorems": [
    "Rowan.C69_new",
    "Rowan.C69_next",
    "Rowan.C69_end",
    "Rowan.C69_skip",
    "Rowan.C69_skip_panics",
    "Rowan.C69_immutable",
    "Rowan.C69_undisturbed",
    "Rowan.C69_prune",
    "Rowan.C69_prune_clean",
    "Rowan.C69_clear",
    "Rowan.C69_enter_loses"
   ],
   "note": "Programs on the heap of C61; trees and positions are those of the forest for which the heap stands. The loops carry a bound on the number of rounds; C69_prune and C69_clear hold for every sufficient bound."
  },
  {
   "property": "C70",
   "status": "proved",
   "theorems": [
    "Rowan.C70_order",
    "Rowan.C70_unobservable",
    "Rowan.C70_refused",
    "Rowan.C70_result",
    "Rowan.C70_children"
   ],
   "note": "Programs on the heap of C61; trees and positions are those of the forest for which the heap stands. Numbers of trees are names and are not observable. Complements C35, where elements are detached while the iterator runs."
  },
  {
   "property": "C71",
   "status": "proved",
   "theorems": [
    "Rowan.C71_reach",
    "Rowan.C71_contents",
    "Rowan.C71_node_navigation",
    "Rowan.C71_node_iterators",
    "Rowan.C71_token_navigation",
    "Rowan.C71_element_navigation",
    "Rowan.C71_walks",
    "Rowan.C71_lookups",
    "Rowan.C71_handles_are_positions",
    "Rowan.C71_copies",
    "Rowan.C71_replace",
    "Rowan.C71_conversions",
    "Rowan.C71_equality"
   ],
   "note": "Trees that are not edited in between; detach and splice_children are on the heap (C33, C34, C61). first_token, last_token, next_token and prev_token are stated as in C20 and C21: what they return exactly, which is not always what their documentation says."
  },
  {
   "property": "C72",
   "status": "proved",
   "theorems": [
    "Rowan.C72_detach_first",
    "Rowan.C72_delete_first",
    "Rowan.C72_one_by_one",
    "Rowan.C72_put_back",
    "Rowan.C72_stay",
    "Rowan.C72_detour",
    "Rowan.C72_move_twice",
    "Rowan.C72_there_and_back",
    "Rowan.C72_detach_twice",
    "Rowan.C72_assemble",
    "Rowan.C72_same_node",
    "Rowan.C72_unobservable",
    "Rowan.C72_only_the_first"
   ],
   "note": "Exceptions: a reference count near u32::MAX (abort), excluded by a bound on the number of handles. A call that takes a handle by value uses it up; the shorter program drops it."
  },
  {
   "property": "C73",
   "status": "proved",
   "theorems": [
    "Rowan.C73_run",
    "Rowan.C73_heap",
    "Rowan.C73_returns",
    "Rowan.C73_independent",
    "Rowan.C73_after"
   ],
   "note": "Exceptions: a reference count near u32::MAX (abort); the comparison with == of equal elements at the same offset (wild, C24). That the program does not use the other handles is said by its run without them, which is not a misuse. C73_after numbers the new handles alike in both runs."
  },
  {
   "property": "C74",
   "status": "proved",
   "theorems": [
    "Rowan.C74_before",
    "Rowan.C74_after",
    "Rowan.C74_inside",
    "Rowan.C74_replace_with",
    "Rowan.C74_replace_token",
    "Rowan.C74_empty_counterexample"
   ],
   "note": "The first three are about any substitution of an element in an immutable tree, the next two about replace_with of nodes and tokens. The counterexample shows that the condition on the replacement is needed."
  },
  {
   "property": "C75",
   "status": "proved",
   "theorems": [
    "Rowan.GMem.C75_path",
    "Rowan.GMem.C75_bound",
    "Rowan.GMem.C75_drop",
    "Rowan.GMem.C75_attained",
    "Rowan.GMem.C75_unbounded"
   ],
   "note": "A frame of the stack is a running destructor of an allocation; the size of a frame in bytes and the stack of the caller are not modelled."
  },
  {
   "property": "C76",
   "status": "proved",
   "theorems": [
    "Rowan.C76_before",
    "Rowan.C76_after",
    "Rowan.C76_inside",
    "Rowan.C76_splice_children",
    "Rowan.C76_insert_child",
    "Rowan.C76_remove_child",
    "Rowan.C76_remove_counterexample"
   ],
   "note": "Over immutable trees; C76_before, C76_after and C76_inside speak of any two trees that differ by such a change, C76_splice_children, C76_insert_child and C76_remove_child of those the API makes. C76_remove_counterexample shows that the condition on removals is needed."
  },
  {
   "property": "C77",
   "status": "proved",
   "theorems": [
    "Rowan.C77_plain",
    "Rowan.C77_once",
    "Rowan.C77_growth",
    "Rowan.C77_linear",
    "Rowan.C77_quadratic",
    "Rowan.C77_hashbrown",
    "Rowan.C77_chain",
    "Rowan.C77_chain_exists",
    "Rowan.C77_not_linear"
   ],
   "note": "A step is the hash of one element, whatever the length of its text; comparisons with entries of equal hash are not counted. When the tables of hashbrown grow (stdGrow) is written from memory of version 0.15 (capacities 3, 7, 14, 28, ...) and not checked against its source, which is not in the repository; C77_linear holds for any growth rule that at least doubles."
  },
  {
   "property": "C78",
   "status": "proved",
   "theorems": [
    "Rowan.C78_plain",
    "Rowan.C78_one",
    "Rowan.C78_children",
    "Rowan.C78_skip",
    "Rowan.C78_preorder"
   ],
   "note": "A step is one child slot looked at by find_map; skipping the first elements of a slice iterator is constant time in std and not counted. Trees that are not edited meanwhile. Handles created and dropped on the way are not counted."
  },
  {
   "property": "C79",
   "status": "proved",
   "theorems": [
    "Rowan.C79_nest",
    "Rowan.C79_laminar",
    "Rowan.C79_children",
    "Rowan.C79_siblings",
    "Rowan.C79_order",
    "Rowan.C79_tokens"
   ],
   "note": "On trees that are not edited meanwhile. C79_order and C79_tokens assume that an address holds one object (Coherent), as C14 does."
  },
  {
   "property": "C80",
   "status": "proved",
   "theorems": [
    "Rowan.PMem.C80_safe",
    "Rowan.PMem.C80_exact",
    "Rowan.PMem.C80_no_panic",
    "Rowan.PMem.C80_leak",
    "Rowan.PMem.C80_contents",
    "Rowan.PMem.C80_innermost",
    "Rowan.PMem.C80_start",
    "Rowan.PMem.C80_stop",
    "Rowan.PMem.C80_yield",
    "Rowan.PMem.C80_returned",
    "Rowan.PMem.C80_panicked",
    "Rowan.PMem.C80_panic_leaks"
   ],
   "note": "Sequentially consistent interleaving, as C51. The buffer becomes an allocation of the model when the construction ends; an abandoned buffer has the elements written so far and a reference that belongs to nobody. C80_panic_leaks shows that the leak is real. The text length of a debug build, which can overflow in the closure of GreenNode::new, counts as a panic of the iterator."
  },
  {
   "property": "C81",
   "status": "proved",
   "theorems": [
    "Rowan.C81_detach",
    "Rowan.C81_insert"
   ],
   "note": "Heap model. detach: the text of the tree is pre ++ text of the element ++ suf before and pre ++ suf after; insertion (splice_children with an empty range and one detached tree): pre ++ suf before and pre ++ text ++ suf after, with the place given by the start of the node and the texts of its first children. Ranges of every live handle before and after, by position relative to the edit. Insertion assumes that the program's memory is not exhausted and that the tree to insert is not the one it is put into (C40)."
  },
  {
   "property": "C82",
   "status": "partial",
   "theorems": [
    "Rowan.C82_partial",
    "Rowan.C82_to_string",
    "Rowan.C82_fails",
    "Rowan.C82_wrong"
   ],
   "note": "FALSE of the code as stated: C82_fails (to_string panics) and C82_wrong (part of the text, wrong len) give reachable states. Exact behaviour for every kept range and every reachable state: C82_to_string. C82_partial: the full claim while the range of the node is the one that was kept; by C81 that is the case after edits behind the node and in other trees. Comparison of two such texts (==) is C84."
  },
  {
   "property": "C83",
   "status": "proved",
   "theorems": [
    "Rowan.C83_splice"
   ],
   "note": "Heap model. The ranges a..b are those with b <= a + 1 and b at most the number of children; the trees put in are distinct handles on top elements of mutable trees other than the tree edited. Text before: pre ++ old ++ suf, after: pre ++ new ++ suf, with the place given by the start of the node and the texts of its first a children; text_range before and after for every live handle, by position relative to the place. Assumes that the program's memory is not exhausted (Room). That it fails for wider ranges is shown by C34/C35."
  },
  {
   "property": "C84",
   "status": "partial",
   "theorems": [
    "Rowan.C84_partial",
    "Rowan.C84_same_length",
    "Rowan.C84_eq",
    "Rowan.C84_fails"
   ],
   "note": "FALSE of the code as stated: C84_fails gives a reachable state, two nodes that an edit elsewhere did not change, with different texts, and their kept texts; == says true one way and false the other way. C84_partial: the full claim while both nodes have the ranges that were kept. C84_same_length: the answer is right for any kept ranges of the same length if what is in view on both sides has the same length. C84_eq: what is sure of the answer for any kept ranges, if no character is cut in two. Heap model, the two walks of the comparison running in turns."
  },
  {
   "property": "C85",
   "status": "proved",
   "theorems": [
    "Rowan.C85_reads",
    "Rowan.C85_find_char",
    "Rowan.C85_char_at"
   ],
   "note": "Heap model, any number of trees. len() and is_empty() are not among these readers: they report the remembered range (C82_wrong). Comparing two texts is C84. The answer of a reader is claimed in the form of C50: unless a reference count would overflow, the program returns it, holds the same handles as before and leaves what all handles denote unchanged."
  },
  {
   "property": "C86",
   "status": "partial",
   "theorems": [
    "Rowan.C86_partial",
    "Rowan.C86_slice",
    "Rowan.C86_shows",
    "Rowan.C86_fails"
   ],
   "note": "FALSE of the code as stated: C86_fails gives a reachable state and an insertion in front of a node that does not change the node; the text kept of it shows a string that begins with a, and its slice 0..1 shows nothing. C86_partial: the full claim while the node does not begin behind the start of the kept range. C86_slice: the part about panics, and the node and range of the slice, in all cases. C86_shows: what a slice shows in all cases. Heap model, any number of trees."
  },
  {
   "property": "C87",
   "status": "proved",
   "theorems": [
    "Rowan.C87_range",
    "Rowan.C87_text",
    "Rowan.C87_eq"
   ],
   "note": "Heap model, over whole histories (Conf.Run). Which edits are meant is said by Call.Later (Spec/TextKeep.lean) in terms of the positions at the moment of each call. A range panic of splice_children counts as a step of the history under the conditions of Conf.Step.unwound. The answers of to_string() and of slice are claimed in the form of C50. That edits in front of a node do disturb a kept text is C82 and C86."
  },
  {
   "property": "C88",
   "status": "proved",
   "theorems": [
    "Rowan.C88_ptr",
    "Rowan.C88_resolves",
    "Rowan.C88_kind_needed"
   ],
   "note": "Heap model over whole histories for the edits, the model of immutable trees for the pointer. That the state holds a mutable copy is stated by the equality of the trees and the position of the handle; the handle on the top node must be held at the end, to call green(). C88_resolves is the same for a given kind and range. C88_kind_needed shows that the condition on the kinds around the node cannot be dropped. One replacement in an immutable tree, in front, behind or inside, is C74."
  }
 ]
}