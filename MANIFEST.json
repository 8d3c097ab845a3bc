{
 "claims": [
  {
   "property": "C01",
   "status": "proved",
   "theorems": [
    "C01_pre_order_nary",
    "C01_pre_order_binary"
   ],
   "note": "Every nary and binary tree held by a heap, every in-range sequence of ++ and --, also for iterators made in the middle."
  },
  {
   "property": "C02",
   "status": "proved",
   "theorems": [
    "C02_post_order_nary",
    "C02_post_order_binary"
   ],
   "note": "Same cursor law as C01 for post-order."
  },
  {
   "property": "C03",
   "status": "proved",
   "theorems": [
    "C03_in_order"
   ],
   "note": "Binary trees."
  },
  {
   "property": "C04",
   "status": "proved",
   "theorems": [
    "C04_breadth_first_nary",
    "C04_breadth_first_binary",
    "C04_all_nodes"
   ],
   "note": "Includes the invariant of the internal queue."
  },
  {
   "property": "C05",
   "status": "proved",
   "theorems": [
    "C05_leaves_nary",
    "C05_leaves_binary",
    "C05_leaves_loops_nary",
    "C05_leaves_loops_binary"
   ],
   "note": "Sequences in which ++ follows --, and leaves iterators made in the middle of a tree, are C57."
  },
  {
   "property": "C06",
   "status": "proved",
   "theorems": [
    "C06_siblings_nary",
    "C06_siblings_binary",
    "C06_fixed"
   ],
   "note": ""
  },
  {
   "property": "C07",
   "status": "proved",
   "theorems": [
    "C07_reverse_nary",
    "C07_reverse_binary",
    "C07_reverse_cursor_nary",
    "C07_reverse_cursor_binary"
   ],
   "note": ""
  },
  {
   "property": "C08",
   "status": "proved",
   "theorems": [
    "C08_other_policy_nary",
    "C08_other_policy_binary",
    "C08_switch"
   ],
   "note": "policy::leaves, for which the code is wrong, is C57."
  },
  {
   "property": "C09",
   "status": "proved",
   "theorems": [
    "C09_empty",
    "C09_end"
   ],
   "note": "-- on begin() is C58."
  },
  {
   "property": "C10",
   "status": "proved",
   "theorems": [
    "C10_view_nary",
    "C10_view_binary"
   ],
   "note": ""
  },
  {
   "property": "C11",
   "status": "proved",
   "theorems": [
    "C11_navigator_nary",
    "C11_navigator_binary",
    "C11_counts_nary",
    "C11_counts_binary",
    "C11_go",
    "C11_go_child_nary",
    "C11_go_end_ub"
   ],
   "note": ""
  },
  {
   "property": "C12",
   "status": "proved",
   "theorems": [
    "C12_rows",
    "C12_deepest",
    "C12_highest"
   ],
   "note": ""
  },
  {
   "property": "C13",
   "status": "proved",
   "theorems": [
    "C13_copy_construct_nary",
    "C13_copy_construct_binary",
    "C13_copy_assign_nary",
    "C13_copy_assign_binary"
   ],
   "note": "Any state that is a family of trees, also self assignment. Independence of later changes: the copy is on fresh nodes and C29 says an operation leaves the other trees alone."
  },
  {
   "property": "C14",
   "status": "proved",
   "theorems": [
    "C14_move_construct_nary",
    "C14_move_construct_binary",
    "C14_move_assign_nary",
    "C14_move_assign_binary",
    "C14_swap_nary",
    "C14_swap_binary"
   ],
   "note": ""
  },
  {
   "property": "C15",
   "status": "proved",
   "theorems": [
    "C15_no_memory_error_nary",
    "C15_no_memory_error_binary",
    "C15_no_leak_nary",
    "C15_no_leak_binary",
    "C15_owner_unique_nary",
    "C15_owner_unique_binary"
   ],
   "note": "Supports (Spec/History.lean) is the condition on the history; C54 shows that it excludes nothing that works. erase(first, last) of nary trees is included where each step erases the root or a middle child. The calls that fail are C59."
  },
  {
   "property": "C16",
   "status": "proved",
   "theorems": [
    "C16_clear_nary",
    "C16_clear_binary",
    "C16_destroy_nary",
    "C16_destroy_binary"
   ],
   "note": ""
  },
  {
   "property": "C17",
   "status": "proved",
   "theorems": [
    "C17_insert_over_nary",
    "C17_insert_over_binary",
    "C17_insert_over_empty_tree_nary",
    "C17_insert_over_empty_tree_binary"
   ],
   "note": "Empty sources in nary trees are C60."
  },
  {
   "property": "C18",
   "status": "proved",
   "theorems": [
    "C18_insert_child_nary",
    "C18_insert_child_binary",
    "C18_insert_child_full"
   ],
   "note": "Nary and binary, front and back, all sources, full binary nodes throw."
  },
  {
   "property": "C19",
   "status": "proved",
   "theorems": [
    "C19_erase_binary"
   ],
   "note": "nary trees are C61."
  },
  {
   "property": "C20",
   "status": "proved",
   "theorems": [
    "C20_size_nary",
    "C20_size_binary",
    "C20_careful_nary",
    "C20_careful_binary"
   ],
   "note": "CountsOk and KeepsCounts (Spec/History.lean) are the condition, Careful (Props/Counts.lean) the discipline. Other histories are C62; C56 gives the way to repair the counts after any history."
  },
  {
   "property": "C21",
   "status": "proved",
   "theorems": [
    "C21_arity_nary",
    "C21_arity_binary"
   ],
   "note": "Same condition as C20; C20_careful_* speaks of arity() too. Other histories are C62."
  },
  {
   "property": "C22",
   "status": "proved",
   "theorems": [
    "C22_true_is_right_nary",
    "C22_true_is_right_binary",
    "C22_structural_nary",
    "C22_structural_binary",
    "C22_same_values_nary",
    "C22_same_values_binary",
    "C22_equivalence_nary",
    "C22_equivalence_binary",
    "C22_no_effect_nary",
    "C22_no_effect_binary",
    "C22_exact_nary",
    "C22_exact_binary"
   ],
   "note": "C22_true_is_right_*, C22_equivalence_*, C22_no_effect_* need no condition on the counts. Without it `false` can be wrong: C63."
  },
  {
   "property": "C23",
   "status": "proved",
   "theorems": [
    "C23_construct",
    "C23_assign",
    "C23_compare_true",
    "C23_compare",
    "C23_construct_equal"
   ],
   "note": "Without right counts `false` can be wrong as in C63."
  },
  {
   "property": "C24",
   "status": "proved",
   "theorems": [
    "C24_new_nary",
    "C24_only_itself_nary",
    "C24_new_binary",
    "C24_assign_nary",
    "C24_assign_binary",
    "C24_compare_nary",
    "C24_compare_binary",
    "C24_object_nary",
    "C24_object_binary"
   ],
   "note": "A third slot and objects taken with get_child out of a larger literal (nary trees) are C64; C46_alone: an object not taken with get_child is followed by no slot."
  },
  {
   "property": "C25",
   "status": "proved",
   "theorems": [
    "C25_insert_over_throws_nary",
    "C25_insert_over_throws_binary",
    "C25_insert_child_throws_nary",
    "C25_insert_child_throws_binary"
   ],
   "note": "The other throwing calls are C65."
  },
  {
   "property": "C26",
   "status": "proved",
   "theorems": [
    "C26_returned_nary",
    "C26_returned_binary",
    "C26_returned_in_order",
    "C26_insert_child_nary",
    "C26_insert_child_binary"
   ],
   "note": "insert_over at the root is C66."
  },
  {
   "property": "C27",
   "status": "proved",
   "theorems": [
    "C27_erase_returns_binary",
    "C27_erase_range_binary",
    "C27_erase_range_exact"
   ],
   "note": "nary trees are C61."
  },
  {
   "property": "C28",
   "status": "proved",
   "theorems": [
    "C28_insert_over_nary",
    "C28_insert_over_binary",
    "C28_insert_child_nary",
    "C28_insert_child_binary",
    "C28_erase_binary",
    "C28_iterators_nary",
    "C28_iterators_binary"
   ],
   "note": "erase in nary trees is C61, breadth_first iterators C67."
  },
  {
   "property": "C29",
   "status": "proved",
   "theorems": [
    "C29_other_trees_nary",
    "C29_other_trees_binary",
    "C29_history_nary",
    "C29_history_binary",
    "C29_objects"
   ],
   "note": "One call and every history of calls, including the remembered counts and every node field of the other trees."
  },
  {
   "property": "C30",
   "status": "proved",
   "theorems": [
    "C30_view_nary",
    "C30_view_binary",
    "C30_tree_nary",
    "C30_tree_binary",
    "C30_whole_nary",
    "C30_whole_binary",
    "C30_nothing_nary",
    "C30_nothing_binary"
   ],
   "note": "print_node/print_tree of nary and binary trees and of views of a node inside a tree: the text is the layout (Spec/Print.lean) of exactly the first min(size, limit) nodes in pre-order, nested as in the tree, with the mark where children were left out; what is shown is unique; everything for limit >= size; nothing for limit <= 0; n() for an empty tree. The text of one value (code_like_print) is a parameter, as is whether the stream is in hexadecimal mode; with address digits the nodes after the root are written in hexadecimal mode (C86)."
  },
  {
   "property": "C31",
   "status": "proved",
   "theorems": [
    "C31_next",
    "C31_left_right"
   ],
   "note": "Last child and previous sibling are C68."
  },
  {
   "property": "C32",
   "status": "proved",
   "theorems": [
    "C32_forward_nary",
    "C32_forward_binary",
    "C32_bidirectional",
    "C32_forward",
    "C32_dec_end_breadth_first",
    "C32_dec_end_post_order"
   ],
   "note": "The forward loop, for every policy (n-ary and binary, trees and views): C32_forward_nary, C32_forward_binary. C32_bidirectional: also backwards, when some element satisfies the predicate; outside the claim, -- from end() when none does is not right (C32_dec_end_*)."
  },
  {
   "property": "C33",
   "status": "proved",
   "theorems": [
    "C33_same_tree",
    "C33_orders_nodup",
    "C33_other_tree",
    "C33_other_view"
   ],
   "note": ""
  },
  {
   "property": "C34",
   "status": "proved",
   "theorems": [
    "C34_numbering",
    "C34_mark_nary",
    "C34_mark_binary",
    "C34_failed_search_defect"
   ],
   "note": "Numbering, mark_count and assign_mark after a successful search proved for nary and binary trees. After a failed search the captures keep the nodes of the failed attempt: C34_failed_search_defect. Names of captures are template machinery and not modelled."
  },
  {
   "property": "C35",
   "status": "proved",
   "theorems": [
    "C35_search_nary",
    "C35_search_binary",
    "C35_view_nary",
    "C35_view_binary",
    "C35_result_nary",
    "C35_result_binary",
    "C35_no_match_nary",
    "C35_no_match_binary"
   ],
   "note": "For patterns in which every opt has an argument (see C37 for the others): result of search, nodes remembered, assign_result, views, previous uses of the pattern object; nary and binary trees."
  },
  {
   "property": "C36",
   "status": "proved",
   "theorems": [
    "C36_search_nary",
    "C36_search_binary",
    "C36_result_nary"
   ],
   "note": "For all patterns made of one, opt and cpt."
  },
  {
   "property": "C37",
   "status": "partial",
   "theorems": [
    "C37_opt_any_value_defect",
    "C37_reluctant_nothing",
    "C37_stale_node_defect",
    "C37_false_match_defect",
    "C37_binary_assert_defect"
   ],
   "note": "False of the code: opt(v) accepts any value (C37_opt_any_value_defect), nodes of abandoned attempts stay in the result (C37_stale_node_defect), rematching succeeds where nothing matches (C37_false_match_defect), a failed assertion for binary trees (C37_binary_assert_defect). Proved: the reluctant one matches nothing; C36."
  },
  {
   "property": "C38",
   "status": "proved",
   "theorems": [
    "C38_forward_nary",
    "C38_forward_binary",
    "C38_in_order"
   ],
   "note": "pre_order is C69; going backwards depends on C68."
  },
  {
   "property": "C39",
   "status": "proved",
   "theorems": [
    "C39_view_nary",
    "C39_view_binary",
    "C39_counts_nary",
    "C39_counts_binary",
    "C39_iterate_nary",
    "C39_iterate_binary",
    "C39_eq_binary"
   ],
   "note": "Counts assume that the tree remembers no wrong number (C20, C21). == of views of nary trees is C70, changes of the tree below a view C71."
  },
  {
   "property": "C40",
   "status": "proved",
   "theorems": [
    "C40_search_nary",
    "C40_search_binary",
    "C40_view_nary",
    "C40_view_binary"
   ],
   "note": "nary and binary trees, views, all quantifiers, any previous use of the pattern object. Patterns with a star or opt that can match nothing are outside (C37)."
  },
  {
   "property": "C41",
   "status": "proved",
   "theorems": [
    "C41_exact_nary",
    "C41_exact_binary"
   ],
   "note": "Each restriction is needed: C72."
  },
  {
   "property": "C42",
   "status": "proved",
   "theorems": [
    "C42_result_nary",
    "C42_result_binary",
    "C42_mark_nary",
    "C42_mark_binary"
   ],
   "note": "Reluctant stars with more arguments are C73, stars without arguments C43."
  },
  {
   "property": "C43",
   "status": "proved",
   "theorems": [
    "C43_search_nary",
    "C43_search_binary",
    "C43_nothing_nary",
    "C43_nothing_binary",
    "C43_default_nary",
    "C43_default_binary",
    "C43_greedy_nary",
    "C43_greedy_binary",
    "C43_endless_nary",
    "C43_endless_binary"
   ],
   "note": "An exact statement of what the code does; what it should do is C74."
  },
  {
   "property": "C44",
   "status": "proved",
   "theorems": [
    "C44_safe_nary",
    "C44_safe_binary",
    "C44_safe_view_nary",
    "C44_safe_view_binary"
   ],
   "note": "nary and binary trees and views; any pattern, any state of the pattern object, any bound on the length of the run."
  },
  {
   "property": "C45",
   "status": "proved",
   "theorems": [
    "C45_ends_nary",
    "C45_ends_binary",
    "C45_ends_view_nary",
    "C45_ends_view_binary",
    "C45_starless_settled",
    "C45_solid_settled"
   ],
   "note": "The class contains those of C36 and C40 (C45_starless_settled, C45_solid_settled). Other patterns are C75."
  },
  {
   "property": "C46",
   "status": "proved",
   "theorems": [
    "C46_compiles",
    "C46_parts",
    "C46_root",
    "C46_alone"
   ],
   "note": "Every expression. Trees made from such objects: C24."
  },
  {
   "property": "C47",
   "status": "proved",
   "theorems": [
    "C47_copy",
    "C47_other_policy"
   ],
   "note": "Assignment is C76. other_policy to leaves is excluded (C57)."
  },
  {
   "property": "C48",
   "status": "proved",
   "theorems": [
    "C48_compiles",
    "C48_first",
    "C48_mark_nary",
    "C48_mark_binary"
   ],
   "note": "The result for the patterns of C34. Uniqueness of names is C77."
  },
  {
   "property": "C49",
   "status": "proved",
   "theorems": [
    "C49_nary",
    "C49_binary",
    "C49_index_unique"
   ],
   "note": "Both kinds of nodes."
  },
  {
   "property": "C50",
   "status": "proved",
   "theorems": [
    "C50_nary",
    "C50_binary"
   ],
   "note": "Children are C78."
  },
  {
   "property": "C51",
   "status": "proved",
   "theorems": [
    "C51_moves_nary",
    "C51_moves_binary",
    "C51_together_nary",
    "C51_together_binary",
    "C51_assign",
    "C51_move_clears",
    "C51_eq_nary",
    "C51_eq_binary"
   ],
   "note": "Both kinds of nodes. reset_assignment_flags is not modelled: it assigns false to pointers and does not compile when used."
  },
  {
   "property": "C52",
   "status": "proved",
   "theorems": [
    "C52_compiles",
    "C52_written",
    "C52_decides",
    "C52_captures",
    "C52_search_nary",
    "C52_search_binary"
   ],
   "note": "Expressions without meaning are C79. C52_search_* combines the making of a pattern with C35."
  },
  {
   "property": "C53",
   "status": "proved",
   "theorems": [
    "C53_throws_nary",
    "C53_throws_binary",
    "C53_result_nary",
    "C53_result_binary",
    "C53_failed_nary",
    "C53_failed_nary_after_binary",
    "C53_failed_binary",
    "C53_failed_binary_after_nary"
   ],
   "note": "Matches in views and marks left by failed searches are C80. The results of other patterns are C37, C42."
  },
  {
   "property": "C54",
   "status": "proved",
   "theorems": [
    "C54_call_nary",
    "C54_call_binary",
    "C54_place_binary",
    "C54_erase_nary",
    "C54_history_nary",
    "C54_history_binary"
   ],
   "note": "Both directions, nary and binary; makes the condition of C15 exact. erase(first, last) of binary trees is included; for nary trees see C27."
  },
  {
   "property": "C55",
   "status": "proved",
   "theorems": [
    "C55_search_nary",
    "C55_search_binary",
    "C55_view_nary",
    "C55_view_binary"
   ],
   "note": "Trees and views, nary and binary. The converse is false (C37_false_match_defect)."
  },
  {
   "property": "C56",
   "status": "proved",
   "theorems": [
    "C56_counts_nary",
    "C56_counts_binary",
    "C56_equality_nary",
    "C56_equality_binary",
    "C56_no_effect_nary",
    "C56_no_effect_binary"
   ],
   "note": "No restriction on the history beyond Supports, unlike C20-C22."
  },
  {
   "property": "C57",
   "status": "partial",
   "theorems": [
    "C57_mixed_defect",
    "C57_made_backward_nary_partial",
    "C57_made_backward_binary_partial",
    "C57_made_forward_defect",
    "C57_made_defect"
   ],
   "note": "False of the code (refuted). C57_mixed_defect: ++ -- ++ ++ ++ on 1(2,3,4) visits a leaf twice. C57_made_forward_defect: a leaves iterator made at any node of any tree is at end() after one ++. Proved: going back from such an iterator (C57_made_backward_*_partial) and C05."
  },
  {
   "property": "C58",
   "status": "partial",
   "theorems": [
    "C58_dec_begin_partial",
    "C58_post_order_defect",
    "C58_leaves_defect",
    "C58_in_order_defect",
    "C58_breadth_first_defect"
   ],
   "note": "False of the code (refuted). It holds for pre_order and siblings (C58_dec_begin_partial). On every non-empty tree post_order and in_order go to the root, leaves to the last leaf, and breadth_first, the default, is undefined behaviour: the _defect theorems."
  },
  {
   "property": "C59",
   "status": "partial",
   "theorems": [
    "C59_erase_first_child_defect",
    "C59_erase_only_child_defect",
    "C59_erase_last_child_defect",
    "C59_insert_over_end_leak_nary_defect",
    "C59_insert_over_end_leak_binary_defect",
    "C59_insert_child_move_throw_nary_defect",
    "C59_insert_child_move_throw_binary_defect"
   ],
   "note": "False of the code (refuted). Counterexamples: nary erase of a first, only or last child; insert_over at end() of a non-empty tree; insert_child of a moved tree when it throws. C15 and C54 say exactly what holds."
  },
  {
   "property": "C60",
   "status": "partial",
   "theorems": [
    "C60_insert_over_empty_partial",
    "C60_insert_over_empty_defect"
   ],
   "note": "False of the code (refuted). It holds at the root and at children with a sibling on both sides (C60_insert_over_empty_partial); C60_insert_over_empty_defect is a null pointer write; C54 says exactly where it fails."
  },
  {
   "property": "C61",
   "status": "partial",
   "theorems": [
    "C61_erase_partial",
    "C61_first_child_defect",
    "C61_last_child_defect",
    "C61_returns_partial",
    "C61_range_partial",
    "C61_range_defect",
    "C61_others_partial"
   ],
   "note": "False of the code (refuted). erase of a first child is always undefined (C61_first_child_defect), of a last child with a sibling always leaves a parent without last child (C61_last_child_defect), so ranges fail too (C61_range_defect). At the root and at middle children everything holds: the _partial theorems."
  },
  {
   "property": "C62",
   "status": "partial",
   "theorems": [
    "C62_insert_child_front_literal_defect",
    "C62_insert_child_back_move_defect",
    "C62_insert_child_empty_defect",
    "C62_third_slot_defect",
    "C62_erase_unknown_defect",
    "C62_insert_child_unknown_defect",
    "C62_insert_over_unknown_defect",
    "C62_local_arity_defect"
   ],
   "note": "False of the code (refuted). The _defect theorems give supported histories with a wrong size() or arity(). C20, C21 and C56 say what holds."
  },
  {
   "property": "C63",
   "status": "partial",
   "theorems": [
    "C63_nary_defect",
    "C63_binary_defect"
   ],
   "note": "False of the code (refuted). C63_nary_defect and C63_binary_defect are supported histories after which equal trees compare different, because size() is remembered wrong (C62). C22 and C56 say what holds."
  },
  {
   "property": "C64",
   "status": "partial",
   "theorems": [
    "C64_third_slot_defect",
    "C64_slot_defect",
    "C64_slot_compare_defect"
   ],
   "note": "False of the code (refuted). C64_third_slot_defect: the third slot is dropped but counted. C64_slot_defect: the root of an nary tree made from a slot that others follow has a next sibling; C64_slot_compare_defect: comparing such a tree is undefined. For binary trees parts are right (C24_object_binary)."
  },
  {
   "property": "C65",
   "status": "partial",
   "theorems": [
    "C65_insert_over_leaks_nary_defect",
    "C65_insert_over_leaks_binary_defect",
    "C65_insert_child_move_nary_defect",
    "C65_insert_child_move_binary_defect",
    "C65_programs_go_on_nary_partial",
    "C65_programs_go_on_binary_partial",
    "C65_lost_for_good_nary_defect",
    "C65_lost_for_good_binary_defect"
   ],
   "note": "False of the code (refuted). insert_over with a new element at end() of a non-empty tree always leaks (C65_insert_over_leaks_*_defect), for good (C65_lost_for_good_*_defect); otherwise such calls do no harm: programs that make them between supported calls run to the end, every tree is as specified and exactly the nodes so made are left at the end (C65_programs_go_on_*_partial). insert_child of a moved non-empty tree that throws always leaves the moved tree pointing to freed nodes (C65_insert_child_move_*_defect). C25 has the other calls."
  },
  {
   "property": "C66",
   "status": "partial",
   "theorems": [
    "C66_nary_defect",
    "C66_binary_defect",
    "C66_loop_defect"
   ],
   "note": "False of the code (refuted). The returned iterator always keeps the old root, whose memory is freed, as the root of what it iterates over (C66_nary_defect, C66_binary_defect), so that ++ need not reach end() (C66_loop_defect)."
  },
  {
   "property": "C67",
   "status": "partial",
   "theorems": [
    "C67_breadth_first_defect",
    "C67_levels_nary_partial",
    "C67_levels_binary_partial",
    "C67_insert_over_nary_partial",
    "C67_insert_over_binary_partial",
    "C67_insert_child_nary_partial",
    "C67_insert_child_binary_partial",
    "C67_erase_binary_partial",
    "C67_next_level_defect"
   ],
   "note": "False of the code (refuted). C67_breadth_first_defect: after erasing a node that is in the queue of an iterator, ++ reads freed memory although its own node is still there. Positive (Props/Levels.lean): an iterator at level d stays a cursor at its node whenever levels 0..d+1 are unchanged; hence after insert_over/erase two or more levels further down and insert_child one or more; C67_next_level_defect shows one level less is not enough."
  },
  {
   "property": "C68",
   "status": "partial",
   "theorems": [
    "C68_prev_partial",
    "C68_last_partial",
    "C68_prev_never_ends_defect"
   ],
   "note": "False of the code (refuted). Whenever the immediate previous sibling fails the predicate get_prev_sibling never ends (C68_prev_never_ends_defect), and so get_last_child when the last two children fail it. Otherwise both are right: C68_prev_partial, C68_last_partial."
  },
  {
   "property": "C69",
   "status": "partial",
   "theorems": [
    "C69_pre_order_nary_partial",
    "C69_pre_order_binary_partial",
    "C69_pre_order_exact_nary_partial",
    "C69_pre_order_exact_binary_partial",
    "C69_pre_order_defect"
   ],
   "note": "False of the code (refuted). C69_pre_order_defect: the loop ends early, because is_last_child does not ask the predicate. For every predicate the loop visits exactly walk q, always a beginning of what it should visit (C69_pre_order_exact_*_partial); it visits everything when the last child of every node that has an accepted child is accepted (C69_pre_order_*_partial)."
  },
  {
   "property": "C70",
   "status": "partial",
   "theorems": [
    "C70_eq_nary_partial",
    "C70_eq_nary_exact",
    "C70_eq_nary_defect",
    "C70_eq_nary_sibling_defect",
    "C70_eq_mixed_exact",
    "C70_eq_mixed_partial",
    "C70_eq_mixed_defect"
   ],
   "note": "False of the code (refuted). Proved when no sibling follows the first operand (C70_eq_nary_partial, C70_eq_mixed_partial). Otherwise == also compares the following siblings: exact behaviour in C70_eq_nary_exact and C70_eq_mixed_exact, undefined behaviour or a wrong false in the _defect theorems."
  },
  {
   "property": "C71",
   "status": "partial",
   "theorems": [
    "C71_stale_defect",
    "C71_stale_arity_defect",
    "C71_updated_nary_partial",
    "C71_updated_binary_partial"
   ],
   "note": "False of the code (refuted). C71_stale_defect, C71_stale_arity_defect: once size() or arity() has answered a number (not 0), the view answers it for ever. After update_size_arity() it answers for the subtree as it now is (C71_updated_*_partial)."
  },
  {
   "property": "C72",
   "status": "partial",
   "theorems": [
    "C72_own_result_defect",
    "C72_two_arguments_defect",
    "C72_null_argument_defect",
    "C72_used_pattern_defect"
   ],
   "note": "False of the code (refuted). A star with two arguments (C72_two_arguments_defect), an argument that can match nothing (C72_null_argument_defect), a pattern object used before the tree changed (C72_used_pattern_defect): the pattern is not found although it matches. C41 has what holds."
  },
  {
   "property": "C73",
   "status": "partial",
   "theorems": [
    "C73_second_result_defect",
    "C73_copies_defect",
    "C73_binary_defect",
    "C73_null_defect"
   ],
   "note": "False of the code (refuted). Nodes are copied twice (C73_copies_defect), an assertion fails for binary trees (C73_binary_defect), and with an argument that matched nothing a null pointer is read (C73_null_defect)."
  },
  {
   "property": "C74",
   "status": "partial",
   "theorems": [
    "C74_greedy_defect"
   ],
   "note": "False of the code (refuted). As soon as one node below the root is not accepted the computation never ends: C74_greedy_defect, in general the second half of C43_greedy_*."
  },
  {
   "property": "C75",
   "status": "partial",
   "theorems": [
    "C75_endless_defect",
    "C75_view_defect"
   ],
   "note": "False of the code (refuted). C75_endless_defect: a pattern and a tree of 14 nodes for which the search never ends, for every bound on the steps. C75_view_defect: a search of a view that matches a node outside it. C44 (safety) holds for all patterns."
  },
  {
   "property": "C76",
   "status": "partial",
   "theorems": [
    "C76_assign_same_partial",
    "C76_assign_partial",
    "C76_assign_defect",
    "C76_default_defect"
   ],
   "note": "False of the code (refuted). Assignment does not copy the predicate (tree_iterator_filter.hpp 73-76, 86-89): right when both predicates agree (C76_assign_same_partial), otherwise C76_assign_partial says what happens; C76_assign_defect and C76_default_defect (undefined behaviour after assigning to a default constructed one) are counterexamples."
  },
  {
   "property": "C77",
   "status": "partial",
   "theorems": [
    "C77_unique_partial",
    "C77_duplicate_defect"
   ],
   "note": "False of the code (refuted). Only a capture below a capture of the same name that has a next sibling is rejected (C77_unique_partial); C77_duplicate_defect gives patterns with two captures of the same name that compile."
  },
  {
   "property": "C78",
   "status": "partial",
   "theorems": [
    "C78_nary_defect",
    "C78_binary_defect"
   ],
   "note": "False of the code (refuted). C78_nary_defect and C78_binary_defect: after moving any child the parent still points to the old node and no longer belongs to any well-formed tree."
  },
  {
   "property": "C79",
   "status": "partial",
   "theorems": [
    "C79_called_capture_defect",
    "C79_called_capture_search_defect"
   ],
   "note": "False of the code (refuted). C79_called_capture_defect: cpt(e)(a) compiles and is cpt(a), since the static_assert meant to reject it is in replace_children, which nothing calls; C79_called_capture_search_defect: it is searched as such."
  },
  {
   "property": "C80",
   "status": "partial",
   "theorems": [
    "C80_view_defect",
    "C80_wrong_kind_defect"
   ],
   "note": "False of the code (refuted). The nodes of a view are const, so typeid differs and assigning a match found in a view always throws (C80_view_defect); a failed search in another kind of tree leaves marks in the matchers but not the type, so assign_mark casts a node to the wrong type (C80_wrong_kind_defect)."
  },
  {
   "property": "C81",
   "status": "proved",
   "theorems": [
    "C81_read_nary",
    "C81_read_binary",
    "C81_write_nary",
    "C81_write_binary",
    "C81_end"
   ],
   "note": "Writes are also calls of the histories of C13-C16, C20-C22, C26-C29, C54, C56 (Op.write)."
  },
  {
   "property": "C82",
   "status": "proved",
   "theorems": [
    "C82_all_nary",
    "C82_seen_nary",
    "C82_some_nary",
    "C82_all_binary",
    "C82_seen_binary",
    "C82_some_binary"
   ],
   "note": "The function is pure; the loop is the one of a range-based for statement."
  },
  {
   "property": "C83",
   "status": "proved",
   "theorems": [
    "C83_cursor",
    "C83_while_nary",
    "C83_while_binary"
   ],
   "note": ""
  },
  {
   "property": "C84",
   "status": "proved",
   "theorems": [
    "C84_literal_nary",
    "C84_literal_binary",
    "C84_part_nary",
    "C84_part_binary",
    "C84_unique_nary",
    "C84_unique_binary",
    "C84_clear_number",
    "C84_clear_int",
    "C84_clear_char",
    "C84_clear_string"
   ],
   "note": "Reads (Spec/Reads.lean) is the grammar of the expressions. C84_clear_* say which values qualify; strings with quotes are C85, addresses C86."
  },
  {
   "property": "C85",
   "status": "partial",
   "theorems": [
    "C85_unique_nary_partial",
    "C85_unique_binary_partial",
    "C85_quotes_defect"
   ],
   "note": "Refuted by the code for strings with double quotes, which are not escaped (C85_quotes_defect: two trees of different size with the same text). Proved for strings without double quotes."
  },
  {
   "property": "C86",
   "status": "partial",
   "theorems": [
    "C86_mode_nary_partial",
    "C86_mode_binary_partial",
    "C86_hex_nary_defect",
    "C86_hex_binary_defect",
    "C86_values_defect"
   ],
   "note": "Refuted by the code: std::hex stays in force after the first address, so the values of all nodes but the root are written in hexadecimal and so is everything the program prints later (C86_hex_*_defect for every non-empty tree, C86_values_defect); 16 or more digits shift a 64-bit number by its width. Proved: without addresses, or on a stream already in hexadecimal mode, all values are written in the mode of the stream, which does not change; the exact text in all cases is C30."
  },
  {
   "property": "C87",
   "status": "proved",
   "theorems": [
    "C87_exact_nary",
    "C87_exact_binary"
   ],
   "note": "The rule is Recount (Spec/Tally.lean), stated with the trees and two numbers per object; Tally is a history with it. Histories in which the rule gives the true counts are C20, C21."
  },
  {
   "property": "C88",
   "status": "proved",
   "theorems": [
    "C88_empty_nary",
    "C88_empty_binary"
   ],
   "note": "The four conditions are the fields of SaysEmpty (Props/Tally.lean). With siblings and fixed a tree with nodes can also have begin(p) == end(p)."
  },
  {
   "property": "C89",
   "status": "proved",
   "theorems": [
    "C89_throwing_call_changes_nothing_nary",
    "C89_throwing_call_changes_nothing_binary",
    "C89_programs_go_on_nary",
    "C89_programs_go_on_binary",
    "C89_only_lost_nodes_remain_nary",
    "C89_only_lost_nodes_remain_binary"
   ],
   "note": "Model/Faults.lean repeats the node constructors and the calls that use them with a counter of the events that may throw; an event is a request to the allocator or the construction of a value. Failures of the queue of breadth_first iterators are not among the events (see C91)."
  },
  {
   "property": "C90",
   "status": "partial",
   "theorems": [
    "C90_throwing_call_leaks_nary_defect",
    "C90_throwing_call_leaks_binary_defect",
    "C90_first_request_nary_partial",
    "C90_first_request_binary_partial"
   ],
   "note": "Refuted: allocate() owns the block only after the construction, and node constructors hold their children in raw pointers, so in every state every call that throws after the first request leaks at least one block for good (proved for every continuation of the program). What holds: a call whose very first request to the allocator throws leaks nothing."
  },
  {
   "property": "C91",
   "status": "partial",
   "theorems": [
    "C91_new_nodes_copy_nary_partial",
    "C91_moved_tree_update_nary_partial",
    "C91_moved_tree_copy_nary_defect",
    "C91_new_nodes_update_nary_defect",
    "C91_new_child_stays_nary_defect",
    "C91_moved_child_has_two_owners_nary_defect",
    "C91_new_nodes_copy_binary_partial",
    "C91_moved_tree_update_binary_partial",
    "C91_moved_tree_copy_binary_defect",
    "C91_new_nodes_update_binary_defect",
    "C91_new_child_stays_binary_defect",
    "C91_moved_child_has_two_owners_binary_defect"
   ],
   "note": "Refuted: a moved tree is left referring to freed nodes when the queue cannot be copied; the new nodes leak when the queue of the position cannot grow in insert_over; a child stays in the tree, and a moved child then belongs to two trees, when the queue of the returned iterator cannot be made. What holds: inserting new nodes, a queue that cannot be copied has no effect; nor has one that cannot grow when a tree is moved over a node."
  },
  {
   "property": "C92",
   "status": "proved",
   "theorems": [
    "C92_programs_nary",
    "C92_programs_binary",
    "C92_exactly_nary",
    "C92_exactly_binary",
    "C92_held_nary",
    "C92_held_binary"
   ],
   "note": "An iff for every supported call in every state says which calls respect the allocators (AllocOk); programs of such calls give every block back to where it came from, with the trees and answers of the program without regard to allocators. Allocators are numbers; Model/Alloc.lean finds the blocks a call obtained and gave back by comparing the heaps."
  },
  {
   "property": "C93",
   "status": "partial",
   "theorems": [
    "C93_other_calls_nary_defect",
    "C93_other_calls_binary_defect",
    "C93_strange_node_nary_defect",
    "C93_strange_node_binary_defect",
    "C93_get_allocator_defect"
   ],
   "note": "Refuted: move assignment takes over the allocator before the old nodes are freed, swap leaves the allocators where they are, insertions of moved trees do not look at them, and the constructors that make nodes use this->allocator before it is constructed. In every state each of these calls is undefined behaviour or leaves a tree whose destruction is. What does hold is C92. Also get_allocator() answers a default constructed allocator (Model/Alloc.lean)."
  },
  {
   "property": "C94",
   "status": "proved",
   "theorems": [
    "C94_alone",
    "C94_readers_nary",
    "C94_readers_binary",
    "C94_exactly"
   ],
   "note": ""
  },
  {
   "property": "C95",
   "status": "partial",
   "theorems": [
    "C95_size_nary_defect",
    "C95_size_binary_defect",
    "C95_update_defect",
    "C95_answer_nary_defect",
    "C95_answer_binary_defect",
    "C95_single_steps_nary_partial",
    "C95_single_steps_binary_partial"
   ],
   "note": "Refuted: size() and everything that calls it write the mutable size_value of a tree that does not remember its size, so two calls of size() are a data race (for every such tree), and update_size_arity(), which is const, races with size() whatever the tree is and can make size() answer 0 for a tree with nodes. What does hold: if single accesses are atomic and nobody calls update_size_arity(), the answers are right in every schedule (_partial); without races C94."
  },
  {
   "property": "C96",
   "status": "proved",
   "theorems": [
    "C96_binary",
    "C96_eq_binary",
    "C96_counts_nary",
    "C96_nary",
    "C96_eq_nary",
    "C96_bounds"
   ],
   "note": "arity() of binary trees is not in the statement (it stops early)."
  },
  {
   "property": "C97",
   "status": "partial",
   "theorems": [
    "C97_nary_defect",
    "C97_binary_partial"
   ],
   "note": "Refuted for nary trees: the copy constructor, deallocate and operator== call themselves for the next sibling, so every tree that has a node with k children needs more than k nested calls for each of them. It holds for binary trees (_partial); the exact depth is C96."
  },
  {
   "property": "C98",
   "status": "proved",
   "theorems": [
    "C98_pre_order_nary",
    "C98_pre_order_binary",
    "C98_post_order_nary",
    "C98_post_order_binary",
    "C98_in_order",
    "C98_breadth_first_nary",
    "C98_breadth_first_binary",
    "C98_leaves_nary",
    "C98_leaves_binary"
   ],
   "note": "breadth_first and leaves backwards are not in the statement."
  },
  {
   "property": "C99",
   "status": "proved",
   "theorems": [
    "C99_nary",
    "C99_binary",
    "C99_fixed",
    "C99_empty",
    "C99_other_node_nary",
    "C99_other_node_binary"
   ],
   "note": "leaves iterators lose their place when converted: C57_made_forward_defect."
  },
  {
   "property": "C100",
   "status": "proved",
   "theorems": [
    "C100_history",
    "C100_answers",
    "C100_no_leak"
   ],
   "note": "The two kinds live in separate heaps (they have different node types), so aliasing between them cannot be expressed, as in the code. Calls refuted by C59-C66 are excluded by Legal."
  },
  {
   "property": "C101",
   "status": "proved",
   "theorems": [
    "C101_binary",
    "C101_nary",
    "C101_sound_binary",
    "C101_sound_nary",
    "C101_full_binary",
    "C101_full_nary"
   ],
   "note": "The predicate looks at the value of the target node. get_child(i), which generative_navigator does not redefine, is not used. The moves that are not sound are refuted by C102."
  },
  {
   "property": "C102",
   "status": "partial",
   "theorems": [
    "C102_first_binary_defect",
    "C102_last_binary_defect",
    "C102_again_binary_defect",
    "C102_prev_binary_defect",
    "C102_first_nary_defect",
    "C102_again_nary_defect",
    "C102_prev_nary_defect"
   ],
   "note": "Refuted by the code: the second pointer is moved by the same getter of the generated tree, which has only the children visited so far (binary: first/last child after the other one; nary: copies are in the order of visits), a skipped first child is not skipped in the copy (a second copy or a failed assertion), and get_prev_sibling of a node whose previous sibling is rejected does not end. C101 proves the moves for which the claim holds."
  },
  {
   "property": "C103",
   "status": "proved",
   "theorems": [
    "C103_call_nary",
    "C103_call_binary",
    "C103_held_nary",
    "C103_held_binary",
    "C103_program_nary",
    "C103_program_binary",
    "C103_nothing_nary",
    "C103_nothing_binary"
   ],
   "note": "Requests of the queues of breadth_first iterators are not counted."
  },
  {
   "property": "C104",
   "status": "proved",
   "theorems": [
    "C104_found_again_nary",
    "C104_found_again_binary",
    "C104_mark_again_nary",
    "C104_mark_again_binary",
    "C104_same_result_nary",
    "C104_same_result_binary"
   ],
   "note": "C72_own_result_defect and C73_second_result_defect show two patterns outside the hypotheses for which it fails."
  },
  {
   "property": "C105",
   "status": "proved",
   "theorems": [
    "C105_first_nary",
    "C105_first_binary",
    "C105_view_nary",
    "C105_view_binary",
    "C105_descends_nary",
    "C105_descends_binary"
   ],
   "note": "Took (Spec/Took.lean) says it; two stars where the argument may also be matched in place of the star are C106."
  },
  {
   "property": "C106",
   "status": "partial",
   "theorems": [
    "C106_same_nodes_nary_partial",
    "C106_same_nodes_binary_partial",
    "C106_inner_star_defect",
    "C106_used_pattern_defect"
   ],
   "note": "Refuted by the code when a star may take a node where its own argument matches: C106_inner_star_defect (inside a larger pattern), C106_used_pattern_defect (a view, after a search of the tree). Proved (C106_same_nodes_*_partial) for whole trees and patterns where no argument of a star that is not possessive matches at a node the star accepts (sharp); without star see C35."
  },
  {
   "property": "C107",
   "status": "proved",
   "theorems": [
    "C107_trees_nary",
    "C107_trees_binary",
    "C107_mixed",
    "C107_literal_nary",
    "C107_literal_binary",
    "C107_none_nary",
    "C107_none_binary",
    "C107_views_binary",
    "C107_views_mixed"
   ],
   "note": "Views of nary trees that are not of a whole tree are C70."
  },
  {
   "property": "C108",
   "status": "proved",
   "theorems": [
    "C108_subtree_nary",
    "C108_subtree_binary",
    "C108_siblings_nary",
    "C108_siblings_binary",
    "C108_siblings_of_root_nary",
    "C108_siblings_of_root_binary",
    "C108_end",
    "C108_filtered_nary",
    "C108_filtered_binary"
   ],
   "note": "Leaves iterators: C57."
  }
 ]
}
