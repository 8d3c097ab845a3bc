{
 "C01": [
  "proved",
  "Every nary and binary tree held by a heap, every in-range sequence of ++ and --, also for iterators made in the middle."
 ],
 "C02": [
  "proved",
  "Same cursor law as C01 for post-order."
 ],
 "C03": [
  "proved",
  "Binary trees."
 ],
 "C04": [
  "proved",
  "Includes the invariant of the internal queue."
 ],
 "C05": [
  "proved",
  "Sequences in which ++ follows --, and leaves iterators made in the middle of a tree, are C57."
 ],
 "C06": [
  "proved",
  ""
 ],
 "C07": [
  "proved",
  ""
 ],
 "C08": [
  "proved",
  "policy::leaves, for which the code is wrong, is C57."
 ],
 "C09": [
  "proved",
  "-- on begin() is C58."
 ],
 "C10": [
  "proved",
  ""
 ],
 "C11": [
  "proved",
  ""
 ],
 "C12": [
  "proved",
  ""
 ],
 "C31": [
  "proved",
  "Last child and previous sibling are C68."
 ],
 "C32": [
  "proved",
  "The forward loop, for every policy (n-ary and binary, trees and views): C32_forward_nary, C32_forward_binary. C32_bidirectional: also backwards, when some element satisfies the predicate; outside the claim, -- from end() when none does is not right (C32_dec_end_*)."
 ],
 "C33": [
  "proved",
  ""
 ],
 "C13": [
  "proved",
  "Any state that is a family of trees, also self assignment. Independence of later changes: the copy is on fresh nodes and C29 says an operation leaves the other trees alone."
 ],
 "C14": [
  "proved",
  ""
 ],
 "C15": [
  "proved",
  "Supports (Spec/History.lean) is the condition on the history; C54 shows that it excludes nothing that works. erase(first, last) of nary trees is included where each step erases the root or a middle child. The calls that fail are C59."
 ],
 "C16": [
  "proved",
  ""
 ],
 "C20": [
  "proved",
  "CountsOk and KeepsCounts (Spec/History.lean) are the condition, Careful (Props/Counts.lean) the discipline. Other histories are C62; C56 gives the way to repair the counts after any history."
 ],
 "C21": [
  "proved",
  "Same condition as C20; C20_careful_* speaks of arity() too. Other histories are C62."
 ],
 "C17": [
  "proved",
  "Empty sources in nary trees are C60."
 ],
 "C18": [
  "proved",
  "Nary and binary, front and back, all sources, full binary nodes throw."
 ],
 "C19": [
  "proved",
  "nary trees are C61."
 ],
 "C25": [
  "proved",
  "The other throwing calls are C65."
 ],
 "C26": [
  "proved",
  "insert_over at the root is C66."
 ],
 "C27": [
  "proved",
  "nary trees are C61."
 ],
 "C28": [
  "proved",
  "erase in nary trees is C61, breadth_first iterators C67."
 ],
 "C29": [
  "proved",
  "One call and every history of calls, including the remembered counts and every node field of the other trees."
 ],
 "C22": [
  "proved",
  "C22_true_is_right_*, C22_equivalence_*, C22_no_effect_* need no condition on the counts. Without it `false` can be wrong: C63."
 ],
 "C23": [
  "proved",
  "Without right counts `false` can be wrong as in C63."
 ],
 "C24": [
  "proved",
  "A third slot and objects taken with get_child out of a larger literal (nary trees) are C64; C46_alone: an object not taken with get_child is followed by no slot."
 ],
 "C30": [
  "proved",
  "print_node/print_tree of nary and binary trees and of views of a node inside a tree: the text is the layout (Spec/Print.lean) of exactly the first min(size, limit) nodes in pre-order, nested as in the tree, with the mark where children were left out; what is shown is unique; everything for limit >= size; nothing for limit <= 0; n() for an empty tree. The text of one value (code_like_print) is a parameter, as is whether the stream is in hexadecimal mode; with address digits the nodes after the root are written in hexadecimal mode (C86)."
 ],
 "C34": [
  "proved",
  "Numbering, mark_count and assign_mark after a successful search proved for nary and binary trees. After a failed search the captures keep the nodes of the failed attempt: C34_failed_search_defect. Names of captures are template machinery and not modelled."
 ],
 "C35": [
  "proved",
  "For patterns in which every opt has an argument (see C37 for the others): result of search, nodes remembered, assign_result, views, previous uses of the pattern object; nary and binary trees."
 ],
 "C36": [
  "proved",
  "For all patterns made of one, opt and cpt."
 ],
 "C37": [
  "partial",
  "False of the code: opt(v) accepts any value (C37_opt_any_value_defect), nodes of abandoned attempts stay in the result (C37_stale_node_defect), rematching succeeds where nothing matches (C37_false_match_defect), a failed assertion for binary trees (C37_binary_assert_defect). Proved: the reluctant one matches nothing; C36."
 ],
 "C38": [
  "proved",
  "pre_order is C69; going backwards depends on C68."
 ],
 "C39": [
  "proved",
  "Counts assume that the tree remembers no wrong number (C20, C21). == of views of nary trees is C70, changes of the tree below a view C71."
 ],
 "C40": [
  "proved",
  "nary and binary trees, views, all quantifiers, any previous use of the pattern object. Patterns with a star or opt that can match nothing are outside (C37)."
 ],
 "C41": [
  "proved",
  "Each restriction is needed: C72."
 ],
 "C42": [
  "proved",
  "Reluctant stars with more arguments are C73, stars without arguments C43."
 ],
 "C43": [
  "proved",
  "An exact statement of what the code does; what it should do is C74."
 ],
 "C44": [
  "proved",
  "nary and binary trees and views; any pattern, any state of the pattern object, any bound on the length of the run."
 ],
 "C45": [
  "proved",
  "The class contains those of C36 and C40 (C45_starless_settled, C45_solid_settled). Other patterns are C75."
 ],
 "C46": [
  "proved",
  "Every expression. Trees made from such objects: C24."
 ],
 "C47": [
  "proved",
  "Assignment is C76. other_policy to leaves is excluded (C57)."
 ],
 "C48": [
  "proved",
  "The result for the patterns of C34. Uniqueness of names is C77."
 ],
 "C49": [
  "proved",
  "Both kinds of nodes."
 ],
 "C50": [
  "proved",
  "Children are C78."
 ],
 "C51": [
  "proved",
  "Both kinds of nodes. reset_assignment_flags is not modelled: it assigns false to pointers and does not compile when used."
 ],
 "C52": [
  "proved",
  "Expressions without meaning are C79. C52_search_* combines the making of a pattern with C35."
 ],
 "C53": [
  "proved",
  "Matches in views and marks left by failed searches are C80. The results of other patterns are C37, C42."
 ],
 "C54": [
  "proved",
  "Both directions, nary and binary; makes the condition of C15 exact. erase(first, last) of binary trees is included; for nary trees see C27."
 ],
 "C55": [
  "proved",
  "Trees and views, nary and binary. The converse is false (C37_false_match_defect)."
 ],
 "C56": [
  "proved",
  "No restriction on the history beyond Supports, unlike C20-C22."
 ],
 "C57": [
  "partial",
  "False of the code (refuted). C57_mixed_defect: ++ -- ++ ++ ++ on 1(2,3,4) visits a leaf twice. C57_made_forward_defect: a leaves iterator made at any node of any tree is at end() after one ++. Proved: going back from such an iterator (C57_made_backward_*_partial) and C05."
 ],
 "C58": [
  "partial",
  "False of the code (refuted). It holds for pre_order and siblings (C58_dec_begin_partial). On every non-empty tree post_order and in_order go to the root, leaves to the last leaf, and breadth_first, the default, is undefined behaviour: the _defect theorems."
 ],
 "C59": [
  "partial",
  "False of the code (refuted). Counterexamples: nary erase of a first, only or last child; insert_over at end() of a non-empty tree; insert_child of a moved tree when it throws. C15 and C54 say exactly what holds."
 ],
 "C60": [
  "partial",
  "False of the code (refuted). It holds at the root and at children with a sibling on both sides (C60_insert_over_empty_partial); C60_insert_over_empty_defect is a null pointer write; C54 says exactly where it fails."
 ],
 "C61": [
  "partial",
  "False of the code (refuted). erase of a first child is always undefined (C61_first_child_defect), of a last child with a sibling always leaves a parent without last child (C61_last_child_defect), so ranges fail too (C61_range_defect). At the root and at middle children everything holds: the _partial theorems."
 ],
 "C62": [
  "partial",
  "False of the code (refuted). The _defect theorems give supported histories with a wrong size() or arity(). C20, C21 and C56 say what holds."
 ],
 "C63": [
  "partial",
  "False of the code (refuted). C63_nary_defect and C63_binary_defect are supported histories after which equal trees compare different, because size() is remembered wrong (C62). C22 and C56 say what holds."
 ],
 "C64": [
  "partial",
  "False of the code (refuted). C64_third_slot_defect: the third slot is dropped but counted. C64_slot_defect: the root of an nary tree made from a slot that others follow has a next sibling; C64_slot_compare_defect: comparing such a tree is undefined. For binary trees parts are right (C24_object_binary)."
 ],
 "C65": [
  "partial",
  "False of the code (refuted). insert_over with a new element at end() of a non-empty tree always leaks (C65_insert_over_leaks_*_defect), for good (C65_lost_for_good_*_defect); otherwise such calls do no harm: programs that make them between supported calls run to the end, every tree is as specified and exactly the nodes so made are left at the end (C65_programs_go_on_*_partial). insert_child of a moved non-empty tree that throws always leaves the moved tree pointing to freed nodes (C65_insert_child_move_*_defect). C25 has the other calls."
 ],
 "C66": [
  "partial",
  "False of the code (refuted). The returned iterator always keeps the old root, whose memory is freed, as the root of what it iterates over (C66_nary_defect, C66_binary_defect), so that ++ need not reach end() (C66_loop_defect)."
 ],
 "C67": [
  "partial",
  "False of the code (refuted). C67_breadth_first_defect: after erasing a node that is in the queue of an iterator, ++ reads freed memory although its own node is still there. Positive (Props/Levels.lean): an iterator at level d stays a cursor at its node whenever levels 0..d+1 are unchanged; hence after insert_over/erase two or more levels further down and insert_child one or more; C67_next_level_defect shows one level less is not enough."
 ],
 "C68": [
  "partial",
  "False of the code (refuted). Whenever the immediate previous sibling fails the predicate get_prev_sibling never ends (C68_prev_never_ends_defect), and so get_last_child when the last two children fail it. Otherwise both are right: C68_prev_partial, C68_last_partial."
 ],
 "C69": [
  "partial",
  "False of the code (refuted). C69_pre_order_defect: the loop ends early, because is_last_child does not ask the predicate. For every predicate the loop visits exactly walk q, always a beginning of what it should visit (C69_pre_order_exact_*_partial); it visits everything when the last child of every node that has an accepted child is accepted (C69_pre_order_*_partial)."
 ],
 "C70": [
  "partial",
  "False of the code (refuted). Proved when no sibling follows the first operand (C70_eq_nary_partial, C70_eq_mixed_partial). Otherwise == also compares the following siblings: exact behaviour in C70_eq_nary_exact and C70_eq_mixed_exact, undefined behaviour or a wrong false in the _defect theorems."
 ],
 "C71": [
  "partial",
  "False of the code (refuted). C71_stale_defect, C71_stale_arity_defect: once size() or arity() has answered a number (not 0), the view answers it for ever. After update_size_arity() it answers for the subtree as it now is (C71_updated_*_partial)."
 ],
 "C72": [
  "partial",
  "False of the code (refuted). A star with two arguments (C72_two_arguments_defect), an argument that can match nothing (C72_null_argument_defect), a pattern object used before the tree changed (C72_used_pattern_defect): the pattern is not found although it matches. C41 has what holds."
 ],
 "C73": [
  "partial",
  "False of the code (refuted). Nodes are copied twice (C73_copies_defect), an assertion fails for binary trees (C73_binary_defect), and with an argument that matched nothing a null pointer is read (C73_null_defect)."
 ],
 "C74": [
  "partial",
  "False of the code (refuted). As soon as one node below the root is not accepted the computation never ends: C74_greedy_defect, in general the second half of C43_greedy_*."
 ],
 "C75": [
  "partial",
  "False of the code (refuted). C75_endless_defect: a pattern and a tree of 14 nodes for which the search never ends, for every bound on the steps. C75_view_defect: a search of a view that matches a node outside it. C44 (safety) holds for all patterns."
 ],
 "C76": [
  "partial",
  "False of the code (refuted). Assignment does not copy the predicate (tree_iterator_filter.hpp 73-76, 86-89): right when both predicates agree (C76_assign_same_partial), otherwise C76_assign_partial says what happens; C76_assign_defect and C76_default_defect (undefined behaviour after assigning to a default constructed one) are counterexamples."
 ],
 "C77": [
  "partial",
  "False of the code (refuted). Only a capture below a capture of the same name that has a next sibling is rejected (C77_unique_partial); C77_duplicate_defect gives patterns with two captures of the same name that compile."
 ],
 "C78": [
  "partial",
  "False of the code (refuted). C78_nary_defect and C78_binary_defect: after moving any child the parent still points to the old node and no longer belongs to any well-formed tree."
 ],
 "C79": [
  "partial",
  "False of the code (refuted). C79_called_capture_defect: cpt(e)(a) compiles and is cpt(a), since the static_assert meant to reject it is in replace_children, which nothing calls; C79_called_capture_search_defect: it is searched as such."
 ],
 "C80": [
  "partial",
  "False of the code (refuted). The nodes of a view are const, so typeid differs and assigning a match found in a view always throws (C80_view_defect); a failed search in another kind of tree leaves marks in the matchers but not the type, so assign_mark casts a node to the wrong type (C80_wrong_kind_defect)."
 ],
 "C81": [
  "proved",
  "Writes are also calls of the histories of C13-C16, C20-C22, C26-C29, C54, C56 (Op.write)."
 ],
 "C82": [
  "proved",
  "The function is pure; the loop is the one of a range-based for statement."
 ],
 "C83": [
  "proved",
  ""
 ],
 "C84": [
  "proved",
  "Reads (Spec/Reads.lean) is the grammar of the expressions. C84_clear_* say which values qualify; strings with quotes are C85, addresses C86."
 ],
 "C85": [
  "partial",
  "Refuted by the code for strings with double quotes, which are not escaped (C85_quotes_defect: two trees of different size with the same text). Proved for strings without double quotes."
 ],
 "C86": [
  "partial",
  "Refuted by the code: std::hex stays in force after the first address, so the values of all nodes but the root are written in hexadecimal and so is everything the program prints later (C86_hex_*_defect for every non-empty tree, C86_values_defect); 16 or more digits shift a 64-bit number by its width. Proved: without addresses, or on a stream already in hexadecimal mode, all values are written in the mode of the stream, which does not change; the exact text in all cases is C30."
 ],
 "C87": [
  "proved",
  "The rule is Recount (Spec/Tally.lean), stated with the trees and two numbers per object; Tally is a history with it. Histories in which the rule gives the true counts are C20, C21."
 ],
 "C88": [
  "proved",
  "The four conditions are the fields of SaysEmpty (Props/Tally.lean). With siblings and fixed a tree with nodes can also have begin(p) == end(p)."
 ],
 "C89": [
  "proved",
  "Model/Faults.lean repeats the node constructors and the calls that use them with a counter of the events that may throw; an event is a request to the allocator or the construction of a value. Failures of the queue of breadth_first iterators are not among the events (see C91)."
 ],
 "C90": [
  "partial",
  "Refuted: allocate() owns the block only after the construction, and node constructors hold their children in raw pointers, so in every state every call that throws after the first request leaks at least one block for good (proved for every continuation of the program). What holds: a call whose very first request to the allocator throws leaks nothing."
 ],
 "C91": [
  "partial",
  "Refuted: a moved tree is left referring to freed nodes when the queue cannot be copied; the new nodes leak when the queue of the position cannot grow in insert_over; a child stays in the tree, and a moved child then belongs to two trees, when the queue of the returned iterator cannot be made. What holds: inserting new nodes, a queue that cannot be copied has no effect; nor has one that cannot grow when a tree is moved over a node."
 ],
 "C92": [
  "proved",
  "An iff for every supported call in every state says which calls respect the allocators (AllocOk); programs of such calls give every block back to where it came from, with the trees and answers of the program without regard to allocators. Allocators are numbers; Model/Alloc.lean finds the blocks a call obtained and gave back by comparing the heaps."
 ],
 "C93": [
  "partial",
  "Refuted: move assignment takes over the allocator before the old nodes are freed, swap leaves the allocators where they are, insertions of moved trees do not look at them, and the constructors that make nodes use this->allocator before it is constructed. In every state each of these calls is undefined behaviour or leaves a tree whose destruction is. What does hold is C92. Also get_allocator() answers a default constructed allocator (Model/Alloc.lean)."
 ],
 "C94": [
  "proved",
  ""
 ],
 "C95": [
  "partial",
  "Refuted: size() and everything that calls it write the mutable size_value of a tree that does not remember its size, so two calls of size() are a data race (for every such tree), and update_size_arity(), which is const, races with size() whatever the tree is and can make size() answer 0 for a tree with nodes. What does hold: if single accesses are atomic and nobody calls update_size_arity(), the answers are right in every schedule (_partial); without races C94."
 ],
 "C96": [
  "proved",
  "arity() of binary trees is not in the statement (it stops early)."
 ],
 "C97": [
  "partial",
  "Refuted for nary trees: the copy constructor, deallocate and operator== call themselves for the next sibling, so every tree that has a node with k children needs more than k nested calls for each of them. It holds for binary trees (_partial); the exact depth is C96."
 ],
 "C98": [
  "proved",
  "breadth_first and leaves backwards are not in the statement."
 ],
 "C99": [
  "proved",
  "leaves iterators lose their place when converted: C57_made_forward_defect."
 ],
 "C100": [
  "proved",
  "The two kinds live in separate heaps (they have different node types), so aliasing between them cannot be expressed, as in the code. Calls refuted by C59-C66 are excluded by Legal."
 ],
 "C101": [
  "proved",
  "The predicate looks at the value of the target node. get_child(i), which generative_navigator does not redefine, is not used. The moves that are not sound are refuted by C102."
 ],
 "C102": [
  "partial",
  "Refuted by the code: the second pointer is moved by the same getter of the generated tree, which has only the children visited so far (binary: first/last child after the other one; nary: copies are in the order of visits), a skipped first child is not skipped in the copy (a second copy or a failed assertion), and get_prev_sibling of a node whose previous sibling is rejected does not end. C101 proves the moves for which the claim holds."
 ],
 "C103": [
  "proved",
  "Requests of the queues of breadth_first iterators are not counted."
 ],
 "C104": [
  "proved",
  "C72_own_result_defect and C73_second_result_defect show two patterns outside the hypotheses for which it fails."
 ],
 "C105": [
  "proved",
  "Took (Spec/Took.lean) says it; two stars where the argument may also be matched in place of the star are C106."
 ],
 "C106": [
  "partial",
  "Refuted by the code when a star may take a node where its own argument matches: C106_inner_star_defect (inside a larger pattern), C106_used_pattern_defect (a view, after a search of the tree). Proved (C106_same_nodes_*_partial) for whole trees and patterns where no argument of a star that is not possessive matches at a node the star accepts (sharp); without star see C35."
 ],
 "C107": [
  "proved",
  "Views of nary trees that are not of a whole tree are C70."
 ],
 "C108": [
  "proved",
  "Leaves iterators: C57."
 ]
}