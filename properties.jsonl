{"id": "C01", "title": "Pre-order iteration", "statement": "On any tree, an iterator with policy::pre_order behaves as a bidirectional cursor over the list 'each node, then its children's subtrees left to right': begin() is the first element, every ++ moves to the next element and after the last one to end(), every -- from an element that is not the first moves to the previous one, and -- from end() moves to the last. No step dereferences an invalid pointer and every step terminates.", "quantifier": "every tree shape and size, every node of it, every finite sequence of ++ and -- that stays in range", "why_tests_cant": "tests iterate a handful of fixed literals front to back; the claim is over every shape and every move sequence", "anchors": ["include/TreeDS/policy/pre_order.hpp: pre_order_impl", "include/TreeDS/tree_iterator.hpp: operator++, operator--", "include/TreeDS/node/navigator/navigator_base.hpp"]}
{"id": "C02", "title": "Post-order iteration", "statement": "On any tree, an iterator with policy::post_order is a bidirectional cursor over the list 'children's subtrees left to right, then the node' (same cursor laws as C01).", "quantifier": "every tree shape and size, every node, every in-range sequence of ++ and --", "why_tests_cant": "only a few literal trees are tested", "anchors": ["include/TreeDS/policy/post_order.hpp: post_order_impl", "include/TreeDS/tree_iterator.hpp"]}
{"id": "C03", "title": "In-order iteration of binary trees", "statement": "On any binary tree, an iterator with policy::in_order is a bidirectional cursor over the list 'left subtree, node, right subtree' (same cursor laws as C01).", "quantifier": "every binary tree, every node, every in-range sequence of ++ and --", "why_tests_cant": "only a few literal trees are tested", "anchors": ["include/TreeDS/policy/in_order.hpp: in_order_impl", "include/TreeDS/tree_iterator.hpp"]}
{"id": "C04", "title": "Breadth-first iteration", "statement": "On any tree, an iterator with policy::breadth_first (the default) is a bidirectional cursor over the list of rows, top to bottom and left to right inside a row (same cursor laws as C01), although it is driven by an internal queue that both ++ and -- edit.", "quantifier": "every tree shape and size, every node, every in-range sequence of ++ and --", "why_tests_cant": "the queue content depends on the whole move history; tests try one forward and one backward sweep of fixed trees", "anchors": ["include/TreeDS/policy/breadth_first.hpp: breadth_first_impl", "include/TreeDS/node/navigator/navigator_base.hpp: get_other_branch, get_row_extremum, get_deepest_extremum_child"]}
{"id": "C05", "title": "Leaves iteration", "statement": "On any tree, any number of ++ from begin() of policy::leaves followed by any number of -- (staying in range) leads to the right node of the list of the nodes without children, left to right; the loop from begin() to end() visits exactly these nodes in this order, the loop with -- from end() in the opposite order. No step dereferences an invalid pointer and every step terminates.", "quantifier": "every tree shape and size, every number of steps", "why_tests_cant": "mixed ++/-- histories are not tested and the iterator carries a stack that depends on the history", "anchors": ["include/TreeDS/policy/leaves.hpp: leaves_impl"]}
{"id": "C06", "title": "Siblings and fixed policies", "statement": "An iterator with policy::siblings is a bidirectional cursor over the children of its root; one with policy::fixed ranges over exactly one element, the node it was made from.", "quantifier": "every tree, every in-range sequence of ++ and --", "why_tests_cant": "only fixed literals are tested", "anchors": ["include/TreeDS/policy/siblings.hpp", "include/TreeDS/policy/fixed.hpp"]}
{"id": "C07", "title": "Reverse iteration is the reverse of forward iteration", "statement": "For pre_order, post_order, in_order, breadth_first, siblings: looping from rbegin() to rend() visits exactly the nodes that looping from begin() to end() visits, in the opposite order, each exactly once, and both loops terminate. Every sequence of ++ and -- on reverse iterators that stays between rbegin() and rend() leads, without error, to the right element of that opposite order, and compares equal to rend() exactly at the end; also on views of a node.", "quantifier": "every tree, every view of a node, every policy named, every in-range sequence of ++ and -- on a reverse iterator", "why_tests_cant": "tests compare on a few literals; the quantifier is all trees", "anchors": ["include/TreeDS/tree_base.hpp: rbegin, rend", "include/TreeDS/tree_iterator.hpp"]}
{"id": "C08", "title": "Changing the policy in the middle of an iteration", "statement": "For p one of pre_order, post_order, in_order, breadth_first, siblings: it.other_policy(p) (and the iterator to const_iterator conversion and other_node) gives an iterator on the same node from which ++ and -- continue exactly as an iterator with policy p that had walked from begin() to that node.", "quantifier": "every tree, every node, every target policy, every following in-range sequence of ++ and --", "why_tests_cant": "the state that has to be reconstructed depends on the position in a tree of any shape", "anchors": ["include/TreeDS/tree_iterator.hpp: other_policy, other_node", "include/TreeDS/policy/breadth_first.hpp: manage_initial_status", "include/TreeDS/policy/leaves.hpp"]}
{"id": "C09", "title": "Boundary behaviour of iterators", "statement": "++ on end() rewinds to the first element and -- on end() goes to the last one (policies pre_order, post_order, in_order, breadth_first, siblings); on an empty tree, for every policy, begin()==end() and ++/-- leave the iterator unchanged.", "quantifier": "every tree including the empty one, every policy", "why_tests_cant": "tests do not step before begin() and sample few trees", "anchors": ["include/TreeDS/tree_iterator.hpp: operator++, operator--", "include/TreeDS/policy/*.hpp: decrement_impl"]}
{"id": "C10", "title": "Views of a subtree never leave the subtree", "statement": "Iterating a view (or any iterator whose navigator root is an inner node) visits exactly the nodes of the subtree below that node, in the order of the policy, although the node has a parent and siblings in the underlying tree.", "quantifier": "every tree, every inner node taken as root of a view, every policy", "why_tests_cant": "every pair (tree, node) must be right; tests take a few", "anchors": ["include/TreeDS/viewer/tree_view.hpp: tree_view", "include/TreeDS/node/navigator/navigator_base.hpp: is_root, get_parent, get_next_sibling"]}
{"id": "C11", "title": "Structural navigation", "statement": "go_parent/go_prev_sibling/go_next_sibling/go_first_child/go_last_child/go_child(i) and the node getters move to exactly the structural neighbour (or to end() when there is none); children() and following_siblings() count exactly the children and the siblings to the right; go_child(i) is the i-th child and end() when i is out of range.", "quantifier": "every tree, every node, every index", "why_tests_cant": "must hold in every state produced by any sequence of modifications", "anchors": ["include/TreeDS/node/nary_node.hpp: calculate_child, children, following_siblings", "include/TreeDS/node/binary_node.hpp: get_child, get_first_child, get_last_child", "include/TreeDS/tree_iterator.hpp: go_*"]}
{"id": "C12", "title": "Row navigation", "statement": "get_right_branch/get_left_branch return the next/previous node of the same depth (null at the ends), get_same_row_leftmost/rightmost the first/last node of the same depth, get_deepest_rightmost_leaf/leftmost_leaf the last/first node of the deepest row, get_highest_left_leaf/right_leaf the end of the chain of first/last children.", "quantifier": "every tree, every node", "why_tests_cant": "the climbing/descending loops carry a level counter whose correctness depends on the shape of the whole tree", "anchors": ["include/TreeDS/node/navigator/navigator_base.hpp: get_other_branch, get_row_extremum, get_deepest_extremum_child, get_highest_leaf"]}
{"id": "C13", "title": "Copy is deep and faithful", "statement": "Copy construction and copy assignment yield a tree with the same shape and the same values, made only of newly allocated nodes; the source is unchanged; no later modification of one is visible in the other.", "quantifier": "every source and destination tree (including self assignment)", "why_tests_cant": "sharing bugs only show up for particular later modifications", "anchors": ["include/TreeDS/tree.hpp: tree(const tree&), operator=", "include/TreeDS/node/nary_node.hpp: copy constructors", "include/TreeDS/node/binary_node.hpp: copy constructor"]}
{"id": "C14", "title": "Move and swap transfer the nodes", "statement": "Move construction, move assignment and swap transfer exactly the nodes (same addresses, same order) without allocating; a moved-from tree is empty; the former content of the destination of a move assignment is released.", "quantifier": "every pair of trees", "why_tests_cant": "tests check a few literals and cannot see leaks", "anchors": ["include/TreeDS/tree.hpp: tree(tree&&), operator=(tree&&), swap, nullify, assign"]}
{"id": "C15", "title": "No memory error in any supported history", "statement": "Starting from no trees, no finite history of public operations (construct, copy, move, assign, swap, clear, insert_over, insert_child_front/back, erase, size, arity, update_size_arity, destroy) with arguments that make sense, none of them one of the failing calls listed in C54, makes the library read or write a freed or null node, free a node twice, or leave a node that no tree owns: at every moment each allocated node belongs to exactly one tree, each call has its specified effect, and when all trees are destroyed no node is left.", "quantifier": "every finite history of operations on any number of trees", "why_tests_cant": "a memory error needs a particular history; tests run a few", "anchors": ["include/TreeDS/tree.hpp", "include/TreeDS/allocator_utility.hpp: allocate, deallocate", "include/TreeDS/node/nary_node.hpp: replace_with", "include/TreeDS/node/binary_node.hpp: replace_with"]}
{"id": "C16", "title": "clear and destruction release every node exactly once", "statement": "clear() (and the destructor) releases exactly the nodes of the tree, each once, and leaves the tree empty with begin()==end(), size()==0; no other tree is affected.", "quantifier": "every tree", "why_tests_cant": "leaks and double frees on unusual shapes escape tests without a sanitizer", "anchors": ["include/TreeDS/tree.hpp: clear, ~tree", "include/TreeDS/allocator_utility.hpp: deallocate", "include/TreeDS/node/nary_node.hpp: get_resources"]}
{"id": "C17", "title": "insert_over replaces exactly one subtree", "statement": "insert_over/emplace_over at a position puts the new element (value, literal, copy or moved non-empty tree; for binary trees also an empty tree) in place of the whole subtree at that position; every other node keeps its identity, value, parent and order; the replaced nodes are released; on an empty tree the new element becomes the root.", "quantifier": "every tree, every position, every inserted element", "why_tests_cant": "all positions (first/middle/last/only child, root) of all shapes", "anchors": ["include/TreeDS/tree.hpp: insert_over, emplace_over, modify_subtree, replace_node", "include/TreeDS/node/nary_node.hpp: replace_with"]}
{"id": "C18", "title": "insert_child_front / insert_child_back", "statement": "insert_child_front/back adds the new element as the first/last child of the node at the position; every existing node keeps its identity, value and relative order. On a binary node with two children the call throws and changes nothing.", "quantifier": "every tree, every position, every inserted element", "why_tests_cant": "all positions of all shapes", "anchors": ["include/TreeDS/tree.hpp: insert_child_front, insert_child_back, add_child", "include/TreeDS/node/nary_node.hpp: prepend_child, append_child", "include/TreeDS/node/binary_node.hpp: prepend_child, append_child"]}
{"id": "C19", "title": "erase in binary trees removes exactly one subtree", "statement": "In a binary tree, erase(position) removes the node at the position and everything below it and nothing else: every other node keeps its identity, value and relative order, and afterwards all navigation (forward, backward, children counts) is that of the smaller tree.", "quantifier": "every binary tree, every position", "why_tests_cant": "erasing first, middle, last and only children take different paths; tests erase only some of them", "anchors": ["include/TreeDS/tree.hpp: erase, erase_subtree, replace_node", "include/TreeDS/node/nary_node.hpp: replace_with", "include/TreeDS/node/binary_node.hpp: replace_with"]}
{"id": "C20", "title": "size() is the number of nodes, if the counts are kept", "statement": "size() returns the number of nodes of every tree after every supported history of calls (C15) that keep the remembered counts right (literals with at most two slots per node for binary trees; insert_child of a value, of an emplaced literal, of a literal at the back or of a single node into a tree that remembers both counts; insert_over and erase at the root, at a node with children, with a remembered size or of a single node by a single node; erase(first,last) with a remembered size and of whole subtrees) in particular when the program asks size() and arity() of a tree right before each modification of it and inserts children only as values, emplaced literals or literals at the back.", "quantifier": "every such history, trees of fewer than 2^64 nodes", "why_tests_cant": "the value is cached and updated incrementally; whether the cache is right depends on the history", "anchors": ["include/TreeDS/tree_base.hpp: size, update_size_arity", "include/TreeDS/tree.hpp: replace_node, add_child", "include/TreeDS/utility.hpp: calculate_size"]}
{"id": "C21", "title": "arity() is the maximum number of children, if the counts are kept", "statement": "arity() returns the largest number of children any node of the tree has, after every history as in C20.", "quantifier": "every such history, trees of fewer than 2^64 nodes", "why_tests_cant": "cached and updated incrementally", "anchors": ["include/TreeDS/tree_base.hpp: arity", "include/TreeDS/tree.hpp: replace_node, add_child", "include/TreeDS/utility.hpp: calculate_arity"]}
{"id": "C22", "title": "Equality is an equivalence, and structural if the counts are right", "statement": "In every state reached by a supported history, a == b is defined (never reads an invalid pointer), changes no node, no tree and no later comparison, is an equivalence relation if == of the values is one, and is true only if both trees have the same shape and equal values (for binary trees also the same left/right placement). If the remembered counts are right (C20), it is true exactly then, and != is its negation.", "quantifier": "every pair of trees, every history", "why_tests_cant": "the comparison consults cached sizes that depend on the history", "anchors": ["include/TreeDS/tree_base.hpp: operator==", "include/TreeDS/node/nary_node.hpp: operator==", "include/TreeDS/node/binary_node.hpp: operator=="]}
{"id": "C23", "title": "binary_tree to nary_tree conversion and comparison", "statement": "Constructing (or assigning) an nary_tree from a binary_tree yields the tree with the same values and, for each node, the present children in left to right order, all nodes new, the binary tree unchanged. Comparing an nary_tree with a binary_tree is defined and true only if the conversion would give an equal tree; exactly then if the remembered counts are right, in particular for the tree just constructed.", "quantifier": "every binary tree, every nary tree", "why_tests_cant": "all shapes, including nodes with only a right child", "anchors": ["include/TreeDS/nary_tree.hpp", "include/TreeDS/node/nary_node.hpp: constructor from binary_node, operator==(binary_node)"]}
{"id": "C24", "title": "A tree built from a literal is the literal", "statement": "A tree constructed from (or assigned) a struct_node literal n(v)(...), for binary trees with at most two slots per node, has exactly the shape and values written, its size() and arity() are the number of value nodes and the largest number of children written, and it compares equal to the literal and different from every other literal. Any tree whose remembered counts are right compares equal to exactly the literals that are written as it is. The same for struct_node objects made by any expression of C46, for nary trees if no slot follows the one used.", "quantifier": "every well-formed literal", "why_tests_cant": "the literal type is recursive; every shape must work, including empty n() slots", "anchors": ["include/TreeDS/node/struct_node.hpp: subtree_size, subtree_arity, children", "include/TreeDS/node/nary_node.hpp: struct_node constructor, operator==", "include/TreeDS/node/binary_node.hpp: allocate_left_child, allocate_right_child"]}
{"id": "C25", "title": "Failed operations have no effect", "statement": "When insert_over or insert_child_* of a tree into itself throws, when insert_child_* of a value, a literal, a copy of a tree or an empty tree throws (end() position, full binary node), or when insert_over of a moved tree or of an empty tree at end() of a non-empty tree throws, no tree changes, nothing is leaked and every tree can still be used and destroyed.", "quantifier": "every state and every throwing call", "why_tests_cant": "the state after an exception is rarely tested, leaks are invisible to tests", "anchors": ["include/TreeDS/tree.hpp: modify_subtree, add_child, insert_over, insert_child_front"]}
{"id": "C26", "title": "The iterators returned by insertions", "statement": "insert_over below the root returns an iterator that points to the inserted element, insert_child_* one at the same node as before, and from both ++/-- continue over the modified tree (equal to the iterator obtained by walking there from begin()).", "quantifier": "every tree, every position, every policy", "why_tests_cant": "the returned iterator must be right for every position and policy", "anchors": ["include/TreeDS/tree.hpp: modify_subtree, add_child", "include/TreeDS/policy/breadth_first.hpp: update", "include/TreeDS/policy/policy_base.hpp: update"]}
{"id": "C27", "title": "The iterator returned by erase; erasing ranges (binary trees)", "statement": "In a binary tree, erase(pos) returns the post-order successor of the erased node in the remaining tree (end() when there is none), as an iterator that goes on over the remaining tree. erase(first,last) removes the nodes of the post-order range [first,last) with everything below them and returns an iterator at last; if the range contains with a node all nodes below it, exactly the range is removed.", "quantifier": "every tree, every position, every range", "why_tests_cant": "ranges over all positions", "anchors": ["include/TreeDS/tree.hpp: erase"]}
{"id": "C28", "title": "Other nodes and their iterators survive modifications", "statement": "insert_over, insert_child_* and, in binary trees, erase do not move, reallocate or change any node outside the replaced/erased subtree: references to them stay valid and keep designating the same element, and a pre_order or post_order iterator at a node that survives (in a tree whose root survives) goes on over the modified tree.", "quantifier": "every tree, every operation, every untouched node", "why_tests_cant": "every pair of touched and untouched position", "anchors": ["include/TreeDS/tree.hpp", "include/TreeDS/node/nary_node.hpp: replace_with, prepend_child, append_child", "include/TreeDS/node/binary_node.hpp"]}
{"id": "C29", "title": "Operations on one tree do not disturb another", "statement": "An operation changes only the trees it is invoked on: every other tree keeps exactly its nodes, shape, values and cached size.", "quantifier": "every number of trees, every history", "why_tests_cant": "needs a frame argument over all heaps", "anchors": ["include/TreeDS/tree.hpp"]}
{"id": "C30", "title": "print_tree respects its node limit", "statement": "print_tree prints exactly the first min(size, limit) nodes in pre-order (all of them when limit >= size), with the nesting of the tree, and says '...' where something was cut.", "quantifier": "every tree and every limit", "why_tests_cant": "the limit is a counter shared by the recursive calls", "anchors": ["include/TreeDS/utility.hpp: print_node, print_tree"]}
{"id": "C31", "title": "Filtered sibling navigation", "statement": "With a node_pred_navigator, the first child and the next sibling are the nearest ones satisfying the predicate (null if there is none), the left and right child of a binary node those children if they satisfy it, and these queries terminate.", "quantifier": "every tree, every predicate, every node", "why_tests_cant": "termination and skipping depend on which siblings satisfy the predicate", "anchors": ["include/TreeDS/node/navigator/node_pred_navigator.hpp"]}
{"id": "C32", "title": "Filtered iteration", "statement": "A tree_iterator_filter over [begin,end) visits exactly the elements satisfying the predicate, in the order of the policy, and ++ from the last one reaches end().", "quantifier": "every tree, every predicate, every policy", "why_tests_cant": "all distributions of the predicate over the nodes", "anchors": ["include/TreeDS/tree_iterator_filter.hpp"]}
{"id": "C33", "title": "Iterator equality", "statement": "Two iterators of the same policy over the same tree compare equal exactly when they designate the same element (or are both end()); iterators over different non-empty trees/views never compare equal.", "quantifier": "every pair of reachable iterators", "why_tests_cant": "ranges over all positions and histories", "anchors": ["include/TreeDS/tree_iterator.hpp: operator==, operator!="]}
{"id": "C34", "title": "Captures of a pattern", "statement": "The captures cpt(...) of a pattern are numbered from 1 in pre-order of the pattern, mark_count() is their number, and after a successful search assign_mark(k, t) makes t a copy of exactly the nodes matched inside the k-th capture, nested as they are below the node that capture matched.", "quantifier": "every pattern made of one, opt and cpt in which every opt has an argument, every tree, every capture", "why_tests_cant": "unbounded nesting of patterns and trees", "anchors": ["include/TreeDS/matcher/node/matcher.hpp: get_following_captures, marked_result, mark_count", "include/TreeDS/matcher/node/capture.hpp", "include/TreeDS/matcher/pattern.hpp: assign_mark"]}
{"id": "C35", "title": "Pattern search is exact", "statement": "pattern.search(tree) returns true exactly when the pattern matches at the root of the tree: values accepted, arguments matched by different children in order, an opt either matched or skipped. Each matcher then remembers the first node it can, whatever was searched before, and assign_result copies exactly the matched nodes, nested as in the tree; after a failed search there is no result.", "quantifier": "every pattern made of one, opt and cpt in which every opt has an argument, every tree and view", "why_tests_cant": "backtracking search over all trees and patterns", "anchors": ["include/TreeDS/matcher/pattern.hpp", "include/TreeDS/matcher/node/matcher.hpp", "include/TreeDS/matcher/node/one_matcher.hpp", "include/TreeDS/matcher/node/opt_matcher.hpp", "include/TreeDS/matcher/node/capture.hpp"]}
{"id": "C36", "title": "Every pattern search ends", "statement": "The search of any pattern made of one, opt and cpt in any tree terminates without an invalid access, all matchers remember null or nodes of the tree searched, and the result for an n-ary tree can always be built: a well-formed tree of new nodes whose values are values of the tree, with no leak.", "quantifier": "every pattern made of one, opt and cpt (including opt that may match nothing), every tree", "why_tests_cant": "termination over all patterns and trees, including rematching", "anchors": ["include/TreeDS/matcher/node/matcher.hpp: search_node_this, search_node_sibling", "include/TreeDS/matcher/node/opt_matcher.hpp", "include/TreeDS/matcher/pattern.hpp"]}
{"id": "C37", "title": "Optional matchers without arguments", "statement": "opt(v) without arguments matches a node with the value v or nothing at all; the result of a successful search is a part of the tree searched and a pattern with such matchers matches only if it does so without them.", "quantifier": "every pattern and every tree", "why_tests_cant": "rematching after a failed attempt depends on the whole pattern and tree", "anchors": ["include/TreeDS/matcher/node/opt_matcher.hpp", "include/TreeDS/matcher/node/matcher.hpp: search_node_sibling, reset"]}
{"id": "C38", "title": "Iterating with a predicate navigator", "statement": "Looping forward over a tree with a node_pred_navigator and policy post_order, breadth_first, leaves, siblings or in_order visits exactly the nodes that satisfy the predicate and whose ancestors below the root all satisfy it, in the order of the policy; in_order iterators are cursors (C01) over these nodes.", "quantifier": "every tree, every predicate, these policies", "why_tests_cant": "all distributions of the predicate over the nodes of unbounded trees", "anchors": ["include/TreeDS/node/navigator/node_pred_navigator.hpp", "include/TreeDS/policy/pre_order.hpp", "include/TreeDS/policy/post_order.hpp", "include/TreeDS/policy/in_order.hpp", "include/TreeDS/policy/breadth_first.hpp", "include/TreeDS/policy/leaves.hpp", "include/TreeDS/policy/siblings.hpp"]}
{"id": "C39", "title": "Views show a tree or a part of it", "statement": "A view of a tree, or at an iterator of a tree or of another view, shows exactly the subtree whose root the iterator designates: empty(), size(), arity() and iteration (any policy) are those of that subtree alone, without regard to what surrounds it; two views of binary trees are equal exactly when the subtrees they show are equal.", "quantifier": "every tree, every place in it, views of views, every pair of places", "why_tests_cant": "unbounded trees and all pairs of places in them", "anchors": ["include/TreeDS/viewer/tree_view.hpp", "include/TreeDS/viewer/nary_tree_view.hpp", "include/TreeDS/tree_base.hpp: size, arity, operator==", "include/TreeDS/node/nary_node.hpp: operator=="]}
{"id": "C40", "title": "A search with star is sound and ends", "statement": "The search of a pattern with star matchers (any quantifier) in any tree or view terminates without an invalid access. If it returns true the pattern matches at the root: every star stands for a connected set of nodes its value matcher accepts, its arguments match pairwise disjoint subtrees reached through such nodes, from left to right, and every matcher remembers the node it was matched with. If it returns false there is no result.", "quantifier": "every pattern made of one, opt, cpt and star with any quantifiers in which every opt and star has an argument, every tree and view, every previous use of the pattern object", "why_tests_cant": "backtracking over all trees and patterns, with state kept in the pattern object", "anchors": ["include/TreeDS/matcher/node/multi_matcher.hpp: search_node_impl, get_match_iterator, get_backtrack_funcion", "include/TreeDS/matcher/node/matcher.hpp: search_node_this, search_node_sibling", "include/TreeDS/policy/pre_order.hpp: go_depth_first_ramification", "include/TreeDS/matcher/pattern.hpp"]}
{"id": "C41", "title": "A search with star is exact", "statement": "For a pattern with star matchers in which no matcher can match nothing and each star that is not possessive has one argument: the search returns true if and only if the pattern matches at the root of the tree, also if the pattern object was used before for trees that are unchanged since.", "quantifier": "every such pattern, every tree, every previous use of the pattern object for trees that are unchanged", "why_tests_cant": "the search is greedy and only partly backtracks; a miss needs a particular pattern, tree and history", "anchors": ["include/TreeDS/matcher/node/multi_matcher.hpp: search_node_impl, get_match_iterator, get_backtrack_funcion, subtree_cut", "include/TreeDS/matcher/node/matcher.hpp: search_node_sibling, reset"]}
{"id": "C42", "title": "The result of a search with star", "statement": "After a successful search of a pattern with star matchers, in which every opt and star has an argument and every reluctant star one argument, assign_result and assign_mark assign to any tree (also to the tree searched) a new tree that is a part of the tree searched: the matched nodes and, below a star, the nodes its quantifier takes: a greedy or possessive star all accepted nodes around the matches of its arguments, a reluctant one only those on the way to it, a default one level by level until all arguments are reached. No node is used twice, nothing leaks and no other tree changes.", "quantifier": "every such pattern made of one, opt, cpt and star with any quantifiers, every tree, every capture, every later state with that tree", "why_tests_cant": "the result is built by a breadth-first walk of two trees at once; unbounded patterns and trees", "anchors": ["include/TreeDS/matcher/node/multi_matcher.hpp: result_impl, children_set_result, children_reluctant_set_result", "include/TreeDS/node/navigator/generative_navigator.hpp", "include/TreeDS/node/multiple_node_pointer.hpp", "include/TreeDS/node/navigator/node_pred_navigator.hpp", "include/TreeDS/policy/breadth_first.hpp", "include/TreeDS/node/nary_node.hpp: assign_child_like, allocate_assign_parent", "include/TreeDS/node/binary_node.hpp: assign_child_like, allocate_assign_parent"]}
{"id": "C43", "title": "A star without arguments", "statement": "star(v) without arguments is found in every tree. Its result is nothing for a reluctant star or an empty tree, the root alone for a default one, and for a greedy or possessive one the whole tree if all nodes below the root are accepted; otherwise the computation of the result does not end.", "quantifier": "every quantifier, every value matcher, every tree", "why_tests_cant": "recursion over unbounded trees and all distributions of accepted values", "anchors": ["include/TreeDS/matcher/node/multi_matcher.hpp: no_children_set_result, keep_assigning_children, search_node_impl"]}
{"id": "C44", "title": "Searches are safe", "statement": "No search of a pattern in a tree or view makes an invalid access, however long it runs and whatever the pattern object was used for before. When it ends, every matcher of the pattern remembers null or a node of the tree searched (for a view: of the tree it belongs to), never a node of an earlier search.", "quantifier": "every pattern made of one, opt, cpt and star with any quantifiers, including matchers that can match nothing, every tree and view, every state of the pattern object, every prefix of the run", "why_tests_cant": "matchers that match nothing are retried from the nodes earlier attempts have left behind; validity over all patterns, trees and histories", "anchors": ["include/TreeDS/matcher/node/matcher.hpp: search_node_this, search_node_sibling, reset", "include/TreeDS/matcher/node/multi_matcher.hpp: get_match_iterator, get_backtrack_funcion", "include/TreeDS/policy/pre_order.hpp: increment_impl, go_depth_first_ramification", "include/TreeDS/tree_iterator.hpp: other_node", "include/TreeDS/matcher/pattern.hpp"]}
{"id": "C45", "title": "Searches end", "statement": "The search of a pattern in which each cpt captures one matcher and no argument of a star that is not possessive can match nothing, in any tree or view, terminates, whatever the pattern object was used for before.", "quantifier": "every such pattern made of one, opt, cpt and star with any quantifiers, every tree and view, every state of the pattern object", "why_tests_cant": "termination over all patterns, trees and histories, including rematching", "anchors": ["include/TreeDS/matcher/node/matcher.hpp: search_node_this, search_node_sibling, reset", "include/TreeDS/matcher/node/multi_matcher.hpp: get_match_iterator, get_backtrack_funcion", "include/TreeDS/policy/pre_order.hpp: increment_impl"]}
{"id": "C46", "title": "Tree literals", "statement": "An expression built from n(v), n(), calls e(e1,...,ek) and e.get_child(i) compiles exactly if it denotes a literal: a call replaces the slots of e by the arguments, get_child(i) takes the slot i. Following get_child from the object reaches exactly the parts of the literal, each with its value, children(), children_all(), subtree_size(), subtree_arity(), its depth as get_level() and its position as get_index().", "quantifier": "every literal expression of any size and nesting, including parts of literals used in other literals", "why_tests_cant": "levels and indexes are rewritten each time a literal is nested in another one; must be right for every nesting", "anchors": ["include/TreeDS/node/struct_node.hpp"]}
{"id": "C47", "title": "Filtered iterators as values", "statement": "A copy of a tree_iterator_filter (copy or move construction, the value of it++, other_policy) stands on the same element and visits the elements the original would still visit (for other_policy in the order of the new policy).", "quantifier": "every tree and view, every policy, every predicate, every position", "why_tests_cant": "all predicates, positions and policies; the predicate is part of the object", "anchors": ["include/TreeDS/tree_iterator_filter.hpp"]}
{"id": "C48", "title": "Captures with a name", "statement": "assign_mark(name, t) compiles exactly if some capture of the pattern has that (non-empty) name, designates the first such capture in pre-order of the pattern, and, for a pattern in which no matcher can match nothing and no other capture has the name, makes t a copy of exactly the nodes matched inside that capture.", "quantifier": "every pattern, every assignment of names to its captures, every tree searched", "why_tests_cant": "all nestings of captures; resolved at compile time by recursion over types", "anchors": ["include/TreeDS/matcher/utility.hpp: index_of_capture, is_valid_name, matcher_traits", "include/TreeDS/matcher/node/matcher.hpp: marked_result", "include/TreeDS/matcher/node/capture.hpp", "include/TreeDS/matcher/pattern.hpp: assign_mark"]}
{"id": "C49", "title": "Queries of node objects", "statement": "For every node of a tree: get_root() is the root of the tree, is_root() holds exactly for the root, has_children() exactly if the node has a child, is_unique_child() exactly if the node is the only child of its parent (false for the root), and get_breadth_first_node_index() is the position of the node in breadth-first order (so different nodes have different indices).", "quantifier": "every tree of nary or binary nodes, every node of it", "why_tests_cant": "all shapes and depths; the loops of get_root and of the index follow links of unbounded length", "anchors": ["include/TreeDS/node/node.hpp: get_root, get_breadth_first_node_index, is_root, has_children, is_unique_child", "include/TreeDS/node/nary_node.hpp: is_first_child, is_last_child", "include/TreeDS/node/binary_node.hpp: is_first_child, is_last_child"]}
{"id": "C50", "title": "Moving a root node object", "statement": "Move constructing a node from the root of a tree makes the new node take the place of the old one: it has the same value, and the nodes below it are the same objects with the new node as parent. The old node is left without children, and no other node changes.", "quantifier": "every tree of nary or binary nodes, every node of it", "why_tests_cant": "all shapes; links of an unbounded number of children must be corrected", "anchors": ["include/TreeDS/node/nary_node.hpp: nary_node(nary_node&&)", "include/TreeDS/node/binary_node.hpp: binary_node(binary_node&&)", "include/TreeDS/node/node.hpp: constructors"]}
{"id": "C51", "title": "Moving several node pointers together (multiple_node_pointer)", "statement": "Each of the pointers of a multiple_node_pointer moves exactly as the same moves lead in its own tree (parent, siblings, first, last, i-th, left and right child), a pointer that becomes null stays null, and no call dereferences a null pointer. If the pointers start at the roots of trees of the same shape, they are always at the same position or all null, so that operator bool is all_valid(); two objects over the same trees are equal exactly if they are at the same position. assign_pointer changes one pointer and its flag, and every move clears the flags.", "quantifier": "every number of pointers, all trees of nary or binary nodes, all starting positions, every sequence of moves", "why_tests_cant": "all trees, all numbers of pointers, move sequences of any length", "anchors": ["include/TreeDS/node/multiple_node_pointer.hpp: do_function, get_parent, get_prev_sibling, get_next_sibling, get_first_child, get_last_child, get_left_child, get_right_child, get_child, all_valid, operator bool, assign_pointer, is_pointer_assigned"]}
{"id": "C52", "title": "The pattern an expression makes", "statement": "An expression made of one, opt, star and cpt compiles if no name is given twice, and the pattern it makes is the one written: matcher by matcher the same kind, quantifier, name and arguments in the same order, one() accepting every value, one(v) the values equal to v and one(having(a, f)) the values x with f(x) equal to a. Captures are numbered in the order they are written. Searching the object made by an expression in which no matcher can match nothing finds exactly the trees that match what is written.", "quantifier": "all pattern expressions, nested to any depth, all values, artifacts and getters, all trees searched", "why_tests_cant": "all expressions of any depth; the classes are templates instantiated by the expression", "anchors": ["include/TreeDS/matcher/node/matcher.hpp: match_value, captures_t, validation, copy constructor", "include/TreeDS/matcher/node/one_matcher.hpp: one, with_first_child, with_next_sibling", "include/TreeDS/matcher/node/opt_matcher.hpp: opt", "include/TreeDS/matcher/node/multi_matcher.hpp: star", "include/TreeDS/matcher/node/capture.hpp: cpt, replace_children", "include/TreeDS/matcher/value/product_match.hpp", "include/TreeDS/matcher/value/true_matcher.hpp", "include/TreeDS/node/struct_node.hpp: operator()"]}
{"id": "C53", "title": "Results go to the kind of tree they were found in", "statement": "After any searches with one pattern object in nary and binary trees and views of them, assign_result and assign_mark to an nary tree throw exactly if the last match was not found in an nary tree, and then change nothing; the same for binary trees. For patterns without star in which no matcher can match nothing: if the last search found a match in such a tree, assign_result makes the tree the matched nodes whatever was searched before; if it failed, it makes the tree empty.", "quantifier": "all patterns, all sequences of searches in nary and binary trees and views, all states of the trees at each search and at the assignment", "why_tests_cant": "all sequences of searches of any length over two kinds of nodes", "anchors": ["include/TreeDS/matcher/pattern.hpp: do_search, assign_result, assign_mark", "include/TreeDS/matcher/node/matcher.hpp: get_matched_node", "include/TreeDS/tree_view.hpp: node_type"]}
{"id": "C54", "title": "Exactly which calls work", "statement": "A call whose arguments make sense (the objects exist, the literal compiles, the iterator belongs to the tree) leaves the program with well-formed trees, each node owned by one of them, unless it is one of these: on an nary tree, erase or insert_over of an empty tree at a first or last child; insert_over of something new at the end of a non-empty tree; insert_child of a moved non-empty tree at end() or below a full binary node. Each of these always breaks the program: undefined behaviour, a lost node, a dangling tree or a broken link. So a history of such calls works exactly if it avoids them.", "quantifier": "every state, every call but erase(first, last) on nary trees, every finite history of such calls", "why_tests_cant": "all states, all calls and all histories; both directions", "anchors": ["include/TreeDS/tree.hpp: insert_over, insert_child_front, insert_child_back, erase, modify_subtree, add_child, erase_subtree, replace_node", "include/TreeDS/node/nary_node.hpp: replace_with", "include/TreeDS/node/binary_node.hpp: replace_with"]}
{"id": "C55", "title": "Optional arguments never prevent a match", "statement": "For a pattern without star (in which each cpt captures one matcher): if the pattern can match nothing, or if it matches the tree or view after all arguments that can match nothing have been removed from it, then search returns true, whatever the pattern object was used for before. So a search that returns false is right.", "quantifier": "every pattern without star, every tree and view of both kinds, every earlier use of the pattern", "why_tests_cant": "optional arguments first take a node that a later argument needs; giving it back depends on the whole pattern and tree", "anchors": ["include/TreeDS/matcher/node/opt_matcher.hpp", "include/TreeDS/matcher/node/matcher.hpp: search_node_this, search_node_sibling, reset, child_may_steal_node", "include/TreeDS/matcher/node/capture.hpp"]}
{"id": "C56", "title": "update_size_arity() repairs the counts and the comparison", "statement": "Whatever supported calls came before, after update_size_arity() on a tree, and until a call changes the nodes of that tree (copying from it, asking it or writing values is no such change), size() is the number of its nodes and arity() the greatest number of children of a node. If this holds for two trees, == is structural equality and != its negation. The call itself changes no tree, no node and no other object.", "quantifier": "every supported history of calls, every tree of both kinds, every equality of the values", "why_tests_cant": "the counts go wrong only after certain histories (C20, C21), and must be right again after each of them", "anchors": ["include/TreeDS/tree_base.hpp: update_size_arity, size, arity, operator==, operator!=", "include/TreeDS/utility.hpp: calculate_size, calculate_arity"]}
{"id": "C57", "title": "Leaves iterators as cursors", "statement": "An iterator with policy::leaves is a bidirectional cursor over the nodes without children, left to right (cursor laws of C01), for every in-range sequence of ++ and --, and also when it was made in the middle of the tree (other_policy, conversion to const_iterator, go_*).", "quantifier": "every tree, every leaf, every in-range sequence of ++ and --", "why_tests_cant": "the iterator carries a stack that depends on the whole history", "anchors": ["include/TreeDS/tree_iterator.hpp: other_policy, other_node", "include/TreeDS/policy/breadth_first.hpp: manage_initial_status", "include/TreeDS/policy/leaves.hpp", "include/TreeDS/policy/leaves.hpp: leaves_impl"]}
{"id": "C58", "title": "-- on begin()", "statement": "-- on begin() never reads through an invalid pointer and yields end(), for every policy.", "quantifier": "every non-empty tree, every policy", "why_tests_cant": "tests do not step before begin()", "anchors": ["include/TreeDS/tree_iterator.hpp: operator++, operator--", "include/TreeDS/policy/*.hpp: decrement_impl"]}
{"id": "C59", "title": "Every call is safe", "statement": "The statement of C15 for all histories of calls with arguments that make sense, without the exception of the calls listed in C54.", "quantifier": "every finite history of operations on any number of trees", "why_tests_cant": "tests run a few fixed histories", "anchors": ["include/TreeDS/tree.hpp", "include/TreeDS/allocator_utility.hpp: allocate, deallocate", "include/TreeDS/node/nary_node.hpp: replace_with", "include/TreeDS/node/binary_node.hpp: replace_with"]}
{"id": "C60", "title": "insert_over of an empty tree into an nary tree", "statement": "insert_over of a copy of an empty tree, or of a moved empty tree, at a position of an nary tree removes the whole subtree at that position; every other node keeps its identity, value, parent and order.", "quantifier": "every nary tree, every position", "why_tests_cant": "tests insert no empty tree", "anchors": ["include/TreeDS/tree.hpp: insert_over, emplace_over, modify_subtree, replace_node", "include/TreeDS/node/nary_node.hpp: replace_with"]}
{"id": "C61", "title": "erase in nary trees", "statement": "In an nary tree, erase(position) removes the node at the position and everything below it and nothing else, every other node keeps its identity, value and relative order, and it returns the post-order successor; erase(first,last) removes the nodes of the post-order range with everything below them.", "quantifier": "every nary tree, every position, every range", "why_tests_cant": "each kind of position needs another combination of link updates", "anchors": ["include/TreeDS/tree.hpp: erase, erase_subtree, replace_node", "include/TreeDS/node/nary_node.hpp: replace_with", "include/TreeDS/node/binary_node.hpp: replace_with", "include/TreeDS/tree.hpp: erase"]}
{"id": "C62", "title": "size() and arity() after any history", "statement": "size() returns the number of nodes and arity() the largest number of children, after any supported history of operations.", "quantifier": "every supported history", "why_tests_cant": "the answers are remembered numbers that depend on the whole history", "anchors": ["include/TreeDS/tree_base.hpp: size, update_size_arity", "include/TreeDS/tree.hpp: replace_node, add_child", "include/TreeDS/utility.hpp: calculate_size", "include/TreeDS/tree_base.hpp: arity", "include/TreeDS/tree.hpp: replace_node, add_child", "include/TreeDS/utility.hpp: calculate_arity"]}
{"id": "C63", "title": "Equality after any history", "statement": "a == b holds exactly when both trees have the same shape and equal values, whatever supported histories produced them.", "quantifier": "every pair of trees produced by any supported histories", "why_tests_cant": "the comparison uses remembered counts, which depend on the whole history", "anchors": ["include/TreeDS/tree_base.hpp: operator==", "include/TreeDS/node/nary_node.hpp: operator==", "include/TreeDS/node/binary_node.hpp: operator=="]}
{"id": "C64", "title": "Trees from parts of literals and from literals with a third slot", "statement": "A tree made from a struct_node object taken out of a larger literal with get_child is the part written there, and a binary tree made from a literal with more than two slots at a node has all the nodes written (or the program does not compile).", "quantifier": "every literal, every part of it", "why_tests_cant": "tests use whole literals with at most two slots", "anchors": ["include/TreeDS/node/struct_node.hpp: subtree_size, subtree_arity, children", "include/TreeDS/node/nary_node.hpp: struct_node constructor, operator==", "include/TreeDS/node/binary_node.hpp: allocate_left_child, allocate_right_child", "include/TreeDS/node/struct_node.hpp: get_child"]}
{"id": "C65", "title": "All failed operations have no effect", "statement": "When insert_over or insert_child_* throws, no tree changes, nothing is leaked and every tree can still be used and destroyed.", "quantifier": "every state, every call that throws", "why_tests_cant": "tests check that the call throws, not what it leaves behind", "anchors": ["include/TreeDS/tree.hpp: modify_subtree, add_child, insert_over, insert_child_front"]}
{"id": "C66", "title": "The iterator returned by insert_over at the root", "statement": "insert_over at the root returns an iterator that points to the inserted element and from which ++/-- continue over the new tree and reach end().", "quantifier": "every tree, every source, every policy", "why_tests_cant": "tests do not use the returned iterator", "anchors": ["include/TreeDS/tree.hpp: modify_subtree, add_child", "include/TreeDS/policy/breadth_first.hpp: update", "include/TreeDS/policy/policy_base.hpp: update"]}
{"id": "C67", "title": "breadth_first iterators survive modifications", "statement": "A breadth_first iterator (the default) at a node outside the replaced or erased subtree stays valid and goes on over the modified tree.", "quantifier": "every modification, every iterator at a surviving node", "why_tests_cant": "tests do not keep iterators across modifications", "anchors": ["include/TreeDS/tree.hpp", "include/TreeDS/node/nary_node.hpp: replace_with, prepend_child, append_child", "include/TreeDS/node/binary_node.hpp"]}
{"id": "C68", "title": "Filtered sibling navigation backwards", "statement": "With a node_pred_navigator, the last child and the previous sibling are the nearest ones satisfying the predicate, and these queries terminate.", "quantifier": "every tree, every node, every predicate", "why_tests_cant": "the wrong case needs a rejected sibling in a certain place", "anchors": ["include/TreeDS/node/navigator/node_pred_navigator.hpp"]}
{"id": "C69", "title": "pre_order with a predicate navigator", "statement": "Looping forward over a tree with a node_pred_navigator and policy pre_order visits exactly the nodes that satisfy the predicate and whose ancestors below the root all satisfy it, in pre-order.", "quantifier": "every tree, every predicate", "why_tests_cant": "the wrong case needs a rejected last child below an accepted node", "anchors": ["include/TreeDS/node/navigator/node_pred_navigator.hpp", "include/TreeDS/policy/pre_order.hpp", "include/TreeDS/policy/post_order.hpp", "include/TreeDS/policy/in_order.hpp", "include/TreeDS/policy/breadth_first.hpp", "include/TreeDS/policy/leaves.hpp", "include/TreeDS/policy/siblings.hpp"]}
{"id": "C70", "title": "Equality of views of nary trees", "statement": "Two views of nary trees, or a view of an nary and one of a binary tree, are equal exactly when the subtrees they show are equal (a binary one read without the sides of its children), without regard to what surrounds them.", "quantifier": "every pair of subtrees of any trees", "why_tests_cant": "the answer depends on the siblings of the subtrees", "anchors": ["include/TreeDS/viewer/tree_view.hpp", "include/TreeDS/viewer/nary_tree_view.hpp", "include/TreeDS/tree_base.hpp: size, arity, operator==", "include/TreeDS/node/nary_node.hpp: operator=="]}
{"id": "C71", "title": "Views follow changes of the tree", "statement": "size() and arity() of a view are those of the subtree it shows as it is at the time of the call, also after later modifications of the tree.", "quantifier": "every view, every later modification", "why_tests_cant": "tests make views of trees that do not change", "anchors": ["include/TreeDS/viewer/tree_view.hpp", "include/TreeDS/viewer/nary_tree_view.hpp", "include/TreeDS/tree_base.hpp: size, arity, operator==", "include/TreeDS/node/nary_node.hpp: operator=="]}
{"id": "C72", "title": "A search with star is complete, for all patterns", "statement": "The search of a pattern with star matchers returns true whenever the pattern matches at the root of the tree, whatever the pattern object was used for before.", "quantifier": "every pattern with star, every tree, every previous use of the pattern object", "why_tests_cant": "completeness over all patterns, trees and histories", "anchors": ["include/TreeDS/matcher/node/multi_matcher.hpp: search_node_impl, get_match_iterator, get_backtrack_funcion, subtree_cut", "include/TreeDS/matcher/node/matcher.hpp: search_node_sibling, reset"]}
{"id": "C73", "title": "The result of a reluctant star with several arguments", "statement": "After a successful search of a pattern with a reluctant star that has two or more arguments, assign_result makes a tree that is a part of the tree searched.", "quantifier": "every such pattern, every tree", "why_tests_cant": "every shape of the ways to the arguments must be right", "anchors": ["include/TreeDS/matcher/node/multi_matcher.hpp: result_impl, children_set_result, children_reluctant_set_result", "include/TreeDS/node/navigator/generative_navigator.hpp", "include/TreeDS/node/multiple_node_pointer.hpp", "include/TreeDS/node/navigator/node_pred_navigator.hpp", "include/TreeDS/policy/breadth_first.hpp", "include/TreeDS/node/nary_node.hpp: assign_child_like, allocate_assign_parent", "include/TreeDS/node/binary_node.hpp: assign_child_like, allocate_assign_parent"]}
{"id": "C74", "title": "The result of a greedy star without arguments can be computed", "statement": "After a successful search of star<GREEDY>(v) or star<POSSESSIVE>(v) without arguments, assign_result ends and makes a tree of the root and the accepted nodes connected to it.", "quantifier": "every tree, every value matcher", "why_tests_cant": "needs a rejected node somewhere below the root", "anchors": ["include/TreeDS/matcher/node/multi_matcher.hpp: no_children_set_result, keep_assigning_children, search_node_impl"]}
{"id": "C75", "title": "All searches end, inside their view", "statement": "The search of any pattern in any tree or view terminates, and a search of a view looks at no node outside it.", "quantifier": "every pattern, every tree and view, every state of the pattern object", "why_tests_cant": "termination for every pattern and tree", "anchors": ["include/TreeDS/matcher/node/matcher.hpp: search_node_this, search_node_sibling, reset", "include/TreeDS/matcher/node/multi_matcher.hpp: get_match_iterator, get_backtrack_funcion", "include/TreeDS/policy/pre_order.hpp: increment_impl"]}
{"id": "C76", "title": "Assigning filtered iterators", "statement": "A tree_iterator_filter that was assigned another one visits what the assigned one would visit.", "quantifier": "every pair of filtered iterators with any predicates", "why_tests_cant": "the tests assign iterators with the same predicate", "anchors": ["include/TreeDS/tree_iterator_filter.hpp"]}
{"id": "C77", "title": "Names of captures are unique", "statement": "A pattern in which two captures have the same name does not compile.", "quantifier": "every pattern with named captures", "why_tests_cant": "every arrangement of captures must be rejected", "anchors": ["include/TreeDS/matcher/utility.hpp: index_of_capture, is_valid_name, matcher_traits", "include/TreeDS/matcher/node/matcher.hpp: marked_result", "include/TreeDS/matcher/node/capture.hpp", "include/TreeDS/matcher/pattern.hpp: assign_mark"]}
{"id": "C78", "title": "Moving a child node object", "statement": "Move constructing a node from a child of another node makes the new node take its place among its parent's children.", "quantifier": "every tree, every node but the root", "why_tests_cant": "tests move roots only", "anchors": ["include/TreeDS/node/nary_node.hpp: nary_node(nary_node&&)", "include/TreeDS/node/binary_node.hpp: binary_node(binary_node&&)", "include/TreeDS/node/node.hpp: constructors"]}
{"id": "C79", "title": "Pattern expressions without meaning do not compile", "statement": "An expression without meaning (calling a capture, which has its argument already) does not compile.", "quantifier": "all pattern expressions", "why_tests_cant": "tests cannot contain what should not compile", "anchors": ["include/TreeDS/matcher/node/matcher.hpp: match_value, captures_t, validation, copy constructor", "include/TreeDS/matcher/node/one_matcher.hpp: one, with_first_child, with_next_sibling", "include/TreeDS/matcher/node/opt_matcher.hpp: opt", "include/TreeDS/matcher/node/multi_matcher.hpp: star", "include/TreeDS/matcher/node/capture.hpp: cpt, replace_children", "include/TreeDS/matcher/value/product_match.hpp", "include/TreeDS/matcher/value/true_matcher.hpp", "include/TreeDS/node/struct_node.hpp: operator()"]}
{"id": "C80", "title": "Matches found in views, and nodes of the wrong kind", "statement": "A match found in a view can be assigned to a tree of the same kind of nodes, and the node of one kind of tree is never used as a node of another kind.", "quantifier": "all patterns, all sequences of searches in nary and binary trees and views", "why_tests_cant": "tests search trees of one kind and assign at once", "anchors": ["include/TreeDS/matcher/pattern.hpp: do_search, assign_result, assign_mark", "include/TreeDS/matcher/node/matcher.hpp: get_matched_node", "include/TreeDS/tree_view.hpp: node_type"]}
{"id": "C81", "title": "Reading and writing a value through an iterator", "statement": "*it is the value of the node the iterator designates. *it = v gives that node the value v, also when read back, and changes nothing else: the children of the node, every other node, the other trees and what the tree objects remember are the same; every iterator of every policy behaves afterwards as it would have without the write; size() and arity() of every tree answer the same. At the end nothing may be read or written (undefined behaviour).", "quantifier": "every program state, every tree of both kinds, every node, every iterator state, every value", "why_tests_cant": "a write touches a record that also holds the links; that it is harmless for all other iterators and objects is a statement about every state", "anchors": ["include/TreeDS/tree_iterator.hpp: operator*, operator->", "include/TreeDS/node/node.hpp: get_value"]}
{"id": "C82", "title": "Loops that write through the iterator", "statement": "for (auto& v : tree) v = f(v) in pre_order, post_order, breadth_first (and in_order for a binary tree) replaces every value of the tree by f of it, exactly once, keeps the nodes and their arrangement, and changes nothing else; in the order leaves only the values of the leaves are replaced, in the order siblings only those of the children of the root.", "quantifier": "every program state, every tree of both kinds including the empty one, every function on values, every order", "why_tests_cant": "the loop interleaves steps of the iterator and writes to the nodes the iterator goes over", "anchors": ["include/TreeDS/tree_iterator.hpp: operator*, operator++", "include/TreeDS/tree.hpp: begin, end"]}
{"id": "C83", "title": "Post-increment, post-decrement and the test for the end", "statement": "it++ gives an iterator in the state the iterator had and moves the iterator as ++it does, it-- likewise; an iterator converts to true exactly if it is not at the end. So the loop while (it) visit(*it++) visits the nodes of the tree in the order of the policy, each once.", "quantifier": "every tree of both kinds, every policy, every sequence of moves in range", "why_tests_cant": "the copy must carry the state of the policy (the queue of breadth_first) at every node", "anchors": ["include/TreeDS/tree_iterator.hpp: operator++(int), operator--(int), operator bool"]}
{"id": "C84", "title": "The printed text of a tree is a literal for that tree", "statement": "When the limit is at least size() and no addresses are wanted, the text printed for a tree is an expression n(v)(...) of the program (with n() for an empty left slot) that stands for the tree: a tree made from that expression has the same shape and values. If the texts of the values can be told apart and do not begin with a closing parenthesis (numbers, characters, strings without double quotes), two trees with the same whole text are equal, and two trees cut by limits with the same text show the same nodes.", "quantifier": "every program state, every tree of both kinds, every value text, every indentation and limit", "why_tests_cant": "the text depends on the whole tree, and that no two trees collide is a statement about all pairs of trees", "anchors": ["include/TreeDS/utility.hpp: print_node, print_tree, code_like_print", "include/TreeDS/struct_node.hpp: n"]}
{"id": "C85", "title": "Different trees of strings print differently", "statement": "For every two trees of strings with the same whole text: they are equal.", "quantifier": "every pair of trees of both kinds whose values are strings", "why_tests_cant": "ranges over all pairs of trees", "anchors": ["include/TreeDS/utility.hpp: code_like_print"]}
{"id": "C86", "title": "Addresses in the printed text change nothing else", "statement": "Printing with address_digits > 0 writes the same values as without, and leaves the formatting of the stream as it was.", "quantifier": "every tree of both kinds, every number of digits, every state of the stream", "why_tests_cant": "what the later nodes look like depends on what the earlier ones did to the stream", "anchors": ["include/TreeDS/utility.hpp: print_node, print_preferences"]}
{"id": "C87", "title": "size() and arity() follow an exact rule", "statement": "size() and arity() are not always right (C62), but they are predictable: each tree object remembers two numbers, 0 standing for unknown; after every history of supported calls size() is the remembered number if it is not 0 and the true count otherwise, likewise arity(), and each call changes what is remembered by a fixed rule that depends only on the call, the shapes of the trees involved and what was remembered (e.g. replacing a leaf adds the inserted count minus one modulo 2^64, replacing an inner node forgets, inserting a child adds what the overload believes, moving forgets).", "quantifier": "every history of supported calls on any number of tree objects of both kinds", "why_tests_cant": "the remembered numbers depend on the whole history, including when size() was last called", "anchors": ["include/TreeDS/tree_base.hpp: size, arity, update_size_arity", "include/TreeDS/tree.hpp: replace_node, modify_subtree, add_child, erase_subtree, insert_over, insert_child_front, insert_child_back, swap"]}
{"id": "C88", "title": "empty() agrees with size(), root() and the loops", "statement": "After every history of supported calls, for every tree object: empty() is true exactly when the tree has no node, exactly when size() is 0 (even when the counts are otherwise wrong), exactly when root() converts to false, and exactly when begin(p) == end(p) for p pre_order, post_order, breadth_first, leaves (and in_order for binary trees). When it is true, arity() is 0 and begin(p) == end(p) for every policy. root() designates the root node.", "quantifier": "every history of supported calls, every tree object of both kinds, every policy", "why_tests_cant": "the remembered size depends on the whole history", "anchors": ["include/TreeDS/tree_base.hpp: empty, size, arity, root, begin, end", "include/TreeDS/tree.hpp: begin, end"]}
{"id": "C89", "title": "A call that runs out of memory or whose values throw changes nothing, and the program can go on", "statement": "When the allocator or the constructor of a value throws while a supported call makes its nodes (copying, building from a literal, inserting), the exception leaves the call and every tree object has the same tree on the very same nodes as before, answers size() and arity() as before, and further supported calls work as always. A program that handles such exceptions, at whatever points of whatever history they come, commits no memory error; when all its trees are destroyed, the only memory left is the blocks that the throwing calls themselves had obtained by then.", "quantifier": "every history of supported calls on any number of tree objects of both kinds, with every choice of the requests to the allocator and constructions of values that throw", "why_tests_cant": "the points at which a call may throw grow with the size of the trees, and what an exception damages may show only later in the history", "anchors": ["include/TreeDS/allocator_utility.hpp: allocate", "include/TreeDS/tree.hpp: tree, operator=, insert_over, insert_child_front, insert_child_back", "include/TreeDS/node/nary_node.hpp: nary_node", "include/TreeDS/node/binary_node.hpp: binary_node"]}
{"id": "C90", "title": "Nothing leaks when a call throws", "statement": "When the allocator or the constructor of a value throws during a call, all memory the call had obtained by then is given back.", "quantifier": "every state, every call that makes nodes, every event that throws", "why_tests_cant": "the points at which a call may throw grow with the size of the trees", "anchors": ["include/TreeDS/allocator_utility.hpp: allocate", "include/TreeDS/node/nary_node.hpp: nary_node", "include/TreeDS/node/binary_node.hpp: binary_node"]}
{"id": "C91", "title": "An insertion that cannot get memory for an iterator has no effect", "statement": "When the memory for the queue of a breadth_first iterator cannot be obtained during an insertion, all trees are as before the call and nothing leaks.", "quantifier": "every state, every insertion, every request for such a queue", "why_tests_cant": "depends on when memory runs out, in any state of the program", "anchors": ["include/TreeDS/tree.hpp: modify_subtree", "include/TreeDS/tree.hpp: add_child", "include/TreeDS/tree.hpp: insert_over", "include/TreeDS/tree.hpp: insert_child_front", "include/TreeDS/policy/breadth_first.hpp: update", "include/TreeDS/policy/breadth_first.hpp: manage_initial_status"]}
{"id": "C92", "title": "Programs that keep trees of different allocators apart give memory back where it came from", "statement": "In a program whose trees have different allocators and that copies between them but does not swap them, move assign one to another that has nodes, or move one into another, and that starts from empty trees, every node is given back to the allocator it was obtained from. A tree holds the allocator it was constructed with until it takes over that of another one by move construction or move assignment.", "quantifier": "every history of calls, every assignment of allocators to trees", "why_tests_cant": "an allocator is used long after the call that mixed it up; depends on the history", "anchors": ["include/TreeDS/tree.hpp: operator=", "include/TreeDS/tree.hpp: swap", "include/TreeDS/tree.hpp: insert_over", "include/TreeDS/tree.hpp: insert_child_front", "include/TreeDS/tree.hpp: tree", "include/TreeDS/tree_base.hpp: allocator", "include/TreeDS/allocator_utility.hpp: deleter"]}
{"id": "C93", "title": "Memory goes back to the allocator it came from", "statement": "In a program whose trees have different allocators, every node is given back to the allocator it was obtained from, whatever is constructed, moved, swapped or inserted between the trees; get_allocator returns the allocator the tree was constructed with.", "quantifier": "every state, every call between trees with different allocators", "why_tests_cant": "an allocator is used long after the call that mixed it up; depends on the history", "anchors": ["include/TreeDS/tree.hpp: operator=", "include/TreeDS/tree.hpp: swap", "include/TreeDS/tree.hpp: insert_over", "include/TreeDS/tree.hpp: insert_child_front", "include/TreeDS/tree.hpp: tree", "include/TreeDS/tree_base.hpp: allocator"]}
{"id": "C94", "title": "Trees that remember their counts can be read by several threads", "statement": "Threads that make only const calls (size, arity, ==, iteration, printing, copying from a tree), and share only trees that already remember their size and arity and on which update_size_arity() is not called, have no data race in any schedule, and each is told what it would be told if it ran alone. Exactly: there is a data race in some schedule if and only if two of the threads, each running alone, access one mutable member of a tree object that one of them writes.", "quantifier": "every set of threads, every list of const calls, every state of the trees, every schedule", "why_tests_cant": "the number of schedules; a race need not show in a run", "anchors": ["include/TreeDS/tree_base.hpp: size", "include/TreeDS/tree_base.hpp: arity", "include/TreeDS/tree_base.hpp: update_size_arity", "include/TreeDS/tree_base.hpp: operator==", "include/TreeDS/tree.hpp: insert_over"]}
{"id": "C95", "title": "Const functions can be called by several threads", "statement": "Threads that call only const functions of a tree have no data race and are told the true size, arity and results of comparisons in every schedule.", "quantifier": "every set of threads, every list of const calls, every state of the trees, every schedule", "why_tests_cant": "the number of schedules; a race need not show in a run", "anchors": ["include/TreeDS/tree_base.hpp: size_value", "include/TreeDS/tree_base.hpp: arity_value", "include/TreeDS/tree_base.hpp: size", "include/TreeDS/tree_base.hpp: arity", "include/TreeDS/tree_base.hpp: update_size_arity"]}
{"id": "C96", "title": "How deep the recursions go", "statement": "The number of nested calls needed is exact: copying and comparing a binary tree and its size() nest as deep as the tree is high, destroying it one deeper; size() and arity() of an nary tree nest as deep as it is high; copying and comparing an nary tree nest as deep as the longest way that leads from a node to its first child or next sibling (one more for destroying), which is at least the height, at most the number of nodes, and at most 1 + arity times the rows below the root. With less room on the stack they cannot finish.", "quantifier": "every tree in every reachable state, every available depth", "why_tests_cant": "the depth at which a stack overflows depends on the shape of huge trees, no test exhausts it", "anchors": ["include/TreeDS/node/nary_node.hpp: nary_node", "include/TreeDS/node/binary_node.hpp: binary_node", "include/TreeDS/allocator_utility.hpp: deallocate", "include/TreeDS/node/nary_node.hpp: operator==", "include/TreeDS/node/binary_node.hpp: operator==", "include/TreeDS/utility.hpp: calculate_size", "include/TreeDS/utility.hpp: calculate_arity"]}
{"id": "C97", "title": "The stack needed grows with the height of a tree only", "statement": "Copying, comparing and destroying a tree nest calls at most as deep as the tree is high (plus one), so that a low tree can have any number of nodes.", "quantifier": "every tree, both kinds", "why_tests_cant": "only trees with very many children overflow a stack", "anchors": ["include/TreeDS/node/nary_node.hpp: nary_node", "include/TreeDS/node/nary_node.hpp: get_resources", "include/TreeDS/allocator_utility.hpp: deallocate", "include/TreeDS/node/nary_node.hpp: operator=="]}
{"id": "C98", "title": "A walk over a whole tree or view takes linear time", "statement": "The loop for (it = begin(); it != end(); ++it) over a tree or view of n nodes: the loops inside of begin() and ++ make exactly n rounds altogether in pre-order and in post-order, exactly 2n in in-order, none breadth-first, and exactly n for the leaves (of which it visits each once); going back from end() to begin() with --, they make exactly n in pre-order, at most n in post-order and at most 2n in in-order. No single one of these calls makes more rounds than the tree has levels.", "quantifier": "every nary and binary tree and every subtree of it, every policy named", "why_tests_cant": "a test measures the trees it builds; that the rounds add up to n needs an argument over all shapes", "anchors": ["include/TreeDS/policy/pre_order.hpp: increment_impl, decrement_impl", "include/TreeDS/policy/post_order.hpp: increment_impl, decrement_impl", "include/TreeDS/policy/in_order.hpp: increment_impl, decrement_impl", "include/TreeDS/policy/breadth_first.hpp: increment_impl", "include/TreeDS/policy/leaves.hpp: increment_impl", "include/TreeDS/utility.hpp: keep_calling", "include/TreeDS/tree_iterator.hpp: operator++, operator--"]}
{"id": "C99", "title": "Converting iterators to const iterators", "statement": "At any point of any in-range sequence of ++ and -- over a tree or view, converting the iterator to a const_iterator (or assigning it to one) gives an iterator that behaves exactly as the original: same node, same remaining walk in both directions, for pre-order, post-order, in-order, breadth-first and siblings, begin() and end() included; for fixed, while it is at its node; and for all policies on an empty tree. An iterator made at another node with other_node() is the one that walking there makes.", "quantifier": "every tree and view, every in-range sequence of moves before and after the conversion", "why_tests_cant": "the state an iterator carries (the queue of breadth-first) is rebuilt by different code at every node of every tree", "anchors": ["include/TreeDS/tree_iterator.hpp: tree_iterator, operator=, other_node", "include/TreeDS/policy/policy_base.hpp: policy_base", "include/TreeDS/policy/breadth_first.hpp: manage_initial_status", "include/TreeDS/node/navigator/node_navigator.hpp: node_navigator"]}
{"id": "C100", "title": "Programs that use nary and binary trees together", "statement": "A program that makes, edits and destroys nary trees and binary trees in any interleaving, converts binary trees to nary trees at any point and compares trees of equal and of different kinds and trees with literals, runs without undefined behaviour as long as each call is supported when it is made. A call on trees of one kind leaves every tree of the other kind as it is; a conversion copies. If no call spoils the remembered counts, every size(), arity() and comparison made anywhere in the program answers the truth. When all trees are gone, no node of either kind is left.", "quantifier": "every finite program over the two containers", "why_tests_cant": "there are unboundedly many interleavings; each conversion and comparison reads and fills the caches of both operands", "anchors": ["include/TreeDS/nary_tree.hpp: nary_tree, operator=, operator==", "include/TreeDS/tree.hpp: tree", "include/TreeDS/tree_base.hpp: operator==, size, arity"]}
{"id": "C101", "title": "generative_navigator copies the nodes it visits", "statement": "A pair of pointers, one into a target tree and one into a tree that initially is a copy of the starting node only, is moved by a generative_navigator with any predicate. As long as every move is sound (get_parent always; on binary trees get_left_child, get_right_child and get_next_sibling always; the others under conditions on what has been visited and rejected, see Spec/Generative.lean), the program runs without undefined behaviour, both pointers stay at the same position of the accepted part of the target and of the generated tree, the generated tree has exactly the visited positions with the values of the target, and the target, all other trees and their ownership are unchanged. On nary trees without rejected nodes, every program of get_parent, get_first_child, get_next_sibling and get_prev_sibling is sound. When everything accepted has been visited, the generated tree has the values of the accepted part of the target.", "quantifier": "every target tree, starting node, predicate on values and finite sequence of sound moves, in every state of the program", "why_tests_cant": "a test walks one tree once; which nodes exist in the copy depends on the whole history of the walk", "anchors": ["include/TreeDS/node/navigator/generative_navigator.hpp: generative_navigator", "include/TreeDS/node/navigator/node_pred_navigator.hpp: node_pred_navigator", "include/TreeDS/node/multiple_node_pointer.hpp: multiple_node_pointer"]}
{"id": "C102", "title": "A generative_navigator can make every move at any time", "statement": "Whatever moves are made before, each call of get_prev_sibling, get_first_child or get_last_child of a generative_navigator ends, is safe and answers a target node together with its own copy.", "quantifier": "every target tree, predicate and finite sequence of moves", "why_tests_cant": "whether a move goes wrong depends on which copies were made earlier and in which order", "anchors": ["include/TreeDS/node/navigator/generative_navigator.hpp: do_navigate_generate", "include/TreeDS/node/navigator/node_pred_navigator.hpp: get_prev_sibling, get_first_child, get_last_child"]}
{"id": "C103", "title": "Calls request one block per node made and give back one per node removed", "statement": "A supported call makes exactly as many requests to the allocator as it has nodes to make: the size of the tree that is copied or of the literal, one for a value, none for moves, swaps, clear(), erase, destruction, size(), arity() and writing through an iterator. It gives back exactly as many blocks as the trees of the program have fewer nodes afterwards, counting the nodes it made, also when it throws logic_error. So at any time the blocks not given back are the nodes of the trees; over any program the requests are the sum over its calls, and when all trees are gone everything was given back.", "quantifier": "every state of a program, every supported call, every finite program of supported calls", "why_tests_cant": "a temporary copy or a double request shows only with a counting allocator, and only for the calls and sizes that are tried", "anchors": ["include/TreeDS/tree.hpp: tree", "include/TreeDS/allocator_utility.hpp: allocate, deallocate", "include/TreeDS/node/nary_node.hpp: nary_node", "include/TreeDS/node/binary_node.hpp: binary_node"]}
{"id": "C104", "title": "What a pattern gives back is matched by it again", "statement": "After a successful search, the tree that assign_result makes is matched by the same pattern: searching it succeeds again, with a new pattern object or the same one; what assign_mark makes for a capture is matched by that capture. For patterns of one, opt and cpt the second result has the same values as the first: searching twice changes nothing. (Patterns where no matcher can match nothing, every reluctant star has one argument, and, for the second search with star, every star that is not possessive has one argument; see C37, C72 and C73 for the others.)", "quantifier": "every tree, every pattern of that kind, every earlier use of the pattern object, any changes of the program between the calls that leave the searched tree alone", "why_tests_cant": "the second search meets a tree that the first one shaped; where it takes another node or level than the first shows only for particular trees and patterns", "anchors": ["include/TreeDS/matcher/pattern.hpp: pattern::search, assign_result, assign_mark", "include/TreeDS/matcher/node/matcher.hpp: matcher::search_node, result", "include/TreeDS/matcher/node/multi_matcher.hpp: multi_matcher"]}
{"id": "C105", "title": "What a star takes is the first match in pre-order", "statement": "After a successful search with a pattern where no matcher can match nothing and every star that is not possessive has one argument, the node remembered by an argument of a star is the first, in pre-order from the node below which the star looks and below accepted nodes only, that the argument matches; for a possessive star, the first from left to right among the nodes where the accepted ones end; for one and opt, the first from left to right among the children; and an opt is missing only if it has to. The same holds when a view is searched with a new pattern object; and a new pattern that is a star looks below the node before it tries to match its argument in its own place.", "quantifier": "every nary and binary tree and node in it, every pattern of that kind, every earlier use of the pattern object for trees that have not changed since", "why_tests_cant": "several nodes match in most trees; which of them is taken depends on the order of the nodes, on the accepted values above them and on what the star remembers from earlier searches", "anchors": ["include/TreeDS/matcher/pattern.hpp: pattern::search", "include/TreeDS/matcher/node/matcher.hpp: matcher::search_node, search_node_sibling", "include/TreeDS/matcher/node/multi_matcher.hpp: multi_matcher (subtree_cut)"]}
{"id": "C106", "title": "What a pattern remembers depends on the searched subtree only", "statement": "Two successful searches of the same node with the same pattern remember the same nodes, whatever the pattern objects were used for before, and whether the node is searched itself or is taken by an argument of a larger pattern.", "quantifier": "every tree, every pattern, every earlier use of the pattern object", "why_tests_cant": "it compares two executions that differ in what happened before", "anchors": ["include/TreeDS/matcher/pattern.hpp: pattern::search", "include/TreeDS/matcher/node/multi_matcher.hpp: multi_matcher (subtree_cut)"]}
{"id": "C107", "title": "The four comparison operators agree", "statement": "For two trees of one kind, an nary and a binary tree, a tree and a literal n(v)(...), a tree and n(), and two views of binary nodes (or a view of a whole nary tree and one of binary nodes): a == b, b == a, a != b and b != a are all defined, a == b and b == a give the same answer, a != b and b != a the opposite one, whatever order the operands are in and whatever the remembered counts are. An answer equal is always right, and every answer is right when the remembered counts are.", "quantifier": "every pair of trees in every state of supported programs, every literal (at most two slots per node for binary trees), every pair of such views, every symmetric equality of the values", "why_tests_cant": "twenty overloads, each over all pairs of trees and literals and all states of the caches", "anchors": ["include/TreeDS/tree_base.hpp: operator==, operator!=", "include/TreeDS/nary_tree.hpp: operator==, operator!=", "include/TreeDS/viewer/nary_tree_view.hpp: operator==, operator!="]}
{"id": "C108", "title": "Giving an iterator another navigator", "statement": "it.other_navigator(nav) with the navigator of a subtree (or view) that contains the node, or with a default constructed navigator, which takes the node itself for its root (its parent, for the policy siblings): the new iterator is at the same element, and from there ++ and -- lead along the nodes of that subtree in the order of the policy (pre_order, post_order, in_order, breadth_first, siblings), never out of it, whatever the old iterator had done. A siblings iterator at a root without parent goes to end(); an end() iterator given a default constructed navigator stays at end(). A filtered iterator keeps its predicate: from an element that satisfies it, it visits those elements of the subtree that do.", "quantifier": "every tree, every subtree and node of it, every state of the old iterator, every sequence of ++ and --", "why_tests_cant": "the new policy object rebuilds its state from a node in the middle of a tree it has not walked", "anchors": ["include/TreeDS/tree_iterator.hpp: other_navigator", "include/TreeDS/tree_iterator_filter.hpp: other_navigator", "include/TreeDS/policy/policy_base.hpp: fix_navigator_root", "include/TreeDS/policy/siblings.hpp: fix_navigator_root"]}
