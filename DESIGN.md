# Formal model of barsan-ds/tree-ds in Lean 4

## Trusted base

* Lean 4.33.0's kernel. No axioms are added. Property theorems depend on at most `propext`,
  `Classical.choice` and `Quot.sound` (checked with `#print axioms`). No `native_decide`, no `bv_decide`.
* The reading of the C++ source in /repo: the model is hand written, every definition cites the file and
  lines it models. The code was neither compiled nor run.
* The memory model (Verif/Model/Core.lean): a heap is a partial map from addresses to node records with an
  allocator that returns addresses never used before. Reading or writing through null or through an address that
  is not allocated, freeing such an address, and failing an `assert` are the distinguished outcome `ub`.
  A loop or recursion runs with a fuel; running out is the distinguished outcome `diverge`. Correctness
  theorems state `ok` for every sufficiently large fuel; non-termination findings state `diverge` for every fuel.

### Modelled
nary_node, binary_node, struct_node, node_navigator/navigator_base, node_pred_navigator, the policies,
tree_iterator (++, --, it++, it--, ==, *, operator bool, go_*, other_policy, other_node, other_navigator, conversion to const_iterator), tree_iterator_filter, the queries and move constructors of node objects, multiple_node_pointer, tree_base/tree (constructors, assignment, swap,
clear, insert_over, insert_child_front/back, erase, size, arity, update_size_arity, == and != of trees, literals and views in either order, writing values through iterators), tree views, print_tree and the mode of the stream it prints to, deallocate/allocate, which allocator is used for what when allocators differ (Model/Alloc.lean), the accesses of const functions to mutable members, interleaved (Model/Threads.lean), exceptions thrown by the allocator or by constructors of values while nodes are made or by the queue of breadth_first iterators during an insertion (Model/Faults.lean), pattern search
and results for the matchers one, opt, cpt and star (Model/Pattern.lean; Model/Generate.lean for the result of star with
generative_navigator and multiple_node_pointer, and Model/Generative.lean for generative_navigator used by itself; Model/Typed.lean for the run-time check of the type of nodes), and the making of patterns from expressions with their value matchers (Model/Matcher.lean).

### Not modelled
Threads that call functions that are not const (the interleaving model of Model/Threads.lean is of const calls, which write only the
mutable counts; that programs without races behave as some interleaving is the guarantee of the C++ memory model, trusted).
Template machinery (SFINAE, overload resolution, policy tags), const-correctness, exceptions thrown by callbacks or by
comparison or assignment of values, failures of that queue outside insertions, address reuse by the allocator, size_t/int
overflow except where a property is about wrap-around (the size cache), Qt `toString`, performance (except for the depth of the recursions, C96 and C97, and the rounds of the loops inside of `++` and `--`, C98).

## Architecture

    Verif/Spec/      abstract trees and the orders users think in; nothing about pointers
    Verif/Model/     the code, function by function
    Verif/Proof/     helper lemmas
    Verif/Props/     one file per group of properties: the theorems cited in MANIFEST.json and their
                     non-vacuity examples

* **Spec.** `Tree β` rose trees, `BTree β` binary trees; `pre`, `post`, `bfs` (rows), `leaves`, `inorder`;
  one-hole contexts (`Frame`, `plug`).
* **Heap.** `Heap ν`; nary and binary node records; representation predicates `NRepr`, `BRepr` state that a
  heap holds a given address-labelled tree with every link field exact.
* **Navigation.** Policies are templates over a navigator, so they are modelled over a record `Nav` of navigator
  operations. `NavSpec nav t` says that the operations agree with the tree `t`; it is proved for the nary and
  the binary heap navigator rooted at any node of any represented tree (so views are covered), and each
  policy is proved once against `NavSpec`.
* **Cursor law.** For a policy with order `L t` an iterator state at index i is related to the list; any in-range
  sequence of ++/-- is a walk of the index.
* **Containers.** A world is a heap plus tree variables; operations are functions on worlds; a refinement
  theorem relates any history to an abstract machine over address-labelled trees, and ownership (each allocated
  cell in exactly one tree) is part of the relation.

## Plan per property

Where the code violates what a user relies on, the part that holds and the part that does not are separate properties: C37 and
C57-C80, C85, C86, C90, C91, C93, C95, C97, C102, C106 are refuted, with counterexamples named `_defect` (on every state of a kind where possible) and what does hold of them
named `_partial`; every other property is proved in full.

| id | how |
|----|-----|
| C01,C02 | zipper induction; post-order by mirroring the tree |
| C03 | binary zipper induction |
| C04,C12 | rows of the tree; get_other_branch by induction on a "remaining nodes to the right" measure; queue invariant `Q x` |
| C05,C57 | forward: stack invariant. `++` after `--` is wrong in the code (stale stack), and so are leaves iterators made in the middle: C57, negation by witness + `_partial` |
| C06 | direct |
| C07 | corollary of the cursor law; std::reverse_iterator modelled in Model/Reverse (decrement a copy, then dereference) |
| C08 | reconstruction lemma for breadth_first; leaves violates it: C57 |
| C09,C58 | direct; C58 violated for `--` at begin of in/post/leaves (wraps to an element) and breadth_first (UB): negations on every tree |
| C10,C11 | NavSpec from NRepr/BRepr at any context |
| C13,C14,C16-C18,C28,C29,C60,C67 | heap frame lemmas per node operation, then tree level |
| C15,C59 | refinement by induction over histories of supported calls; the others (C59) are violated: negations, exactly which in C54 |
| C19,C27,C61 | binary: proved. nary (C61): middle child proved, first child is UB and last child corrupts: negations |
| C20,C21,C62 | cache invariant for the calls that keep it (CountsOk); C62 violated: negations |
| C22,C23,C24,C63,C64 | structural recursion; cache hypotheses explicit; negations for C63, C64 |
| C25,C26,C65,C66 | frame lemmas of the modifiers; C65, C66 violated in every such state: negations; programs with leaking insertions: induction over the trace, counting the lost nodes |
| C30 | layout function in Spec/Print.lean; induction with the shared counter |
| C31-C33,C68 | navigator over a predicate; filter; iterator equality |
| C34,C35 | `Fits`, `Found`, `Exact` (Spec/Pattern.lean) by mutual induction over the pattern and the siblings |
| C36 | the same induction with a weaker invariant: every remembered node belongs to the tree |
| C37 | negations by witness |
| C38,C69 | the predicate navigator agrees with the navigator of the pruned tree (`keep`, Spec/Prune.lean); pre_order: C69, negation by witness |
| C39,C70,C71 | a view is a tree record that owns nothing; `Shows` (Spec/View.lean) relates it to the subtree at a place, on which the specifications of size, arity, navigators and comparison hold as on whole trees; nary `==` is characterised as a comparison of sibling chains, from which the defects follow |
| C40 | induction over the pattern as for C35, with iterators over the nodes reached through accepted nodes (`Tree.Opens`, `Tree.frontier` in Spec/Pattern.lean); the predicate navigator agrees with the navigator of the trimmed tree (Proof/Trim.lean); invariant: what is remembered is `Placed` |
| C41,C72 | the same induction with the converse; the invariant about `subtree_cut` of a used pattern object is kept by every search of an unchanged tree (`SearchedIn`, Spec/Searched.lean); otherwise negations by witness |
| C42,C73 | `Yields` and `Kept` (Spec/Yields.lean) say what the result consists of. `Makes` (Proof/Makes.lean) abstracts a kind of nodes: a partial copy held next to the tree, with every new node labelled by the node it copies; invariant of the breadth-first construction (`Levels`, GrowBfs) and of the climb of a reluctant star (Climb); then induction over the pattern (PatternYields). Reluctant with more arguments: negations by witness |
| C43,C74 | induction over the children for keep_assigning_children, with the exact condition under which it ends |
| C44 | invariant over the search for any pattern: positions and marks are nodes of the tree, iterators only ask for siblings of nodes with a parent |
| C45,C75 | a rank: the place in pre-order of the iterator, with a bound that an iterator under another root would break. Counterexamples: a run that repeats a cycle, by induction over the steps |
| C46 | expressions and their meaning in Spec/Literal; struct_node objects with value, first child, next sibling, level and index in Model/StructNode. An invariant (Shows, Proof/StructNode) by induction over the expression |
| C47,C76 | objects with navigator, policy state and optional predicate (Model/FilterObj). The list a loop still visits characterises an object; the filtered loop follows from the plain loop by induction on the list visited (Proof/FilterObj) |
| C48,C77 | names of captures, index_of_capture, the static_assert on names and assign_mark by name (Model/Named); by induction over the list of captures, then C34 |
| C49 | the queries of node.hpp over the links of the nodes (Model/NodeQuery); by induction over the ancestors and the cursor invariant of breadth_first |
| C50,C78 | the two move constructors (Model/NodeMove); by induction over the list of children; for children, every tree held by the heap after the move is shown not to contain the parent |
| C51 | a list of pointers and flags (Model/Multi), positions as paths (Spec/Position); each move of one pointer from the records of the tree, then induction over the pointers and over the moves; moves depend on the shape only |
| C52,C79 | matchers are struct_node_base objects (Model/StructNode) labelled by class and value matcher (Model/Matcher); meaning of expressions in Spec/Written; induction over expressions, then over objects |
| C53,C80 | searches of one pattern in two worlds, nary and binary (Model/Typed); induction over the list of searches; results from C35 |
| C54 | Sensible/Failing/WorksOn/Breaks in Spec/Limits; one direction is C15, the other composes the defect lemmas of erase, insert_over and insert_child for arbitrary states |
| C55 | Pat.bare in Spec/Pattern; a matcher that can match nothing takes no node or the first one, and all_bare shows that giving it back lets the rest match; totality from C36 |
| C56 | Op.updateCounts in the model of histories; Spec/Refresh lists the objects a call changes; step_reads: a call that only reads an object keeps what it remembers right |
| C81 | World.deref, World.write on the heap model; nav_setValue: the navigator is the same function after a value write; write_spec: Owned with the revalued tree |
| C82 | World.transform interleaves deref, write and inc; transformFrom_spec: the loop writes the nodes of the forward loop of C01-C07; rep_onValueAt: the heap then holds the mapped tree |
| C83 | Iter.postInc, postDec, toBool, whileFrom; C83_cursor from IsCursor for any policy, whileFrom_eq: same loop as forward |
| C84 | Shown.text is injective up to what follows (text_inj, by induction over the shown tree); expr_reads derives the text in the grammar; C24/C46 give the tree made from it |
| C85 | clear_string for strings without quotes; the defect is a concrete pair of histories |
| C86 | the pieces sent to the stream are rendered by a stream with a mode (render); render_parts gives the exact text in every mode |
| C87 | Recount/SaysCounts follow from the specifications of the calls with explicit records (Proof/Tally.lean step_tally, one case per call); induction over the history (history_tally) |
| C88 | empty trees remember nothing (Blank, kept by every call: step_tally); the cursors of C01-C06 give begin and end |
| C89 | the constructors with events agree with those without and, when one throws, only add blocks beyond the old ones (Mir, Proof/Faults.lean); every call (stepF_spec) and by induction every history (runF_trace) from a state that is a family of trees and a set of lost blocks (OwnedBut) |
| C90 | from stepF_spec: the block at the next address is obtained and, by TraceF.mono, never given back |
| C91 | model of the four points of failure; from overNode_spec, childNode_spec with Own.release, Own.lose, Own.exchange, addChild_spec |
| C92 | state with the allocator of each tree and the origin of each block; invariant Homed, preserved by a supported call iff AllocOk (alloc_step, from step_spec and effect_kept) |
| C93 | from alloc_step: a call outside AllocOk breaks Homed, and a tree with a strange node cannot be destroyed |
| C94 | const functions as programs of single accesses to the mutable members; threads that do not conflict commute (local', apart_run); race iff conflict (race_iff) |
| C95 | the conflict of two calls of size(), by race_iff; answers under interleaving by the invariant that every member is 0 or right (Certain) |
| C96 | fuel of the recursive functions is the nesting depth; exact specs with ladder/height instead of size (copy_deep, dealloc_deep, eq_deep, calcSize_deep) and divergence below (…_shallow) |
| C97 | from C96 and ladder_plug: the ladder of a tree is longer than the number of children of any node |
| C98 | the bound on loop rounds of the model read as a cost: `Takes f k b` (no outcome below k, the outcome b from k on); the rounds at every node listed along the order (preRounds, decRounds, inRounds) and summed by induction over the tree |
| C99 | the conversion makes a fresh policy object at the node; its state equals the one reached by moves (CursorInv with an exact state: empty for the stateless policies, `queue` for breadth_first) |
| C100 | state = the nary and the binary program state; `Both.step` adds conversions and comparisons to the calls of `Op`; induction over the program with `step_spec` per kind and the specifications of the mixed calls |
| C101 | `Gen.move` models the navigator over two pointers; invariant `GInv` (ownership, copied positions, both pointers at the same position) kept by every sound move; induction over the moves |
| C102 | refuted by the code: runs of the model from states reached by API calls |
| C103 | requests = the next address of the heap; every function that is not a constructor leaves it alone (`Quiet`), constructors advance it by the number of new nodes (`grown_count`); `step_next`, induction over the program |
| C104 | `yields_fits`: what a match gives is matched, by induction on the pattern; matching depends on the values only (`fits_vals`); without `star`, `yields_again`: the nodes remembered decide which of its two ways an `opt` took, and a pattern matching a part matches the whole |
| C105 | `Took`, `Tree.First` in Spec/Took; the loop invariant of the search says that every node passed before does not match, as long as what is remembered for the `star`s hides nothing (`CutsOk`) |
| C106 | `took_unique`: the first match is unique, by induction on the pattern; counterexamples by evaluation of the model |
| C107 | each operator of the model, through the totality of `==` (`eq_total`, `eqWith_total`, `eqBinary_total`) and the symmetry of structural equality |
| C108 | `IsCursorAt` (C08, C10) for the navigator whose root `fix_navigator_root` finds; the parent link through the representation |
