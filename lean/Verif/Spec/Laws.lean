import Verif.Spec.Cursor
import Verif.Spec.Tree
/-!
# The laws a user expects from iterating a tree

`IterationLaws nav fuel t`: over the navigator `nav` every policy of the library is a cursor over its order of `t`,
whether the iterator comes from `begin()`/`end()` or was made in the middle.
-/
open Tree Policy

/-- All policies that keep their promises in every in-range sequence of moves (in_order is separate: it only exists for
binary trees; leaves is separate: see C05, C57). -/
structure IterationLaws (nav : Nav) (fuel : Nat) (t : Tree Addr) : Prop where
  pre : IsCursor preOrder nav fuel t.pre
  post : IsCursor postOrder nav fuel t.post
  bfs : IsCursor breadthFirst nav fuel t.bfs
  siblings : IsCursor siblings nav fuel (t.children.map label)
  preAt : IsCursorAt preOrder nav fuel t.pre
  postAt : IsCursorAt postOrder nav fuel t.post
  bfsAt : IsCursorAt breadthFirst nav fuel t.bfs
  siblingsAt : IsCursorAt Policy.siblings nav fuel (t.children.map label)
  leavesForward : Iter.forward Policy.leaves nav (fuel + 1) = Res.ok t.leaves
  leavesBackward : Iter.backward Policy.leaves nav (fuel + 1) = Res.ok t.leaves.reverse
