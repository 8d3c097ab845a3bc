import Verif.Spec.Tree
/-!
# How deep recursions go

`Tree.height` (Spec/Tree.lean) is the number of nodes on the longest way down. A function that calls itself for the first child and for the
next sibling of a node goes as deep as the longest way that leads, at every step, to the first child or to the next sibling.
-/

namespace Tree
variable {β : Type}

mutual
/-- The longest such way that begins at the first child of a node. -/
def under : Tree β → Nat
  | node _ cs => ladder cs
/-- The number of nodes on the longest way that begins at the first tree of the list and leads from a node to its first child or its next sibling. -/
def ladder : List (Tree β) → Nat
  | [] => 0
  | t :: ts => max (under t) (ladder ts) + 1
end

end Tree

/-- The number of nodes on the longest way down. -/
def BTree.height {β : Type} : BTree β → Nat
  | .nil => 0
  | .node _ l r => max l.height r.height + 1
