import Verif.Spec.Tree
/-!
# Tree literals

A literal `n(v)(c1, c2, ...)` is a `Tree (Option α)`; the slot `n()` is a node without a value. An empty slot has no
children (struct_node.hpp 16-18 rejects them at compile time).
-/

/-- A tree literal. -/
abbrev Lit (α : Type) := Tree (Option α)

namespace Lit
variable {α : Type}

/-- The binary tree a literal stands for: its first slot is the left child, its second slot the right child. -/
def toB : Lit α → BTree α
  | .node none _ => .nil
  | .node (some v) [] => .node v .nil .nil
  | .node (some v) [l] => .node v (toB l) .nil
  | .node (some v) (l :: r :: _) => .node v (toB l) (toB r)

mutual
/-- No node has more than two slots. -/
def atMostTwo : Lit α → Prop
  | .node _ cs => cs.length ≤ 2 ∧ atMostTwoL cs
def atMostTwoL : List (Lit α) → Prop
  | [] => True
  | t :: ts => atMostTwo t ∧ atMostTwoL ts
end

mutual
/-- Empty slots have no children: what the library's `static_assert` enforces. -/
def valid : Lit α → Prop
  | .node none cs => cs = []
  | .node (some _) cs => validL cs
def validL : List (Lit α) → Prop
  | [] => True
  | t :: ts => valid t ∧ validL ts
end

/-- A literal without empty slots. -/
def full (t : Tree α) : Lit α := t.map some

end Lit
