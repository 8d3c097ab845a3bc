import Verif.Spec.Tree
/-!
# Removing all subtrees whose root satisfies a predicate
-/

/-- A binary tree without the subtrees whose root satisfies `p`. -/
def BTree.prune {β : Type} (p : β → Bool) : BTree β → BTree β
  | .nil => .nil
  | .node a l r => if p a then .nil else .node a (l.prune p) (r.prune p)

/-- `p` holds below every node where it holds. -/
def BTree.Closed {β : Type} (p : β → Bool) : BTree β → Prop
  | .nil => True
  | .node a l r => (p a = true → ∀ x ∈ l.pre ++ r.pre, p x = true) ∧ Closed p l ∧ Closed p r

namespace Tree
variable {β : Type}
mutual
/-- A tree without the subtrees whose root satisfies `p`; `none` when that is the tree itself. -/
def prune (p : β → Bool) : Tree β → Option (Tree β)
  | .node a cs => if p a then none else some (.node a (pruneL p cs))
def pruneL (p : β → Bool) : List (Tree β) → List (Tree β)
  | [] => []
  | t :: ts => (prune p t).toList ++ pruneL p ts
end
end Tree

namespace Tree
variable {β : Type}
mutual
/-- A tree without the subtrees, below its root, whose root does not satisfy `q`: the nodes that satisfy `q` and whose
ancestors other than the root do so. -/
def keep (q : β → Bool) : Tree β → Tree β
  | .node a cs => .node a (keepL q cs)
def keepL (q : β → Bool) : List (Tree β) → List (Tree β)
  | [] => []
  | t :: ts => if q t.label then keep q t :: keepL q ts else keepL q ts
end

mutual
/-- Where a pre-order loop gets that goes on after a subtree only if its root is the last of all children or has a later sibling
that satisfies `q`: the nodes visited in the subtree, and whether the loop goes on after them. -/
def walk (q : β → Bool) : Tree β → List β × Bool
  | .node a cs => (a :: (walkL q cs).1, (walkL q cs).2)
/-- The same for the children of a node, beginning with the first that satisfies `q`. -/
def walkL (q : β → Bool) : List (Tree β) → List β × Bool
  | [] => ([], true)
  | t :: ts =>
    if q t.label then
      if (walk q t).2 then
        if ts.isEmpty then walk q t
        else if ts.any (fun c => q c.label) then ((walk q t).1 ++ (walkL q ts).1, (walkL q ts).2)
        else ((walk q t).1, false)
      else walk q t
    else walkL q ts
end

/-- At every node of `t` where some child satisfies `q`, the last child does. -/
def LastKept (q : β → Bool) (t : Tree β) : Prop :=
  ∀ fs a cs c, plug fs (.node a (cs ++ [c])) = t → (∃ d ∈ cs, q d.label = true) → q c.label = true
end Tree

namespace BTree
variable {β : Type}
/-- The subtree if its root satisfies `q`. -/
def only (q : β → Bool) : BTree β → BTree β
  | .nil => .nil
  | .node a l r => if q a then .node a l r else .nil
/-- The same for binary trees: every child that does not satisfy `q` is missing. -/
def keep (q : β → Bool) : BTree β → BTree β
  | .nil => .nil
  | .node a l r => .node a (only q (keep q l)) (only q (keep q r))
end BTree
