import Verif.Model.Nav
import Verif.Spec.Tree
/-!
# A navigator of binary nodes agrees with a binary tree
-/

namespace BTree

/-- A step of a one-hole context of a binary tree: the label of the hole's parent, whether the hole is its left
child, and the subtree on the other side. -/
structure Frame (β : Type) where
  label : β
  holeLeft : Bool
  other : BTree β

/-- The node above the hole. -/
def Frame.fill {β : Type} (f : Frame β) (s : BTree β) : BTree β :=
  if f.holeLeft then node f.label s f.other else node f.label f.other s

/-- Put a binary tree in a context; the head of the list is the innermost frame. -/
def plug {β : Type} : List (Frame β) → BTree β → BTree β
  | [], t => t
  | f :: fs, s => plug fs (f.fill s)

def left {β : Type} : BTree β → BTree β
  | nil => nil
  | node _ l _ => l
def right {β : Type} : BTree β → BTree β
  | nil => nil
  | node _ _ r => r

end BTree

/-- Asked about any node of `t`, the navigator answers with its parent inside `t`, its left and right child, and
whether it is one. -/
structure BNavSpec (nav : Nav) (t : BTree Addr) : Prop where
  nodup : t.pre.Nodup
  root : nav.root = t.label?
  parent : ∀ fs a l r, BTree.plug fs (.node a l r) = t → nav.parent a = Res.ok (fs.head?.map BTree.Frame.label)
  left : ∀ fs a l r, BTree.plug fs (.node a l r) = t → nav.left a = Res.ok l.label?
  right : ∀ fs a l r, BTree.plug fs (.node a l r) = t → nav.right a = Res.ok r.label?
  isLeft : ∀ fs a l r, BTree.plug fs (.node a l r) = t →
    nav.isLeft a = Res.ok (fs.head?.any (fun f => f.holeLeft))
  isRight : ∀ fs a l r, BTree.plug fs (.node a l r) = t →
    nav.isRight a = Res.ok (fs.head?.any (fun f => !f.holeLeft))
