import Verif.Spec.Tree
import Verif.Spec.Lit
/-!
# When two trees are the same

`Tree.eqBy` and `BTree.eqBy` (Spec/Tree.lean) compare shape and values. Here: possibly empty nary trees, an nary tree and a
literal, an nary tree and a binary tree.
-/

namespace Nary
variable {β γ : Type}

/-- Equality of possibly empty nary trees, the values compared by `eqv`. -/
def same (eqv : β → γ → Bool) : Option (Tree β) → Option (Tree γ) → Bool
  | none, none => true
  | some t, some u => t.eqBy eqv u
  | _, _ => false

/-- A value and a slot of a literal: an empty slot is nothing's equal. -/
def sameSlot (eqv : β → γ → Bool) (v : β) : Option γ → Bool
  | some w => eqv v w
  | none => false

end Nary

/-- The nary tree a binary tree converts to: each node keeps its children, in their order, but not their sides. -/
def BTree.toNary {β : Type} (t : BTree β) : Option (Tree β) := t.toRose.head?
