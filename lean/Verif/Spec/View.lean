import Verif.Spec.World
import Verif.Spec.Compare
import Verif.Model.View
/-!
# What a view shows

`Shows S v s`: the object `v` refers to the root of `s`, navigates inside `s` and remembers no wrong number about `s`. `s` may
be a whole tree or a part of one.
-/
open Tree

structure Shows {ν α lit T V C : Type} {K : Kind ν α lit} (S : Shape K T V C) (v : TreeRec) (s : T) : Prop where
  root : v.root = S.ptr s
  nav : v.navRoot = S.ptr s
  counts : CacheOk S v s

/-- The siblings that follow a place, in order (none for the root of a tree). -/
def Nary.after {β : Type} (c : List (Frame β)) : List (Tree β) := c.head?.elim [] Frame.rights

/-- Comparing two chains of siblings from left to right: stop with `false` at the first difference, with `true` at the end of the
left chain; when the right chain ends first the program dereferences a null pointer. -/
def Nary.chain {β : Type} (eqv : β → β → Bool) : List (Tree β) → List (Tree β) → Res Bool
  | [], _ => Res.ok true
  | _ :: _, [] => Res.ub
  | t :: ts, u :: us => if t.eqBy eqv u then Nary.chain eqv ts us else Res.ok false

/-- The sibling that follows a place of a binary tree: the right child of the parent of a left child. -/
def Binary.after {β : Type} : List (BTree.Frame β) → BTree β
  | [] => .nil
  | f :: _ => if f.holeLeft then f.other else .nil
