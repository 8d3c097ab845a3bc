import Verif.Model.Multi
import Verif.Spec.Tree
import Verif.Spec.BNav
import Verif.Spec.Repr
/-!
# Positions in a tree

A position is the list of the indexes to take below the root, the last one first. Moving depends on the shape of the tree only.
-/

namespace Tree
variable {β : Type}

/-- The subtree at a position. -/
def at? (t : Tree β) : List Nat → Option (Tree β)
  | [] => some t
  | i :: p => (at? t p).bind (fun u => u.children[i]?)

/-- The position, if there is a node. -/
def check (t : Tree β) (p : List Nat) : Option (List Nat) := if (t.at? p).isSome then some p else none

/-- Where a move leads. -/
def move (t : Tree β) : Move → List Nat → Option (List Nat)
  | .parent, [] => none
  | .parent, _ :: p => some p
  | .prev, (i + 1) :: p => some (i :: p)
  | .prev, _ => none
  | .next, i :: p => t.check ((i + 1) :: p)
  | .next, [] => none
  | .first, p => t.check (0 :: p)
  | .last, p => (t.at? p).bind (fun u => t.check ((u.children.length - 1) :: p))
  | .child i, p => t.check (i :: p)
  | .left, _ => none
  | .right, _ => none

/-- Where several moves lead, starting from a position or from nowhere. -/
def moves (t : Tree β) : List Move → Option (List Nat) → Option (List Nat)
  | [], o => o
  | m :: ms, o => t.moves ms (o.bind (t.move m))

/-- The address of the node at a position. -/
def addrAt {α : Type} (t : Tree (Addr × α)) (p : List Nat) : Ptr := (t.at? p).map addr

end Tree

namespace BTree
variable {β : Type}

/-- The subtree (possibly empty) at a position: `true` is left. -/
def at? (t : BTree β) : List Bool → BTree β
  | [] => t
  | b :: p => if b then (t.at? p).left else (t.at? p).right

/-- The position, if there is a node. -/
def check (t : BTree β) (p : List Bool) : Option (List Bool) := if (t.at? p).label?.isSome then some p else none

/-- Where a move leads. -/
def move (t : BTree β) : Move → List Bool → Option (List Bool)
  | .parent, [] => none
  | .parent, _ :: p => some p
  | .prev, false :: p => t.check (true :: p)
  | .prev, _ => none
  | .next, true :: p => t.check (false :: p)
  | .next, _ => none
  | .left, p => t.check (true :: p)
  | .right, p => t.check (false :: p)
  | .first, p => (t.check (true :: p)).or (t.check (false :: p))
  | .last, p => (t.check (false :: p)).or (t.check (true :: p))
  | .child i, p => [t.check (true :: p), t.check (false :: p)].reduceOption[i]?

def moves (t : BTree β) : List Move → Option (List Bool) → Option (List Bool)
  | [], o => o
  | m :: ms, o => t.moves ms (o.bind (t.move m))

def addrAt {α : Type} (t : BTree (Addr × α)) (p : List Bool) : Ptr := (t.at? p).addr?

end BTree
