import Verif.Spec.Position
import Verif.Spec.Prune
/-!
# Walking over a tree and copying the visited nodes

A position is the way from the root to a node (`Spec/Position.lean`). The walk takes place in the tree without the subtrees
whose root is rejected by the predicate (`keep`, `Spec/Prune.lean`); the copy consists of the visited nodes.
-/

/-- A walk so far: the visited positions and the current one. -/
structure Walked (P : Type) where
  seen : List P
  pos : P

namespace Walked
variable {P : Type} (move : Move → P → Option P) (sound : Move → Walked P → Prop)

/-- A move that leads nowhere changes nothing. -/
def step (m : Move) (w : Walked P) : Walked P :=
  match move m w.pos with
  | some q => ⟨q :: w.seen, q⟩
  | none => w

def run : List Move → Walked P → Walked P
  | [], w => w
  | m :: ms, w => run ms (w.step move m)

/-- Every move is sound when it is made. -/
def Sounds : List Move → Walked P → Prop
  | [], _ => True
  | m :: ms, w => sound m w ∧ Sounds ms (w.step move m)
end Walked

namespace BTree
variable {α : Type}

/-- The value at a position. -/
def valAt (t : BTree (Addr × α)) (p : List Bool) : Option α := (t.at? p).label?.map Prod.snd

/-- The nodes that can be visited: the root, and every accepted node whose parent can be visited. -/
def visible (test : α → Bool) (t : BTree (Addr × α)) : BTree (Addr × α) := t.keep (fun x => test x.2)

/-- `u` has the value of `t` at every position listed, and no other nodes. -/
def Copies (t : BTree (Addr × α)) (seen : List (List Bool)) (u : BTree (Addr × α)) : Prop :=
  ∀ p, u.valAt p = if p ∈ seen then t.valAt p else none

/-- Moves the navigator can make (`C101`); the others go wrong (`C102`):
`get_parent`, `get_left_child`, `get_right_child` and `get_next_sibling` always;
`get_prev_sibling` unless the previous sibling is rejected;
`get_first_child` unless there is a left child that has not been visited whereas the right child has;
`get_last_child` unless there is a right child that has not been visited whereas the left child has, or both are rejected. -/
def genSound (test : α → Bool) (t : BTree (Addr × α)) : Move → Walked (List Bool) → Prop
  | .parent, _ | .left, _ | .right, _ | .next, _ => True
  | .prev, ⟨_, false :: p⟩ => t.check (true :: p) = (t.visible test).check (true :: p)
  | .prev, _ => True
  | .first, ⟨seen, p⟩ => t.check (true :: p) = none ∨ true :: p ∈ seen ∨ false :: p ∉ seen
  | .last, ⟨seen, p⟩ => t.check (false :: p) = none ∨ false :: p ∈ seen ∨
      (true :: p ∉ seen ∧ ((t.visible test).check (false :: p) ≠ none ∨ t.check (true :: p) = (t.visible test).check (true :: p)))
  | .child _, _ => False
end BTree

namespace Tree
variable {α : Type}

def valAt (t : Tree (Addr × α)) (p : List Nat) : Option α := (t.at? p).map (fun s => s.label.2)

def visible (test : α → Bool) (t : Tree (Addr × α)) : Tree (Addr × α) := t.keep (fun x => test x.2)

def Copies (t : Tree (Addr × α)) (seen : List (List Nat)) (u : Tree (Addr × α)) : Prop :=
  ∀ p, u.valAt p = if p ∈ seen then t.valAt p else none

/-- The subtree of `t` (with its rejected nodes) at a position of `t.visible test`. -/
def whole (test : α → Bool) (t : Tree (Addr × α)) : List Nat → Option (Tree (Addr × α))
  | [] => some t
  | i :: p => (whole test t p).bind fun s => (s.children.filter (fun c => test c.label.2))[i]?

/-- `c` is the accepted child number `i` of a node with the children `l ++ c :: r`. -/
def Ranked (test : α → Bool) (i : Nat) (l : List (Tree (Addr × α))) (c : Tree (Addr × α)) : Prop :=
  (l.filter (fun c => test c.label.2)).length = i ∧ test c.label.2 = true

/-- The same for nary trees, where the copies of the children of a node are appended in the order of the visits:
`get_parent` always; `get_first_child` and `get_next_sibling` to nodes that have not been visited, or if no rejected node is
skipped; `get_prev_sibling` unless the previous sibling is rejected; `get_last_child` if the last child is accepted, and has
been visited or is the only accepted child. -/
def genSound (test : α → Bool) (t : Tree (Addr × α)) : Move → Walked (List Nat) → Prop
  | .parent, _ => True
  | .first, ⟨seen, p⟩ => 0 :: p ∉ seen ∨ ∃ s, t.whole test p = some s ∧ ∀ c ∈ s.children.head?, test c.label.2 = true
  | .next, ⟨seen, i :: p⟩ => (i + 1) :: p ∉ seen ∨ ∃ s l c d r, t.whole test p = some s ∧ s.children = l ++ c :: d :: r ∧
      Ranked test i l c ∧ test d.label.2 = true
  | .next, ⟨_, []⟩ => True
  | .prev, ⟨_, i :: p⟩ => ∃ s l c r, t.whole test p = some s ∧ s.children = l ++ c :: r ∧ Ranked test i l c ∧
      ∀ d ∈ l.getLast?, test d.label.2 = true
  | .prev, ⟨_, []⟩ => True
  | .last, ⟨seen, p⟩ => ∃ s, t.whole test p = some s ∧ ∀ c ∈ s.children.getLast?, test c.label.2 = true ∧
      (((s.children.filter (fun c => test c.label.2)).length = 1) ∨
        ((s.children.filter (fun c => test c.label.2)).length - 1) :: p ∈ seen)
  | .left, _ | .right, _ | .child _, _ => False
end Tree
