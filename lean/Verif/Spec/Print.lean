import Verif.Spec.Tree
/-!
# A printed tree

`Shown β` is a tree of which a part is shown: below each node some of its first children, and a mark when there are more.
`Shown.text` is the layout: two lines for a node `1` with the children `2` and `3` of which only the first is shown are

    n(1)(
            n(2),
            ...)
-/

inductive Shown (β : Type) : Type where
  | node (label : β) (children : List (Shown β)) (more : Bool) : Shown β

namespace Shown
variable {β : Type}

mutual
/-- The labels shown, in the order of the text. -/
def pre : Shown β → List β
  | node a ss _ => a :: preL ss
def preL : List (Shown β) → List β
  | [] => []
  | s :: ss => pre s ++ preL ss
end

mutual
/-- `s` shows a part of `t`: the root, some of its first children (each a part of the child at the same place), and says that
there are more exactly when there are. -/
def Of : Shown β → Tree β → Prop
  | node a ss more, t => a = t.label ∧ OfL ss t.children ∧ (more = true ↔ ss.length < t.children.length)
def OfL : List (Shown β) → List (Tree β) → Prop
  | [], _ => True
  | _ :: _, [] => False
  | s :: ss, t :: ts => Of s t ∧ OfL ss ts
end

mutual
/-- Everything is shown. -/
def all : Tree β → Shown β
  | .node a ts => node a (allL ts) false
def allL : List (Tree β) → List (Shown β)
  | [] => []
  | t :: ts => all t :: allL ts
end

/-- White space. -/
def spaces (n : Nat) : List Char := List.replicate n ' '

variable (name : β → List Char) (gap : β → Bool) (step : Nat)

mutual
/-- The text of a shown tree whose root stands `ind` columns to the right. `name` is the text of a label; `gap` says that the
first child stands in the second of two places, the first being empty; children stand `step` columns further right (the mark
of a node of which no child is shown always 4 columns). -/
def text (ind : Nat) : Shown β → List Char
  | node a [] more => spaces ind ++ "n(".toList ++ name a ++ ")".toList ++
      (if more then "(\n".toList ++ (if gap a then spaces (ind + step) ++ "n(),\n".toList else []) ++
        spaces (ind + 4) ++ "...)".toList else [])
  | node a (s :: ss) more => spaces ind ++ "n(".toList ++ name a ++ ")".toList ++ "(\n".toList ++
      (if gap a then spaces (ind + step) ++ "n(),\n".toList else []) ++ text (ind + step) s ++ textL (ind + step) ss ++
      (if more then ",\n".toList ++ spaces (ind + step) ++ "...".toList else []) ++ ")".toList
def textL (ind : Nat) : List (Shown β) → List Char
  | [] => []
  | s :: ss => ",\n".toList ++ text ind s ++ textL ind ss
end

mutual
/-- The same tree with a mark at every label: `first` at the root, `later` below. -/
def marked (first later : Bool) : Shown β → Shown (Bool × β)
  | node a ss more => node (first, a) (markedL later ss) more
def markedL (later : Bool) : List (Shown β) → List (Shown (Bool × β))
  | [] => []
  | s :: ss => marked later later s :: markedL later ss
end

end Shown

/-- The present children of a binary tree in order (as `BTree.toRose`), where each node also says whether it has a right
child only. -/
def BTree.toGaps {β : Type} : BTree β → List (Tree (β × Bool))
  | nil => []
  | node a l r => [Tree.node (a, l.label?.isNone && r.label?.isSome) (toGaps l ++ toGaps r)]

/-- The text of a node whose value is `v` and whose address is the number `n`: the value, written in the base the stream has
at that moment, and the last hexadecimal digits of the address if some are wanted. -/
def nodeText {α : Type} (disp : Bool → α → List Char) (digits : Nat) (hex : Bool) (n : Nat) (v : α) : List Char :=
  disp hex v ++ (if digits = 0 then [] else " @".toList ++ List.leftpad digits '0' (Nat.toDigits 16 (n % 16 ^ digits)))
