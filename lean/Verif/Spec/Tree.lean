/-!
# Abstract trees and the orders a user of the library thinks in

Nothing in this file mentions pointers or the library: it is the vocabulary in which the properties are stated.
-/

/-- A rose tree: a label and a list of children, left to right. -/
inductive Tree (β : Type) : Type where
  | node : β → List (Tree β) → Tree β

namespace Tree
variable {β γ : Type}

def label : Tree β → β
  | node a _ => a

def children : Tree β → List (Tree β)
  | node _ cs => cs

/-- Induction over rose trees. -/
theorem ind {P : Tree β → Prop} (h : ∀ a cs, (∀ c ∈ cs, P c) → P (node a cs)) : ∀ t, P t := by
  intro t
  exact Tree.rec (motive_1 := P) (motive_2 := fun l => ∀ c ∈ l, P c)
    (fun a cs ih => h a cs ih) (by simp)
    (fun hd tl h1 h2 => by
      intro c hc
      cases hc with
      | head => exact h1
      | tail _ hc => exact h2 c hc) t

mutual
/-- Pre-order: the node, then the subtrees of its children left to right. -/
def pre : Tree β → List β
  | node a cs => a :: preL cs
def preL : List (Tree β) → List β
  | [] => []
  | t :: ts => pre t ++ preL ts
end

mutual
/-- Post-order: the subtrees of the children left to right, then the node. -/
def post : Tree β → List β
  | node a cs => postL cs ++ [a]
def postL : List (Tree β) → List β
  | [] => []
  | t :: ts => post t ++ postL ts
end

mutual
/-- The nodes without children, left to right. -/
def leaves : Tree β → List β
  | node a [] => [a]
  | node _ (c :: cs) => leaves c ++ leavesL cs
def leavesL : List (Tree β) → List β
  | [] => []
  | t :: ts => leaves t ++ leavesL ts
end

mutual
/-- Number of nodes. -/
def size : Tree β → Nat
  | node _ cs => sizeL cs + 1
def sizeL : List (Tree β) → Nat
  | [] => 0
  | t :: ts => size t + sizeL ts
end

mutual
/-- Number of rows. -/
def height : Tree β → Nat
  | node _ cs => heightL cs + 1
def heightL : List (Tree β) → Nat
  | [] => 0
  | t :: ts => max (height t) (heightL ts)
end

mutual
/-- The largest number of children of any node. -/
def arity : Tree β → Nat
  | node _ cs => max cs.length (arityL cs)
def arityL : List (Tree β) → Nat
  | [] => 0
  | t :: ts => max (arity t) (arityL ts)
end

mutual
/-- Apply a function to every label. -/
def map (f : β → γ) : Tree β → Tree γ
  | node a cs => node (f a) (mapL f cs)
def mapL (f : β → γ) : List (Tree β) → List (Tree γ)
  | [] => []
  | t :: ts => map f t :: mapL f ts
end

mutual
/-- Structural equality for a given equality of labels: the roots are equal and the lists of children are equal,
pairwise and in order. -/
def eqBy (eqv : β → γ → Bool) : Tree β → Tree γ → Bool
  | node a cs, node b ds => eqv a b && eqByL eqv cs ds
def eqByL (eqv : β → γ → Bool) : List (Tree β) → List (Tree γ) → Bool
  | [], [] => true
  | t :: ts, u :: us => eqBy eqv t u && eqByL eqv ts us
  | [], _ :: _ => false
  | _ :: _, [] => false
end

mutual
/-- The left-right mirror image. -/
def mirror : Tree β → Tree β
  | node a cs => node a (mirrorL cs)
def mirrorL : List (Tree β) → List (Tree β)
  | [] => []
  | t :: ts => mirrorL ts ++ [mirror t]
end

/-- `row n ts`: the subtrees hanging `n` levels below the roots of `ts`, left to right. -/
def row : Nat → List (Tree β) → List (Tree β)
  | 0, ts => ts
  | n + 1, ts => row n (ts.flatMap children)

/-- Breadth-first order: row after row, each left to right. -/
def bfs (t : Tree β) : List β :=
  (List.range t.height).flatMap (fun n => (row n [t]).map label)

/-- A step of a one-hole context: the label of the parent of the hole and the hole's siblings on both sides. -/
structure Frame (β : Type) where
  label : β
  lefts : List (Tree β)
  rights : List (Tree β)

/-- Put a tree in a context; the head of the list is the innermost frame. -/
def plug : List (Frame β) → Tree β → Tree β
  | [], t => t
  | f :: fs, t => plug fs (node f.label (f.lefts ++ t :: f.rights))

end Tree

/-- A binary tree, possibly empty, with distinguished left and right subtrees. -/
inductive BTree (β : Type) : Type where
  | nil : BTree β
  | node : β → BTree β → BTree β → BTree β
  deriving DecidableEq

namespace BTree
variable {β γ : Type}

/-- In-order: left subtree, node, right subtree. -/
def inorder : BTree β → List β
  | nil => []
  | node a l r => inorder l ++ a :: inorder r

def size : BTree β → Nat
  | nil => 0
  | node _ l r => size l + size r + 1

def map (f : β → γ) : BTree β → BTree γ
  | nil => nil
  | node a l r => node (f a) (map f l) (map f r)

def label? : BTree β → Option β
  | nil => none
  | node a _ _ => some a

/-- The first tree unless it is empty, then the second. -/
def or : BTree β → BTree β → BTree β
  | nil, s => s
  | t@(node ..), _ => t

/-- Structural equality for a given equality of labels; left and right are distinguished. -/
def eqBy (eqv : β → γ → Bool) : BTree β → BTree γ → Bool
  | nil, nil => true
  | node a l r, node b l' r' => eqv a b && (eqBy eqv l l' && eqBy eqv r r')
  | nil, node .. => false
  | node .., nil => false

/-- Forget left/right: the children that are present, in order. Empty list for the empty tree. -/
def toRose : BTree β → List (Tree β)
  | nil => []
  | node a l r => [Tree.node a (toRose l ++ toRose r)]

/-- All labels, in pre-order. -/
def pre : BTree β → List β
  | nil => []
  | node a l r => a :: (pre l ++ pre r)

end BTree
