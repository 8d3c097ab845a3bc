import Verif.Model.Tree
import Verif.Spec.Repr
import Verif.Spec.BNav
import Verif.Spec.Lit
/-!
# What a program state means

`Shape` collects, for one kind of node, the vocabulary in which the effects of the tree operations are stated: possibly
empty trees whose nodes carry their addresses, places inside them, and how the heap holds them. It is filled in for nary
and for binary trees below. `Owned W ts` says that the program state `W` is exactly the family of trees `ts`.
-/
open Tree

/-- Vocabulary for one kind of trees: `T` are the possibly empty trees whose nodes carry their address and value, `V` the
possibly empty trees of values (what a user sees), `C` the places in a tree (a tree with a hole). -/
structure Shape {ν α lit : Type} (K : Kind ν α lit) (T V C : Type) where
  nil : T
  /-- The place of the root. -/
  top : C
  /-- Fill a hole (with `nil`: leave nothing there). -/
  plug : C → T → T
  vals : T → V
  single : Addr → α → T
  /-- `revalue s v`: `s` with the value `v` at its root. -/
  revalue : T → α → T
  /-- `front n s`: `s` with `n` added as first child of its root. -/
  front : T → T → T
  /-- `back n s`: `s` with `n` added as last child of its root. -/
  back : T → T → T
  /-- The root has no room for another child. -/
  isFull : T → Bool
  /-- Places from which the code manages to remove a subtree. -/
  removable : C → Prop
  litOk : lit → Prop
  /-- Every slot of the literal finds a place in the tree. -/
  litFits : lit → Prop
  /-- The tree a literal stands for. -/
  litVals : lit → V
  /-- The addresses as a rose tree (empty list for the empty tree). -/
  rose : T → List (Tree Addr)
  /-- The heap holds the free-standing tree. -/
  Rep : Heap ν → T → Prop

namespace Shape
variable {ν α lit T V C : Type} {K : Kind ν α lit} (S : Shape K T V C)

/-- Address of the root, null for the empty tree. -/
def ptr (t : T) : Ptr := (S.rose t).head?.map label
/-- Addresses of all nodes, in pre-order. -/
def addrs (t : T) : List Addr := preL (S.rose t)
/-- Addresses of all nodes, in post-order. -/
def post (t : T) : List Addr := postL (S.rose t)
/-- Number of nodes. -/
def size (t : T) : Nat := sizeL (S.rose t)
/-- Largest number of children of any node. -/
def arity (t : T) : Nat := arityL (S.rose t)
/-- Number of children of the root. -/
def kids (t : T) : Nat := ((S.rose t).map (fun u => u.children.length)).sum

end Shape

namespace Nary
variable {α : Type}

/-- Fill the hole of a place; with `none` the hole closes. -/
def fill : List (Frame (Addr × α)) → Option (Tree (Addr × α)) → Option (Tree (Addr × α))
  | [], o => o
  | f :: fs, o => some (plug fs (node f.label (f.lefts ++ o.toList ++ f.rights)))

def shape (α : Type) :
    Shape (Nary.kind α) (Option (Tree (Addr × α))) (Option (Tree α)) (List (Frame (Addr × α))) where
  nil := none
  top := []
  plug := fill
  vals o := o.map Tree.vals
  single a v := some (node (a, v) [])
  revalue s v := s.map (fun u => node (u.addr, v) u.children)
  front n s := s.map (fun u => node u.label (n.toList ++ u.children))
  back n s := s.map (fun u => node u.label (u.children ++ n.toList))
  isFull _ := false
  removable c := c.head?.all (fun f => !f.lefts.isEmpty && !f.rights.isEmpty)
  litOk _ := True
  litFits _ := True
  litVals l := some l
  rose o := (o.map addrTree).toList
  Rep h o := ∀ t, o = some t → Nary.Rep h t

end Nary

namespace Binary
variable {α : Type}

/-- Add a left child, moving the existing child, if any, to the right. -/
def addLeft (n : BTree (Addr × α)) : BTree (Addr × α) → BTree (Addr × α)
  | .nil => .nil
  | .node p l r => match n with
    | .nil => .node p l r
    | n => .node p n (r.or l)

/-- Add a right child, moving the existing child, if any, to the left. -/
def addRight (n : BTree (Addr × α)) : BTree (Addr × α) → BTree (Addr × α)
  | .nil => .nil
  | .node p l r => match n with
    | .nil => .node p l r
    | n => .node p (l.or r) n

/-- Change the value at the root. -/
def revalue (v : α) : BTree (Addr × α) → BTree (Addr × α)
  | .nil => .nil
  | .node p l r => .node (p.1, v) l r

/-- Both children are present. -/
def twoKids : BTree (Addr × α) → Bool
  | .node _ (.node ..) (.node ..) => true
  | _ => false

def shape (α : Type) : Shape (Binary.kind α) (BTree (Addr × α)) (BTree α) (List (BTree.Frame (Addr × α))) where
  nil := .nil
  top := []
  plug := BTree.plug
  vals := BTree.vals
  single a v := .node (a, v) .nil .nil
  revalue s v := revalue v s
  front := addLeft
  back := addRight
  isFull := twoKids
  removable _ := True
  litOk l := l.label.isSome
  litFits l := l.valid ∧ l.atMostTwo
  litVals := Lit.toB
  rose b := b.addrTree.toRose
  Rep := Binary.Rep

end Binary

/-- Change a family at one name. -/
def upd {β : Type} (f : Nat → β) (x : Nat) (b : β) : Nat → β := fun y => if y = x then b else f y

/-- The program state is the family `ts` of trees and the lost nodes `G`: the tree object named `x` exists iff `ts x` does
and its nodes form `ts x`; different trees share no node; every allocated node belongs to one of the trees, except those in
`G`, which are allocated and belong to none. -/
structure OwnedBut {ν α lit T V C : Type} {K : Kind ν α lit} (G : Addr → Prop) (S : Shape K T V C) (W : World ν)
    (ts : Nat → Option T) : Prop where
  wf : W.heap.WF
  alive : ∀ x, (W.vars x).isSome = (ts x).isSome
  root : ∀ x r t, W.vars x = some r → ts x = some t → r.root = S.ptr t ∧ r.navRoot = S.ptr t
  rep : ∀ x t, ts x = some t → S.Rep W.heap t
  disjoint : ∀ x y t u, ts x = some t → ts y = some u → x ≠ y → ∀ a ∈ S.addrs t, a ∉ S.addrs u
  noLeakBut : ∀ a, (W.heap.cells a).isSome → (∃ x t, ts x = some t ∧ a ∈ S.addrs t) ∨ G a
  lost : ∀ a, G a → (W.heap.cells a).isSome
  apart : ∀ x t, ts x = some t → ∀ a ∈ S.addrs t, ¬ G a

/-- The program state is exactly the family `ts` of trees: nothing is lost. -/
abbrev Owned {ν α lit T V C : Type} {K : Kind ν α lit} (S : Shape K T V C) (W : World ν) (ts : Nat → Option T) : Prop :=
  OwnedBut (fun _ => False) S W ts

/-- Every allocated node belongs to one of the trees. -/
theorem OwnedBut.noLeak {ν α lit T V C : Type} {K : Kind ν α lit} {S : Shape K T V C} {W : World ν} {ts : Nat → Option T}
    (O : Owned S W ts) (a : Addr) (h : (W.heap.cells a).isSome) : ∃ x t, ts x = some t ∧ a ∈ S.addrs t :=
  (O.noLeakBut a h).resolve_right id

/-- What the object remembers about the number of nodes and the arity is right; 0 means that it remembers nothing. -/
def CacheOk {ν α lit T V C : Type} {K : Kind ν α lit} (S : Shape K T V C) (r : TreeRec) (t : T) : Prop :=
  (r.size = 0 ∨ r.size = S.size t) ∧ (r.arity = 0 ∨ r.arity = S.arity t)

/-- All tree objects remember right numbers. -/
def Cached {ν α lit T V C : Type} {K : Kind ν α lit} (S : Shape K T V C) (W : World ν) (ts : Nat → Option T) : Prop :=
  ∀ x r t, W.vars x = some r → ts x = some t → CacheOk S r t

/-- The library's policies. -/
def libraryPolicies : List Policy :=
  [Policy.preOrder, Policy.postOrder, Policy.inOrder, Policy.breadthFirst, Policy.leaves, Policy.siblings, Policy.fixed]

/-- `pos` is an iterator of policy `P` over the tree `t` that designates the root of the subtree `s` at the place `c`. A
breadth_first iterator carries the queue it has at that node (C04: the same however it got there). -/
structure At {ν α lit T V C : Type} {K : Kind ν α lit} (S : Shape K T V C) (P : Policy) (h : Heap ν) (t : T) (pos : It)
    (c : C) (s : T) : Prop where
  policy : P ∈ libraryPolicies
  place : S.plug c s = t
  node : s ≠ S.nil
  cur : pos.st.cur = S.ptr s
  root : pos.root = S.ptr t
  queue : P = Policy.breadthFirst → P.make (K.nav h pos.root) h.fuel pos.st.cur = Res.ok pos.st

/-- `pos` is an iterator of any policy, in any state, at the root of the subtree `s` at the place `c` of `t`. -/
def Points {ν α lit T V C : Type} {K : Kind ν α lit} (S : Shape K T V C) (t : T) (pos : It) (c : C) (s : T) : Prop :=
  S.plug c s = t ∧ s ≠ S.nil ∧ pos.st.cur = S.ptr s

/-- `pos` is the `end()` iterator. -/
def AtEnd (pos : It) : Prop := pos.st.cur = none

/-- Policies of both kinds of trees with the order in which they visit the nodes. -/
def ordered (P : Policy) (ord : Tree Addr → List Addr) : Prop :=
  (P = Policy.preOrder ∧ ord = Tree.pre) ∨ (P = Policy.postOrder ∧ ord = Tree.post) ∨
  (P = Policy.breadthFirst ∧ ord = Tree.bfs)
