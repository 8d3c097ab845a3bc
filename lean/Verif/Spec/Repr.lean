import Verif.Model.NaryNode
import Verif.Model.BinaryNode
/-!
# What it means for a heap to hold a tree

A tree stored in memory is described by a tree whose labels are pairs (address, value). `Nary.cells` and `Binary.cells`
list the node records such a tree must consist of, with every link field spelled out; a heap holds the tree when each
of those records is at its address.
-/
open Tree

/-- The heap contains every listed record at its address. -/
def Holds {ν : Type} (h : Heap ν) (l : List (Addr × ν)) : Prop := ∀ p ∈ l, h.cells p.1 = some p.2

/-- No cell at or beyond the allocator's next address is allocated. -/
def Heap.WF {ν : Type} (h : Heap ν) : Prop := ∀ a, h.next ≤ a → h.cells a = none

namespace Tree
variable {α : Type}

/-- Address of the root. -/
def addr (t : Tree (Addr × α)) : Addr := t.label.1
/-- Addresses of all nodes, in pre-order. -/
def addrs (t : Tree (Addr × α)) : List Addr := t.pre.map Prod.fst
def addrsL (ts : List (Tree (Addr × α))) : List Addr := (preL ts).map Prod.fst
/-- The tree of addresses. -/
def addrTree (t : Tree (Addr × α)) : Tree Addr := t.map Prod.fst
/-- The tree of values: what a user sees. -/
def vals (t : Tree (Addr × α)) : Tree α := t.map Prod.snd

def headAddr (ts : List (Tree (Addr × α))) : Ptr := ts.head?.map addr
def lastAddr (ts : List (Tree (Addr × α))) : Ptr := ts.getLast?.map addr

end Tree

namespace Nary
variable {α : Type}

mutual
/-- The records of an nary subtree whose root has the given parent, previous sibling, next sibling and number of
following siblings. -/
def cells (par prev nx : Ptr) (fol : Nat) : Tree (Addr × α) → List (Addr × NNode α)
  | .node (a, v) cs => (a, ⟨v, par, fol, prev, nx, headAddr cs, lastAddr cs⟩) :: cellsL (some a) none none 0 cs
/-- The records of consecutive sibling subtrees, with `prev` before them and `nx` (and `k` siblings) after them. -/
def cellsL (par prev nx : Ptr) (k : Nat) : List (Tree (Addr × α)) → List (Addr × NNode α)
  | [] => []
  | t :: ts => cells par prev ((headAddr ts).or nx) (ts.length + k) t ++ cellsL par (some t.addr) nx k ts
end

/-- The heap holds the free-standing tree `t`: its root has no parent and no siblings. -/
def Rep (h : NHeap α) (t : Tree (Addr × α)) : Prop := Holds h (cells none none none 0 t) ∧ t.addrs.Nodup

end Nary

namespace BTree
variable {α : Type}
def addr? (t : BTree (Addr × α)) : Ptr := t.label?.map Prod.fst
def addrs (t : BTree (Addr × α)) : List Addr := t.pre.map Prod.fst
def addrTree (t : BTree (Addr × α)) : BTree Addr := t.map Prod.fst
def vals (t : BTree (Addr × α)) : BTree α := t.map Prod.snd
end BTree

namespace Binary
variable {α : Type}

/-- The records of a binary subtree below the given parent. -/
def cells (par : Ptr) : BTree (Addr × α) → List (Addr × BNode α)
  | .nil => []
  | .node (a, v) l r => (a, ⟨v, par, l.addr?, r.addr?⟩) :: (cells (some a) l ++ cells (some a) r)

/-- The heap holds the free-standing binary tree `t` (possibly empty). -/
def Rep (h : BHeap α) (t : BTree (Addr × α)) : Prop := Holds h (cells none t) ∧ t.addrs.Nodup

end Binary
