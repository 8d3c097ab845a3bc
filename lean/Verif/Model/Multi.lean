import Verif.Model.NaryNode
import Verif.Model.BinaryNode
/-!
# multiple_node_pointer

Models include/TreeDS/node/multiple_node_pointer.hpp. All pointers point to nodes of one type, so they live in one heap.
Constness is not modelled. `reset_assignment_flags` (146-152) assigns `false` to pointers and does not compile when used.
-/

/-- The functions by which a multiple_node_pointer moves (multiple_node_pointer.hpp 64-117). -/
inductive Move where
  | parent | prev | next | first | last | left | right
  | child (i : Nat)
  deriving DecidableEq, Repr

/-- What each of them calls for a pointer: the getters of nary nodes (node.hpp 66-72, nary_node.hpp 218-257). Nary nodes have
no `get_left_child`: lines 82-100 are disabled for them, here `ub`. -/
def Nary.step {α : Type} (h : NHeap α) : Move → Addr → Res Ptr
  | .parent, a => do pure (← h.read a).parent
  | .prev, a => do pure (← h.read a).prev
  | .next, a => do pure (← h.read a).next
  | .first, a => do pure (← h.read a).first
  | .last, a => do pure (← h.read a).last
  | .left, _ => Res.ub
  | .right, _ => Res.ub
  | .child i, a => Nary.getChild h a i

/-- The same for binary nodes (node.hpp 66-72, binary_node.hpp 110-198). -/
def Binary.step {α : Type} (h : BHeap α) : Move → Addr → Res Ptr
  | .parent, a => do pure (← h.read a).parent
  | .prev, a => Binary.prev h a
  | .next, a => Binary.next h a
  | .first, a => Binary.first h a
  | .last, a => Binary.last h a
  | .left, a => do pure (← h.read a).left
  | .right, a => do pure (← h.read a).right
  | .child i, a => Binary.getChild h a i

/-- multiple_node_pointer.hpp 20-21: the pointers (the first is the master) and the flags. -/
structure Multi where
  ptrs : List Ptr
  assigned : List Bool
  deriving DecidableEq, Repr

namespace Multi

/-- multiple_node_pointer.hpp 34-36 (and 21): from pointers. -/
def of (ps : List Ptr) : Multi := ⟨ps, ps.map (fun _ => false)⟩

/-- One component of multiple_node_pointer.hpp 54. -/
def callOn (call : Addr → Res Ptr) : Ptr → Res Ptr
  | none => pure none
  | some a => call a

/-- The pack expansion of multiple_node_pointer.hpp 54. -/
def callAll (call : Addr → Res Ptr) : List Ptr → Res (List Ptr)
  | [] => pure []
  | p :: ps => do
    let q ← callOn call p
    pure (q :: (← callAll call ps))

/-- multiple_node_pointer.hpp 49-57, `do_function`, with 64-117. -/
def go (step : Move → Addr → Res Ptr) (mv : Move) (m : Multi) : Res Multi := do pure (of (← callAll (step mv) m.ptrs))

/-- A program that moves the object again and again: `p = p.get_...()`. -/
def run (step : Move → Addr → Res Ptr) : List Move → Multi → Res Multi
  | [], m => pure m
  | mv :: ms, m => do run step ms (← go step mv m)

/-- multiple_node_pointer.hpp 158-160 (and 123-125): the master. -/
def master (m : Multi) : Ptr := m.ptrs.head?.join

/-- multiple_node_pointer.hpp 127-133. -/
def allValid (m : Multi) : Bool := m.ptrs.all Option.isSome

/-- multiple_node_pointer.hpp 162-164, `operator bool`. -/
def valid (m : Multi) : Bool := m.master.isSome

/-- multiple_node_pointer.hpp 182-184, `operator==`. -/
def eq (m n : Multi) : Bool := m.master == n.master

/-- multiple_node_pointer.hpp 135-144, `assign_pointer`; an index out of range is out of the array's bounds. -/
def assignPointer (m : Multi) (i : Nat) (p : Ptr) : Res Multi :=
  if i < m.assigned.length then pure ⟨m.ptrs.set i p, m.assigned.set i true⟩ else Res.ub

/-- multiple_node_pointer.hpp 154-156. -/
def isAssigned (m : Multi) (i : Nat) : Res Bool := match m.assigned[i]? with
  | some b => pure b
  | none => Res.ub

end Multi
