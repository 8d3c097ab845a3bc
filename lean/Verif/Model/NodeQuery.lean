import Verif.Model.NaryNode
import Verif.Model.BinaryNode
import Verif.Model.Policy
/-!
# Queries of node objects

Models include/TreeDS/node/node.hpp 90-127. The functions that are the same for both kinds of nodes take the navigator of the
heap without a root (`navAt none`), which reads the links of the nodes as they are.
-/

namespace NodeQuery
variable (navAt : Ptr → Nav)

/-- node.hpp 91-99, `get_root`: the loop of `keep_calling` with `get_parent`. -/
def getRoot (fuel : Nat) (this : Addr) : Res Addr := keepCalling (navAt none).parent fuel this

/-- The loop of node.hpp 107-110. -/
def indexLoop (nav : Nav) (fuel : Nat) (this : Addr) : Nat → ItState → Nat → Res Nat
  | 0, _, _ => Res.diverge
  | n + 1, s, index => match s.cur with
    | none => pure index
    | some a =>
      if a == this then pure index
      else do indexLoop nav fuel this n (← Policy.breadthFirst.inc nav fuel a s.aux) (index + 1)

/-- node.hpp 101-112, `get_breadth_first_node_index`. -/
def breadthFirstIndex (fuel : Nat) (this : Addr) : Res Nat := do
  let root ← getRoot navAt fuel this
  let s ← Policy.breadthFirst.make (navAt (some root)) fuel (some root)
  indexLoop (navAt (some root)) fuel this fuel s 0

/-- node.hpp 116-118, `is_root`. -/
def isRoot (this : Addr) : Res Bool := do pure (← (navAt none).parent this).isNone

/-- node.hpp 120-122, `has_children`. -/
def hasChildren (this : Addr) : Res Bool := do pure (← (navAt none).first this).isSome

end NodeQuery

namespace Nary
variable {α : Type}
/-- node.hpp 124-127, `is_unique_child`. -/
def isUniqueChild (h : NHeap α) (this : Addr) : Res Bool := do
  if ← isFirstChild h this then isLastChild h this else pure false
end Nary

namespace Binary
variable {α : Type}
/-- binary_node.hpp 289-293, `is_first_child`. -/
def isFirstChild (h : BHeap α) (this : Addr) : Res Bool := do
  match (← h.read this).parent with
  | some p => do pure ((← first h p) == some this)
  | none => pure false

/-- binary_node.hpp 295-299, `is_last_child`. -/
def isLastChild (h : BHeap α) (this : Addr) : Res Bool := do
  match (← h.read this).parent with
  | some p => do pure ((← last h p) == some this)
  | none => pure false

/-- node.hpp 124-127, `is_unique_child`. -/
def isUniqueChild (h : BHeap α) (this : Addr) : Res Bool := do
  if ← isFirstChild h this then isLastChild h this else pure false
end Binary
