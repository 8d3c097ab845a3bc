import Verif.Model.NaryNode
import Verif.Model.BinaryNode
/-!
# Move constructors of node objects

The value is copied in both classes: node.hpp 38-48 and 29-34 pass it on by name, without `std::forward`. The new object is a
fresh cell of the heap.
-/

namespace Nary
variable {α : Type}

/-- The loop of nary_node.hpp 57-61. -/
def adoptLoop (this : Addr) : Nat → NHeap α → Ptr → Res (NHeap α)
  | 0, _, _ => Res.diverge
  | _ + 1, h, none => pure h
  | fuel + 1, h, some child => do
    let h ← h.modify child (fun m => { m with parent := some this })
    adoptLoop this fuel h (← h.read child).next

/-- nary_node.hpp 50-69: the move constructor. -/
def moveNode (fuel : Nat) (h : NHeap α) (other : Addr) : Res (NHeap α × Addr) := do
  let o ← h.read other
  let (h, this) := h.alloc ⟨o.value, none, o.following, o.prev, o.next, o.first, o.last⟩
  let h ← adoptLoop this fuel h (← h.read this).first
  let h ← manageParentLast h this
  let h ← h.modify other (fun m => { m with parent := none, following := 0, prev := none, next := none, first := none, last := none })
  pure (h, this)

end Nary

namespace Binary
variable {α : Type}

/-- binary_node.hpp 41-54: the move constructor. -/
def moveNode (h : BHeap α) (other : Addr) : Res (BHeap α × Addr) := do
  let o ← h.read other
  let (h, this) := h.alloc ⟨o.value, none, o.left, o.right⟩
  let h ← match (← h.read this).left with
    | some l => h.modify l (fun m => { m with parent := some this })
    | none => pure h
  let h ← match (← h.read this).right with
    | some r => h.modify r (fun m => { m with parent := some this })
    | none => pure h
  let h ← h.modify other (fun m => { m with parent := none, left := none, right := none })
  pure (h, this)

end Binary
