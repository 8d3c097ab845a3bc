import Verif.Spec.Lit
import Verif.Model.NaryNode
import Verif.Model.BinaryNode
/-!
# struct_node

Models the compile-time quantities of include/TreeDS/node/struct_node.hpp, the comparison of nodes with literals, and
the conversions between node kinds.
-/

namespace Lit
variable {α : Type}

/-- struct_node.hpp 208-220, `children()`: the slots holding a value. -/
def childCount (t : Lit α) : Nat := (t.children.filter (fun c => c.label.isSome)).length

mutual
/-- struct_node.hpp 230-237, `subtree_size()`. -/
def subtreeSize : Lit α → Nat
  | .node v cs => subtreeSizeL cs + (if v.isSome then 1 else 0)
def subtreeSizeL : List (Lit α) → Nat
  | [] => 0
  | t :: ts => subtreeSize t + subtreeSizeL ts
end

mutual
/-- struct_node.hpp 239-247, `subtree_arity()`. -/
def subtreeArity : Lit α → Nat
  | .node v cs => subtreeArityL (childCount (.node v cs)) cs
def subtreeArityL (n : Nat) : List (Lit α) → Nat
  | [] => 0
  | t :: ts => max (max n (subtreeArity t)) (subtreeArityL n ts)
end

end Lit

namespace Binary
variable {α : Type}

/-- binary_node.hpp 380-418, `operator==(struct_node)`. The case `none` (comparing with `n()`) does not compile. -/
def eqLit (eqv : α → α → Bool) : Nat → BHeap α → Addr → Lit α → Res Bool
  | 0, _, _, _ => Res.diverge
  | fuel + 1, h, a, t =>
    if t.subtreeArity > 2 then pure false
    else match t.label with
    | none => Res.ub
    | some v => do
      let n ← h.read a
      if !eqv n.value v then pure false
      else if (n.left.isNone != (match t.children with | [] => true | c :: _ => c.label.isNone))
          || (← children h a) != Lit.childCount t then pure false
      else do
        let ok ← match t.children with
          | c :: _ => if c.label.isSome then do eqLit eqv fuel h (← deref n.left) c else pure true
          | [] => pure true
        if !ok then pure false
        else match t.children with
          | _ :: c :: _ => if c.label.isSome then do eqLit eqv fuel h (← deref n.right) c else pure true
          | _ => pure true

end Binary

namespace Nary
variable {α : Type}

/-- nary_node.hpp 449-484, `operator==(struct_node)`, for a literal `t` with a value whose following slots are `ts`. -/
def eqLit (eqv : α → α → Bool) : Nat → NHeap α → Addr → Lit α → List (Lit α) → Res Bool
  | 0, _, _, _, _ => Res.diverge
  | fuel + 1, h, a, t, ts => do
    if (← children h a) != Lit.childCount t then pure false
    else match t.label with
    | none => Res.ub
    | some v => do
      let n ← h.read a
      if !eqv n.value v then pure false
      else do
        let ok ← match t.children with
          | c :: cs => if c.label.isNone then pure false else do eqLit eqv fuel h (← deref n.first) c cs
          | [] => pure true
        if !ok then pure false
        else match ts with
          | s :: ts => if s.label.isNone then pure false else do eqLit eqv fuel h (← deref n.next) s ts
          | [] => pure true

/-- nary_node.hpp 98-122: construction from a binary node. -/
def ofBinary : Nat → BHeap α → Addr → NHeap α → Ptr → Ptr → Res (NHeap α × Addr)
  | 0, _, _, _, _, _ => Res.diverge
  | fuel + 1, hb, other, h, parent, prev => do
    let o ← hb.read other
    let fol ← Binary.followingSiblings hb other
    let (h, this) := h.alloc ⟨o.value, parent, fol, prev, none, none, none⟩
    let nx ← Binary.next hb other
    let h ← match nx with
      | some nx => do
        let (h, a) ← ofBinary fuel hb nx h parent (some this)
        h.modify this (fun m => { m with next := some a })
      | none => pure h
    let fc ← Binary.first hb other
    let h ← match fc with
      | some c => do
        let (h, a) ← ofBinary fuel hb c h (some this) none
        h.modify this (fun m => { m with first := some a })
      | none => pure h
    let h ← manageParentLast h this
    pure (h, this)

/-- nary_node.hpp 428-447, `operator==(binary_node)`. -/
def eqBinary (eqv : α → α → Bool) : Nat → NHeap α → Addr → BHeap α → Addr → Res Bool
  | 0, _, _, _, _ => Res.diverge
  | fuel + 1, h, a, hb, b => do
    if (← children h a) != (← Binary.children hb b) then pure false
    else do
      let n ← h.read a
      let m ← hb.read b
      if !eqv n.value m.value then pure false
      else do
        let ok ← match n.first with
          | some c => do eqBinary eqv fuel h c hb (← deref (← Binary.first hb b))
          | none => pure true
        if !ok then pure false
        else match n.next with
          | some c => do eqBinary eqv fuel h c hb (← deref (← Binary.next hb b))
          | none => pure true

end Nary
