import Verif.Model.Nav
import Verif.Spec.Tree
/-!
# binary_node

Models include/TreeDS/node/binary_node.hpp (and node.hpp for the shared fields).
-/

/-- node.hpp 25-27 and binary_node.hpp 33-34. -/
structure BNode (α : Type) where
  value : α
  parent : Ptr
  left : Ptr
  right : Ptr
  deriving DecidableEq, Repr

abbrev BHeap (α : Type) := Heap (BNode α)

namespace Binary
variable {α : Type}

/-- binary_node.hpp 38 (inherited constructors): a node built from a value. -/
def leaf (v : α) : BNode α := ⟨v, none, none, none⟩

/-- binary_node.hpp 278-285, `attach_child()`. -/
def attach (h : BHeap α) (this : Addr) : Res (BHeap α) := do
  let n ← h.read this
  let h ← match n.left with
    | some l => h.modify l (fun m => { m with parent := some this })
    | none => pure h
  match n.right with
    | some r => h.modify r (fun m => { m with parent := some this })
    | none => pure h

/-- binary_node.hpp 55-68: the copy constructor with allocator. -/
def copy : Nat → BHeap α → Addr → Res (BHeap α × Addr)
  | 0, _, _ => Res.diverge
  | fuel + 1, h, other => do
    let o ← h.read other
    let (h, this) := h.alloc ⟨o.value, none, none, none⟩
    let h ← match o.left with
      | some l => do
        let (h, a) ← copy fuel h l
        h.modify this (fun m => { m with left := some a })
      | none => pure h
    let h ← match o.right with
      | some r => do
        let (h, a) ← copy fuel h r
        h.modify this (fun m => { m with right := some a })
      | none => pure h
    let h ← attach h this
    pure (h, this)

/-- binary_node.hpp 70-103 and 201-221: construction from a struct_node literal. A literal is a `Tree (Option α)`;
`none` is an `n()` slot. Only the first two slots of a node are looked at; the `static_assert` on line 80 bounds the
number of slots holding a value. Only nodes with a value are constructed; the case `none` is unreachable. -/
def ofLit' : Nat → BHeap α → Tree (Option α) → Res (BHeap α × Addr)
  | 0, _, _ => Res.diverge
  | fuel + 1, h, t => do
    match t.label with
    | none => Res.ub
    | some v => do
      let (h, this) := h.alloc ⟨v, none, none, none⟩
      let h ← match t.children with
        | c :: _ => (match c.label with
          | some _ => do
            let (h, a) ← ofLit' fuel h c
            h.modify this (fun m => { m with left := some a })
          | none => pure h)
        | [] => pure h
      let h ← match t.children with
        | _ :: c :: _ => (match c.label with
          | some _ => do
            let (h, a) ← ofLit' fuel h c
            h.modify this (fun m => { m with right := some a })
          | none => pure h)
        | _ => pure h
      let h ← attach h this
      pure (h, this)

def ofLit (h : BHeap α) (t : Tree (Option α)) : Res (BHeap α × Addr) := ofLit' t.size h t

/-- allocator_utility.hpp 34-53 with binary_node.hpp 340-342 (`get_resources`: left, right). -/
def dealloc : Nat → BHeap α → Ptr → Res (BHeap α)
  | 0, _, _ => Res.diverge
  | _ + 1, h, none => pure h
  | fuel + 1, h, some a => do
    let n ← h.read a
    let h ← dealloc fuel h n.left
    let h ← dealloc fuel h n.right
    h.free a

/-- binary_node.hpp 300-304, `is_left_child`. -/
def isLeftChild (h : BHeap α) (this : Addr) : Res Bool := do
  match (← h.read this).parent with
  | some p => do pure (some this == (← h.read p).left)
  | none => pure false

/-- binary_node.hpp 306-310, `is_right_child`. -/
def isRightChild (h : BHeap α) (this : Addr) : Res Bool := do
  match (← h.read this).parent with
  | some p => do pure (some this == (← h.read p).right)
  | none => pure false

/-- binary_node.hpp 222-237, `replace_with`. -/
def replaceWith (h : BHeap α) (this : Addr) (node : Ptr) : Res (BHeap α) := do
  match node with
  | some y => do Res.assert (← h.read y).parent.isNone
  | none => pure ()
  match (← h.read this).parent with
  | none => pure h
  | some p => do
    let h ← if ← isLeftChild h this then h.modify p (fun m => { m with left := node })
      else h.modify p (fun m => { m with right := node })
    let h ← match node with
      | some y => h.modify y (fun m => { m with parent := some p })
      | none => pure h
    h.modify this (fun m => { m with parent := none })

/-- binary_node.hpp 239-250, `prepend_child`. -/
def prepend (h : BHeap α) (this : Addr) (node : Ptr) : Res (BHeap α) :=
  match node with
  | none => pure h
  | some y => do
    let n ← h.read this
    let h ← if n.right.isNone then h.modify this (fun m => { m with right := m.left, left := none }) else pure h
    let n ← h.read this
    if n.left.isNone then do
      let h ← h.modify y (fun m => { m with parent := some this })
      h.modify this (fun m => { m with left := some y })
    else pure h

/-- binary_node.hpp 252-263, `append_child`. -/
def append (h : BHeap α) (this : Addr) (node : Ptr) : Res (BHeap α) :=
  match node with
  | none => pure h
  | some y => do
    let n ← h.read this
    let h ← if n.left.isNone then h.modify this (fun m => { m with left := m.right, right := none }) else pure h
    let n ← h.read this
    if n.right.isNone then do
      let h ← h.modify y (fun m => { m with parent := some this })
      h.modify this (fun m => { m with right := some y })
    else pure h

/-- binary_node.hpp 150-160, `get_first_child`. -/
def first (h : BHeap α) (a : Addr) : Res Ptr := do
  let n ← h.read a
  match n.left with
  | some l => pure (some l)
  | none => pure n.right

/-- binary_node.hpp 162-172, `get_last_child`. -/
def last (h : BHeap α) (a : Addr) : Res Ptr := do
  let n ← h.read a
  match n.right with
  | some l => pure (some l)
  | none => pure n.left

/-- binary_node.hpp 110-120, `get_prev_sibling`. -/
def prev (h : BHeap α) (a : Addr) : Res Ptr := do
  if ← isRightChild h a then do pure (← h.read (← deref (← h.read a).parent)).left else pure none

/-- binary_node.hpp 122-132, `get_next_sibling`. -/
def next (h : BHeap α) (a : Addr) : Res Ptr := do
  if ← isLeftChild h a then do pure (← h.read (← deref (← h.read a).parent)).right else pure none

/-- binary_node.hpp 174-198, `get_child`. -/
def getChild (h : BHeap α) (a : Addr) (index : Nat) : Res Ptr := do
  match index with
  | 0 => first h a
  | 1 => do
    let n ← h.read a
    if n.left.isSome && n.right.isSome then pure n.right else pure none
  | _ => pure none

/-- binary_node.hpp 320-330, `children`. -/
def children (h : BHeap α) (a : Addr) : Res Nat := do
  let n ← h.read a
  pure ((if n.left.isSome then 1 else 0) + (if n.right.isSome then 1 else 0))

/-- binary_node.hpp 332-338, `following_siblings`. -/
def followingSiblings (h : BHeap α) (a : Addr) : Res Nat := do
  match (← h.read a).parent with
  | some p => do if (← last h p) != some a then pure 1 else pure 0
  | none => pure 0

/-- node_navigator over binary nodes rooted at `root`: navigator_base.hpp 228-294. -/
def nav (h : BHeap α) (root : Ptr) : Nav where
  root := root
  parent a := if some a == root then pure none else do pure (← h.read a).parent
  prev a := if some a == root then pure none else prev h a
  next a := if some a == root then pure none else next h a
  first a := first h a
  last a := last h a
  isFirst a := if some a == root then pure false
    else do pure (some a == (← first h (← deref (← h.read a).parent)))
  isLast a := if some a == root then pure false
    else do pure (some a == (← last h (← deref (← h.read a).parent)))
  left a := do pure (← h.read a).left
  right a := do pure (← h.read a).right
  isLeft a := if some a == root then pure false
    else do pure (some a == (← h.read (← deref (← h.read a).parent)).left)
  isRight a := if some a == root then pure false
    else do pure (some a == (← h.read (← deref (← h.read a).parent)).right)

/-- utility.hpp 185-194, `calculate_size(binary_node)`. -/
def calcSize : Nat → BHeap α → Addr → Res Nat
  | 0, _, _ => Res.diverge
  | fuel + 1, h, a => do
    let n ← h.read a
    let l ← match n.left with
      | some l => calcSize fuel h l
      | none => pure 0
    let r ← match n.right with
      | some r => calcSize fuel h r
      | none => pure 0
    pure (1 + l + r)

mutual
/-- utility.hpp 207-221, `calculate_arity` with `max_expected_arity = 2` (tree_base.hpp 217-220). -/
def calcArity : Nat → BHeap α → Addr → Res Nat
  | 0, _, _ => Res.diverge
  | fuel + 1, h, a => do
    match ← first h a with
    | none => pure 0
    | some c => do arityLoop fuel h (some c) ((← followingSiblings h c) + 1)
/-- The loop of utility.hpp 213-219. -/
def arityLoop : Nat → BHeap α → Ptr → Nat → Res Nat
  | 0, _, _, _ => Res.diverge
  | _ + 1, _, none, acc => pure acc
  | fuel + 1, h, some c, acc =>
    if acc == 2 then pure acc
    else do
      let a ← calcArity fuel h c
      arityLoop fuel h (← next h c) (max acc a)
end

/-- binary_node.hpp 358-378, `operator==`. -/
def eq (eqv : α → α → Bool) : Nat → BHeap α → Addr → BHeap α → Addr → Res Bool
  | 0, _, _, _, _ => Res.diverge
  | fuel + 1, h, a, h', b => do
    let n ← h.read a
    let m ← h'.read b
    if n.left.isSome != m.left.isSome || n.right.isSome != m.right.isSome then pure false
    else if !eqv n.value m.value then pure false
    else do
      let ok ← match n.left with
        | some c => do eq eqv fuel h c h' (← deref m.left)
        | none => pure true
      if !ok then pure false
      else match n.right with
        | some c => do eq eqv fuel h c h' (← deref m.right)
        | none => pure true

end Binary
