import Verif.Model.Nav
import Verif.Spec.Tree
/-!
# nary_node

Models include/TreeDS/node/nary_node.hpp (and node.hpp for the shared fields).
Simplification: `std::size_t` following_size is a `Nat`; value copies cannot throw (they do in Model/Faults.lean).
-/

/-- node.hpp 25-27 and nary_node.hpp 27-31. -/
structure NNode (α : Type) where
  value : α
  parent : Ptr
  following : Nat
  prev : Ptr
  next : Ptr
  first : Ptr
  last : Ptr
  deriving DecidableEq, Repr

abbrev NHeap (α : Type) := Heap (NNode α)

namespace Nary
variable {α : Type}

/-- nary_node.hpp 36-47: a node built from a value. -/
def leaf (v : α) : NNode α := ⟨v, none, 0, none, none, none, none⟩

/-- nary_node.hpp 265-272, `manage_parent_last_child`. -/
def manageParentLast (h : NHeap α) (this : Addr) : Res (NHeap α) := do
  let n ← h.read this
  let h ← match n.parent with
    | some p => if n.next.isNone then h.modify p (fun m => { m with last := some this }) else pure h
    | none => pure h
  if n.first.isNone then h.modify this (fun m => { m with last := none }) else pure h

/-- nary_node.hpp 71-96: the copy constructor with allocator. The members are initialized in declaration order: the
next sibling (with everything after it) is copied before the first child. `last_child` is uninitialized until
`manage_parent_last_child`; here it starts null. -/
def copy : Nat → NHeap α → Addr → Ptr → Ptr → Res (NHeap α × Addr)
  | 0, _, _, _, _ => Res.diverge
  | fuel + 1, h, other, parent, prev => do
    let o ← h.read other
    let (h, this) := h.alloc ⟨o.value, parent, o.following, prev, none, none, none⟩
    let h ← match o.next with
      | some nx => do
        let (h, a) ← copy fuel h nx parent (some this)
        h.modify this (fun m => { m with next := some a })
      | none => pure h
    let h ← match o.first with
      | some c => do
        let (h, a) ← copy fuel h c (some this) none
        h.modify this (fun m => { m with first := some a })
      | none => pure h
    let h ← manageParentLast h this
    pure (h, this)

/-- nary_node.hpp 124-171: construction from a struct_node literal `t` followed by the sibling literals `ts`
(`NextSibling` chain). A literal for an nary tree is a `Tree α`: `n()` slots are rejected by the compiler because
`empty_t` does not convert to `T`. `fuel` is an artefact: the recursion is over the literal's type. -/
def ofLits : Nat → NHeap α → Tree α → List (Tree α) → Ptr → Ptr → Res (NHeap α × Addr)
  | 0, _, _, _, _, _ => Res.diverge
  | fuel + 1, h, t, ts, parent, prev => do
    let (h, this) := h.alloc ⟨t.label, parent, ts.length, prev, none, none, none⟩
    let h ← match ts with
      | nx :: ts => do
        let (h, a) ← ofLits fuel h nx ts parent (some this)
        h.modify this (fun m => { m with next := some a })
      | [] => pure h
    let h ← match t.children with
      | c :: cs => do
        let (h, a) ← ofLits fuel h c cs (some this) none
        h.modify this (fun m => { m with first := some a })
      | [] => pure h
    let h ← manageParentLast h this
    pure (h, this)

/-- nary_node.hpp 124-136: a root literal. -/
def ofLit (h : NHeap α) (t : Tree α) : Res (NHeap α × Addr) := ofLits t.size h t [] none none

/-- allocator_utility.hpp 34-53 with nary_node.hpp 259-261 (`get_resources`: first child, next sibling). -/
def dealloc : Nat → NHeap α → Ptr → Res (NHeap α)
  | 0, _, _ => Res.diverge
  | _ + 1, h, none => pure h
  | fuel + 1, h, some a => do
    let n ← h.read a
    let h ← dealloc fuel h n.first
    let h ← dealloc fuel h n.next
    h.free a

/-- nary_node.hpp 370-374, `is_last_child`. -/
def isLastChild (h : NHeap α) (this : Addr) : Res Bool := do
  let n ← h.read this
  match n.parent with
  | some p => do pure ((← h.read p).last == some this)
  | none => pure false

/-- nary_node.hpp 376-380, `is_first_child`. -/
def isFirstChild (h : NHeap α) (this : Addr) : Res Bool := do
  let n ← h.read this
  match n.parent with
  | some p => do pure ((← h.read p).first == some this)
  | none => pure false

/-- The loop of nary_node.hpp 292-298: decrements the counters of the siblings before `this` and returns the node
whose `next_sibling` is the back link (null when the loop body never ran). -/
def unlinkLoop (this : Addr) : Nat → NHeap α → Ptr → Ptr → Res (NHeap α × Ptr)
  | 0, _, _, _ => Res.diverge
  | _ + 1, h, none, back => pure (h, back)
  | fuel + 1, h, some child, back =>
    if child = this then pure (h, back)
    else do
      let h ← h.modify child (fun m => { m with following := m.following - 1 })
      let n ← h.read child
      unlinkLoop this fuel h n.next (some child)

/-- nary_node.hpp 300-312: the tail of `replace_with`, after the back link was written. -/
def relink (h : NHeap α) (this : Addr) (p : Addr) (target node : Ptr) : Res (NHeap α) := do
  let h ← if ← isLastChild h this then h.modify p (fun m => { m with last := target })
    else do
      let n ← h.read this
      let nx ← deref n.next
      h.modify nx (fun m => { m with prev := match node with | some y => some y | none => n.prev })
  h.modify this (fun m => { m with parent := none, following := 0, prev := none, next := none })

/-- nary_node.hpp 274-313, `replace_with`. Writing through a null `back_link` is undefined behaviour. -/
def replaceWith (fuel : Nat) (h : NHeap α) (this : Addr) (node : Ptr) : Res (NHeap α) := do
  match node with
  | some y => do
    let ny ← h.read y
    Res.assert (ny.parent.isNone && ny.next.isNone)
  | none => pure ()
  let n ← h.read this
  match n.parent with
  | none => pure h
  | some p =>
    match node with
    | some y => do
      let h ← h.modify y (fun m => { m with parent := n.parent, following := n.following, prev := n.prev, next := n.next })
      let h ← match n.prev with
        | some pv => h.modify pv (fun m => { m with next := some y })
        | none => h.modify p (fun m => { m with first := some y })
      relink h this p (some y) node
    | none => do
      let np ← h.read p
      let (h, back) ← unlinkLoop this fuel h np.first none
      let n ← h.read this
      let b ← deref back
      let h ← h.modify b (fun m => { m with next := n.next })
      relink h this p n.next none

/-- nary_node.hpp 315-331, `prepend_child`. -/
def prepend (h : NHeap α) (this : Addr) (node : Ptr) : Res (NHeap α) :=
  match node with
  | none => pure h
  | some y => do
    let ny ← h.read y
    Res.assert (ny.parent.isNone && ny.prev.isNone && ny.next.isNone)
    let n ← h.read this
    let h ← h.modify y (fun m => { m with parent := some this, next := n.first })
    let h ← match n.first with
      | some f => do
        let nf ← h.read f
        let h ← h.modify y (fun m => { m with following := nf.following + 1 })
        h.modify f (fun m => { m with prev := some y })
      | none => h.modify this (fun m => { m with last := some y })
    h.modify this (fun m => { m with first := some y })

/-- The loop of nary_node.hpp 339-342. -/
def bumpLoop : Nat → NHeap α → Ptr → Res (NHeap α)
  | 0, _, _ => Res.diverge
  | _ + 1, h, none => pure h
  | fuel + 1, h, some c => do
    let h ← h.modify c (fun m => { m with following := m.following + 1 })
    let n ← h.read c
    bumpLoop fuel h n.next

/-- nary_node.hpp 333-354, `append_child`. -/
def append (fuel : Nat) (h : NHeap α) (this : Addr) (node : Ptr) : Res (NHeap α) :=
  match node with
  | none => pure h
  | some y => do
    let ny ← h.read y
    Res.assert (ny.parent.isNone && ny.next.isNone)
    let n ← h.read this
    let h ← match n.first with
      | some f => bumpLoop fuel h (some f)
      | none => h.modify this (fun m => { m with first := some y })
    let h ← h.modify y (fun m => { m with parent := some this })
    let n ← h.read this
    let h ← match n.last with
      | some l => do
        let h ← h.modify l (fun m => { m with next := some y })
        h.modify y (fun m => { m with prev := some l })
      | none => pure h
    h.modify this (fun m => { m with last := some y })

/-- The loop of nary_node.hpp 363-365. -/
def childLoop (h : NHeap α) : Nat → Ptr → Res Ptr
  | _, none => pure none
  | 0, some c => pure (some c)
  | i + 1, some c => do
    let n ← h.read c
    childLoop h i n.next

/-- nary_node.hpp 356-367, `calculate_child`; 251-257 `get_child`. -/
def getChild (h : NHeap α) (this : Addr) (index : Nat) : Res Ptr := do
  let n ← h.read this
  match n.first with
  | some f => do
    let nf ← h.read f
    if index == nf.following then pure n.last else childLoop h index (some f)
  | none => childLoop h index none

/-- nary_node.hpp 382-386, `children`. -/
def children (h : NHeap α) (this : Addr) : Res Nat := do
  let n ← h.read this
  match n.first with
  | some f => do pure ((← h.read f).following + 1)
  | none => pure 0

/-- nary_node.hpp 388-390. -/
def followingSiblings (h : NHeap α) (this : Addr) : Res Nat := do pure (← h.read this).following

/-- node_navigator over nary nodes rooted at `root`: navigator_base.hpp 228-280. -/
def nav (h : NHeap α) (root : Ptr) : Nav where
  root := root
  parent a := if some a == root then pure none else do pure (← h.read a).parent
  prev a := if some a == root then pure none else do pure (← h.read a).prev
  next a := if some a == root then pure none else do pure (← h.read a).next
  first a := do pure (← h.read a).first
  last a := do pure (← h.read a).last
  isFirst a := if some a == root then pure false
    else do pure (some a == (← h.read (← deref (← h.read a).parent)).first)
  isLast a := if some a == root then pure false
    else do pure (some a == (← h.read (← deref (← h.read a).parent)).last)
  left _ := Res.ub
  right _ := Res.ub
  isLeft _ := Res.ub
  isRight _ := Res.ub

/-- utility.hpp 196-205, `calculate_size(nary_node)`, unrolled over the sibling chain: `sizeFrom` of a child pointer
is the loop's sum over it and the siblings after it. -/
def sizeFrom : Nat → NHeap α → Ptr → Res Nat
  | 0, _, _ => Res.diverge
  | _ + 1, _, none => pure 0
  | fuel + 1, h, some c => do
    let n ← h.read c
    pure (1 + (← sizeFrom fuel h n.first) + (← sizeFrom fuel h n.next))

def calcSize (fuel : Nat) (h : NHeap α) (a : Addr) : Res Nat := do
  let n ← h.read a
  pure (1 + (← sizeFrom fuel h n.first))

mutual
/-- utility.hpp 207-221, `calculate_arity`. For nary nodes `max_expected_arity` is the largest `size_t`; the early
return at that value is not modelled (no node has that many children). -/
def calcArity : Nat → NHeap α → Addr → Res Nat
  | 0, _, _ => Res.diverge
  | fuel + 1, h, a => do
    let n ← h.read a
    match n.first with
    | none => pure 0
    | some c => do
      let nc ← h.read c
      arityLoop fuel h (some c) (nc.following + 1)
/-- The loop of utility.hpp 213-219. -/
def arityLoop : Nat → NHeap α → Ptr → Nat → Res Nat
  | 0, _, _, _ => Res.diverge
  | _ + 1, _, none, acc => pure acc
  | fuel + 1, h, some c, acc => do
    let a ← calcArity fuel h c
    let n ← h.read c
    arityLoop fuel h n.next (max acc a)
end

/-- nary_node.hpp 407-426, `operator==`. `eqv` is the value type's `==`. A null dereference is undefined
behaviour. -/
def eq (eqv : α → α → Bool) : Nat → NHeap α → Addr → NHeap α → Addr → Res Bool
  | 0, _, _, _, _ => Res.diverge
  | fuel + 1, h, a, h', b => do
    if (← children h a) != (← children h' b) then pure false
    else do
      let n ← h.read a
      let m ← h'.read b
      if !eqv n.value m.value then pure false
      else do
        let ok ← match n.first with
          | some c => do eq eqv fuel h c h' (← deref m.first)
          | none => pure true
        if !ok then pure false
        else match n.next with
          | some c => do eq eqv fuel h c h' (← deref m.next)
          | none => pure true

end Nary
