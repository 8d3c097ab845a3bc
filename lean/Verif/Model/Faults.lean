import Verif.Spec.History
import Verif.Model.Compare
/-!
# Calls that run out of memory, values whose constructor throws

The calls of the containers again, this time with a number `k`: of the events that may throw while the call makes nodes
(requests to the allocator and constructions of values, counted together from 0), number `k` does. A call that has fewer
events does not notice.

Making a node is two events, allocator_utility.hpp 87-102: the request to the allocator, then the construction. `allocate`
wraps the pointer in a `unique_ptr` only after the construction, and the constructors of the nodes hold the nodes below them
in raw pointers (`.release()`): on the way out of an exception the values built so far are destroyed, but nobody gives the
memory back. A block that was obtained and never given back is a cell of the heap; its contents do not matter.

The queue inside a breadth_first iterator allocates too. Its failures are not among these events; they have their own model at
the end of this file.

Simplification: callbacks of the user, comparison and assignment of values do not throw.
-/
open World (Src)

/-- How a piece of code ends that makes nodes: it goes on with a result, `k` being the number of events until the one that
throws, or an exception leaves it. -/
inductive Try (ν β : Type) : Type where
  | done : Heap ν → Nat → β → Try ν β
  | threw : Heap ν → Try ν β

/-- A piece of code that makes nodes. -/
def Fa (ν β : Type) : Type := Heap ν → Nat → Res (Try ν β)

namespace Fa
variable {ν β γ : Type}

/-- An exception skips what comes next. -/
def bind (m : Fa ν β) (f : β → Fa ν γ) : Fa ν γ := fun h k =>
  match m h k with
  | .ok (.done h k b) => f b h k
  | .ok (.threw h) => .ok (.threw h)
  | .ub => .ub
  | .diverge => .diverge

def pure (b : β) : Fa ν β := fun h k => .ok (.done h k b)

instance : Monad (Fa ν) where
  pure := Fa.pure
  bind := Fa.bind

/-- Code without events. -/
def lift (f : Heap ν → Res (Heap ν × β)) : Fa ν β := fun h k =>
  match f h with
  | .ok (h, b) => .ok (.done h k b)
  | .ub => .ub
  | .diverge => .diverge

def fail (r : Res (Try ν β)) : Fa ν β := fun _ _ => r

def read (a : Addr) : Fa ν ν := lift fun h => do Pure.pure (h, ← h.read a)
def modify (a : Addr) (f : ν → ν) : Fa ν Unit := lift fun h => do Pure.pure (← h.modify a f, ())

/-- allocator_utility.hpp 87-102, `allocate`: line 90 may throw, then nothing was obtained; line 92 may throw, then the
block stays behind. -/
def alloc (n : ν) : Fa ν Addr := fun h k =>
  match k with
  | 0 => .ok (.threw h)
  | 1 => .ok (.threw (h.alloc n).1)
  | k + 2 => .ok (.done (h.alloc n).1 k (h.alloc n).2)

end Fa

namespace Nary
variable {α : Type}

/-- nary_node.hpp 71-96, as `copy`. -/
def copyF : Nat → Addr → Ptr → Ptr → Fa (NNode α) Addr
  | 0, _, _, _ => Fa.fail .diverge
  | fuel + 1, other, parent, prev => do
    let o ← Fa.read other
    let this ← Fa.alloc ⟨o.value, parent, o.following, prev, none, none, none⟩
    match o.next with
      | some nx => do
        let a ← copyF fuel nx parent (some this)
        Fa.modify this (fun m => { m with next := some a })
      | none => pure ()
    match o.first with
      | some c => do
        let a ← copyF fuel c (some this) none
        Fa.modify this (fun m => { m with first := some a })
      | none => pure ()
    Fa.lift fun h => do pure (← manageParentLast h this, ())
    pure this

/-- nary_node.hpp 124-171 (172-212 for emplacing literals), as `ofLits`. -/
def ofLitsF : Nat → Tree α → List (Tree α) → Ptr → Ptr → Fa (NNode α) Addr
  | 0, _, _, _, _ => Fa.fail .diverge
  | fuel + 1, t, ts, parent, prev => do
    let this ← Fa.alloc ⟨t.label, parent, ts.length, prev, none, none, none⟩
    match ts with
      | nx :: ts => do
        let a ← ofLitsF fuel nx ts parent (some this)
        Fa.modify this (fun m => { m with next := some a })
      | [] => pure ()
    match t.children with
      | c :: cs => do
        let a ← ofLitsF fuel c cs (some this) none
        Fa.modify this (fun m => { m with first := some a })
      | [] => pure ()
    Fa.lift fun h => do pure (← manageParentLast h this, ())
    pure this

/-- nary_node.hpp 124-136, as `ofLit`. -/
def ofLitF (t : Tree α) : Fa (NNode α) Addr := ofLitsF t.size t [] none none

/-- nary_node.hpp 98-122, as `ofBinary`. -/
def ofBinaryF : Nat → BHeap α → Addr → Ptr → Ptr → Fa (NNode α) Addr
  | 0, _, _, _, _ => Fa.fail .diverge
  | fuel + 1, hb, other, parent, prev => do
    let o ← Fa.lift fun h => do pure (h, ← hb.read other)
    let fol ← Fa.lift fun h => do pure (h, ← Binary.followingSiblings hb other)
    let this ← Fa.alloc ⟨o.value, parent, fol, prev, none, none, none⟩
    let nx ← Fa.lift fun h => do pure (h, ← Binary.next hb other)
    match nx with
      | some nx => do
        let a ← ofBinaryF fuel hb nx parent (some this)
        Fa.modify this (fun m => { m with next := some a })
      | none => pure ()
    let fc ← Fa.lift fun h => do pure (h, ← Binary.first hb other)
    match fc with
      | some c => do
        let a ← ofBinaryF fuel hb c (some this) none
        Fa.modify this (fun m => { m with first := some a })
      | none => pure ()
    Fa.lift fun h => do pure (← manageParentLast h this, ())
    pure this

end Nary

namespace Binary
variable {α : Type}

/-- binary_node.hpp 55-68, as `copy`. -/
def copyF : Nat → Addr → Fa (BNode α) Addr
  | 0, _ => Fa.fail .diverge
  | fuel + 1, other => do
    let o ← Fa.read other
    let this ← Fa.alloc ⟨o.value, none, none, none⟩
    match o.left with
      | some l => do
        let a ← copyF fuel l
        Fa.modify this (fun m => { m with left := some a })
      | none => pure ()
    match o.right with
      | some r => do
        let a ← copyF fuel r
        Fa.modify this (fun m => { m with right := some a })
      | none => pure ()
    Fa.lift fun h => do pure (← attach h this, ())
    pure this

/-- binary_node.hpp 70-103 and 201-221, as `ofLit'`. -/
def ofLitF' : Nat → Tree (Option α) → Fa (BNode α) Addr
  | 0, _ => Fa.fail .diverge
  | fuel + 1, t => do
    match t.label with
    | none => Fa.fail .ub
    | some v => do
      let this ← Fa.alloc ⟨v, none, none, none⟩
      match t.children with
        | c :: _ => (match c.label with
          | some _ => do
            let a ← ofLitF' fuel c
            Fa.modify this (fun m => { m with left := some a })
          | none => pure ())
        | [] => pure ()
      match t.children with
        | _ :: c :: _ => (match c.label with
          | some _ => do
            let a ← ofLitF' fuel c
            Fa.modify this (fun m => { m with right := some a })
          | none => pure ())
        | _ => pure ()
      Fa.lift fun h => do pure (← attach h this, ())
      pure this

def ofLitF (t : Tree (Option α)) : Fa (BNode α) Addr := ofLitF' t.size t

end Binary

/-- The node constructors of one kind of node that make further nodes. -/
structure Makers {ν α lit : Type} (K : Kind ν α lit) where
  copy : Nat → Addr → Fa ν Addr
  ofLit : lit → Fa ν Addr

/-- nary_tree.hpp 20-27. -/
def Nary.makers (α : Type) : Makers (Nary.kind α) := ⟨fun fuel a => Nary.copyF fuel a none none, Nary.ofLitF⟩
/-- binary_tree.hpp 22-33. -/
def Binary.makers (α : Type) : Makers (Binary.kind α) := ⟨Binary.copyF, Binary.ofLitF⟩

namespace World
variable {ν α lit : Type} {K : Kind ν α lit} (M : Makers K)

/-- The expression in tree.hpp 86-88, 178-180, 502-504, as `copyNodes`. -/
def copyNodesF (k : Nat) (W : World ν) (r : TreeRec) : Res (Try ν Ptr) :=
  match r.root with
  | some a => (do pure (some (← M.copy W.heap.fuel a)) : Fa ν Ptr) W.heap k
  | none => .ok (.done W.heap k none)

/-- tree.hpp 84-108: copy construction. When it throws there is no object. The answer `none` means that the exception
leaves the call. -/
def newCopyF (k : Nat) (W : World ν) (x y : Nat) : Res (World ν × Option Ans) := do
  let r ← W.get y
  match ← copyNodesF M k W r with
  | .threw h => pure (W.setHeap h, none)
  | .done h _ p => pure ((W.setHeap h).put x (some ⟨p, r.size, r.arity, p⟩), some .unit)

/-- tree.hpp 130-155: construction from a literal. -/
def newLitF (k : Nat) (W : World ν) (x : Nat) (l : lit) : Res (World ν × Option Ans) := do
  match ← M.ofLit l W.heap k with
  | .threw h => pure (W.setHeap h, none)
  | .done h _ a => pure ((W.setHeap h).put x (some ⟨some a, K.litSize l, K.litArity l, some a⟩), some .unit)

/-- tree.hpp 164-185: copy assignment. -/
def assignCopyF (k : Nat) (W : World ν) (x y : Nat) : Res (World ν × Option Ans) := do
  let ry ← W.get y
  match ← copyNodesF M k W ry with
  | .threw h => pure (W.setHeap h, none)
  | .done h _ p => do
    let W := W.setHeap h
    let (h, r) ← TreeOps.assign K W.heap (← W.get x) p ry.size ry.arity
    pure ((W.setHeap h).put x (some r), some .unit)

/-- tree.hpp 201-224: assignment of a literal. -/
def assignLitF (k : Nat) (W : World ν) (x : Nat) (l : lit) : Res (World ν × Option Ans) := do
  match ← M.ofLit l W.heap k with
  | .threw h => pure (W.setHeap h, none)
  | .done h _ a => do
    let W := W.setHeap h
    let (h, r) ← TreeOps.assign K W.heap (← W.get x) (some a) (K.litSize l) (K.litArity l)
    pure ((W.setHeap h).put x (some r), some .unit)

/-- The arguments of `modify_subtree` in tree.hpp 451-560, as `overNode`. For the copy of a tree, lines 498-507, `sb` and `ab`
say whether `other.size()` and `other.arity()` are evaluated before the copy is made: if the copy fails, `other` has
remembered its counts or not. (They only look at nodes that the copy does not touch, so it makes no difference here that they
come after it.) Moving makes no node. -/
def overNodeF (sb ab : Bool) (k : Nat) (W : World ν) : Src α lit → Res (World ν × Option (Ptr × Nat × Nat))
  | .value v => do
    match ← Fa.alloc (K.leaf v) W.heap k with
    | .threw h => pure (W.setHeap h, none)
    | .done h _ a => pure (W.setHeap h, some (some a, 1, 0))
  | .lit l => do
    match ← M.ofLit l W.heap k with
    | .threw h => pure (W.setHeap h, none)
    | .done h _ a => pure (W.setHeap h, some (some a, K.litSize l, K.litArity l))
  | .emplaceLit l => do
    match ← M.ofLit l W.heap k with
    | .threw h => pure (W.setHeap h, none)
    | .done h _ a => pure (W.setHeap h, some (some a, K.litSize l, K.litArity l))
  | .copyOf y => do
    match ← copyNodesF M k W (← W.get y) with
    | .threw h => do
      let W := W.setHeap h
      let W ← if sb then (do pure (← W.size K y).1) else pure W
      let W ← if ab then (do pure (← W.arity K y).1) else pure W
      pure (W, none)
    | .done h _ p => do
      let (W, s) ← (W.setHeap h).size K y
      let (W, a) ← W.arity K y
      pure (W, some (p, s, a))
  | .moveOf y => do
    let (W, p, s, a) ← takeNodes K sb ab W y
    pure (W, some (p, s, a))

/-- tree.hpp 451-560, as `insertOver`. -/
def insertOverF (sb ab : Bool) (k : Nat) (P : Policy) (W : World ν) (x : Nat) (pos : It) (src : Src α lit) :
    Res (World ν × Option Ans) :=
  match src with
  | .moveOf _ => do
      let (W, o) ← W.insertOver K sb ab P x pos src
      pure (W, some (.iter o))
  | _ => do
      match ← overNodeF M sb ab k W src with
      | (W, none) => pure (W, none)
      | (W, some (p, rs, ra)) => do
        let (h, r, o) ← TreeOps.modifySubtree K P W.heap (← W.get x) pos p rs ra
        pure ((W.setHeap h).put x (some r), some (.iter o))

/-- The arguments of `add_child` in tree.hpp 562-747, as `childNode`. -/
def childNodeF (front : Bool) (k : Nat) (W : World ν) : Src α lit → Res (World ν × Option (Ptr × Nat × Nat))
  | .value v => do
    match ← Fa.alloc (K.leaf v) W.heap k with
    | .threw h => pure (W.setHeap h, none)
    | .done h _ a => pure (W.setHeap h, some (some a, 1, 0))
  | .lit l => do
    match ← M.ofLit l W.heap k with
    | .threw h => pure (W.setHeap h, none)
    | .done h _ a =>
      if front then pure (W.setHeap h, some (some a, 1, 0))
      else pure (W.setHeap h, some (some a, K.litSize l, K.litArity l))
  | .emplaceLit l => do
    match ← M.ofLit l W.heap k with
    | .threw h => pure (W.setHeap h, none)
    | .done h _ a => pure (W.setHeap h, some (some a, K.litSize l, K.litArity l))
  | .copyOf y => do
    match ← copyNodesF M k W (← W.get y) with
    | .threw h => pure (W.setHeap h, none)
    | .done h _ p => pure (W.setHeap h, some (p, 1, 0))
  | .moveOf y => do
    let (W, p, s, a) ← childNode K front W (.moveOf y)
    pure (W, some (p, s, a))

/-- tree.hpp 562-747, as `insertChild`. -/
def insertChildF (front : Bool) (k : Nat) (P : Policy) (W : World ν) (x : Nat) (pos : It) (src : Src α lit) :
    Res (World ν × Option Ans) :=
  match src with
  | .moveOf _ => do
      let (W, o) ← W.insertChild K front P x pos src
      pure (W, some (.iter o))
  | _ => do
      match ← childNodeF M front k W src with
      | (W, none) => pure (W, none)
      | (W, some (p, rs, ra)) => do
        let (h, r, o) ← TreeOps.addChild K front P W.heap (← W.get x) pos p rs ra
        pure ((W.setHeap h).put x (some r), some (.iter o))

/-- One call in which event number `k` throws. The answer `none` means that the exception leaves the call. The calls that
make no node have no events. -/
def stepF (k : Nat) (W : World ν) : Op α lit → Res (World ν × Option Ans)
  | .newCopy x y => newCopyF M k W x y
  | .newLit x l => newLitF M k W x l
  | .assignCopy x y => assignCopyF M k W x y
  | .assignLit x l => assignLitF M k W x l
  | .insertOver sb ab P x pos src => insertOverF M sb ab k P W x pos src
  | .insertChild front P x pos src => insertChildF M front k P W x pos src
  | op => do
    let (W, o) ← W.step K op
    pure (W, some o)

/-- One call in which event number `k` throws, or none (`none`). -/
def call (W : World ν) (op : Op α lit) : Option Nat → Res (World ν × Option Ans)
  | some k => W.stepF M k op
  | none => do
    let (W, o) ← W.step K op
    pure (W, some o)

/-- A program that handles the exceptions: each call comes with the number of the event that throws, if one does. -/
def runF : World ν → List (Op α lit × Option Nat) → Res (World ν × List (Option Ans))
  | W, [] => pure (W, [])
  | W, (op, k) :: l => do
    let (W, a) ← W.call M op k
    let (W, as) ← W.runF l
    pure (W, a :: as)

/-! ### the queue of a breadth_first iterator -/

/-- A request to the allocator made by the queue of a breadth_first iterator during an insertion, besides the nodes. -/
inductive QueueAt : Type where
  /-- `position` is a by-value parameter of `modify_subtree` and `add_child` (tree.hpp 309, 343): the copy of its queue, made when
  the node already exists. (Made before it, the failure comes before anything has happened.) -/
  | copy
  /-- tree.hpp 323, breadth_first.hpp 132: `push_back` in `position.update`; tree.hpp 374, breadth_first.hpp 84-117: the queue of the
  iterator that `add_child` returns. -/
  | inside

variable (K)

/-- tree.hpp 451-560, the queue throws. With `copy` the unique_ptr that holds the node frees it; with `inside` the function has
released the node from it (line 312) and not yet put it anywhere. `other.nullify()` (523) is skipped. Simplification: with
`copy`, `size()` and `arity()` of a moved or copied tree were already evaluated, which only fills its memory of them. -/
def insertOverQ (q : QueueAt) (sb ab : Bool) (W : World ν) (x : Nat) (src : Src α lit) : Res (World ν) := do
  let go : Res (World ν) := do
    let (W, p, _, _) ← overNode K sb ab W src
    match q with
    | .copy => pure (W.setHeap (← K.dealloc W.heap.fuel W.heap p))
    | .inside => pure W
  match src with
  | .moveOf y => if x = y then pure W else go
  | _ => go

/-- tree.hpp 562-747, the queue throws. With `inside` the child is in the tree and counted; `other.nullify()` (618, 683) is
skipped. -/
def insertChildQ (q : QueueAt) (front : Bool) (P : Policy) (W : World ν) (x : Nat) (pos : It) (src : Src α lit) : Res (World ν) := do
  let go : Res (World ν) := do
    let (W, p, rs, ra) ← childNode K front W src
    match q with
    | .copy => pure (W.setHeap (← K.dealloc W.heap.fuel W.heap p))
    | .inside => do
      let (h, r, _) ← TreeOps.addChild K front P W.heap (← W.get x) pos p rs ra
      pure ((W.setHeap h).put x (some r))
  match src with
  | .moveOf y => if x = y then pure W else go
  | _ => go

end World
