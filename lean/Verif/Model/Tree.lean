import Verif.Model.Policy
import Verif.Model.NaryNode
import Verif.Model.BinaryNode
import Verif.Model.Lit
/-!
# tree: the containers

Models include/TreeDS/tree.hpp and the capacity functions of include/TreeDS/tree_base.hpp for both kinds of node.

A program state (`World`) is a heap of nodes and the tree objects that are alive. Simplifications: allocation and value
construction do not throw (they do in Model/Faults.lean); allocators are all equal, so that memory obtained from one tree may be released by another;
iterators passed to a modifier belong to the tree they are passed to, as the library requires.
-/

/-- Unsigned arithmetic of `std::size_t`. -/
def sizeT : Nat := 2 ^ 64
def wadd (a b : Nat) : Nat := (a + b) % sizeT
def wsub (a b : Nat) : Nat := (a + (sizeT - b)) % sizeT

/-- A bound on the rounds of the loops: more than twice the number of nodes ever allocated. -/
def Heap.fuel {ν : Type} (h : Heap ν) : Nat := 2 * h.next + 2

/-- What `tree<Node, …>` uses from its node type: the operations of nary_node.hpp or binary_node.hpp. -/
structure Kind (ν α lit : Type) where
  leaf : α → ν
  /-- node.hpp 62-64: assignment to the value of a node. -/
  setValue : ν → α → ν
  ofLit : Heap ν → lit → Res (Heap ν × Addr)
  litSize : lit → Nat
  litArity : lit → Nat
  copy : Nat → Heap ν → Addr → Res (Heap ν × Addr)
  dealloc : Nat → Heap ν → Ptr → Res (Heap ν)
  replaceWith : Nat → Heap ν → Addr → Ptr → Res (Heap ν)
  prepend : Nat → Heap ν → Addr → Ptr → Res (Heap ν)
  append : Nat → Heap ν → Addr → Ptr → Res (Heap ν)
  first : Heap ν → Addr → Res Ptr
  following : Heap ν → Addr → Res Nat
  /-- tree.hpp 358-362: the test that makes `add_child` throw (binary nodes only). -/
  full : Heap ν → Addr → Res Bool
  calcSize : Nat → Heap ν → Addr → Res Nat
  calcArity : Nat → Heap ν → Addr → Res Nat
  nav : Heap ν → Ptr → Nav
  eq : (α → α → Bool) → Nat → Heap ν → Addr → Heap ν → Addr → Res Bool

/-- `nary_tree`: nary_tree.hpp 20-27. -/
def Nary.kind (α : Type) : Kind (NNode α) α (Tree α) where
  leaf := Nary.leaf
  setValue n v := { n with value := v }
  ofLit := Nary.ofLit
  litSize t := (Lit.full t).subtreeSize
  litArity t := (Lit.full t).subtreeArity
  copy fuel h a := Nary.copy fuel h a none none
  dealloc := Nary.dealloc
  replaceWith := Nary.replaceWith
  prepend _ := Nary.prepend
  append := Nary.append
  first h a := do pure (← h.read a).first
  following := Nary.followingSiblings
  full _ _ := pure false
  calcSize := Nary.calcSize
  calcArity := Nary.calcArity
  nav := Nary.nav
  eq := Nary.eq

/-- `binary_tree`: binary_tree.hpp 22-33. -/
def Binary.kind (α : Type) : Kind (BNode α) α (Lit α) where
  leaf := Binary.leaf
  setValue n v := { n with value := v }
  ofLit := Binary.ofLit
  litSize := Lit.subtreeSize
  litArity := Lit.subtreeArity
  copy := Binary.copy
  dealloc := Binary.dealloc
  replaceWith _ := Binary.replaceWith
  prepend _ := Binary.prepend
  append _ := Binary.append
  first := Binary.first
  following := Binary.followingSiblings
  full h a := do pure ((← Binary.children h a) == 2)
  calcSize := Binary.calcSize
  calcArity := Binary.calcArity
  nav := Binary.nav
  eq := Binary.eq

/-- The attributes of a tree object: tree_base.hpp 96-104. -/
structure TreeRec where
  root : Ptr
  size : Nat
  arity : Nat
  /-- The root stored in the tree's navigator. -/
  navRoot : Ptr
  deriving DecidableEq, Repr

/-- An empty tree: tree.hpp 71-72, also what `nullify` (410-415) leaves. -/
def TreeRec.empty : TreeRec := ⟨none, 0, 0, none⟩

/-- A tree_iterator: the policy object's state and the root of the policy's navigator. -/
structure It where
  st : ItState
  root : Ptr
  deriving DecidableEq, Repr

/-- How a call ends: it returns, or throws `std::logic_error`. -/
inductive Out (β : Type) : Type where
  | ret : β → Out β
  | threw : Out β
  deriving DecidableEq, Repr

namespace TreeOps
variable {ν α lit : Type} (K : Kind ν α lit)

/-- tree.hpp 400-408, `assign`. -/
def assign (h : Heap ν) (r : TreeRec) (root : Ptr) (size arity : Nat) : Res (Heap ν × TreeRec) := do
  let h ← match r.root with
    | some _ => K.dealloc h.fuel h r.root
    | none => pure h
  pure (h, ⟨root, size, arity, root⟩)

/-- tree.hpp 423-425, `clear`. -/
def clear (h : Heap ν) (r : TreeRec) : Res (Heap ν × TreeRec) := assign K h r none 0 0

/-- tree_base.hpp 208-213, `size()`: also fills the cache. -/
def sizeQ (h : Heap ν) (r : TreeRec) : Res (Nat × TreeRec) :=
  match r.root with
  | some a =>
    if r.size == 0 then do
      let n ← K.calcSize h.fuel h a
      pure (n, { r with size := n })
    else pure (r.size, r)
  | none => pure (r.size, r)

/-- tree_base.hpp 215-224, `arity()`. -/
def arityQ (h : Heap ν) (r : TreeRec) : Res (Nat × TreeRec) :=
  match r.root with
  | some a =>
    if r.arity == 0 then do
      match ← K.first h a with
      | some _ =>
        let n ← K.calcArity h.fuel h a
        pure (n, { r with arity := n })
      | none => pure (r.arity, r)
    else pure (r.arity, r)
  | none => pure (r.arity, r)

/-- tree.hpp 284-304, `replace_node`. The last component is the node held by the returned unique_ptr. -/
def replaceNode (h : Heap ν) (r : TreeRec) (replaced replacement : Ptr) (rs ra : Nat) : Res (Heap ν × TreeRec × Ptr) :=
  match replaced with
  | none => pure (h, r, none)
  | some a => do
    Res.assert r.root.isSome
    let h ← K.replaceWith h.fuel h a replacement
    if some a == r.root then pure (h, { r with size := rs, arity := ra }, some a)
    else do
      match ← K.first h a with
      | none => pure (h, { r with size := wadd r.size (wsub rs 1), arity := 0 }, some a)
      | some _ => pure (h, { r with size := 0, arity := 0 }, some a)

/-- tree.hpp 306-339, `modify_subtree`. `node` is what the unique_ptr parameter holds; it is released on line 312, so
nobody frees it when the function throws. -/
def modifySubtree (P : Policy) (h : Heap ν) (r : TreeRec) (pos : It) (node : Ptr) (rs ra : Nat) :
    Res (Heap ν × TreeRec × Out It) :=
  match pos.st.cur with
  | some a => do
    Res.assert r.root.isSome
    let st ← P.update (K.nav h pos.root) pos.st a node
    if some a == r.root then do
      let (h, r) ← assign K h r node rs ra
      pure (h, r, .ret ⟨st, pos.root⟩)
    else do
      let (h, r, old) ← replaceNode K h r (some a) node rs ra
      let h ← K.dealloc h.fuel h old
      pure (h, r, .ret ⟨st, pos.root⟩)
  | none =>
    match r.root with
    | none => do
      let (h, r) ← assign K h r node rs ra
      pure (h, r, .ret pos)
    | some _ => pure (h, r, .threw)

/-- tree.hpp 341-375, `add_child<First>`. When it throws, the unique_ptr parameter frees `node`. -/
def addChild (front : Bool) (P : Policy) (h : Heap ν) (r : TreeRec) (pos : It) (node : Ptr) (rs ra : Nat) :
    Res (Heap ν × TreeRec × Out It) :=
  match pos.st.cur with
  | none => do
    let h ← K.dealloc h.fuel h node
    pure (h, r, .threw)
  | some a => do
    if ← K.full h a then do
      let h ← K.dealloc h.fuel h node
      pure (h, r, .threw)
    else do
      let h ← if front then K.prepend h.fuel h a node else K.append h.fuel h a node
      let loc ← match ← K.first h a with
        | some f => do pure ((← K.following h f) + 1)
        | none => pure 1
      let r := { r with size := wadd r.size rs, arity := max ra (max r.arity loc) }
      let st ← P.make (K.nav h r.navRoot) h.fuel (some a)
      pure (h, r, .ret ⟨st, r.navRoot⟩)

/-- tree.hpp 377-398, `erase_subtree`; only called with post_order iterators. -/
def eraseSubtree (h : Heap ν) (r : TreeRec) (pos : It) : Res (Heap ν × TreeRec × Out Unit) :=
  match pos.st.cur with
  | some a => do
    Res.assert r.root.isSome
    let _ ← Policy.postOrder.update (K.nav h pos.root) pos.st a none
    if some a == r.root then do
      let (h, r) ← clear K h r
      pure (h, r, .ret ())
    else do
      let (h, r, old) ← replaceNode K h r (some a) none 0 0
      let h ← K.dealloc h.fuel h old
      pure (h, r, .ret ())
  | none =>
    match r.root with
    | some _ => pure (h, r, .threw)
    | none => pure (h, r, .ret ())

/-- tree.hpp 749-756, `erase(position)`. -/
def erase (h : Heap ν) (r : TreeRec) (pos : It) : Res (Heap ν × TreeRec × Out It) := do
  let next ← Iter.inc Policy.postOrder (K.nav h pos.root) h.fuel pos.st
  let (h, r, o) ← eraseSubtree K h r pos
  match o with
  | .threw => pure (h, r, .threw)
  | .ret _ =>
    match r.root with
    | none => pure (h, r, .ret ⟨⟨none, []⟩, none⟩)
    | some _ => pure (h, r, .ret ⟨next, pos.root⟩)

/-- tree.hpp 758-768, `erase(first, last)`: the loop. -/
def eraseRange : Nat → Heap ν → TreeRec → It → It → Res (Heap ν × TreeRec × Out It)
  | 0, _, _, _, _ => Res.diverge
  | n + 1, h, r, first, last =>
    if first.st.cur == last.st.cur && first.root == last.root then
      match r.root with
      | none => pure (h, r, .ret ⟨⟨none, []⟩, none⟩)
      | some _ => pure (h, r, .ret last)
    else do
      let next ← Iter.inc Policy.postOrder (K.nav h first.root) h.fuel first.st
      let (h, r, o) ← eraseSubtree K h r first
      match o with
      | .threw => pure (h, r, .threw)
      | .ret _ => eraseRange n h r ⟨next, first.root⟩ last

end TreeOps

/-! ## Program states -/

/-- The heap and the tree objects that are alive, by name. -/
structure World (ν : Type) where
  heap : Heap ν
  vars : Nat → Option TreeRec

namespace World
variable {ν α lit : Type}

/-- Before the program starts: no node, no tree. -/
def start : World ν := ⟨Heap.empty, fun _ => none⟩

/-- Using a tree object that does not exist is undefined behaviour. -/
def get (W : World ν) (x : Nat) : Res TreeRec :=
  match W.vars x with
  | some r => Res.ok r
  | none => Res.ub

def put (W : World ν) (x : Nat) (r : Option TreeRec) : World ν :=
  { W with vars := fun y => if y = x then r else W.vars y }

def setHeap (W : World ν) (h : Heap ν) : World ν := { W with heap := h }

variable (K : Kind ν α lit)

/-- tree.hpp 71-72: default construction. -/
def newEmpty (W : World ν) (x : Nat) : Res (World ν) := pure (W.put x (some TreeRec.empty))

/-- The copy of the nodes of a tree, null for an empty tree: the expression in tree.hpp 86-88, 178-180, 502-504. -/
def copyNodes (W : World ν) (r : TreeRec) : Res (World ν × Ptr) :=
  match r.root with
  | some a => do
    let (h, b) ← K.copy W.heap.fuel W.heap a
    pure (W.setHeap h, some b)
  | none => pure (W, none)

/-- tree.hpp 84-108: copy construction. -/
def newCopy (W : World ν) (x y : Nat) : Res (World ν) := do
  let r ← W.get y
  let (W, p) ← copyNodes K W r
  pure (W.put x (some ⟨p, r.size, r.arity, p⟩))

/-- tree.hpp 110-124: move construction. -/
def newMove (W : World ν) (x y : Nat) : Res (World ν) := do
  let r ← W.get y
  pure ((W.put x (some ⟨r.root, r.size, r.arity, r.root⟩)).put y (some TreeRec.empty))

/-- tree.hpp 130-155: construction from a literal. -/
def newLit (W : World ν) (x : Nat) (l : lit) : Res (World ν) := do
  let (h, a) ← K.ofLit W.heap l
  pure ((W.setHeap h).put x (some ⟨some a, K.litSize l, K.litArity l, some a⟩))

/-- tree.hpp 157-162: destruction. -/
def destroy (W : World ν) (x : Nat) : Res (World ν) := do
  let (h, _) ← TreeOps.clear K W.heap (← W.get x)
  pure ((W.setHeap h).put x none)

/-- tree.hpp 423-425. -/
def clear (W : World ν) (x : Nat) : Res (World ν) := do
  let (h, r) ← TreeOps.clear K W.heap (← W.get x)
  pure ((W.setHeap h).put x (some r))

/-- tree.hpp 164-185: copy assignment `x = y`; the copy is made before the old nodes are released. -/
def assignCopy (W : World ν) (x y : Nat) : Res (World ν) := do
  let ry ← W.get y
  let (W, p) ← copyNodes K W ry
  let (h, r) ← TreeOps.assign K W.heap (← W.get x) p ry.size ry.arity
  pure ((W.setHeap h).put x (some r))

/-- tree.hpp 187-199: move assignment `x = std::move(y)`. -/
def assignMove (W : World ν) (x y : Nat) : Res (World ν) := do
  let ry ← W.get y
  let (h, r) ← TreeOps.assign K W.heap (← W.get x) ry.root ry.size ry.arity
  pure (((W.setHeap h).put x (some r)).put y (some TreeRec.empty))

/-- tree.hpp 201-224: assignment of a literal. -/
def assignLit (W : World ν) (x : Nat) (l : lit) : Res (World ν) := do
  let (h, a) ← K.ofLit W.heap l
  let W := W.setHeap h
  let (h, r) ← TreeOps.assign K W.heap (← W.get x) (some a) (K.litSize l) (K.litArity l)
  pure ((W.setHeap h).put x (some r))

/-- tree.hpp 434-442: `swap`. -/
def swap (W : World ν) (x y : Nat) : Res (World ν) := do
  let rx ← W.get x
  let ry ← W.get y
  pure ((W.put x (some ry)).put y (some rx))

/-- `size()` and `arity()` of a tree object, with their effect on the cache. -/
def size (W : World ν) (x : Nat) : Res (World ν × Nat) := do
  let (n, r) ← TreeOps.sizeQ K W.heap (← W.get x)
  pure (W.put x (some r), n)

def arity (W : World ν) (x : Nat) : Res (World ν × Nat) := do
  let (n, r) ← TreeOps.arityQ K W.heap (← W.get x)
  pure (W.put x (some r), n)

/-- tree_base.hpp 226-229: `update_size_arity()` forgets both counts. -/
def updateCounts (W : World ν) (x : Nat) : Res (World ν) := do
  let r ← W.get x
  pure (W.put x (some { r with size := 0, arity := 0 }))

/-- The argument of an insertion: a value (also `emplace_…(args)`), a literal, an emplacing literal
(`struct_node<std::tuple<…>>`), a tree to copy or a tree to move from. -/
inductive Src (α lit : Type) : Type where
  | value : α → Src α lit
  | lit : lit → Src α lit
  | emplaceLit : lit → Src α lit
  | copyOf : Nat → Src α lit
  | moveOf : Nat → Src α lit

/-- tree.hpp 519-522: the arguments `other.replace_node(other.root_node, nullptr, 0, 0)`, `other.size()`,
`other.arity()`. C++ evaluates them in any order: `sb` and `ab` say whether `size()` and `arity()` come before
`replace_node`. -/
def takeNodes (sb ab : Bool) (W : World ν) (y : Nat) : Res (World ν × Ptr × Nat × Nat) := do
  let r ← W.get y
  let (s0, r) ← if sb then TreeOps.sizeQ K W.heap r else pure (0, r)
  let (a0, r) ← if ab then TreeOps.arityQ K W.heap r else pure (0, r)
  let (h, r, p) ← TreeOps.replaceNode K W.heap r r.root none 0 0
  let (s1, r) ← if sb then pure (s0, r) else TreeOps.sizeQ K h r
  let (a1, r) ← if ab then pure (a0, r) else TreeOps.arityQ K h r
  pure ((W.setHeap h).put y (some r), p, s1, a1)

/-- The node, size and arity that the overloads of `insert_over` and `emplace_over` pass to `modify_subtree`:
tree.hpp 451-560. -/
def overNode (sb ab : Bool) (W : World ν) : Src α lit → Res (World ν × Ptr × Nat × Nat)
  | .value v => pure (W.setHeap (W.heap.alloc (K.leaf v)).1, some (W.heap.alloc (K.leaf v)).2, 1, 0)
  | .lit l => do
    let (h, a) ← K.ofLit W.heap l
    pure (W.setHeap h, some a, K.litSize l, K.litArity l)
  | .emplaceLit l => do
    let (h, a) ← K.ofLit W.heap l
    pure (W.setHeap h, some a, K.litSize l, K.litArity l)
  | .copyOf y => do
    let (W, p) ← copyNodes K W (← W.get y)
    let (W, s) ← size K W y
    let (W, a) ← arity K W y
    pure (W, p, s, a)
  | .moveOf y => takeNodes K sb ab W y

/-- tree.hpp 451-560, `insert_over` and `emplace_over`. -/
def insertOver (sb ab : Bool) (P : Policy) (W : World ν) (x : Nat) (pos : It) (src : Src α lit) :
    Res (World ν × Out It) :=
  match src with
  | .moveOf y => if x = y then pure (W, .threw) else do
      let (W, p, rs, ra) ← overNode K sb ab W src
      let (h, r, o) ← TreeOps.modifySubtree K P W.heap (← W.get x) pos p rs ra
      let W := (W.setHeap h).put x (some r)
      match o with
      | .ret it => pure (W.put y (some TreeRec.empty), .ret it)
      | .threw => pure (W, .threw)
  | _ => do
      let (W, p, rs, ra) ← overNode K sb ab W src
      let (h, r, o) ← TreeOps.modifySubtree K P W.heap (← W.get x) pos p rs ra
      pure ((W.setHeap h).put x (some r), o)

/-- The node, size and arity that the overloads of `insert_child_front/back` and `emplace_child_front/back` pass to
`add_child`: tree.hpp 562-747. `insert_child_front` of a literal and both moves pass (1, 0). The `copyOf` overload of
`insert_child_back` does not compile (656-667); it is given here the meaning of the front one. -/
def childNode (front : Bool) (W : World ν) : Src α lit → Res (World ν × Ptr × Nat × Nat)
  | .value v => pure (W.setHeap (W.heap.alloc (K.leaf v)).1, some (W.heap.alloc (K.leaf v)).2, 1, 0)
  | .lit l => do
    let (h, a) ← K.ofLit W.heap l
    if front then pure (W.setHeap h, some a, 1, 0)
    else pure (W.setHeap h, some a, K.litSize l, K.litArity l)
  | .emplaceLit l => do
    let (h, a) ← K.ofLit W.heap l
    pure (W.setHeap h, some a, K.litSize l, K.litArity l)
  | .copyOf y => do
    let (W, p) ← copyNodes K W (← W.get y)
    pure (W, p, 1, 0)
  | .moveOf y => do
    let r ← W.get y
    let (h, r, p) ← TreeOps.replaceNode K W.heap r r.root none 0 0
    pure ((W.setHeap h).put y (some r), p, 1, 0)

/-- tree.hpp 562-747. -/
def insertChild (front : Bool) (P : Policy) (W : World ν) (x : Nat) (pos : It) (src : Src α lit) :
    Res (World ν × Out It) :=
  match src with
  | .moveOf y => if x = y then pure (W, .threw) else do
      let (W, p, rs, ra) ← childNode K front W src
      let (h, r, o) ← TreeOps.addChild K front P W.heap (← W.get x) pos p rs ra
      let W := (W.setHeap h).put x (some r)
      match o with
      | .ret it => pure (W.put y (some TreeRec.empty), .ret it)
      | .threw => pure (W, .threw)
  | _ => do
      let (W, p, rs, ra) ← childNode K front W src
      let (h, r, o) ← TreeOps.addChild K front P W.heap (← W.get x) pos p rs ra
      pure ((W.setHeap h).put x (some r), o)

/-- tree.hpp 749-756. -/
def erase (W : World ν) (x : Nat) (pos : It) : Res (World ν × Out It) := do
  let (h, r, o) ← TreeOps.erase K W.heap (← W.get x) pos
  pure ((W.setHeap h).put x (some r), o)

/-- tree.hpp 758-768. -/
def eraseRange (W : World ν) (x : Nat) (first last : It) : Res (World ν × Out It) := do
  let (h, r, o) ← TreeOps.eraseRange K W.heap.fuel W.heap (← W.get x) first last
  pure ((W.setHeap h).put x (some r), o)

/-- tree_iterator.hpp 190-192, 198-200 and node.hpp 62-64: `*pos = v`, `pos->… = …`. Nothing is checked: at the end the null pointer
is dereferenced. -/
def write (W : World ν) (pos : It) (v : α) : Res (World ν) :=
  match pos.st.cur with
  | none => Res.ub
  | some a => do pure (W.setHeap (← W.heap.modify a (K.setValue · v)))

end World
