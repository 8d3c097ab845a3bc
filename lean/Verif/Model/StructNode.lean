import Verif.Spec.Literal
import Verif.Model.Tree
/-!
# struct_node objects

Models include/TreeDS/node/struct_node.hpp as it stores literals: a value, a first child, a next sibling, a level and an
index. In the library the shape of a literal is part of its type; here it is part of the value, so the folds over types
(`foldl_children_types`, `foldl_siblings_types`) are folds over the object.
-/

/-- struct_node.hpp 32-37: the attributes. `empty` is `detail::empty_t` in the place of a first child or a next sibling,
`none` is `detail::empty_t` in the place of the value. -/
inductive SNode (α : Type) : Type where
  | empty : SNode α
  | mk (value : Option α) (first next : SNode α) (level index : Nat) : SNode α
  deriving DecidableEq

namespace SNode
variable {α : Type}

/-- struct_node.hpp 115-120, `assign_indexes`. -/
def assignIndexes : SNode α → Nat → SNode α
  | empty, _ => empty
  | mk v f n l _, i => mk v f (assignIndexes n (i + 1)) l i

/-- struct_node.hpp 131-139, `set_level`. -/
def setLevel : SNode α → Nat → SNode α
  | empty, _ => empty
  | mk v f n _ i, l => mk v (setLevel f (l + 1)) (setLevel n l) l i

/-- struct_node.hpp 41-49, the constructor; the attributes `level` and `index` start at 0 (36-37). -/
def make (v : Option α) (first next : SNode α) : SNode α :=
  mk v (setLevel (assignIndexes first 0) (0 + 1)) next 0 0

/-- struct_node.hpp 307-311, `with_first_child`. -/
def withFirst : SNode α → SNode α → SNode α
  | empty, _ => empty
  | mk v _ n _ _, c => make v c n

/-- struct_node.hpp 313-317, `with_next_sibling`. -/
def withNext : SNode α → SNode α → SNode α
  | empty, _ => empty
  | mk v f _ _ _, s => make v f s

/-- struct_node.hpp 257-269, `operator()`, with `foldr` of utility.hpp 276-284. -/
def call (s : SNode α) (nodes : List (SNode α)) : SNode α :=
  s.withFirst (nodes.foldr (fun element accumulated => element.withNext accumulated) empty)

/-- struct_node.hpp 204-206, `get_value`; `none` for `n()`. -/
def value? : SNode α → Option α
  | empty => none
  | mk v _ _ _ _ => v

/-- struct_node.hpp 142-148, `get_first_child`. -/
def first : SNode α → SNode α
  | empty => empty
  | mk _ f _ _ _ => f

/-- struct_node.hpp 150-156, `get_next_sibling`. -/
def next : SNode α → SNode α
  | empty => empty
  | mk _ _ n _ _ => n

/-- struct_node.hpp 248-250, `get_level`. -/
def getLevel : SNode α → Nat
  | empty => 0
  | mk _ _ _ l _ => l

/-- struct_node.hpp 252-254, `get_index`. -/
def getIndex : SNode α → Nat
  | empty => 0
  | mk _ _ _ _ i => i

/-- struct_node.hpp 194-202 and utility.hpp 144-145, `is_empty`, the opposite of `has_first_child` and `has_next_sibling`. -/
def isEmpty : SNode α → Bool
  | empty => true
  | mk .. => false

/-- struct_node.hpp 271-277, `following_siblings`. -/
def followingSiblings : SNode α → Nat
  | empty => 0
  | mk _ _ n _ _ => if n.isEmpty then 0 else 1 + followingSiblings n

/-- struct_node.hpp 208-220 with 79-86 and 158-165: the left fold of `children()` over a chain of siblings. -/
def countFrom (accumulated : Nat) : SNode α → Nat
  | empty => accumulated
  | mk v _ n _ _ => countFrom (if v.isSome then accumulated + 1 else accumulated) n

/-- struct_node.hpp 208-220, `children()`. -/
def children (s : SNode α) : Nat := countFrom 0 s.first

/-- struct_node.hpp 222-228, the fold of `children_all()`. -/
def countAllFrom (accumulated : Nat) : SNode α → Nat
  | empty => accumulated
  | mk _ _ n _ _ => countAllFrom (accumulated + 1) n

/-- struct_node.hpp 222-228, `children_all()`. -/
def childrenAll (s : SNode α) : Nat := countAllFrom 0 s.first

/-- struct_node.hpp 230-237, the fold of `subtree_size()`; the inner call is `element_type::subtree_size()`. -/
def sizeFrom (accumulated : Nat) : SNode α → Nat
  | empty => accumulated
  | mk v f n _ _ => sizeFrom (accumulated + sizeFrom (if v.isSome then 1 else 0) f) n

/-- struct_node.hpp 230-237, `subtree_size()`. -/
def subtreeSize : SNode α → Nat
  | empty => 0
  | mk v f _ _ _ => sizeFrom (if v.isSome then 1 else 0) f

/-- struct_node.hpp 239-246, the fold of `subtree_arity()`: `own` is `children()` of the node whose children are
folded, the inner call is `element_type::subtree_arity()`. -/
def arityFrom (own accumulated : Nat) : SNode α → Nat
  | empty => accumulated
  | mk _ f n _ _ => arityFrom own (max (max accumulated own) (arityFrom (countFrom 0 f) 0 f)) n

/-- struct_node.hpp 239-246, `subtree_arity()`. -/
def subtreeArity (s : SNode α) : Nat := arityFrom s.children 0 s.first

/-- struct_node.hpp 57-77, `get_successors`; `none`: does not compile. -/
def successors : Nat → SNode α → Option (List (SNode α))
  | _, empty => none
  | 0, s@(mk ..) => some [s]
  | k + 1, s@(mk ..) => do pure (s :: (← successors k s.next))

/-- struct_node.hpp 279-293, `get_children`. -/
def getChildren (s : SNode α) : Option (List (SNode α)) :=
  if s.first.isEmpty then some [] else successors (s.childrenAll - 1) s.first

/-- struct_node.hpp 295-299, `get_child`; `none`: does not compile. -/
def getChild (s : SNode α) (i : Nat) : Option (SNode α) := do (← s.getChildren)[i]?

/-- What a program sees of an object: repeated `get_child` (struct_node.hpp 295-299) along a list of indexes. -/
def at? : SNode α → List Nat → Option (SNode α)
  | s, [] => some s
  | s, i :: p => (s.getChild i).bind (fun c => at? c p)

end SNode

namespace Expr
variable {α : Type}

mutual
/-- The object of an expression: struct_node.hpp 321-333 (`n`), 257-269 (`operator()`) and 295-299 (`get_child`). `none`
means that the expression does not compile; for a call on `n()` that is the `static_assert` of lines 16-18. Copies of an
object have the same attributes (53). -/
def eval : Expr α → Option (SNode α)
  | .n v => some (SNode.make (some v) .empty .empty)
  | .hole => some (SNode.make none .empty .empty)
  | .call e args => do
    let s ← eval e
    let ss ← evalL args
    let r := s.call ss
    if r.value?.isNone && !r.first.isEmpty then none else some r
  | .child e i => do (← eval e).getChild i
/-- The arguments of a call. -/
def evalL : List (Expr α) → Option (List (SNode α))
  | [] => some []
  | e :: es => do
    let s ← eval e
    let ss ← evalL es
    pure (s :: ss)
end

end Expr

namespace Nary
variable {α : Type}

/-- nary_node.hpp 137-171: construction from a struct_node object (the emplacing constructors 172-212 are the same with
the value built from a tuple). `n()` slots do not compile (`Res.ub` here). -/
def ofStruct (h : NHeap α) (s : SNode α) (parent prev : Ptr) : Res (NHeap α × Addr) :=
  match s with
  | .empty => Res.ub
  | .mk none _ _ _ _ => Res.ub
  | .mk (some v) f n l i => do
    let (h, this) := h.alloc ⟨v, parent, (SNode.mk (some v) f n l i).followingSiblings, prev, none, none, none⟩
    let h ← if n.isEmpty then pure h else do
      let (h, a) ← ofStruct h n parent (some this)
      h.modify this (fun m => { m with next := some a })
    let h ← if f.isEmpty then pure h else do
      let (h, a) ← ofStruct h f (some this) none
      h.modify this (fun m => { m with first := some a })
    let h ← manageParentLast h this
    pure (h, this)

end Nary

namespace Binary
variable {α : Type}

/-- binary_node.hpp 70-103 and 201-221: construction from a struct_node object; the siblings of the object itself are not
looked at. `fuel` is an artefact: the recursion is over the object. The case without a value is unreachable: `is_empty_node` (utility.hpp 147-151) is checked first. -/
def ofStruct : Nat → BHeap α → SNode α → Res (BHeap α × Addr)
  | 0, _, _ => Res.diverge
  | fuel + 1, h, s =>
    match s.value? with
    | none => Res.ub
    | some v => do
      let (h, this) := h.alloc ⟨v, none, none, none⟩
      let h ← if !s.first.isEmpty && s.first.value?.isSome then do
          let (h, a) ← ofStruct fuel h s.first
          h.modify this (fun m => { m with left := some a })
        else pure h
      let h ← if !s.first.isEmpty && (!s.first.next.isEmpty && s.first.next.value?.isSome) then do
          let (h, a) ← ofStruct fuel h s.first.next
          h.modify this (fun m => { m with right := some a })
        else pure h
      let h ← attach h this
      pure (h, this)

end Binary

namespace World
variable {α : Type}

/-- tree.hpp 130-155: construction of an nary_tree from a struct_node object. -/
def newStructNary (W : World (NNode α)) (x : Nat) (s : SNode α) : Res (World (NNode α)) := do
  let (h, a) ← Nary.ofStruct W.heap s none none
  pure ((W.setHeap h).put x (some ⟨some a, s.subtreeSize, s.subtreeArity, some a⟩))

/-- tree.hpp 130-155: construction of a binary_tree from a struct_node object. -/
def newStructBinary (fuel : Nat) (W : World (BNode α)) (x : Nat) (s : SNode α) : Res (World (BNode α)) := do
  let (h, a) ← Binary.ofStruct fuel W.heap s
  pure ((W.setHeap h).put x (some ⟨some a, s.subtreeSize, s.subtreeArity, some a⟩))

end World
