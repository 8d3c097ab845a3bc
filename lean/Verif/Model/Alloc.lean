import Verif.Spec.History
/-!
# Trees whose allocators differ

Allocators of one type may still be different: memory obtained from one must not be given back to another one. Here the program
state also says which allocator each tree object holds and which one each block came from. Allocators are numbers; equal numbers
are allocators that compare equal. 0 is the one a default constructed allocator is.

`step` repeats no code of the containers. A call uses one allocator, `this->allocator` of the object it is invoked on, for all it
obtains and all it gives back (`allocate(this->allocator, …)` everywhere in tree.hpp; `deallocate(this->allocator, …)` line 402,
`deleter(this->allocator)` line 303; the constructors of the nodes and `deallocate` hand it on). So the blocks a call obtained and
those it gave back can be seen by comparing the heaps before and after.
-/

/-- The program state with the allocators. -/
structure AWorld (ν : Type) where
  W : World ν
  /-- tree_base.hpp 105, `allocator` of each tree object. -/
  al : Nat → Nat
  /-- The allocator from which each block was obtained. -/
  origin : Addr → Nat

/-- A call of the interface, or the constructor that is given an allocator (tree.hpp 74-76). -/
inductive ACall (α lit : Type) : Type where
  | newWith (x i : Nat)
  | call (op : Op α lit)

namespace Op
variable {α lit : Type}

/-- The object whose allocator is used: the one the function is invoked on. -/
def target : Op α lit → Nat
  | .newEmpty x => x
  | .newCopy x _ => x
  | .newMove x _ => x
  | .newLit x _ => x
  | .destroy x => x
  | .clear x => x
  | .assignCopy x _ => x
  | .assignMove x _ => x
  | .assignLit x _ => x
  | .swap x _ => x
  | .size x => x
  | .arity x => x
  | .updateCounts x => x
  | .insertOver _ _ _ x _ _ => x
  | .insertChild _ _ x _ _ => x
  | .erase x _ => x
  | .eraseRange x _ _ => x
  | .write x _ _ => x

/-- The allocators of the objects after the call. tree.hpp 58-61, 84-95, 138-155 and tree_base.hpp 105: the constructors make a
default one; tree.hpp 110-125, 195: move construction and move assignment take that of the other tree (which keeps an equal one);
tree.hpp 435-442: `swap` leaves them where they are. Simplification: the copy constructor is the one from a tree with the same
policy; that from another policy (tree.hpp 96-108) copies the allocator of the other tree. -/
def allocators (al : Nat → Nat) : Op α lit → Nat → Nat
  | .newEmpty x => upd al x 0
  | .newCopy x _ => upd al x 0
  | .newLit x _ => upd al x 0
  | .newMove x y => upd al x (al y)
  | .assignMove x y => upd al x (al y)
  | _ => al

/-- tree.hpp 84-108, 138-155: the nodes are allocated in the arguments of the delegated constructor, with `this->allocator`,
which is only constructed afterwards. -/
def beforeLifetime {ν : Type} (W : World ν) : Op α lit → Bool
  | .newCopy _ y => match W.vars y with
    | some r => r.root.isSome
    | none => false
  | .newLit _ _ => true
  | _ => false

end Op

namespace AWorld
variable {ν α lit : Type}

/-- One call. Giving a block back to another allocator than it came from is undefined behaviour, so is using an allocator that is
not there yet. (The latter is harmless for allocators without state, for which the question of this file does not arise.) -/
def step (K : Kind ν α lit) (A : AWorld ν) : ACall α lit → Res (AWorld ν × Ans)
  | .newWith x i => do
    let (W, o) ← A.W.step K (.newEmpty x)
    pure (⟨W, upd A.al x i, A.origin⟩, o)
  | .call op =>
    if op.beforeLifetime A.W then .ub else do
      let (W, o) ← A.W.step K op
      let al := op.allocators A.al
      if (List.range A.W.heap.next).all (fun a =>
          (A.W.heap.cells a).isNone || (W.heap.cells a).isSome || A.origin a == al op.target) then
        pure (⟨W, al, fun a => if (A.W.heap.cells a).isNone && (W.heap.cells a).isSome then al op.target else A.origin a⟩, o)
      else .ub

/-- A program. -/
def run (K : Kind ν α lit) : AWorld ν → List (ACall α lit) → Res (AWorld ν × List Ans)
  | A, [] => pure (A, [])
  | A, c :: cs => do
    let (A, a) ← A.step K c
    let (A, as) ← A.run K cs
    pure (A, a :: as)

/-- Nothing has happened yet. -/
def start : AWorld ν := ⟨World.start, fun _ => 0, fun _ => 0⟩

end AWorld

/-- tree_base.hpp 107, 266-269, `get_allocator`: the member `useless_allocator`, which nothing ever sets. -/
def AWorld.getAllocator {ν : Type} (_ : AWorld ν) (_ : Nat) : Nat := 0
