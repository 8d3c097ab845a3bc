/-!
# Outcomes, pointers, heap
-/

/-- Outcome of running a piece of C++: a result, undefined behaviour (null/dangling dereference, double free,
failed `assert`), or a loop that has not finished within the fuel. -/
inductive Res (α : Type) : Type where
  | ok : α → Res α
  | ub : Res α
  | diverge : Res α
  deriving DecidableEq, Repr

namespace Res
variable {α β : Type}

def bind : Res α → (α → Res β) → Res β
  | ok a, f => f a
  | ub, _ => ub
  | diverge, _ => diverge

instance : Monad Res where
  pure := ok
  bind := Res.bind

@[simp] theorem ok_bind (a : α) (f : α → Res β) : (Res.ok a >>= f) = f a := rfl
@[simp] theorem pure_bind' (a : α) (f : α → Res β) : ((pure a : Res α) >>= f) = f a := rfl
@[simp] theorem ub_bind (f : α → Res β) : ((Res.ub : Res α) >>= f) = Res.ub := rfl
@[simp] theorem diverge_bind (f : α → Res β) : ((Res.diverge : Res α) >>= f) = Res.diverge := rfl
@[simp] theorem pure_eq (a : α) : (pure a : Res α) = Res.ok a := rfl
@[simp] theorem map_ok (f : α → β) (a : α) : (f <$> (Res.ok a)) = Res.ok (f a) := rfl

/-- `assert(b)` (all builds with assertions on; a failed assertion is `ub`). -/
def assert (b : Bool) : Res Unit := if b then ok () else ub

@[simp] theorem assert_true : Res.assert true = ok () := rfl
@[simp] theorem assert_false : Res.assert false = ub := rfl

end Res

/-- Node addresses. -/
abbrev Addr := Nat
/-- A C++ raw pointer to a node; `none` is `nullptr`. -/
abbrev Ptr := Option Addr

/-- Dereferencing a pointer: the address, or undefined behaviour for `nullptr`. -/
def deref : Ptr → Res Addr
  | some a => Res.ok a
  | none => Res.ub

@[simp] theorem deref_some (a : Addr) : deref (some a) = Res.ok a := rfl
@[simp] theorem deref_none : deref none = Res.ub := rfl

/-- The heap: allocated cells and the next address the allocator will hand out. Simplification: addresses are
never reused. -/
structure Heap (ν : Type) where
  cells : Addr → Option ν
  next : Addr

namespace Heap
variable {ν : Type}

def empty : Heap ν := ⟨fun _ => none, 0⟩

/-- Read a node record through a pointer. -/
def read (h : Heap ν) (a : Addr) : Res ν :=
  match h.cells a with
  | some n => Res.ok n
  | none => Res.ub

/-- Overwrite a cell (used for a cell that is allocated). -/
def set (h : Heap ν) (a : Addr) (n : ν) : Heap ν :=
  { h with cells := fun x => if x = a then some n else h.cells x }

/-- Modify fields of a node through a pointer. -/
def modify (h : Heap ν) (a : Addr) (f : ν → ν) : Res (Heap ν) :=
  match h.cells a with
  | some n => Res.ok (h.set a (f n))
  | none => Res.ub

/-- `std::allocator_traits::allocate` + `construct` (allocator_utility.hpp 90-102): reserve a fresh cell. -/
def alloc (h : Heap ν) (n : ν) : Heap ν × Addr :=
  ({ cells := fun x => if x = h.next then some n else h.cells x, next := h.next + 1 }, h.next)

/-- `destroy` + `deallocate` of one cell (allocator_utility.hpp 50-52). Freeing a cell that is not allocated is
undefined behaviour. -/
def free (h : Heap ν) (a : Addr) : Res (Heap ν) :=
  match h.cells a with
  | some _ => Res.ok { h with cells := fun x => if x = a then none else h.cells x }
  | none => Res.ub

end Heap
