import Verif.Model.Policy
/-!
# Reverse iterators

tree.hpp 262-274 and tree_base.hpp 167-186 wrap the iterators in `std::reverse_iterator`, whose operations the C++ standard defines in terms of its base.
-/
namespace Reverse
open Iter

/-- `std::reverse_iterator<tree_iterator>`: the iterator it wraps. -/
structure RIt where
  base : ItState
  deriving DecidableEq, Repr

/-- tree.hpp 262-265, tree_base.hpp 172-175: `rbegin` wraps `end()`. -/
def rbegin (P : Policy) (nav : Nav) (fuel : Nat) : Res RIt := do pure ⟨← end_ P nav fuel⟩
/-- tree.hpp 267-272, tree_base.hpp 182-186: `rend` wraps `begin()`. -/
def rend (P : Policy) (nav : Nav) (fuel : Nat) : Res RIt := do pure ⟨← begin_ P nav fuel⟩

/-- The C++ standard (reverse.iter.nav): `++r` decrements the base (tree_iterator.hpp 278-291), `--r` increments it (257-270). -/
def move (P : Policy) (nav : Nav) (fuel : Nat) (m : Move) (r : RIt) : Res RIt :=
  match m with
  | .inc => do pure ⟨← dec P nav fuel r.base⟩
  | .dec => do pure ⟨← inc P nav fuel r.base⟩

/-- A sequence of moves. -/
def moves (P : Policy) (nav : Nav) (fuel : Nat) : List Move → RIt → Res RIt
  | [], r => pure r
  | m :: ms, r => do moves P nav fuel ms (← move P nav fuel m r)

/-- The C++ standard (reverse.iter.elem): `*r` is `Iterator tmp = base; return *--tmp`. The answer is the node whose value is returned. -/
def deref (P : Policy) (nav : Nav) (fuel : Nat) (r : RIt) : Res Addr := do
  let tmp ← dec P nav fuel r.base
  _root_.deref tmp.cur

/-- The C++ standard (reverse.iter.cmp): `==` compares the bases (tree_iterator.hpp 215-222; both belong to one tree). -/
def eq (r q : RIt) : Bool := r.base.cur == q.base.cur

end Reverse
