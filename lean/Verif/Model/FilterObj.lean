import Verif.Model.Filter
/-!
# tree_iterator_filter objects

Models the constructors, assignments, factories and post-increments of include/TreeDS/tree_iterator_filter.hpp.
-/

namespace FilterIter

/-- tree_iterator_filter.hpp 13, 31-32: the base class's policy object, whose navigator and position are `nav` and `st`, and
the optional predicate. -/
structure Obj where
  nav : Nav
  st : ItState
  predicate : Option (Addr → Res Bool)

/-- `(*this->predicate)(this->operator*())` (41, 119, 132): dereferencing an empty optional is undefined behaviour. -/
def ask (predicate : Option (Addr → Res Bool)) (a : Addr) : Res Bool :=
  match predicate with
  | some p => p a
  | none => Res.ub

namespace Obj

/-- tree_iterator_filter.hpp 36-37: the default constructor; the default constructed policy has a null position
(`nav` is a navigator with a null root). -/
def default (nav : Nav) : Obj := ⟨nav, ⟨none, []⟩, none⟩

/-- tree_iterator_filter.hpp 39-45. -/
def make (P : Policy) (nav : Nav) (fuel : Nat) (p : Addr → Res Bool) (s : ItState) : Res Obj := do
  pure ⟨nav, ← wrap P nav fuel p s, some p⟩

/-- tree_iterator_filter.hpp 47-50 and 68-71: the copy and the move constructor copy the base and the predicate. -/
def copy (o : Obj) : Obj := ⟨o.nav, o.st, o.predicate⟩

/-- tree_iterator_filter.hpp 73-76 and 86-89: both assignments assign the base only. -/
def assign (o other : Obj) : Obj := { o with nav := other.nav, st := other.st }

/-- tree_iterator_filter.hpp 117-122 and 130-135, `operator++()` and `operator--()`. -/
def move (P : Policy) (fuel : Nat) (m : Iter.Move) (o : Obj) : Res Obj := do
  pure { o with st := ← FilterIter.move P o.nav fuel (ask o.predicate) m o.st }

/-- tree_iterator_filter.hpp 124-128 and 137-141, `operator++(int)` and `operator--(int)`: the returned copy and the object
itself afterwards. -/
def post (P : Policy) (fuel : Nat) (m : Iter.Move) (o : Obj) : Res (Obj × Obj) := do
  let c := o.copy
  pure (c, ← o.move P fuel m)

/-- tree_iterator_filter.hpp 97-99, `other_node`. -/
def otherNode (P : Policy) (fuel : Nat) (node : Ptr) (o : Obj) : Res Obj :=
  match o.predicate with
  | none => Res.ub
  | some p => do make P o.nav fuel p (← P.make o.nav fuel node)

/-- tree_iterator_filter.hpp 101-105, `other_policy`. -/
def otherPolicy (Q : Policy) (fuel : Nat) (o : Obj) : Res Obj :=
  match o.predicate with
  | none => Res.ub
  | some p => do make Q o.nav fuel p (← Iter.otherPolicy Q o.nav fuel o.st)

/-- The user's loop `for (; o; ++o) visit(*o);`: the addresses visited, in order. -/
def rest (P : Policy) (fuel : Nat) : Nat → Obj → Res (List Addr)
  | 0, _ => Res.diverge
  | n + 1, o => match o.st.cur with
    | none => pure []
    | some a => do
      let o ← o.move P fuel .inc
      pure (a :: (← rest P fuel n o))

end Obj
end FilterIter
