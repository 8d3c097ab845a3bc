import Verif.Model.Policy
/-!
# What a bidirectional iterator should do

A cursor over a list of `n` elements is an index `0 … n`; `n` is the position of `end()`.
-/

namespace Cursor

/-- Where one move takes an index; `none` is a move outside the range (`--` on the first element).
`++` on `end()` rewinds to the first element, as the library documents (tree_iterator.hpp 261-266). -/
def step (n : Nat) : Iter.Move → Nat → Option Nat
  | .inc, i => if i < n then some (i + 1) else some 0
  | .dec, i => if i = 0 then (if n = 0 then some 0 else none) else some (i - 1)

/-- Where a sequence of moves takes an index, if it never leaves the range. -/
def walk (n : Nat) : List Iter.Move → Nat → Option Nat
  | [], i => some i
  | m :: ms, i => (step n m i).bind (walk n ms)

end Cursor

/-- Iterators made by `begin()` and `end()` with policy `P` over `nav` are cursors over `L`: every in-range
sequence of moves is carried out without error and ends on the element with the right index (`none`, i.e. the null
position of `end()`, at index `L.length`). -/
def IsCursor (P : Policy) (nav : Nav) (fuel : Nat) (L : List Addr) : Prop :=
  (∀ ms i, Cursor.walk L.length ms 0 = some i →
    ∃ b s, Iter.begin_ P nav fuel = Res.ok b ∧ Iter.moves P nav fuel ms b = Res.ok s ∧ s.cur = L[i]?) ∧
  (∀ ms i, Cursor.walk L.length ms L.length = some i →
    ∃ e s, Iter.end_ P nav fuel = Res.ok e ∧ Iter.moves P nav fuel ms e = Res.ok s ∧ s.cur = L[i]?)

/-- An iterator made directly at the `k`-th element (`other_policy`, `other_node`, conversion to const_iterator)
is a cursor over `L` as well. -/
def IsCursorAt (P : Policy) (nav : Nav) (fuel : Nat) (L : List Addr) : Prop :=
  ∀ k a, L[k]? = some a → ∀ ms i, Cursor.walk L.length ms k = some i →
    ∃ b s, P.make nav fuel (some a) = Res.ok b ∧ b.cur = some a ∧ Iter.moves P nav fuel ms b = Res.ok s ∧ s.cur = L[i]?

/-- The iterator state `st` is a cursor over `L` at index `k`. -/
def CursorFrom (P : Policy) (nav : Nav) (fuel : Nat) (L : List Addr) (k : Nat) (st : ItState) : Prop :=
  st.cur = L[k]? ∧ ∀ ms i, Cursor.walk L.length ms k = some i →
    ∃ s, Iter.moves P nav fuel ms st = Res.ok s ∧ s.cur = L[i]?
