import Verif.Spec.Cursor
import Verif.Model.ConstIter
/-!
# Converting iterators
-/

/-- Wherever an in-range sequence of moves takes an iterator made by `end()` (`++` on `end()` is `begin()`), converting it to a const iterator
changes nothing: the const iterator is in the same state, so whatever is done with it has the outcome it would have had without the
conversion. -/
def Converts (P : Policy) (nav : Nav) (fuel : Nat) (L : List Addr) : Prop :=
  ∀ ms i, Cursor.walk L.length ms L.length = some i →
    ∃ e s, Iter.end_ P nav fuel = Res.ok e ∧ Iter.moves P nav fuel ms e = Res.ok s ∧ s.cur = L[i]? ∧ Iter.toConst P nav fuel s = Res.ok s

/-- `other_node(a)`, `a` the `k`-th element, called on any iterator, is the iterator that moving there makes. -/
def OtherNodeIs (P : Policy) (nav : Nav) (fuel : Nat) (L : List Addr) : Prop :=
  ∀ ms i, Cursor.walk L.length ms L.length = some i →
    ∃ e s, Iter.end_ P nav fuel = Res.ok e ∧ Iter.moves P nav fuel ms e = Res.ok s ∧
      ∀ it : ItState, Iter.otherNode P nav fuel it L[i]? = Res.ok s
