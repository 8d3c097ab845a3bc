import Verif.Model.FilterObj
import Verif.Spec.Cursor
/-! # What a filtered iterator should do -/

/-- Wrapping `begin()` or `end()` in a filter gives cursors over `L`: every in-range sequence of moves is carried out and
ends on the right element. -/
def IsFilterCursor (P : Policy) (nav : Nav) (fuel : Nat) (p : Addr → Res Bool) (L : List Addr) : Prop :=
  (∀ ms i, Cursor.walk L.length ms 0 = some i →
    ∃ b w s, Iter.begin_ P nav fuel = Res.ok b ∧ FilterIter.wrap P nav fuel p b = Res.ok w ∧
      FilterIter.moves P nav fuel p ms w = Res.ok s ∧ s.cur = L[i]?) ∧
  (∀ ms i, Cursor.walk L.length ms L.length = some i →
    ∃ e w s, Iter.end_ P nav fuel = Res.ok e ∧ FilterIter.wrap P nav fuel p e = Res.ok w ∧
      FilterIter.moves P nav fuel p ms w = Res.ok s ∧ s.cur = L[i]?)

/-- The loop over an iterator filtered by `p`, from the wrapped `begin()`, visits exactly `L`, in this order, and ends. -/
def FilterLoop (P : Policy) (nav : Nav) (fuel : Nat) (p : Addr → Res Bool) (L : List Addr) : Prop :=
  ∃ b o, Iter.begin_ P nav fuel = Res.ok b ∧ FilterIter.Obj.make P nav fuel p b = Res.ok o ∧
    FilterIter.Obj.rest P fuel fuel o = Res.ok L
