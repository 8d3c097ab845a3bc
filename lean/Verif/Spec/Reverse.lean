import Verif.Model.Reverse
/-!
# What a reverse iterator should do

An index `0 … n` into the reversed list; `0` is the position of `rbegin()`, `n` that of `rend()`.
-/
namespace Cursor

/-- Where a move takes an index, `none` outside the range. -/
def strict (n : Nat) : Iter.Move → Nat → Option Nat
  | .inc, i => if i < n then some (i + 1) else none
  | .dec, i => if i = 0 then none else some (i - 1)

/-- Where a sequence of moves takes an index, if it never leaves the range. -/
def strictly (n : Nat) : List Iter.Move → Nat → Option Nat
  | [], i => some i
  | m :: ms, i => (strict n m i).bind (strictly n ms)

end Cursor

/-- The reverse iterator `r` is at index `i` of the reversed list: it designates the element there, and is equal to `rend()` at the end and only there. -/
def RevAt (P : Policy) (nav : Nav) (fuel : Nat) (L : List Addr) (i : Nat) (r : Reverse.RIt) : Prop :=
  (∀ a, L.reverse[i]? = some a → Reverse.deref P nav fuel r = Res.ok a) ∧
  ∃ e, Reverse.rend P nav fuel = Res.ok e ∧ (Reverse.eq r e = true ↔ i = L.length)

/-- Reverse iterators walk over the reversed list: every in-range sequence of `++` and `--` from `rbegin()` or `rend()` is carried out without error and
ends at the right index. -/
def IsReverse (P : Policy) (nav : Nav) (fuel : Nat) (L : List Addr) : Prop :=
  (∀ ms i, Cursor.strictly L.length ms 0 = some i →
    ∃ b r, Reverse.rbegin P nav fuel = Res.ok b ∧ Reverse.moves P nav fuel ms b = Res.ok r ∧ RevAt P nav fuel L i r) ∧
  (∀ ms i, Cursor.strictly L.length ms L.length = some i →
    ∃ e r, Reverse.rend P nav fuel = Res.ok e ∧ Reverse.moves P nav fuel ms e = Res.ok r ∧ RevAt P nav fuel L i r)
