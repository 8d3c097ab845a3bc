import Verif.Model.Navigator
import Verif.Spec.Cursor
/-!
# Iterators that were given another navigator
-/
open Iter

/-- `it.other_navigator(…)` with a navigator of root `root` succeeds for every iterator `it` at an element of `L` at which `ok` holds;
the iterator it returns has a navigator of root `r`, is at the same element, and `++` and `--` lead from there along `L`. -/
def Renavigated (P : Policy) (fix : (Ptr → Nav) → Ptr → Ptr → Res Ptr) (nav : Ptr → Nav) (fuel : Nat) (root : Ptr) (r : Addr)
    (L : List Addr) (ok : Addr → Prop) : Prop :=
  ∀ (st : ItState) (k : Nat) (a : Addr), st.cur = some a → L[k]? = some a → ok a →
    ∃ b, otherNavigator P fix nav root fuel st = Res.ok (some r, b) ∧ b.cur = some a ∧ CursorFrom P (nav (some r)) fuel L k b
