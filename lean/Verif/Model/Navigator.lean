import Verif.Model.FilterObj
/-!
# Giving an iterator another navigator

Models `other_navigator` of tree_iterator and tree_iterator_filter (include/TreeDS/tree_iterator.hpp, include/TreeDS/tree_iterator_filter.hpp) and `fix_navigator_root` of
include/TreeDS/policy/policy_base.hpp and include/TreeDS/policy/siblings.hpp. A navigator with the root `r` is `nav r`; `none` is
the null root of a default constructed navigator.
-/

namespace Policy

/-- policy_base.hpp 83-87: a policy object given a navigator without root takes the current node as root. -/
def fixRoot (_ : Ptr → Nav) (root cur : Ptr) : Res Ptr :=
  match root with
  | some r => pure (some r)
  | none => pure cur

/-- siblings.hpp 14-19: the policy siblings takes the parent of the current node, or the node itself if it has none. -/
def siblingsFixRoot (nav : Ptr → Nav) (root cur : Ptr) : Res Ptr :=
  match root, cur with
  | none, some a => do
    match ← (nav none).parent a with
    | some p => pure (some p)
    | none => pure (some a)
  | _, _ => pure root

end Policy

namespace Iter

/-- tree_iterator.hpp 138-143 with policy_base.hpp 49-54, 163-174: a fresh policy object at the same node with the navigator `nav
root`, whose root is then fixed by `fix`. Answers the root of the navigator of the new iterator and its state. -/
def otherNavigator (P : Policy) (fix : (Ptr → Nav) → Ptr → Ptr → Res Ptr) (nav : Ptr → Nav) (root : Ptr) (fuel : Nat)
    (s : ItState) : Res (Ptr × ItState) := do
  let r ← fix nav root s.cur
  let s ← P.make (nav r) fuel s.cur
  pure (r, s)

end Iter

namespace FilterIter.Obj

/-- tree_iterator_filter.hpp 109-113, `other_navigator`: the predicate (undefined behaviour if there is none) with the base class's
`other_navigator`, by the constructor of 39-45. -/
def otherNavigator (P : Policy) (fix : (Ptr → Nav) → Ptr → Ptr → Res Ptr) (nav : Ptr → Nav) (root : Ptr) (fuel : Nat) (o : Obj) :
    Res Obj :=
  match o.predicate with
  | none => Res.ub
  | some p => do
    let (r, s) ← Iter.otherNavigator P fix nav root fuel o.st
    make P (nav r) fuel p s

end FilterIter.Obj
