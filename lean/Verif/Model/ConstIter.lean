import Verif.Model.Policy
/-!
# Iterators and const iterators

`iterator<P>` and `const_iterator<P>` are the same template; what differs is whether the pointers in it are to const nodes. Simplification: the
pointer types are not modelled, so a converted navigator is the same navigator (node_navigator.hpp 21-24 takes over the root).
-/

namespace Iter

/-- tree_iterator.hpp 93-100, the conversion of an `iterator<P>` to a `const_iterator<P>`, and 116-124, its assignment to one (the policy object is
converted first): policy_base.hpp 56-66 makes a fresh policy object at the same node, with the same navigator. The containers of the
policy are filled by the initialisers of the members (breadth_first.hpp 24, leaves.hpp 17, fixed.hpp 12), they are not copied. -/
def toConst (P : Policy) (nav : Nav) (fuel : Nat) (s : ItState) : Res ItState := P.make nav fuel s.cur

/-- tree_iterator.hpp 127-129, `other_node`, through 103-112 and policy_base.hpp 68-80: a fresh policy object at the node given. -/
def otherNode (P : Policy) (nav : Nav) (fuel : Nat) (_ : ItState) (a : Ptr) : Res ItState := P.make nav fuel a

end Iter
