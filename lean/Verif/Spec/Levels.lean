import Verif.Spec.Tree
/-! The upper levels of a tree. -/

namespace Tree

/-- `top n t`: the tree `t` cut off below level `n` (the root is level 0). -/
def top {β : Type} : Nat → Tree β → Tree β
  | 0, node a _ => node a []
  | n + 1, node a cs => node a (cs.map (top n))

end Tree
