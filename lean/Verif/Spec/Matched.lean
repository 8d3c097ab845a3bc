import Verif.Spec.World
/-!
# Which object a pattern last found a match in
-/

/-- The objects a pattern can be searched in: trees (by variable) and views (by the node that is their root). -/
inductive Target : Type where
  | naryTree (x : Nat) : Target
  | binaryTree (x : Nat) : Target
  | naryView (root : Ptr) : Target
  | binaryView (root : Ptr) : Target

/-- The object of the last search that found a match. -/
def lastFound : List (Target × Bool) → Option Target
  | [] => none
  | (t, ok) :: rest =>
    match lastFound rest with
    | some u => some u
    | none => if ok then some t else none

namespace Target
def isView : Target → Bool
  | naryTree _ => false
  | binaryTree _ => false
  | naryView _ => true
  | binaryView _ => true
def isBinary : Target → Bool
  | naryTree _ => false
  | binaryTree _ => true
  | naryView _ => false
  | binaryView _ => true
end Target
