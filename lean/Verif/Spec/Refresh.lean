import Verif.Spec.History
/-!
# Calls that change an object

`Op.changes` lists the objects whose nodes a call may change; of the other objects it names it changes at most values.
-/
open World (Src)

/-- The tree object a move takes its nodes from. -/
def World.Src.changes {α lit : Type} : Src α lit → List Nat
  | .moveOf y => [y]
  | _ => []

/-- The tree objects whose nodes a call may change. Copying from a tree, `size()`, `arity()`, `update_size_arity()` and writing values do not change them. -/
def Op.changes {α lit : Type} : Op α lit → List Nat
  | .newEmpty x => [x]
  | .newCopy x _ => [x]
  | .newMove x y => [x, y]
  | .newLit x _ => [x]
  | .destroy x => [x]
  | .clear x => [x]
  | .assignCopy x _ => [x]
  | .assignMove x y => [x, y]
  | .assignLit x _ => [x]
  | .swap x y => [x, y]
  | .size _ => []
  | .arity _ => []
  | .updateCounts _ => []
  | .insertOver _ _ _ x _ src => x :: src.changes
  | .insertChild _ _ x _ src => x :: src.changes
  | .erase x _ => [x]
  | .eraseRange x _ _ => [x]
  | .write _ _ _ => []

/-- In the history `ops`, `update_size_arity()` was called on `x` and no later call changed the nodes of `x`. -/
def Refreshed {α lit : Type} (ops : List (Op α lit)) (x : Nat) : Prop :=
  ∃ before after, ops = before ++ .updateCounts x :: after ∧ ∀ op ∈ after, x ∉ op.changes
