import Verif.Spec.Pattern
/-! # Captures with a name -/

/-- The captures of a pattern that have the name `c`, in pre-order. -/
def Pat.withName {α : Type} (name : Nat → List Char) (c : List Char) (p : Pat α) : List (Pat α) :=
  p.pre.filter (fun q => q.kind = .cpt ∧ name q.id = c)
