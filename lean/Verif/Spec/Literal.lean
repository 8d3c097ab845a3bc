import Verif.Spec.Lit
/-!
# Literal expressions

The expressions a program can write with `n`, and what they mean. Nothing here mentions how the library stores them.
-/

/-- The expressions `n(v)`, `n()`, `e(e1, ..., ek)` and `e.get_child(const_index<i>())`. -/
inductive Expr (α : Type) : Type where
  | n : α → Expr α
  | hole : Expr α
  | call : Expr α → List (Expr α) → Expr α
  | child : Expr α → Nat → Expr α

namespace Expr
variable {α : Type}

mutual
/-- `Means e t ts`: the expression stands for the literal `t`; `ts` are the slots that follow it in the literal it was
taken from. The arguments of a call become the slots, whatever slots the object had before, and an argument taken from
another literal leaves its following slots there. `n()` takes no arguments. -/
inductive Means : Expr α → Lit α → List (Lit α) → Prop where
  | n (v : α) : Means (.n v) (.node (some v) []) []
  | hole : Means .hole (.node none []) []
  | call {e : Expr α} {args : List (Expr α)} {v : Option α} {old new rest : List (Lit α)} :
      Means e (.node v old) rest → MeansL args new → (v = none → new = []) → Means (.call e args) (.node v new) rest
  | child {e : Expr α} {v : Option α} {cs rest ts : List (Lit α)} {t : Lit α} {i : Nat} :
      Means e (.node v cs) rest → cs.drop i = t :: ts → Means (.child e i) t ts
/-- Each argument stands for one slot. -/
inductive MeansL : List (Expr α) → List (Lit α) → Prop where
  | nil : MeansL [] []
  | cons {e : Expr α} {es : List (Expr α)} {t : Lit α} {rest ts : List (Lit α)} :
      Means e t rest → MeansL es ts → MeansL (e :: es) (t :: ts)
end

/-- The expression is not a copy of a slot of another literal. -/
def fresh : Expr α → Bool
  | .n _ => true
  | .hole => true
  | .call e _ => fresh e
  | .child _ _ => false

end Expr

namespace Lit
variable {α : Type}

/-- The part of a literal reached by a list of slot numbers. -/
def at? : Lit α → List Nat → Option (Lit α)
  | t, [] => some t
  | .node _ cs, i :: p => (cs[i]?).bind (fun c => at? c p)

/-- The values in a literal. -/
def values (t : Lit α) : List α := t.pre.filterMap id

/-- The number of slots of the root that hold a value. -/
def used (t : Lit α) : Nat := (t.children.filter (fun c => c.label.isSome)).length

end Lit
