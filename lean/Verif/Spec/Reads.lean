import Verif.Spec.Literal
import Verif.Spec.Print
/-!
# Reading a printed tree as program text

The grammar of the expressions `n(v)`, `n()` and `e(e1, ..., ek)`, with spaces and line ends in front of an expression.
-/

section
variable {α : Type} (val : List Char → α → Prop)

mutual
/-- `Reads val s e`: the characters `s` are the expression `e`; `val` says which characters stand for which value. -/
inductive Reads : List Char → Expr α → Prop where
  | hole : Reads "n()".toList .hole
  | n {s : List Char} {v : α} : val s v → Reads ("n(".toList ++ s ++ ")".toList) (.n v)
  | call {s l : List Char} {e : Expr α} {es : List (Expr α)} :
      Reads s e → ReadsL l es → Reads (s ++ "(".toList ++ l ++ ")".toList) (.call e es)
  | space {c : Char} {s : List Char} {e : Expr α} : c = ' ' ∨ c = '\n' → Reads s e → Reads (c :: s) e
/-- Expressions with commas between them. -/
inductive ReadsL : List Char → List (Expr α) → Prop where
  | one {s : List Char} {e : Expr α} : Reads s e → ReadsL s [e]
  | cons {s l : List Char} {e : Expr α} {es : List (Expr α)} :
      Reads s e → ReadsL l es → ReadsL (s ++ ",".toList ++ l) (e :: es)
end
end

/-- The texts of the values allowed by `ok` can be told apart when a closing parenthesis follows, and none of them is empty or
begins with a closing parenthesis. -/
structure Clear {α : Type} (disp : α → List Char) (ok : α → Prop) : Prop where
  apart : ∀ v v' r r', ok v → ok v' → disp v ++ ')' :: r = disp v' ++ ')' :: r' → v = v' ∧ r = r'
  head : ∀ v, ok v → ∃ c r, disp v = c :: r ∧ c ≠ ')'
