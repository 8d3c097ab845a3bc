import Verif.Model.Pattern
/-!
# Captures with a name

Models matcher/utility.hpp 66-68 and 98-129, the validation of matcher/node/matcher.hpp 38-44 and `assign_mark` with a name
(pattern.hpp 80-87, matcher.hpp 302-312). `name i` is the name of the capture with identity `i`, empty for `cpt(m)` without a
name (capture.hpp 81-97). All of this happens at compile time: `false` and `none` mean that the program does not compile.
-/

namespace Pat
variable {α : Type} (name : Nat → List Char)

/-- matcher/utility.hpp 100-125, `index_of_capture`. -/
def indexOfCapture (c : List Char) : List (Pat α) → Nat
  | [] => 1
  | q :: qs => if name q.id = c then 0 else 1 + indexOfCapture c qs

/-- matcher/utility.hpp 127-128, `is_valid_name`. -/
def isValidName (c : List Char) (captures : List (Pat α)) : Bool := indexOfCapture name c captures < captures.length

/-- matcher/utility.hpp 44-64, `matcher_traits::children_captures` of a matcher with the children `ps` that has a next sibling
or has not: the third specialization (54-58) has them as `siblings_captures` instead. -/
def childrenCaptures (hasNext : Bool) (ps : List (Pat α)) : List (Pat α) :=
  match ps with
  | [] => []
  | p :: ps => if hasNext then capturesL (p :: ps) else []

mutual
/-- matcher.hpp 38-44: the static_assert of a matcher and of those below it. -/
def validNames (hasNext : Bool) : Pat α → Bool
  | node i k _ ps =>
    !(decide (k = .cpt) && decide (name i ≠ []) && isValidName name (name i) (childrenCaptures hasNext ps)) && validNamesL ps
def validNamesL : List (Pat α) → Bool
  | [] => true
  | p :: ps => validNames (!ps.isEmpty) p && validNamesL ps
end

/-- Whether the pattern compiles: the outermost matcher has no next sibling. -/
def compiles (p : Pat α) : Bool := validNames name false p

end Pat

namespace World
variable {ν α lit : Type} (K : Kind ν α lit) (value : ν → α) (B : Pattern.Builder ν) (name : Nat → List Char)

/-- pattern.hpp 80-87 and matcher.hpp 302-312, `assign_mark` with a name. -/
def assignMarkNamed (W : World ν) (p : Pat α) (s : Pattern.State) (c : List Char) (x : Nat) : Option (Res (Bool × World ν)) :=
  if c = [] then none
  else if Pat.isValidName name c p.captures then
    p.captures[Pat.indexOfCapture name c p.captures]?.map (fun q => W.assignPart K value B q s x)
  else none

end World
