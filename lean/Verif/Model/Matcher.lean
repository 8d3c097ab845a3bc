import Verif.Spec.Written
import Verif.Model.StructNode
import Verif.Model.Named
/-!
# Making a pattern

Models the construction of matchers: matcher.hpp, the factory functions and `with_first_child`, `with_next_sibling` of the four
classes of matchers, and the value matchers. A matcher is a struct_node_base (matcher.hpp 17) whose value is the value matcher or
the name, so the objects are those of Model/StructNode.lean; the class of the matcher (`Derived`) is stored with the value.
`matched_node` and `subtree_cut` are null in a new matcher (matcher.hpp 47, multi_matcher.hpp 51) and are kept apart from the object, in `Memo`.
-/

/-- matcher.hpp 128-137, `match_value`; product_match.hpp 17-20 for `having`, true_matcher.hpp 11-14. A value of class
alternative_match does not compile: it is compared with `==` by matcher.hpp 135. -/
def Wanted.matchValue {α β : Type} [DecidableEq α] [DecidableEq β] : Wanted α β → α → Bool
  | .any, _ => true
  | .having artifact getter, x => artifact == getter x
  | .value v, x => v == x

/-- The value matcher of each class of matchers: one_matcher.hpp 15-20, opt_matcher.hpp 14-19, multi_matcher.hpp 19-29. That of a
capture is its name (capture.hpp 12-17), which is never asked. -/
def Label.matchValue {α β : Type} [DecidableEq α] [DecidableEq β] : Label α β → α → Bool
  | .one w => w.matchValue
  | .opt _ w => w.matchValue
  | .star _ w => w.matchValue
  | .cpt _ => fun _ => true

namespace SNode
variable {α β : Type}

/-- matcher.hpp 28-34 with matcher/utility.hpp 39-64, `captures_t`: the names of the captures of a chain of siblings. -/
def captureNames : SNode (Label α β) → List (List Char)
  | empty => []
  | mk v f n _ _ => (v.bind Label.name?).toList ++ (captureNames f ++ captureNames n)

/-- matcher.hpp 36-43: the static_assert of the class of a matcher. `children_captures` of a matcher without a next sibling is
empty (matcher/utility.hpp 54-58); `is_valid_name` (matcher/utility.hpp 125-126) says whether the name is among them. -/
def clash : SNode (Label α β) → Bool
  | empty => false
  | mk v f n _ _ =>
    match v.bind Label.name? with
    | some c => c != [] && (!f.isEmpty && !n.isEmpty && f.captureNames.contains c)
    | none => false

/-- Creating an object of the class of `s`; `none`: does not compile. -/
def checked (s : SNode (Label α β)) : Option (SNode (Label α β)) := if s.clash then none else some s

/-- struct_node.hpp 257-269, `operator()`, with `with_next_sibling` and `with_first_child` of one_matcher.hpp 79-89,
opt_matcher.hpp 103-113, multi_matcher.hpp 317-327 and capture.hpp 65-78. -/
def callMatcher (s : SNode (Label α β)) (nodes : List (SNode (Label α β))) : Option (SNode (Label α β)) := do
  let row ← nodes.foldr (fun element accumulated => do checked (element.withNext (← accumulated))) (some empty)
  checked (s.withFirst row)

/-- The number of objects in a chain of siblings with all that is below. -/
def objects {γ : Type} : SNode γ → Nat
  | empty => 0
  | mk _ f n _ _ => 1 + (objects f + objects n)

/-- The chain of siblings as it is searched: `first_child` and `next_sibling` of matcher.hpp 207-264. The identities of the
objects are the numbers from `i` on, in pre-order. -/
def pats [DecidableEq α] [DecidableEq β] : SNode (Label α β) → Nat → List (Pat α)
  | mk (some l) f n _ _, i => .node i l.kind l.matchValue (pats f (i + 1)) :: pats n (i + 1 + f.objects)
  | _, _ => []

/-- The matchers in pre-order. -/
def labels {γ : Type} : SNode γ → List (Option γ)
  | empty => []
  | mk v f n _ _ => v :: (labels f ++ labels n)

/-- The name of the capture with identity `i` (capture.hpp 81-96). -/
def nameOf (s : SNode (Label α β)) (i : Nat) : List Char :=
  match s.labels[i]? with
  | some (some l) => l.name?.getD []
  | _ => []

/-- pattern.hpp 23-25: the pattern of a matcher. -/
def pattern [DecidableEq α] [DecidableEq β] (s : SNode (Label α β)) : Option (Pat α) := (s.pats 0).head?

end SNode

namespace PExpr
variable {α β : Type}

mutual
/-- The object of an expression: `one`, one_matcher.hpp 92-100; `opt`, opt_matcher.hpp 116-123; `star`, multi_matcher.hpp 330-340;
`cpt`, capture.hpp 81-96. Copies of an object have the same attributes (matcher.hpp 61-64). A capture without an argument is not searchable:
there is no `info` of `empty_t` (capture.hpp 21). -/
def eval : PExpr α β → Option (SNode (Label α β))
  | .one w => some (SNode.make (some (.one w)) .empty .empty)
  | .opt q w => some (SNode.make (some (.opt q w)) .empty .empty)
  | .star q w => some (SNode.make (some (.star q w)) .empty .empty)
  | .cpt c e => do SNode.checked (SNode.make (some (.cpt c)) (← eval e) .empty)
  | .call e args => do
    let s ← eval e
    let ss ← evalL args
    let r ← s.callMatcher ss
    match r with
    | .mk (some (.cpt _)) .empty _ _ _ => none
    | _ => some r
def evalL : List (PExpr α β) → Option (List (SNode (Label α β)))
  | [] => some []
  | e :: es => do
    let s ← eval e
    let ss ← evalL es
    pure (s :: ss)
end

end PExpr
