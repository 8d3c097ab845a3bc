import Verif.Spec.Tree
/-!
# Patterns

A pattern is a tree of matchers. Each matcher object has an identity `id` (its address in the C++ program), under which it
remembers the node it matched. `test` is what its value matcher accepts: everything for `one()`, the equal values for `one(v)`,
the values whose property `getter` equals `artifact` for `one(having(artifact, getter))`.
-/

inductive Quantifier | default | reluctant | greedy | possessive
  deriving DecidableEq, Repr

/-- `one(…)`, `opt<q>(…)`, `cpt(…)`, `star<q>(…)`. -/
inductive MKind | one | opt (q : Quantifier) | cpt | star (q : Quantifier)
  deriving DecidableEq, Repr

/-- `vs` is what is left of the sequence of subtrees `us` after some steps which either skip a subtree or go into one whose root
is accepted by `f`, replacing it by its children. -/
inductive Tree.Opens {β : Type} (f : β → Bool) : List (Tree β) → List (Tree β) → Prop
  | refl (us) : Opens f us us
  | skip {t us vs} : Opens f us vs → Opens f (t :: us) vs
  | into {t us vs} : f t.label = true → Opens f (t.children ++ us) vs → Opens f (t :: us) vs

mutual
/-- The subtrees whose root is not accepted by `f` while all nodes above are, from left to right. -/
def Tree.frontier {β : Type} (f : β → Bool) : Tree β → List (Tree β)
  | .node a cs => if f a then Tree.frontierL f cs else [.node a cs]
def Tree.frontierL {β : Type} (f : β → Bool) : List (Tree β) → List (Tree β)
  | [] => []
  | t :: ts => Tree.frontier f t ++ Tree.frontierL f ts
end

inductive Pat (α : Type) : Type where
  | node (id : Nat) (kind : MKind) (test : α → Bool) (children : List (Pat α)) : Pat α

namespace Pat
variable {α β : Type}

def id : Pat α → Nat
  | node i _ _ _ => i
def kind : Pat α → MKind
  | node _ k _ _ => k

mutual
/-- The matchers in pre-order. -/
def pre : Pat α → List (Pat α)
  | node i k f ps => node i k f ps :: preL ps
def preL : List (Pat α) → List (Pat α)
  | [] => []
  | p :: ps => pre p ++ preL ps
end

def ids (p : Pat α) : List Nat := p.pre.map Pat.id
def idsL (ps : List (Pat α)) : List Nat := (preL ps).map Pat.id

/-- Every `cpt` has exactly one argument, as in `cpt(m)`. (Calling a capture can give it more, see C79.) -/
def formed (p : Pat α) : Prop := ∀ i f ps, node i .cpt f ps ∈ p.pre → ps.length = 1

/-- There is no `star`. -/
def starless (p : Pat α) : Prop := ∀ i q f ps, node i (.star q) f ps ∉ p.pre

mutual
/-- The matcher can match nothing: an `opt` or `star` whose arguments all can, or none is given, and a `cpt` of such a matcher. -/
def skippable : Pat α → Prop
  | node _ .one _ _ => False
  | node _ _ _ ps => skippableL ps
def skippableL : List (Pat α) → Prop
  | [] => True
  | p :: ps => skippable p ∧ skippableL ps
end

section
open Classical
mutual
/-- The pattern without the arguments that can match nothing. -/
noncomputable def bare : Pat α → Pat α
  | node i k f ps => node i k f (bareL ps)
noncomputable def bareL : List (Pat α) → List (Pat α)
  | [] => []
  | p :: ps => if skippable p then bareL ps else bare p :: bareL ps
end
end

/-- No argument of a `star` that is not possessive can match nothing. -/
def settled (p : Pat α) : Prop := ∀ i q f ps, node i (.star q) f ps ∈ p.pre → q ≠ .possessive → ∀ a ∈ ps, ¬ a.skippable

mutual
/-- There is no `star`, `cpt` has exactly one argument, and no matcher of the pattern can match nothing: every `opt` has an
argument. -/
def plain : Pat α → Prop
  | node _ .one _ ps => plainL ps
  | node _ .cpt _ ps => ps.length = 1 ∧ plainL ps
  | node _ (.opt _) _ ps => ps ≠ [] ∧ plainL ps
  | node _ (.star _) _ _ => False
def plainL : List (Pat α) → Prop
  | [] => True
  | p :: ps => plain p ∧ plainL ps
end

mutual
/-- No matcher of the pattern can match nothing: every `opt` and `star` has an argument. `cpt` has exactly one argument. -/
def solid : Pat α → Prop
  | node _ .one _ ps => solidL ps
  | node _ .cpt _ ps => ps.length = 1 ∧ solidL ps
  | node _ (.opt _) _ ps => ps ≠ [] ∧ solidL ps
  | node _ (.star _) _ ps => ps ≠ [] ∧ solidL ps
def solidL : List (Pat α) → Prop
  | [] => True
  | p :: ps => solid p ∧ solidL ps
end

/-- Every `star` that is not possessive has one argument. -/
def single (p : Pat α) : Prop := ∀ i q f ps, node i (.star q) f ps ∈ p.pre → q ≠ .possessive → ps.length = 1

section
variable (val : β → α)

mutual
/-- `p` matches at the root of `t`: the value is accepted, and the matchers of the children match different children of the
node, in the same order. A capture matches what its argument matches. An `opt` node may be missing: its arguments are then
matched in its place, which only a single argument can be. A possessive `opt` is not missing when it accepts the value.
A `star` stands for any number of nodes with accepted values: its arguments match different subtrees reached from the node
through accepted nodes, from left to right and not one inside the other; or, if it stands for no node at all, they are matched in
its place. A possessive `star` takes all the accepted nodes it reaches. -/
def Fits : Pat α → Tree β → Prop
  | node _ .one test ps, t => test (val t.label) = true ∧ FitsL ps t.children
  | node _ .cpt _ ps, t => FitsL ps [t]
  | node _ (.opt q) test ps, t => (test (val t.label) = true ∧ FitsL ps t.children) ∨
      ((q = .possessive → test (val t.label) = false) ∧ FitsL ps [t])
  | node _ (.star q) test ps, t =>
      (test (val t.label) = true ∧ (q ≠ .possessive → FitsS (fun b => test (val b)) ps t.children) ∧
        (q = .possessive → FitsL ps (Tree.frontierL (fun b => test (val b)) t.children))) ∨
      ((q = .possessive → test (val t.label) = false) ∧ FitsL ps [t])
/-- The matchers match different subtrees of the list, in the same order. -/
def FitsL : List (Pat α) → List (Tree β) → Prop
  | [], _ => True
  | p :: ps, ts => ∃ l t r, ts = l ++ t :: r ∧ Fits p t ∧ FitsL ps r
/-- The matchers match different subtrees reached from the sequence `ts` through nodes accepted by `f`. -/
def FitsS (f : β → Bool) : List (Pat α) → List (Tree β) → Prop
  | [], _ => True
  | p :: ps, ts => ∃ t r, Tree.Opens f ts (t :: r) ∧ Fits p t ∧ FitsS f ps r
end

variable (addr : β → Nat) (m : Nat → Option Nat)

mutual
/-- The same with the nodes remembered in `m`, where each matcher has taken the first node it could, and an `opt` is missing
only if it has to; for patterns without `star`. -/
def Found : Pat α → Tree β → Prop
  | node i .one test ps, t => m i = some (addr t.label) ∧ test (val t.label) = true ∧ FoundL ps t.children
  | node i .cpt _ ps, t => m i = some (addr t.label) ∧ FoundL ps [t]
  | node i (.opt q) test ps, t => m i = some (addr t.label) ∧
      ((test (val t.label) = true ∧ FoundL ps t.children) ∨
        (¬ (test (val t.label) = true ∧ FitsL val ps t.children) ∧
          (q = .possessive → test (val t.label) = false) ∧ FoundL ps [t]))
  | node _ (.star _) _ _, _ => False
def FoundL : List (Pat α) → List (Tree β) → Prop
  | [], _ => True
  | p :: ps, ts => ∃ l t r, ts = l ++ t :: r ∧ (∀ u ∈ l, ¬ Fits val p u) ∧ Found p t ∧ FoundL ps r
end

mutual
/-- Like `Fits`, with the nodes remembered in `m`. -/
def Placed : Pat α → Tree β → Prop
  | node i .one test ps, t => m i = some (addr t.label) ∧ test (val t.label) = true ∧ PlacedL ps t.children
  | node i .cpt _ ps, t => m i = some (addr t.label) ∧ PlacedL ps [t]
  | node i (.opt q) test ps, t => m i = some (addr t.label) ∧ ((test (val t.label) = true ∧ PlacedL ps t.children) ∨
      ((q = .possessive → test (val t.label) = false) ∧ PlacedL ps [t]))
  | node i (.star q) test ps, t => m i = some (addr t.label) ∧
      ((test (val t.label) = true ∧ (q ≠ .possessive → PlacedS (fun b => test (val b)) ps t.children) ∧
        (q = .possessive → PlacedL ps (Tree.frontierL (fun b => test (val b)) t.children))) ∨
      ((q = .possessive → test (val t.label) = false) ∧ PlacedL ps [t]))
def PlacedL : List (Pat α) → List (Tree β) → Prop
  | [], _ => True
  | p :: ps, ts => ∃ l t r, ts = l ++ t :: r ∧ Placed p t ∧ PlacedL ps r
def PlacedS (f : β → Bool) : List (Pat α) → List (Tree β) → Prop
  | [], _ => True
  | p :: ps, ts => ∃ t r, Tree.Opens f ts (t :: r) ∧ Placed p t ∧ PlacedS f ps r
end

mutual
/-- `c` has one node for each matcher of `p` other than captures and missing `opt`s, nested like the matchers; its value is
accepted, and it is the node remembered by the matcher. A capture remembers the node of its argument, and so does a missing
`opt`; for patterns without `star`. -/
def Exact : Pat α → Tree β → Prop
  | node i .one test ps, c => m i = some (addr c.label) ∧ test (val c.label) = true ∧ ExactL ps c.children
  | node i .cpt _ ps, c => m i = some (addr c.label) ∧ ExactL ps [c]
  | node i (.opt _) test ps, c => m i = some (addr c.label) ∧
      ((test (val c.label) = true ∧ ExactL ps c.children) ∨ ExactL ps [c])
  | node _ (.star _) _ _, _ => False
def ExactL : List (Pat α) → List (Tree β) → Prop
  | [], cs => cs = []
  | p :: ps, cs => ∃ c cs', cs = c :: cs' ∧ Exact p c ∧ ExactL ps cs'
end
end
end Pat

mutual
/-- `c` is `t` without some subtrees (the root is kept). -/
def Tree.Part {β : Type} : Tree β → Tree β → Prop
  | .node a cs, t => a = t.label ∧ Tree.PartL cs t.children
def Tree.PartL {β : Type} : List (Tree β) → List (Tree β) → Prop
  | [], _ => True
  | c :: cs, ts => ∃ l t r, ts = l ++ t :: r ∧ Tree.Part c t ∧ Tree.PartL cs r
end

/-- `c` is the binary tree `t` without some subtrees; what is kept stays a left or right child. -/
inductive BTree.Part {β : Type} : BTree β → BTree β → Prop
  | nil (t) : BTree.Part .nil t
  | node (a) {l l' r r'} : BTree.Part l l' → BTree.Part r r' → BTree.Part (.node a l r) (.node a l' r')
