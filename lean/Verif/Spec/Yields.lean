import Verif.Spec.Pattern
/-!
# The result of a pattern

What the tree built from a match consists of, for patterns with `star`.
-/

/-- `cs` is what a `star` which accepts the nodes `f` keeps of the subtrees `us`, when `vs` are the subtrees matched by its
arguments, from left to right, each with what is kept of it. A subtree is left out, or it is matched by an argument, or its root
is accepted and kept, and the same holds below. A greedy or possessive `star` leaves no accepted node out. A possessive one
accepts no node matched by an argument. A reluctant one keeps only nodes with a match below. A default one goes down level by
level: the subtrees are on the level `d`, nothing below the level `n` is kept, an accepted node is left out only from the level
`n - 1` on, and with it all that is on its right. -/
inductive Tree.Kept {β : Type} (q : Quantifier) (f : β → Bool) (n : Nat) : Nat → List (Tree β) → List (Tree β) → List (Tree β × Tree β) → Prop
  | nil {d} : Kept q f n d [] [] []
  | drop {d u us cs vs} : (q = .greedy ∨ q = .possessive → f u.label = false) → (q = .default → f u.label = true → n ≤ d + 1 ∧ cs = []) →
      Kept q f n d us cs vs → Kept q f n d (u :: us) cs vs
  | stop {d u c us cs vs} : (q = .possessive → f u.label = false) → (q = .default → d ≤ n) → Kept q f n d us cs vs →
      Kept q f n d (u :: us) (c :: cs) ((u, c) :: vs)
  | pass {d u ds ws us cs vs} : f u.label = true → (q = .reluctant → ws ≠ []) → (q = .default → d ≤ n) → Kept q f n (d + 1) u.children ds ws →
      Kept q f n d us cs vs → Kept q f n d (u :: us) (.node u.label ds :: cs) (ws ++ vs)

/-- The subtree `v` is on the level `d` of `t`; `t` is on the level 0. -/
def Tree.Level {β : Type} (t v : Tree β) (d : Nat) : Prop := ∃ fs, plug fs v = t ∧ fs.length = d

namespace Pat
/-- Every reluctant `star` has one argument. -/
def thin {α : Type} (p : Pat α) : Prop := ∀ i f ps, node i (.star .reluctant) f ps ∈ p.pre → ps.length = 1

variable {α β : Type} (val : β → α) (addr : β → Nat) (m : Nat → Option Nat)

mutual
/-- The match of `p` at the root of `t`, with the nodes remembered in `m`, has the result `c`. A node matched by `one`, or by an
`opt` or `star` which is not missing, is kept. Below it are the results of the arguments, in their order; for a `star`, with the
nodes between. A default `star` stops when all arguments are matched: a match is on one of the last two levels kept. -/
def Yields : Pat α → Tree β → Tree β → Prop
  | node i .one test ps, t, c => m i = some (addr t.label) ∧ c.label = t.label ∧ test (val t.label) = true ∧ YieldsL ps t.children c.children
  | node i .cpt _ ps, t, c => m i = some (addr t.label) ∧ YieldsL ps [t] [c]
  | node i (.opt q) test ps, t, c => m i = some (addr t.label) ∧
      ((c.label = t.label ∧ test (val t.label) = true ∧ YieldsL ps t.children c.children) ∨
        ((q = .possessive → test (val t.label) = false) ∧ YieldsL ps [t] [c]))
  | node i (.star q) test ps, t, c => m i = some (addr t.label) ∧
      ((c.label = t.label ∧ test (val t.label) = true ∧
          ∃ n vs, Tree.Kept q (fun b => test (val b)) n 1 t.children c.children vs ∧ YieldsP ps vs ∧
            (q = .default → ∃ v ∈ vs, ∃ d, Tree.Level t v.1 d ∧ n ≤ d + 1)) ∨
        ((q = .possessive → test (val t.label) = false) ∧ YieldsL ps [t] [c]))
def YieldsL : List (Pat α) → List (Tree β) → List (Tree β) → Prop
  | [], _, cs => cs = []
  | p :: ps, ts, cs => ∃ l t r c cs', ts = l ++ t :: r ∧ cs = c :: cs' ∧ Yields p t c ∧ YieldsL ps r cs'
def YieldsP : List (Pat α) → List (Tree β × Tree β) → Prop
  | [], vs => vs = []
  | p :: ps, vs => ∃ t c vs', vs = (t, c) :: vs' ∧ Yields p t c ∧ YieldsP ps vs'
end
end Pat
