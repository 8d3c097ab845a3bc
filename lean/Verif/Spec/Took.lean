import Verif.Spec.Pattern
/-!
# The nodes a pattern with `star` takes

`Pat.Placed` says where the matchers may be; `Pat.Took` also that each argument has taken the first node it could.
-/

/-- Going over the sequence `ts` in pre-order, below the nodes accepted by `f` only, `t` is the first subtree that may have `P`: none
of those met before it has. `r` is what comes after `t`. -/
inductive Tree.First {β : Type} (f : β → Bool) (P : Tree β → Prop) : List (Tree β) → Tree β → List (Tree β) → Prop
  | here {t r} : First f P (t :: r) t r
  | skip {u us t r} : ¬ P u → f u.label = false → First f P us t r → First f P (u :: us) t r
  | into {u us t r} : ¬ P u → f u.label = true → First f P (u.children ++ us) t r → First f P (u :: us) t r

namespace Pat
variable {α β : Type} (val : β → α) (addr : β → Nat) (m : Nat → Option Nat)

mutual
/-- Like `Placed`, where each argument has taken the first subtree it matches: of the children of a `one` or `opt`, from left to
right; of the nodes reached by a `star`, in pre-order; of the nodes where the accepted ones end for a possessive `star`, from left
to right. An `opt` is missing only if it has to. -/
def Took : Pat α → Tree β → Prop
  | node i .one test ps, t => m i = some (addr t.label) ∧ test (val t.label) = true ∧ TookL ps t.children
  | node i .cpt _ ps, t => m i = some (addr t.label) ∧ TookL ps [t]
  | node i (.opt q) test ps, t => m i = some (addr t.label) ∧ ((test (val t.label) = true ∧ TookL ps t.children) ∨
      (¬ (test (val t.label) = true ∧ FitsL val ps t.children) ∧ (q = .possessive → test (val t.label) = false) ∧ TookL ps [t]))
  | node i (.star q) test ps, t => m i = some (addr t.label) ∧
      ((test (val t.label) = true ∧ (q ≠ .possessive → TookS (fun b => test (val b)) ps t.children) ∧
        (q = .possessive → TookL ps (Tree.frontierL (fun b => test (val b)) t.children))) ∨
      ((q = .possessive → test (val t.label) = false) ∧ TookL ps [t]))
def TookL : List (Pat α) → List (Tree β) → Prop
  | [], _ => True
  | p :: ps, ts => ∃ l t r, ts = l ++ t :: r ∧ (∀ u ∈ l, ¬ Fits val p u) ∧ Took p t ∧ TookL ps r
def TookS (f : β → Bool) : List (Pat α) → List (Tree β) → Prop
  | [], _ => True
  | p :: ps, ts => ∃ t r, Tree.First f (Fits val p) ts t r ∧ Took p t ∧ TookS f ps r
end
end Pat

/-- No argument of a `star` that is not possessive matches at a node whose value the `star` accepts, as in `star(1)(one(2))`. -/
def Pat.sharp {α : Type} (p : Pat α) : Prop := ∀ i q f ps, Pat.node i (.star q) f ps ∈ p.pre → q ≠ .possessive →
  ∀ a ∈ ps, ∀ t : Tree α, Fits (fun v => v) a t → f t.label = false
