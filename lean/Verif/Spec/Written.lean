import Verif.Spec.Pattern
/-!
# Pattern expressions

The expressions a program can write with `one`, `opt`, `star` and `cpt`, and the tree of matchers each one stands for. Nothing
here mentions how the library stores them.
-/

/-- What a matcher is given to recognise a node by: nothing, `v`, `having(artifact, getter)`. -/
inductive Wanted (α β : Type) : Type where
  | any : Wanted α β
  | value (v : α) : Wanted α β
  | having (artifact : β) (getter : α → β) : Wanted α β

/-- The values recognised. -/
def Wanted.Accepts {α β : Type} : Wanted α β → α → Prop
  | .any, _ => True
  | .value v, x => x = v
  | .having artifact getter, x => getter x = artifact

/-- One matcher as written, without its arguments. The name of `cpt(m)` is empty. -/
inductive Label (α β : Type) : Type where
  | one (w : Wanted α β) : Label α β
  | opt (q : Quantifier) (w : Wanted α β) : Label α β
  | star (q : Quantifier) (w : Wanted α β) : Label α β
  | cpt (name : List Char) : Label α β

namespace Label
variable {α β : Type}

def kind : Label α β → MKind
  | one _ => .one
  | opt q _ => .opt q
  | star q _ => .star q
  | cpt _ => .cpt

/-- A capture leaves it to its argument which values to accept. -/
def Accepts : Label α β → α → Prop
  | one w, x => w.Accepts x
  | opt _ w, x => w.Accepts x
  | star _ w, x => w.Accepts x
  | cpt _, _ => True

/-- The name, of a capture. -/
def name? : Label α β → Option (List Char)
  | cpt c => some c
  | _ => none

end Label

/-- The expressions `one(w)`, `opt<q>(w)`, `star<q>(w)`, `cpt(e)`, `cpt(const_name<...>(), e)` and `e(e1, ..., ek)`. -/
inductive PExpr (α β : Type) : Type where
  | one (w : Wanted α β) : PExpr α β
  | opt (q : Quantifier) (w : Wanted α β) : PExpr α β
  | star (q : Quantifier) (w : Wanted α β) : PExpr α β
  | cpt (name : List Char) (e : PExpr α β) : PExpr α β
  | call (e : PExpr α β) (args : List (PExpr α β)) : PExpr α β

namespace PExpr
variable {α β : Type}

mutual
/-- The tree of matchers an expression stands for. The arguments of a call take the place of earlier ones. A capture is given
its only argument in `cpt(e)`: it cannot be called. -/
inductive Means : PExpr α β → Tree (Label α β) → Prop where
  | one (w) : Means (.one w) (.node (.one w) [])
  | opt (q w) : Means (.opt q w) (.node (.opt q w) [])
  | star (q w) : Means (.star q w) (.node (.star q w) [])
  | cpt (c) {e : PExpr α β} {t : Tree (Label α β)} : Means e t → Means (.cpt c e) (.node (.cpt c) [t])
  | call {e : PExpr α β} {args : List (PExpr α β)} {l : Label α β} {old new : List (Tree (Label α β))} :
      Means e (.node l old) → l.kind ≠ .cpt → MeansL args new → Means (.call e args) (.node l new)
inductive MeansL : List (PExpr α β) → List (Tree (Label α β)) → Prop where
  | nil : MeansL [] []
  | cons {e : PExpr α β} {es : List (PExpr α β)} {t : Tree (Label α β)} {ts : List (Tree (Label α β))} :
      Means e t → MeansL es ts → MeansL (e :: es) (t :: ts)
end

mutual
/-- The names in an expression. -/
def names : PExpr α β → List (List Char)
  | .one _ => []
  | .opt _ _ => []
  | .star _ _ => []
  | .cpt c e => c :: names e
  | .call e args => names e ++ namesL args
def namesL : List (PExpr α β) → List (List Char)
  | [] => []
  | e :: es => names e ++ namesL es
end

/-- No name is given twice. -/
def distinct (e : PExpr α β) : Prop := (e.names.filter (fun c => c ≠ [])).Nodup

end PExpr

namespace Pat
variable {α β : Type} (name : Nat → List Char)

mutual
/-- The pattern `p` is the one written as `t`: matcher by matcher the same kind and quantifier, the same accepted values and the
same name. -/
def Written : Pat α → Tree (Label α β) → Prop
  | node i k test ps, t => k = t.label.kind ∧ (∀ x, test x = true ↔ t.label.Accepts x) ∧
      (∀ c, t.label.name? = some c → name i = c) ∧ WrittenL ps t.children
def WrittenL : List (Pat α) → List (Tree (Label α β)) → Prop
  | [], ts => ts = []
  | p :: ps, ts => ∃ t us, ts = t :: us ∧ Written p t ∧ WrittenL ps us
end

end Pat
