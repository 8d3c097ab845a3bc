import Verif.Spec.History
/-!
# Calls that make sense, and calls that work

`Sensible` is all a user can be asked to respect: objects exist, literals compile, iterators belong to the tree. `Legal` (Spec/History.lean)
excludes, besides, the calls on which the library fails.
-/
section
variable {ν α lit T V C : Type} {K : Kind ν α lit} (S : Shape K T V C)

/-- The arguments of a call make sense. -/
def Sensible (h : Heap ν) (ts : Nat → Option T) : Op α lit → Prop
  | .newEmpty x => ts x = none
  | .newCopy x y => ts x = none ∧ (ts y).isSome
  | .newMove x y => ts x = none ∧ (ts y).isSome
  | .newLit x l => ts x = none ∧ S.litOk l
  | .destroy x => (ts x).isSome
  | .clear x => (ts x).isSome
  | .assignCopy x y => (ts x).isSome ∧ (ts y).isSome
  | .assignMove x y => (ts x).isSome ∧ (ts y).isSome
  | .assignLit x l => (ts x).isSome ∧ S.litOk l
  | .swap x y => (ts x).isSome ∧ (ts y).isSome
  | .size x => (ts x).isSome
  | .arity x => (ts x).isSome
  | .updateCounts x => (ts x).isSome
  | .insertOver _ _ P x pos src => ∃ t, ts x = some t ∧ SrcOk S ts src ∧ ((∃ c s, At S P h t pos c s) ∨ AtEnd pos)
  | .insertChild _ P x pos src => ∃ t, ts x = some t ∧ SrcOk S ts src ∧ ((∃ c s, At S P h t pos c s) ∨ AtEnd pos)
  | .erase x pos => ∃ t, ts x = some t ∧ ((∃ c s, At S Policy.postOrder h t pos c s) ∨ (AtEnd pos ∧ pos.root = S.ptr t))
  | .eraseRange x first last => ∃ t m, ts x = some t ∧ Range S t first last m
  | .write x pos _ => ∃ t c s, ts x = some t ∧ Points S t pos c s

/-- The calls on which the library fails although their arguments make sense: erasing, or replacing by an empty tree, a node at a place from which the
code cannot remove anything (in an nary tree: a first or a last child); `insert_over` with anything but a moved or an empty tree at the end of a non-empty tree;
`insert_child` of a moved non-empty tree, other than the tree itself, at the end or where there is no room. -/
def Failing (h : Heap ν) (ts : Nat → Option T) : Op α lit → Prop
  | .insertOver _ _ P x pos src =>
      (∃ t c s, ts x = some t ∧ At S P h t pos c s ∧ c ≠ S.top ∧ ¬ S.removable c ∧ SrcEmpty S ts src ∧ src ≠ .moveOf x) ∨
      (∃ t, ts x = some t ∧ t ≠ S.nil ∧ AtEnd pos ∧ (∀ y, src ≠ .moveOf y) ∧ ¬ SrcEmpty S ts src)
  | .insertChild _ P x pos src => ∃ t y u, ts x = some t ∧ src = .moveOf y ∧ y ≠ x ∧ ts y = some u ∧ u ≠ S.nil ∧
      (AtEnd pos ∨ ∃ c s, At S P h t pos c s ∧ S.isFull s = true)
  | .erase x pos => ∃ t c s, ts x = some t ∧ At S Policy.postOrder h t pos c s ∧ c ≠ S.top ∧ ¬ S.removable c
  | _ => False

/-- The call `erase(first, last)`. -/
def Op.isRange : Op α lit → Bool
  | .eraseRange .. => true
  | _ => false

/-- The call works: no undefined behaviour, it ends, and afterwards the program state is a family of trees again (no node is lost, none
belongs to two trees, every link is right). -/
def WorksOn (W : World ν) (op : Op α lit) : Prop := ∃ W' o ts', W.step K op = Res.ok (W', o) ∧ Owned S W' ts'

/-- The call breaks the program: undefined behaviour, or a state that is no family of trees. -/
def Breaks (W : World ν) (op : Op α lit) : Prop :=
  W.step K op = Res.ub ∨ ∃ W' o, W.step K op = Res.ok (W', o) ∧ ∀ ts', ¬ Owned S W' ts'

/-- All calls of the list, each made in the state the previous ones lead to, work. -/
def Works : World ν → List (Op α lit) → Prop
  | _, [] => True
  | W, op :: ops => WorksOn S W op ∧ ∀ W' o, W.step K op = Res.ok (W', o) → Works W' ops

/-- The arguments of all calls of the list make sense, as long as the program state is a family of trees. -/
def AllSensible : World ν → List (Op α lit) → Prop
  | _, [] => True
  | W, op :: ops => (∃ ts, Owned S W ts ∧ Sensible S W.heap ts op) ∧
      ∀ W' o ts', W.step K op = Res.ok (W', o) → Owned S W' ts' → AllSensible W' ops
end
