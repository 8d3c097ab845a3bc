import Verif.Spec.World
/-!
# Histories of calls

`Op` lists the calls of the public interface of the containers, `step` runs one on a program state. `Legal` says when the
library supports a call, `Effect` what the call does, both in terms of the trees the program owns.
-/
open World (Src)

/-- One call. The names of tree objects are numbers. `sb`, `ab` choose an order of evaluation of arguments, see
`World.takeNodes`. -/
inductive Op (α lit : Type) : Type where
  | newEmpty (x : Nat)
  | newCopy (x y : Nat)
  | newMove (x y : Nat)
  | newLit (x : Nat) (l : lit)
  | destroy (x : Nat)
  | clear (x : Nat)
  | assignCopy (x y : Nat)
  | assignMove (x y : Nat)
  | assignLit (x : Nat) (l : lit)
  | swap (x y : Nat)
  | size (x : Nat)
  | arity (x : Nat)
  | updateCounts (x : Nat)
  | insertOver (sb ab : Bool) (P : Policy) (x : Nat) (pos : It) (src : Src α lit)
  | insertChild (front : Bool) (P : Policy) (x : Nat) (pos : It) (src : Src α lit)
  | erase (x : Nat) (pos : It)
  | eraseRange (x : Nat) (first last : It)
  /-- `*pos = v`, with `pos` an iterator over `x`. -/
  | write (x : Nat) (pos : It) (v : α)

/-- The tree objects the source of an insertion names. -/
def World.Src.objects {α lit : Type} : Src α lit → List Nat
  | .copyOf y => [y]
  | .moveOf y => [y]
  | _ => []

/-- The tree objects a call names: the one it is invoked on and its arguments. -/
def Op.objects {α lit : Type} : Op α lit → List Nat
  | .newEmpty x => [x]
  | .newCopy x y => [x, y]
  | .newMove x y => [x, y]
  | .newLit x _ => [x]
  | .destroy x => [x]
  | .clear x => [x]
  | .assignCopy x y => [x, y]
  | .assignMove x y => [x, y]
  | .assignLit x _ => [x]
  | .swap x y => [x, y]
  | .size x => [x]
  | .arity x => [x]
  | .updateCounts x => [x]
  | .insertOver _ _ _ x _ src => x :: src.objects
  | .insertChild _ _ x _ src => x :: src.objects
  | .erase x _ => [x]
  | .eraseRange x _ _ => [x]
  | .write x _ _ => [x]

/-- What a call answers. -/
inductive Ans : Type where
  | unit : Ans
  | num : Nat → Ans
  | iter : Out It → Ans
  deriving DecidableEq, Repr

/-- Run one call. -/
def World.step {ν α lit : Type} (K : Kind ν α lit) (W : World ν) : Op α lit → Res (World ν × Ans)
  | .newEmpty x => do pure (← W.newEmpty x, .unit)
  | .newCopy x y => do pure (← W.newCopy K x y, .unit)
  | .newMove x y => do pure (← W.newMove x y, .unit)
  | .newLit x l => do pure (← W.newLit K x l, .unit)
  | .destroy x => do pure (← W.destroy K x, .unit)
  | .clear x => do pure (← W.clear K x, .unit)
  | .assignCopy x y => do pure (← W.assignCopy K x y, .unit)
  | .assignMove x y => do pure (← W.assignMove K x y, .unit)
  | .assignLit x l => do pure (← W.assignLit K x l, .unit)
  | .swap x y => do pure (← W.swap x y, .unit)
  | .size x => do
    let (W, n) ← W.size K x
    pure (W, .num n)
  | .arity x => do
    let (W, n) ← W.arity K x
    pure (W, .num n)
  | .updateCounts x => do pure (← W.updateCounts x, .unit)
  | .insertOver sb ab P x pos src => do
    let (W, o) ← W.insertOver K sb ab P x pos src
    pure (W, .iter o)
  | .insertChild front P x pos src => do
    let (W, o) ← W.insertChild K front P x pos src
    pure (W, .iter o)
  | .erase x pos => do
    let (W, o) ← W.erase K x pos
    pure (W, .iter o)
  | .eraseRange x first last => do
    let (W, o) ← W.eraseRange K x first last
    pure (W, .iter o)
  | .write _ pos v => do pure (← W.write K pos v, .unit)

/-- Run a list of calls. -/
def World.run {ν α lit : Type} (K : Kind ν α lit) : World ν → List (Op α lit) → Res (World ν × List Ans)
  | W, [] => pure (W, [])
  | W, o :: os => do
    let (W, a) ← W.step K o
    let (W, as) ← W.run K os
    pure (W, a :: as)

section
variable {ν α lit T V C : Type} {K : Kind ν α lit} (S : Shape K T V C)

/-- The source of an insertion exists. -/
def SrcOk (ts : Nat → Option T) : Src α lit → Prop
  | .value _ => True
  | .lit l => S.litOk l
  | .emplaceLit l => S.litOk l
  | .copyOf y => (ts y).isSome
  | .moveOf y => (ts y).isSome

/-- The source is an empty tree. -/
def SrcEmpty (ts : Nat → Option T) : Src α lit → Prop
  | .copyOf y => ts y = some S.nil
  | .moveOf y => ts y = some S.nil
  | _ => False

/-- `n` is the tree the source stands for: new nodes, or for a move the very nodes of the moved tree. -/
def SrcTree (ts : Nat → Option T) : Src α lit → T → Prop
  | .value v, n => ∃ a, n = S.single a v
  | .lit l, n => S.vals n = S.litVals l
  | .emplaceLit l, n => S.vals n = S.litVals l
  | .copyOf y, n => ∃ t, ts y = some t ∧ S.vals n = S.vals t
  | .moveOf y, n => ts y = some n

/-- All nodes of `n` are new: not allocated in the heap `h` before. -/
def Fresh (h : Heap ν) (n : T) : Prop := ∀ a ∈ S.addrs n, h.cells a = none

/-- Only a move reuses nodes. -/
def SrcFresh (h : Heap ν) (src : Src α lit) (n : T) : Prop := (∀ y, src ≠ .moveOf y) → Fresh S h n

/-- `Prune t l t'`: erasing one after the other the subtrees whose roots are listed in `l` leads from `t` to `t'`, and the
library supports each of these steps. -/
inductive Prune : T → List Addr → T → Prop where
  | done (t) : Prune t [] t
  | step (c s a l t') : S.ptr s = some a → (c = S.top ∨ S.removable c) → Prune (S.plug c S.nil) l t' →
      Prune (S.plug c s) (a :: l) t'

/-- `first` and `last` are post_order iterators over `t`, `m` are the nodes from `first` up to, not including, `last`. -/
def Range (t : T) (first last : It) (m : List Addr) : Prop := ∃ l1 l2, S.post t = l1 ++ m ++ l2 ∧
  first.st.cur = (m ++ l2).head? ∧ last.st.cur = l2.head? ∧ first.root = S.ptr t ∧ last.root = S.ptr t

/-- A move leaves an empty tree behind. -/
def afterSrc (ts : Nat → Option T) : Src α lit → Nat → Option T
  | .moveOf y => upd ts y (some S.nil)
  | _ => ts

/-- The calls the library supports in a state with the trees `ts`. Excluded, because the code fails on them (see the
theorems named `…_defect`): replacing by nothing, or erasing, an nary subtree that is the first or the last child;
`insert_over` with something new at the end of a non-empty tree; `insert_child` of a moved non-empty tree where it throws.
Excluded as misuse: names of objects that do not exist, literals that do not compile, iterators that do not belong to the
tree. -/
def Legal (h : Heap ν) (ts : Nat → Option T) : Op α lit → Prop
  | .newEmpty x => ts x = none
  | .newCopy x y => ts x = none ∧ (ts y).isSome
  | .newMove x y => ts x = none ∧ (ts y).isSome
  | .newLit x l => ts x = none ∧ S.litOk l
  | .destroy x => (ts x).isSome
  | .clear x => (ts x).isSome
  | .assignCopy x y => (ts x).isSome ∧ (ts y).isSome
  | .assignMove x y => (ts x).isSome ∧ (ts y).isSome
  | .assignLit x l => (ts x).isSome ∧ S.litOk l
  | .swap x y => (ts x).isSome ∧ (ts y).isSome
  | .size x => (ts x).isSome
  | .arity x => (ts x).isSome
  | .updateCounts x => (ts x).isSome
  | .insertOver _ _ P x pos src => ∃ t, ts x = some t ∧ SrcOk S ts src ∧
      (src = .moveOf x ∨
       (∃ c s, At S P h t pos c s ∧ (c = S.top ∨ ¬ SrcEmpty S ts src ∨ S.removable c)) ∨
       (AtEnd pos ∧ (t = S.nil ∨ (∃ y, src = .moveOf y) ∨ SrcEmpty S ts src)))
  | .insertChild _ P x pos src => ∃ t, ts x = some t ∧ SrcOk S ts src ∧
      (src = .moveOf x ∨
       (∃ c s, At S P h t pos c s ∧ (S.isFull s = false ∨ (∀ y, src ≠ .moveOf y) ∨ SrcEmpty S ts src)) ∨
       (AtEnd pos ∧ ((∀ y, src ≠ .moveOf y) ∨ SrcEmpty S ts src)))
  | .erase x pos => ∃ t, ts x = some t ∧
      ((∃ c s, At S Policy.postOrder h t pos c s ∧ (c = S.top ∨ S.removable c)) ∨ (AtEnd pos ∧ pos.root = S.ptr t))
  | .eraseRange x first last => ∃ t m t', ts x = some t ∧ Range S t first last m ∧ Prune S t m t'
  | .write x pos _ => ∃ t c s, ts x = some t ∧ Points S t pos c s

/-- The `insert_over` calls that throw `std::logic_error`. -/
def OverThrows (x : Nat) (t : T) (pos : It) (src : Src α lit) : Prop := src = .moveOf x ∨ (AtEnd pos ∧ t ≠ S.nil)

/-- The `insert_child` calls that throw `std::logic_error`. -/
def ChildThrows (h : Heap ν) (P : Policy) (x : Nat) (t : T) (pos : It) (src : Src α lit) : Prop :=
  src = .moveOf x ∨ AtEnd pos ∨ ∃ c s, At S P h t pos c s ∧ S.isFull s = true

/-- What a supported call does: the trees afterwards and the answer. `h` and `h'` are the heaps before and after; they
serve only to say that an iterator is valid. -/
def Effect (h : Heap ν) (ts : Nat → Option T) (h' : Heap ν) (ts' : Nat → Option T) (o : Ans) : Op α lit → Prop
  | .newEmpty x => ts' = upd ts x (some S.nil) ∧ o = .unit
  | .newCopy x y => ∃ t t', ts y = some t ∧ S.vals t' = S.vals t ∧ Fresh S h t' ∧ ts' = upd ts x (some t') ∧ o = .unit
  | .newMove x y => ∃ t, ts y = some t ∧ ts' = upd (upd ts x (some t)) y (some S.nil) ∧ o = .unit
  | .newLit x l => ∃ t', S.vals t' = S.litVals l ∧ Fresh S h t' ∧ ts' = upd ts x (some t') ∧ o = .unit
  | .destroy x => ts' = upd ts x none ∧ o = .unit
  | .clear x => ts' = upd ts x (some S.nil) ∧ o = .unit
  | .assignCopy x y => ∃ t t', ts y = some t ∧ S.vals t' = S.vals t ∧ Fresh S h t' ∧ ts' = upd ts x (some t') ∧ o = .unit
  | .assignMove x y => ∃ t, ts y = some t ∧ ts' = upd (upd ts x (some t)) y (some S.nil) ∧ o = .unit
  | .assignLit x l => ∃ t', S.vals t' = S.litVals l ∧ Fresh S h t' ∧ ts' = upd ts x (some t') ∧ o = .unit
  | .swap x y => ∃ t u, ts x = some t ∧ ts y = some u ∧ ts' = upd (upd ts x (some u)) y (some t) ∧ o = .unit
  | .size _ => ts' = ts ∧ ∃ n, o = .num n
  | .arity _ => ts' = ts ∧ ∃ n, o = .num n
  | .updateCounts _ => ts' = ts ∧ o = .unit
  | .insertOver _ _ P x pos src => ∃ t, ts x = some t ∧
      (OverThrows S x t pos src → ts' = ts ∧ o = .iter .threw) ∧
      (¬ OverThrows S x t pos src → ∃ n c it, SrcTree S ts src n ∧ SrcFresh S h src n ∧
        ts' = upd (afterSrc S ts src) x (some (S.plug c n)) ∧ o = .iter (.ret it) ∧
        ((∃ s, At S P h t pos c s ∧ it.st.cur = S.ptr n ∧ it.root = pos.root ∧
            (c ≠ S.top → n ≠ S.nil → At S P h' (S.plug c n) it c n)) ∨
         (AtEnd pos ∧ t = S.nil ∧ c = S.top ∧ it = pos)))
  | .insertChild front P x pos src => ∃ t, ts x = some t ∧
      (ChildThrows S h P x t pos src → ts' = ts ∧ o = .iter .threw) ∧
      (¬ ChildThrows S h P x t pos src → ∃ n c s s' it, SrcTree S ts src n ∧ SrcFresh S h src n ∧ At S P h t pos c s ∧
        s' = (if front then S.front n s else S.back n s) ∧
        ts' = upd (afterSrc S ts src) x (some (S.plug c s')) ∧ o = .iter (.ret it) ∧
        At S P h' (S.plug c s') it c s' ∧ it.st.cur = pos.st.cur)
  | .erase x pos => ∃ t, ts x = some t ∧
      ((∃ c s l1 l2, At S Policy.postOrder h t pos c s ∧ ts' = upd ts x (some (S.plug c S.nil)) ∧
          S.post t = l1 ++ S.post s ++ l2 ∧ S.post (S.plug c S.nil) = l1 ++ l2 ∧
          o = .iter (.ret ⟨⟨l2.head?, []⟩, S.ptr (S.plug c S.nil)⟩)) ∨
       (AtEnd pos ∧ ts' = ts ∧ o = .iter (if (S.ptr t).isNone then .ret ⟨⟨none, []⟩, none⟩ else .threw)))
  | .eraseRange x first last => ∃ t m t' it, ts x = some t ∧ Range S t first last m ∧ Prune S t m t' ∧
      ts' = upd ts x (some t') ∧ o = .iter (.ret it) ∧ it.st.cur = last.st.cur ∧ it.root = S.ptr t'
  | .write x pos v => ∃ t c s, ts x = some t ∧ Points S t pos c s ∧ ts' = upd ts x (some (S.plug c (S.revalue s v))) ∧ o = .unit

/-! ## When the remembered counts stay right

tree.hpp keeps the size and the arity up to date with partial information. `CountsOk` describes the calls for which this
works. -/

/-- Literals fit in the tree. -/
def SrcFits : Src α lit → Prop
  | .lit l => S.litFits l
  | .emplaceLit l => S.litFits l
  | _ => True

/-- The source is one node. -/
def SrcSingle (ts : Nat → Option T) : Src α lit → Prop
  | .value _ => True
  | .lit l => K.litSize l = 1
  | .emplaceLit l => K.litSize l = 1
  | .copyOf y => ∀ u, ts y = some u → S.size u = 1
  | .moveOf y => ∀ u, ts y = some u → S.size u = 1

/-- The overloads of `insert_child` that pass on the size and the arity of what they insert. -/
def childCounts (front : Bool) : Src α lit → Prop
  | .value _ => True
  | .lit _ => front = false
  | .emplaceLit _ => True
  | .copyOf _ => False
  | .moveOf _ => False

/-- The tree object remembers both its size and its arity. -/
def Knows (W : World ν) (ts : Nat → Option T) (x : Nat) : Prop :=
  ∀ r t, W.vars x = some r → ts x = some t → r.size = S.size t ∧ r.arity = S.arity t

/-- The calls that leave the remembered counts right. -/
def CountsOk (W : World ν) (ts : Nat → Option T) : Op α lit → Prop
  | .newLit _ l => S.litFits l
  | .assignLit _ l => S.litFits l
  | .insertOver _ _ P x pos src => SrcFits S src ∧ ∀ r t c s, W.vars x = some r → ts x = some t → At S P W.heap t pos c s →
      (c = S.top ∨ S.kids s ≠ 0 ∨ r.size ≠ 0 ∨ src = .copyOf x ∨ SrcSingle S ts src)
  | .insertChild front _ x _ src => SrcFits S src ∧ (childCounts front src ∨ SrcSingle S ts src) ∧ Knows S W ts x
  | .erase x pos => ∀ r t c s, W.vars x = some r → ts x = some t → At S Policy.postOrder W.heap t pos c s →
      (c = S.top ∨ S.kids s ≠ 0 ∨ r.size ≠ 0)
  | .eraseRange x first last => ∀ r t m, W.vars x = some r → ts x = some t → Range S t first last m →
      m = [] ∨ (r.size ≠ 0 ∧ ∀ t', Prune S t m t' → S.size t' + m.length = S.size t)
  | _ => True

/-- The counts that `size()` and `arity()` answer are the true ones. -/
def TrueCounts (ts : Nat → Option T) (o : Ans) : Op α lit → Prop
  | .size x => ∀ t, ts x = some t → o = .num (S.size t)
  | .arity x => ∀ t, ts x = some t → o = .num (S.arity t)
  | _ => True

/-- Sizes are representable. -/
def Small (ts : Nat → Option T) : Prop := ∀ x t, ts x = some t → S.size t < 2 ^ 64

/-! ## Histories -/

/-- The program state is a family of trees for which the library supports the call. -/
def Supported (W : World ν) (op : Op α lit) : Prop := ∃ ts, Owned S W ts ∧ Legal S W.heap ts op

/-- Each call of the list is supported in the state in which it is made. -/
def Supports : World ν → List (Op α lit) → Prop
  | _, [] => True
  | W, op :: ops => Supported S W op ∧ ∀ W' o, W.step K op = Res.ok (W', o) → Supports W' ops

/-- `Trace W ts l W' ts'`: the calls and answers of `l` lead from `W`, which is the trees `ts`, to `W'`, which is the trees
`ts'`, and each call has its effect on the trees. -/
inductive Trace : World ν → (Nat → Option T) → List (Op α lit × Ans) → World ν → (Nat → Option T) → Prop where
  | done (W ts) : Owned S W ts → Trace W ts [] W ts
  | step (W ts op W1 o ts1 l W2 ts2) : Owned S W ts → W.step K op = Res.ok (W1, o) →
      Effect S W.heap ts W1.heap ts1 o op → Trace W1 ts1 l W2 ts2 → Trace W ts ((op, o) :: l) W2 ts2

/-- Each call of the list is, besides, one that keeps the remembered counts right, and no tree ever has 2^64 nodes. -/
def KeepsCounts : World ν → List (Op α lit) → Prop
  | W, [] => ∀ ts, Owned S W ts → Small S ts
  | W, op :: ops => (∀ ts, Owned S W ts → CountsOk S W ts op ∧ Small S ts) ∧
      ∀ W' o, W.step K op = Res.ok (W', o) → KeepsCounts W' ops

end
