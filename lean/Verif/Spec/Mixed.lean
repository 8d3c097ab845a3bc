import Verif.Spec.History
import Verif.Spec.Compare
import Verif.Model.Compare
/-!
# Histories with trees of both kinds

A program that has nary and binary trees, converts binary trees to nary trees and compares trees of the same or of different
kinds and trees with literals, in any order. Names of nary and of binary trees are separate.
-/
open World

/-- One call of such a program. `nary`, `binary` are the calls of `Op`. -/
inductive MOp (α : Type) : Type where
  | nary (op : Op α (Tree α))
  | binary (op : Op α (Lit α))
  /-- `nary_tree<T> x(y);` with `y` a binary tree. -/
  | newBinary (x y : Nat)
  /-- `x = y;` with `y` a binary tree. -/
  | assignBinary (x y : Nat)
  /-- `x == y`, two nary trees. -/
  | eqNN (x y : Nat)
  /-- `x == y`, two binary trees. -/
  | eqBB (x y : Nat)
  /-- `x == y`, an nary tree and a binary tree. -/
  | eqNB (x y : Nat)
  /-- `x == n(v)(…)`, an nary tree. -/
  | eqNL (x : Nat) (l : Lit α)
  /-- `x == n(v)(…)`, a binary tree. -/
  | eqBL (x : Nat) (l : Lit α)

/-- What a call answers. -/
inductive MAns : Type where
  | call : Ans → MAns
  | bool : Bool → MAns
  deriving DecidableEq, Repr

/-- The nary and the binary trees of the program. -/
abbrev Both (α : Type) := World (NNode α) × World (BNode α)

/-- Run one call; `eqv` is `operator==` of the values. -/
def Both.step {α : Type} (eqv : α → α → Bool) (W : Both α) : MOp α → Res (Both α × MAns)
  | .nary op => do
    let (A, o) ← W.1.step (Nary.kind α) op
    pure ((A, W.2), .call o)
  | .binary op => do
    let (B, o) ← W.2.step (Binary.kind α) op
    pure ((W.1, B), .call o)
  | .newBinary x y => do
    let (A, B) ← World.newBinary W.1 W.2 x y
    pure ((A, B), .call .unit)
  | .assignBinary x y => do
    let (A, B) ← World.assignBinary W.1 W.2 x y
    pure ((A, B), .call .unit)
  | .eqNN x y => do
    let (A, b) ← W.1.eq (Nary.kind α) eqv x y
    pure ((A, W.2), .bool b)
  | .eqBB x y => do
    let (B, b) ← W.2.eq (Binary.kind α) eqv x y
    pure ((W.1, B), .bool b)
  | .eqNB x y => do
    let (A, B, b) ← World.eqBinary eqv W.1 W.2 x y
    pure ((A, B), .bool b)
  | .eqNL x l => do
    let (A, b) ← Nary.treeEqLit eqv W.1 x l
    pure ((A, W.2), .bool b)
  | .eqBL x l => do
    let (B, b) ← Binary.treeEqLit eqv W.2 x l
    pure ((W.1, B), .bool b)

/-- Run a list of calls. -/
def Both.run {α : Type} (eqv : α → α → Bool) : Both α → List (MOp α) → Res (Both α × List MAns)
  | W, [] => pure (W, [])
  | W, o :: os => do
    let (W, a) ← Both.step eqv W o
    let (W, as) ← Both.run eqv W os
    pure (W, a :: as)

/-- The trees of the program. -/
structure Forests (α : Type) where
  n : Nat → Option (Option (Tree (Addr × α)))
  b : Nat → Option (BTree (Addr × α))

/-- The program state is these trees and no other node is allocated. -/
structure Both.Owned {α : Type} (W : Both α) (F : Forests α) : Prop where
  n : _root_.Owned (Nary.shape α) W.1 F.n
  b : _root_.Owned (Binary.shape α) W.2 F.b

/-- The counts the tree objects remember are right. -/
structure Both.Cached {α : Type} (W : Both α) (F : Forests α) : Prop where
  n : _root_.Cached (Nary.shape α) W.1 F.n
  b : _root_.Cached (Binary.shape α) W.2 F.b

section
variable {α : Type}

/-- The calls the library supports. A literal compared with a tree has a value at its root; compared with a binary tree it has
at most two slots per node and no empty slot has children, as the compiler requires for a binary tree. -/
def MLegal (W : Both α) (F : Forests α) : MOp α → Prop
  | .nary op => Legal (Nary.shape α) W.1.heap F.n op
  | .binary op => Legal (Binary.shape α) W.2.heap F.b op
  | .newBinary x y => F.n x = none ∧ (F.b y).isSome
  | .assignBinary x y => (F.n x).isSome ∧ (F.b y).isSome
  | .eqNN x y => (F.n x).isSome ∧ (F.n y).isSome
  | .eqBB x y => (F.b x).isSome ∧ (F.b y).isSome
  | .eqNB x y => (F.n x).isSome ∧ (F.b y).isSome
  | .eqNL x l => (F.n x).isSome ∧ l.label.isSome
  | .eqBL x l => (F.b x).isSome ∧ l.label.isSome ∧ l.valid ∧ l.atMostTwo

/-- What the comparison should answer: whether the trees compared are the same tree. -/
def MOp.truth (eqv : α → α → Bool) (F : Forests α) : MOp α → Bool → Prop
  | .eqNN x y, b => ∀ t u, F.n x = some t → F.n y = some u → b = Nary.same eqv (t.map Tree.vals) (u.map Tree.vals)
  | .eqBB x y, b => ∀ t u, F.b x = some t → F.b y = some u → b = BTree.eqBy eqv t.vals u.vals
  | .eqNB x y, b => ∀ t u, F.n x = some t → F.b y = some u → b = Nary.same eqv (t.map Tree.vals) u.vals.toNary
  | .eqNL x l, b => ∀ t, F.n x = some t → b = Nary.same (Nary.sameSlot eqv) (t.map Tree.vals) (some l)
  | .eqBL x l, b => ∀ t, F.b x = some t → b = BTree.eqBy eqv t.vals l.toB
  | _, _ => True

/-- A comparison changes no tree and answers a truth value, `true` only if the trees are the same. -/
def Compared (eqv : α → α → Bool) (F F' : Forests α) (o : MAns) (op : MOp α) : Prop :=
  F' = F ∧ ∃ b, o = .bool b ∧ (b = true → op.truth eqv F true)

/-- What a supported call does. Each call on trees of one kind leaves all trees of the other kind as they are, node by node; a
conversion makes new nodes and leaves the converted tree as it is. -/
def MEffect (eqv : α → α → Bool) (W : Both α) (F : Forests α) (W' : Both α) (F' : Forests α) (o : MAns) : MOp α → Prop
  | .nary op => F'.b = F.b ∧ W'.2 = W.2 ∧ ∃ a, o = .call a ∧ Effect (Nary.shape α) W.1.heap F.n W'.1.heap F'.n a op
  | .binary op => F'.n = F.n ∧ W'.1 = W.1 ∧ ∃ a, o = .call a ∧ Effect (Binary.shape α) W.2.heap F.b W'.2.heap F'.b a op
  | .newBinary x y => F'.b = F.b ∧ o = .call .unit ∧ ∃ t n, F.b y = some t ∧ n.map Tree.vals = t.vals.toNary ∧
      Fresh (Nary.shape α) W.1.heap n ∧ F'.n = upd F.n x (some n)
  | .assignBinary x y => F'.b = F.b ∧ o = .call .unit ∧ ∃ t n, F.b y = some t ∧ n.map Tree.vals = t.vals.toNary ∧
      Fresh (Nary.shape α) W.1.heap n ∧ F'.n = upd F.n x (some n)
  | op => Compared eqv F F' o op

/-- The calls that leave the remembered counts right. -/
def MCountsOk (W : Both α) (F : Forests α) : MOp α → Prop
  | .nary op => CountsOk (Nary.shape α) W.1 F.n op
  | .binary op => CountsOk (Binary.shape α) W.2 F.b op
  | _ => True

/-- `size()` and `arity()` answer the true counts, comparisons the truth. -/
def MTrue (eqv : α → α → Bool) (F : Forests α) (o : MAns) : MOp α → Prop
  | .nary op => ∀ a, o = .call a → TrueCounts (Nary.shape α) F.n a op
  | .binary op => ∀ a, o = .call a → TrueCounts (Binary.shape α) F.b a op
  | op => ∀ b, o = .bool b → op.truth eqv F b

/-- Sizes are representable. -/
def MSmall (F : Forests α) : Prop := Small (Nary.shape α) F.n ∧ Small (Binary.shape α) F.b

/-- Each call of the list is supported in the state in which it is made. -/
def MSupports (eqv : α → α → Bool) : Both α → List (MOp α) → Prop
  | _, [] => True
  | W, op :: ops => (∃ F, W.Owned F ∧ MLegal W F op) ∧ ∀ W' o, Both.step eqv W op = Res.ok (W', o) → MSupports eqv W' ops

/-- Each call, besides, keeps the remembered counts right, and no tree ever has 2^64 nodes. -/
def MKeepsCounts (eqv : α → α → Bool) : Both α → List (MOp α) → Prop
  | W, [] => ∀ F, W.Owned F → MSmall F
  | W, op :: ops => (∀ F, W.Owned F → MCountsOk W F op ∧ MSmall F) ∧
      ∀ W' o, Both.step eqv W op = Res.ok (W', o) → MKeepsCounts eqv W' ops

/-- `MTrace P eqv W F l W' F'`: the calls and answers of `l` lead from `W`, which is the trees `F`, to `W'`, which is the
trees `F'`; each call has its effect, and its answer satisfies `P` on the trees at that time. -/
inductive MTrace (P : Forests α → MAns → MOp α → Prop) (eqv : α → α → Bool) :
    Both α → Forests α → List (MOp α × MAns) → Both α → Forests α → Prop where
  | done (W F) : W.Owned F → MTrace P eqv W F [] W F
  | step (W F op W1 o F1 l W2 F2) : W.Owned F → Both.step eqv W op = Res.ok (W1, o) → MEffect eqv W F W1 F1 o op → P F o op →
      MTrace P eqv W1 F1 l W2 F2 → MTrace P eqv W F ((op, o) :: l) W2 F2

end

/-- No tree of either kind. -/
def Both.start {α : Type} : Both α := (World.start, World.start)
def Forests.none {α : Type} : Forests α := ⟨fun _ => .none, fun _ => .none⟩
