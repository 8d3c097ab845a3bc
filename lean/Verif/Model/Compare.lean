import Verif.Model.Tree
/-!
# Comparison of trees, conversion of binary trees

Models the comparison operators of include/TreeDS/tree_base.hpp and include/TreeDS/nary_tree.hpp. The tests on `size()` and
`arity()` fill the caches of the compared objects, hence these functions also answer the program state afterwards. `eqv` is
`operator==` of the values. Nodes of different kinds live in different heaps.
-/

namespace World
variable {ν α lit : Type} (K : Kind ν α lit)

/-- tree_base.hpp 278-289, `x == y` for two trees of the same kind (whatever their policies: the policy is not consulted). -/
def eq (eqv : α → α → Bool) (W : World ν) (x y : Nat) : Res (World ν × Bool) := do
  let rx ← W.get x
  let ry ← W.get y
  if rx.root.isNone != ry.root.isNone then pure (W, false)
  else do
    let (W, s) ← W.size K x
    let (W, s') ← W.size K y
    if s != s' then pure (W, false)
    else do
      let (W, a) ← W.arity K x
      let (W, a') ← W.arity K y
      if a != a' then pure (W, false)
      else match rx.root with
        | none => pure (W, true)
        | some n => do
          let m ← deref ry.root
          let b ← K.eq eqv W.heap.fuel W.heap n W.heap m
          pure (W, b)

/-- tree_base.hpp 310-318, `x != y`. -/
def ne (eqv : α → α → Bool) (W : World ν) (x y : Nat) : Res (World ν × Bool) := do
  let (W, b) ← eq K eqv W x y
  pure (W, !b)

/-- tree_base.hpp 290-302, `x == n(v)(…)`: `size`, `arity` are those of the literal, `cmp` compares a node with it. -/
def eqWith (cmp : Heap ν → Addr → Res Bool) (size arity : Nat) (W : World ν) (x : Nat) : Res (World ν × Bool) := do
  let r ← W.get x
  let (W, s) ← W.size K x
  if s != size then pure (W, false)
  else do
    let (W, a) ← W.arity K x
    if a != arity then pure (W, false)
    else match r.root with
      | none => pure (W, false)
      | some n => do
        let b ← cmp W.heap n
        pure (W, b)

/-- tree_base.hpp 304-306, `x == n()`. -/
def eqNone (W : World ν) (x : Nat) : Res Bool := do
  let r ← W.get x
  pure r.root.isNone

end World

/-- tree_base.hpp 290-302 for an nary_tree and a literal whose root has a value. -/
def Nary.treeEqLit {α : Type} (eqv : α → α → Bool) (W : World (NNode α)) (x : Nat) (l : Lit α) :
    Res (World (NNode α) × Bool) :=
  W.eqWith (Nary.kind α) (fun h a => Nary.eqLit eqv h.fuel h a l []) l.subtreeSize l.subtreeArity x

/-- tree_base.hpp 290-302 for a binary_tree and a literal whose root has a value. -/
def Binary.treeEqLit {α : Type} (eqv : α → α → Bool) (W : World (BNode α)) (x : Nat) (l : Lit α) :
    Res (World (BNode α) × Bool) :=
  W.eqWith (Binary.kind α) (fun h a => Binary.eqLit eqv h.fuel h a l) l.subtreeSize l.subtreeArity x

namespace World
variable {α : Type}

/-- The nary copy of the nodes of a binary tree, its size and its arity: the arguments in nary_tree.hpp 34-38, 51-56. -/
def fromBinary (W : World (NNode α)) (B : World (BNode α)) (y : Nat) :
    Res (World (NNode α) × World (BNode α) × Ptr × Nat × Nat) := do
  let r ← B.get y
  let (W, p) ← match r.root with
    | some b => do
      let (h, a) ← Nary.ofBinary B.heap.fuel B.heap b W.heap none none
      pure (W.setHeap h, some a)
    | none => pure (W, none)
  let (B, s) ← B.size (Binary.kind α) y
  let (B, a) ← B.arity (Binary.kind α) y
  pure (W, B, p, s, a)

/-- nary_tree.hpp 30-42: construction of the nary tree `x` from the binary tree `y`. -/
def newBinary (W : World (NNode α)) (B : World (BNode α)) (x y : Nat) : Res (World (NNode α) × World (BNode α)) := do
  let (W, B, p, s, a) ← fromBinary W B y
  pure (W.put x (some ⟨p, s, a, p⟩), B)

/-- nary_tree.hpp 47-59: assignment of the binary tree `y` to the nary tree `x`. -/
def assignBinary (W : World (NNode α)) (B : World (BNode α)) (x y : Nat) : Res (World (NNode α) × World (BNode α)) := do
  let (W, B, p, s, a) ← fromBinary W B y
  let (h, r) ← TreeOps.assign (Nary.kind α) W.heap (← W.get x) p s a
  pure ((W.setHeap h).put x (some r), B)

/-- nary_tree.hpp 64-74: `x == y` for an nary tree `x` and a binary tree `y`. -/
def eqBinary (eqv : α → α → Bool) (W : World (NNode α)) (B : World (BNode α)) (x y : Nat) :
    Res (World (NNode α) × World (BNode α) × Bool) := do
  let rx ← W.get x
  let ry ← B.get y
  if rx.root.isNone != ry.root.isNone then pure (W, B, false)
  else do
    let (W, s) ← W.size (Nary.kind α) x
    let (B, s') ← B.size (Binary.kind α) y
    if s != s' then pure (W, B, false)
    else do
      let (W, a) ← W.arity (Nary.kind α) x
      let (B, a') ← B.arity (Binary.kind α) y
      if a != a' then pure (W, B, false)
      else match rx.root with
        | none => pure (W, B, true)
        | some n => do
          let m ← deref ry.root
          let b ← Nary.eqBinary eqv W.heap.fuel W.heap n B.heap m
          pure (W, B, b)

/-- nary_tree.hpp 77-87: `y == x` for a binary tree `y` and an nary tree `x`. -/
def binaryEq (eqv : α → α → Bool) (W : World (NNode α)) (B : World (BNode α)) (y x : Nat) :
    Res (World (NNode α) × World (BNode α) × Bool) :=
  eqBinary eqv W B x y

/-- nary_tree.hpp 89-98: `x != y` for an nary tree `x` and a binary tree `y`. -/
def neBinary (eqv : α → α → Bool) (W : World (NNode α)) (B : World (BNode α)) (x y : Nat) :
    Res (World (NNode α) × World (BNode α) × Bool) := do
  let (W, B, b) ← eqBinary eqv W B x y
  pure (W, B, !b)

/-- nary_tree.hpp 100-109: `y != x` for a binary tree `y` and an nary tree `x`. -/
def binaryNe (eqv : α → α → Bool) (W : World (NNode α)) (B : World (BNode α)) (y x : Nat) :
    Res (World (NNode α) × World (BNode α) × Bool) := do
  let (W, B, b) ← eqBinary eqv W B x y
  pure (W, B, !b)

end World

/-! ### the other spellings of the comparison with a literal -/

namespace Nary
variable {α : Type} (eqv : α → α → Bool)

/-- tree_base.hpp 321-330: `n(v)(…) == x` for an nary tree. -/
def litEqTree (W : World (NNode α)) (l : Lit α) (x : Nat) : Res (World (NNode α) × Bool) := treeEqLit eqv W x l

/-- tree_base.hpp 331-340: `x != n(v)(…)` for an nary tree. -/
def treeNeLit (W : World (NNode α)) (x : Nat) (l : Lit α) : Res (World (NNode α) × Bool) := do
  let (W, b) ← treeEqLit eqv W x l
  pure (W, !b)

/-- tree_base.hpp 341-350: `n(v)(…) != x` for an nary tree. -/
def litNeTree (W : World (NNode α)) (l : Lit α) (x : Nat) : Res (World (NNode α) × Bool) := do
  let (W, b) ← treeEqLit eqv W x l
  pure (W, !b)

end Nary

namespace Binary
variable {α : Type} (eqv : α → α → Bool)

/-- tree_base.hpp 321-330: `n(v)(…) == x` for a binary tree. -/
def litEqTree (W : World (BNode α)) (l : Lit α) (x : Nat) : Res (World (BNode α) × Bool) := treeEqLit eqv W x l

/-- tree_base.hpp 331-340: `x != n(v)(…)` for a binary tree. -/
def treeNeLit (W : World (BNode α)) (x : Nat) (l : Lit α) : Res (World (BNode α) × Bool) := do
  let (W, b) ← treeEqLit eqv W x l
  pure (W, !b)

/-- tree_base.hpp 341-350: `n(v)(…) != x` for a binary tree. -/
def litNeTree (W : World (BNode α)) (l : Lit α) (x : Nat) : Res (World (BNode α) × Bool) := do
  let (W, b) ← treeEqLit eqv W x l
  pure (W, !b)

end Binary

namespace World
variable {ν : Type}

/-- tree_base.hpp 353-356: `n() == x`. -/
def noneEq (W : World ν) (x : Nat) : Res Bool := W.eqNone x

/-- tree_base.hpp 358-361: `x != n()`. -/
def neNone (W : World ν) (x : Nat) : Res Bool := do
  let b ← W.eqNone x
  pure !b

/-- tree_base.hpp 363-366: `n() != x`. -/
def noneNe (W : World ν) (x : Nat) : Res Bool := do
  let b ← W.eqNone x
  pure !b

end World
