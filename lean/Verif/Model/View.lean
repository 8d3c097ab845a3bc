import Verif.Model.Compare
/-!
# Views

Models include/TreeDS/viewer/tree_view.hpp and include/TreeDS/viewer/nary_tree_view.hpp. A view has the attributes of a tree
object (`TreeRec`: both derive from tree_base, tree_base.hpp 96-104) but owns no node: it has no destructor that frees and no
modifier. Its capacity functions and iterators are those of tree_base: `TreeOps.sizeQ`, `TreeOps.arityQ` and the policies on the
navigator rooted at `navRoot`. A comparison fills the caches of both views, hence it also answers the views afterwards; comparing
a view with itself (one object on both sides) is not modelled.
-/

namespace View
variable {ν α lit : Type} (K : Kind ν α lit)

/-- tree_view.hpp 24-26: the view of nothing. -/
def none : TreeRec := TreeRec.empty

/-- tree_view.hpp 29-36: the view of a whole tree, or a copy of a view. -/
def ofTree (r : TreeRec) : TreeRec := ⟨r.root, r.size, r.arity, r.navRoot⟩

/-- tree_view.hpp 38-64: the view of the subtree at an iterator that designates `cur`. `r` is the tree (or view) the iterator
belongs to; `is_root` is navigator_base.hpp 224-226. -/
def at' (r : TreeRec) (cur : Ptr) : TreeRec :=
  ⟨cur,
   match cur with
   | .some a => if some a == r.navRoot then r.size else 0
   | .none => 0,
   match cur with
   | .some a => if some a == r.navRoot then r.arity else 0
   | .none => 0,
   cur⟩

/-- tree_base.hpp 226-229: `update_size_arity()` of a view forgets both counts. -/
def update (v : TreeRec) : TreeRec := { v with size := 0, arity := 0 }

/-- tree_base.hpp 278-289, `v == w` for two views of the same kind of nodes. -/
def eq (eqv : α → α → Bool) (h : Heap ν) (v w : TreeRec) : Res (TreeRec × TreeRec × Bool) := do
  if v.root.isNone != w.root.isNone then pure (v, w, false)
  else do
    let (s, v) ← TreeOps.sizeQ K h v
    let (s', w) ← TreeOps.sizeQ K h w
    if s != s' then pure (v, w, false)
    else do
      let (a, v) ← TreeOps.arityQ K h v
      let (a', w) ← TreeOps.arityQ K h w
      if a != a' then pure (v, w, false)
      else match v.root with
        | .none => pure (v, w, true)
        | .some n => do
          let m ← deref w.root
          let b ← K.eq eqv h.fuel h n h m
          pure (v, w, b)

/-- tree_base.hpp 311-318, `v != w` for two views of the same kind of nodes. -/
def ne (eqv : α → α → Bool) (h : Heap ν) (v w : TreeRec) : Res (TreeRec × TreeRec × Bool) := do
  let (v, w, b) ← eq K eqv h v w
  pure (v, w, !b)

/-- nary_tree_view.hpp 25-35: `v == w` for a view `v` of nary and a view `w` of binary
nodes. -/
def eqBinary (eqv : α → α → Bool) (h : NHeap α) (hb : BHeap α) (v w : TreeRec) : Res (TreeRec × TreeRec × Bool) := do
  let (s, v) ← TreeOps.sizeQ (Nary.kind α) h v
  let (s', w) ← TreeOps.sizeQ (Binary.kind α) hb w
  if s != s' then pure (v, w, false)
  else do
    let (a, v) ← TreeOps.arityQ (Nary.kind α) h v
    let (a', w) ← TreeOps.arityQ (Binary.kind α) hb w
    if a != a' then pure (v, w, false)
    else match v.root with
      | .none => pure (v, w, true)
      | .some n => do
        let m ← deref w.root
        let b ← Nary.eqBinary eqv h.fuel h n hb m
        pure (v, w, b)

/-- nary_tree_view.hpp 38-47: `w == v` for a view `w` of binary and a view `v` of nary nodes. -/
def binaryEq (eqv : α → α → Bool) (h : NHeap α) (hb : BHeap α) (w v : TreeRec) : Res (TreeRec × TreeRec × Bool) :=
  eqBinary eqv h hb v w

/-- nary_tree_view.hpp 49-58: `v != w`. -/
def neBinary (eqv : α → α → Bool) (h : NHeap α) (hb : BHeap α) (v w : TreeRec) : Res (TreeRec × TreeRec × Bool) := do
  let (v, w, b) ← eqBinary eqv h hb v w
  pure (v, w, !b)

/-- nary_tree_view.hpp 60-69: `w != v`. -/
def binaryNe (eqv : α → α → Bool) (h : NHeap α) (hb : BHeap α) (w v : TreeRec) : Res (TreeRec × TreeRec × Bool) := do
  let (v, w, b) ← eqBinary eqv h hb v w
  pure (v, w, !b)

end View
