import Verif.Model.Tree
/-!
# Reading and writing through iterators

tree_iterator.hpp 190-208, 272-276, 293-297, 303-305, and the loops users write with them.
-/

namespace Iter
/-- tree_iterator.hpp 272-276, `it++`: the iterator returned, a copy made before, and the iterator afterwards. Copying copies the
node, the navigator and the state of the policy. -/
def postInc (P : Policy) (nav : Nav) (fuel : Nat) (s : ItState) : Res (ItState × ItState) := do
  let it := s
  let s ← inc P nav fuel s
  pure (it, s)

/-- tree_iterator.hpp 293-297, `it--`. -/
def postDec (P : Policy) (nav : Nav) (fuel : Nat) (s : ItState) : Res (ItState × ItState) := do
  let it := s
  let s ← dec P nav fuel s
  pure (it, s)

/-- tree_iterator.hpp 303-305, `operator bool`. -/
def toBool (s : ItState) : Bool := s.cur.isSome

/-- The loop `it = begin(); while (it) visit(*it++);`: the addresses visited. -/
def whileFrom (P : Policy) (nav : Nav) (fuel : Nat) : Nat → ItState → Res (List Addr)
  | 0, _ => Res.diverge
  | n + 1, s =>
    if !toBool s then pure []
    else do
      let (old, s) ← postInc P nav fuel s
      let a ← deref old.cur
      pure (a :: (← whileFrom P nav fuel n s))
end Iter

namespace World
variable {ν α lit : Type} (K : Kind ν α lit) (value : ν → α)

/-- tree_iterator.hpp 190-208 and node.hpp 58-64: `*pos`, `pos->…`. -/
def deref (W : World ν) (pos : It) : Res α :=
  match pos.st.cur with
  | none => Res.ub
  | some a => do pure (value (← W.heap.read a))

/-- The loop `for (; it != end; ++it) *it = f(*it);` from an iterator in the state `s`, over the nodes below `root`. -/
def transformFrom (P : Policy) (f : α → α) (root : Ptr) : Nat → World ν → ItState → Res (World ν)
  | 0, _, _ => Res.diverge
  | n + 1, W, s =>
    match s.cur with
    | none => pure W
    | some _ => do
      let v ← W.deref value ⟨s, root⟩
      let W ← W.write K ⟨s, root⟩ (f v)
      let s ← Iter.inc P (K.nav W.heap root) W.heap.fuel s
      transformFrom P f root n W s

/-- `for (auto& v : x) v = f(v);` in the order of the policy `P` (tree.hpp 243-260). -/
def transform (P : Policy) (f : α → α) (W : World ν) (x : Nat) : Res (World ν) := do
  let r ← W.get x
  let s ← Iter.begin_ P (K.nav W.heap r.navRoot) W.heap.fuel
  transformFrom K value P f r.navRoot W.heap.fuel W s
/-- tree_base.hpp 200-202, `x.empty()`. -/
def isEmpty (W : World ν) (x : Nat) : Res Bool := do
  let r ← W.get x
  pure (r.root == none)

/-- tree_base.hpp 250-256, `x.root()`: a `const_iterator<policy::fixed>` at the root node (policy/fixed.hpp 17-20 keeps the node
it is made at). -/
def rootIt (W : World ν) (x : Nat) : Res It := do
  let r ← W.get x
  pure ⟨⟨r.root, r.root.toList⟩, r.navRoot⟩

/-- tree.hpp 243-249 and tree_base.hpp 150-166, `x.begin(P)`. -/
def beginIt (P : Policy) (W : World ν) (x : Nat) : Res It := do
  let r ← W.get x
  pure ⟨← Iter.begin_ P (K.nav W.heap r.navRoot) W.heap.fuel, r.navRoot⟩

/-- tree.hpp 251-260 and tree_base.hpp 168-186, `x.end(P)`. -/
def endIt (P : Policy) (W : World ν) (x : Nat) : Res It := do
  let r ← W.get x
  pure ⟨← Iter.end_ P (K.nav W.heap r.navRoot) W.heap.fuel, r.navRoot⟩
end World
