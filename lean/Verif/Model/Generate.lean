import Verif.Model.Tree
import Verif.Spec.Pattern
/-!
# The result of a `star`

Models include/TreeDS/matcher/node/multi_matcher.hpp 136-262 (`keep_assigning_children`, `children_reluctant_set_result`,
`children_set_result`) with node/navigator/generative_navigator.hpp, node/navigator/node_pred_navigator.hpp 70-93,
node/multiple_node_pointer.hpp, `breadth_first_impl` (policy/breadth_first.hpp 30-49, 85-119) and `assign_child_like`,
`allocate_assign_parent` (nary_node.hpp 392-404, binary_node.hpp 344-355).
-/

namespace Pattern
/-- What a kind of nodes provides for building a result: `assign_child_like(child, reference)`. -/
structure Builder (ν : Type) where
  attach : Heap ν → Addr → Addr → Addr → Res (Heap ν)
end Pattern

/-- nary_node.hpp 392-396. -/
def Nary.builder (α : Type) : Pattern.Builder (NNode α) where
  attach h r c _ := Nary.append h.fuel h r (some c)

/-- binary_node.hpp 265-277, 344-347. -/
def Binary.builder (α : Type) : Pattern.Builder (BNode α) where
  attach h r c a := do
    let left ← Binary.isLeftChild h a
    let n ← h.read r
    Res.assert ((if left then n.left else n.right).isNone)
    let h ← h.modify r (fun n => if left then { n with left := some c } else { n with right := some c })
    h.modify c (fun n => { n with parent := some r })

namespace Generate
open Pattern
variable {ν α lit : Type} (K : Kind ν α lit) (value : ν → α) (B : Builder ν)

/-- matcher.hpp 164-167, `clone_matched_node`: a node with the value of the node `a`; also `allocate(allocator, node.get_value())`. -/
def clone (h : Heap ν) (a : Addr) : Res (Heap ν × Addr) := do
  let n ← h.read a
  pure (h.alloc (K.leaf (value n)))

/-- `children_targets` and `valid_targets` of multi_matcher.hpp 223-233: the results of the arguments that have not been put into
the tree yet are the ones that are not null. -/
structure State (ν : Type) where
  heap : Heap ν
  targets : List (Addr × Ptr)
  left : Int

/-- The pointer stored under `x` (`std::unordered_map::find`). -/
def find {γ : Type} (l : List (Addr × γ)) (x : Addr) : Option γ := l.lookup x

/-- `children_targets[x] = result`: a result that was stored there is destroyed. -/
def store (h : Heap ν) (l : List (Addr × Ptr)) (x : Addr) (p : Ptr) : Res (Heap ν × List (Addr × Ptr)) := do
  let h ← match find l x with
    | some (some c) => K.dealloc h.fuel h (some c)
    | _ => pure h
  pure (h, (x, p) :: l.filter (fun e => e.1 != x))

/-- `it->second.release()`. -/
def release (l : List (Addr × Ptr)) (x : Addr) : List (Addr × Ptr) := l.map (fun e => if e.1 == x then (x, none) else e)

/-- The results left in `children_targets` are destroyed with it. -/
def freeTargets : List (Addr × Ptr) → Heap ν → Res (Heap ν)
  | [], h => pure h
  | (_, none) :: l, h => freeTargets l h
  | (_, some c) :: l, h => do freeTargets l (← K.dealloc h.fuel h (some c))

variable (q : Quantifier) (test : α → Bool) (root : Addr)

/-- `check_target`, multi_matcher.hpp 238-258, for the node `x` paired with `g`: whether the node is taken, the pointer it is
paired with and whether that pointer has been assigned. -/
def check (s : State ν) (x : Addr) (g : Ptr) : Res (Bool × State ν × Ptr × Bool) := do
  if q = .default ∧ s.left = 0 then pure (false, s, g, false)
  else match find s.targets x with
    | some p => pure (true, { s with targets := release s.targets x, left := s.left - 1 }, p, true)
    | none => do
      match ← (K.nav s.heap none).parent x with
      | some p =>
        if (find s.targets p).isSome then pure (false, s, g, false)
        else do pure (test (value (← s.heap.read x)), s, g, false)
      | none => do pure (test (value (← s.heap.read x)), s, g, false)

/-- multiple_node_pointer.hpp 49-57: a step of the second pointer, which may be null. -/
def follow (f : Addr → Res Ptr) : Ptr → Res Ptr
  | none => pure none
  | some g => f g

/-- navigator_base.hpp 266-268 on pairs of pointers: `get_next_sibling`. -/
def nextPair (h : Heap ν) (x : Addr) (g : Ptr) : Res (Ptr × Ptr) := do
  if x = root then pure (none, none)
  else do pure (← (K.nav h none).next x, ← follow (K.nav h none).next g)

/-- The loop of node_pred_navigator.hpp 73-76, and of 84-86 for the first child. -/
def skip : Nat → State ν → Ptr × Ptr → Res (State ν × Ptr × Ptr × Bool)
  | 0, _, _ => Res.diverge
  | _ + 1, s, (none, g) => pure (s, none, g, false)
  | n + 1, s, (some x, g) => do
    let (ok, s, g, assigned) ← check K value q test s x g
    if ok then pure (s, some x, g, assigned)
    else skip n s (← nextPair K root s.heap x g)

/-- generative_navigator.hpp 56-73, `do_navigate_generate`, after the navigation: `above` is the node of the result below which
the new node is put. -/
def place (s : State ν) (above : Res Addr) (r : Ptr × Ptr × Bool) : Res (State ν × Option (Addr × Addr)) :=
  match r with
  | (none, _, _) => pure (s, none)
  | (some x, some g, assigned) => do
    if assigned then do
      let h ← B.attach s.heap (← above) g x
      pure ({ s with heap := h }, some (x, g))
    else pure (s, some (x, g))
  | (some x, none, _) => do
    let (h, g) ← clone K value s.heap x
    let h ← B.attach h (← above) g x
    pure ({ s with heap := h }, some (x, g))

/-- generative_navigator.hpp 85-92, `get_next_sibling`. -/
def next (fuel : Nat) (s : State ν) (e : Addr × Addr) : Res (State ν × Option (Addr × Addr)) := do
  let (s, r) ← skip K value q test root fuel s (← nextPair K root s.heap e.1 (some e.2))
  place K value B s (do deref (← (K.nav s.heap none).parent e.2)) r

/-- generative_navigator.hpp 94-99, `get_first_child`. -/
def first (fuel : Nat) (s : State ν) (e : Addr × Addr) : Res (State ν × Option (Addr × Addr)) := do
  let c ← (K.nav s.heap none).first e.1
  let d ← (K.nav s.heap none).first e.2
  let (s, r) ← skip K value q test root fuel s (c, d)
  place K value B s (pure e.2) r

/-- breadth_first.hpp 30-49 called until it returns null (multi_matcher.hpp 259-261). -/
def bfs (fuel : Nat) : Nat → State ν → List (Addr × Addr) → Res (State ν)
  | 0, _, _ => Res.diverge
  | _ + 1, s, [] => pure s
  | n + 1, s, e :: open_ => do
    let (s, sibling) ← next K value B q test root fuel s e
    let open_ := match sibling with
      | some e => e :: open_
      | none => open_
    let (s, child) ← first K value B q test root fuel s e
    let open_ := match child with
      | some e => open_ ++ [e]
      | none => open_
    bfs fuel n s open_

/-- multi_matcher.hpp 234-262: for the node `root` whose copy is `r`. `manage_initial_status` (breadth_first.hpp 85-119) at the
root only looks at the first child of the root. -/
def run (s : State ν) (r : Addr) : Res (Heap ν) := do
  let fuel := s.heap.fuel
  let (s, child) ← first K value B q test root fuel s (root, r)
  let s ← bfs K value B q test root fuel fuel s child.toList
  freeTargets K s.targets s.heap

/-- multi_matcher.hpp 136-152, `keep_assigning_children`: `t` is the new node, `child` goes over the children of the node it
copies. For a child that is not accepted `continue` comes back to the same child. -/
def keepAssigning : Nat → Heap ν → Addr → Ptr → Res (Heap ν)
  | 0, _, _, _ => Res.diverge
  | _ + 1, h, _, none => pure h
  | n + 1, h, t, some c => do
    if !test (value (← h.read c)) then keepAssigning n h t (some c)
    else do
      let (h, g) ← clone K value h c
      let h ← B.attach h t g c
      let h ← keepAssigning n h g (← (K.nav h none).first c)
      keepAssigning n h t (← (K.nav h none).next c)

/-- The function `attach_child` of multi_matcher.hpp 190-203 for the node `t` whose copy is `c`, with `allocate_assign_parent` of
nary_node.hpp 398-404 and binary_node.hpp 349-355. -/
def climb : Nat → Heap ν → List (Addr × Addr) → Addr → Addr → Res (Heap ν × List (Addr × Addr))
  | 0, _, _, _, _ => Res.diverge
  | n + 1, h, cloned, t, c => do
    match ← (K.nav h none).parent t with
    | none => Res.ub -- the assertion of allocate_assign_parent
    | some p =>
      match find cloned p with
      | some r => do pure (← B.attach h r c t, cloned)
      | none => do
        let (h, d) ← clone K value h p
        let h ← B.attach h d c t
        climb n h ((t, c) :: cloned) p d

end Generate
