import Verif.Model.Nav
/-!
# Iteration policies and tree_iterator

Models include/TreeDS/policy/*.hpp and include/TreeDS/tree_iterator.hpp.

Simplifications: the allocator of the policy's own containers is not modelled; the navigator handed to a policy has
the root of the tree or view (so `fix_navigator_root`, policy_base.hpp 83-87, has nothing to do unless the tree is
empty, where it stores a null root over a null root; other navigators: Model/Navigator.lean).
-/

/-- State of a policy object: `policy_base::current` (policy_base.hpp 30) and the policy's own container (the
`open_nodes` deque of breadth_first, front first; the `ancestors` stack of leaves, top first; the `initial` node of fixed;
empty for the others). -/
structure ItState where
  cur : Ptr
  aux : List Addr
  deriving DecidableEq, Repr

/-- A policy: construction at a position, the two steps from a non-null position and the jumps to the ends. -/
structure Policy where
  make : Nav → Nat → Ptr → Res ItState
  inc : Nav → Nat → Addr → List Addr → Res ItState
  dec : Nav → Nat → Addr → List Addr → Res ItState
  goFirst : Nav → Nat → List Addr → Res ItState
  goLast : Nav → Nat → List Addr → Res ItState
  /-- `update(current, replacement)`, told before the node `current` is replaced: policy_base.hpp 139-145. -/
  update : Nav → ItState → Addr → Ptr → Res ItState :=
    fun _ s a r => pure (if s.cur == some a then ⟨r, s.aux⟩ else s)

namespace Policy

/-- For policies without a container of their own. -/
def stateless (inc dec : Nav → Nat → Addr → Res Ptr) (goFirst goLast : Nav → Nat → Res Ptr) : Policy where
  make _ _ p := pure ⟨p, []⟩
  inc nav fuel a _ := do pure ⟨← inc nav fuel a, []⟩
  dec nav fuel a _ := do pure ⟨← dec nav fuel a, []⟩
  goFirst nav fuel _ := do pure ⟨← goFirst nav fuel, []⟩
  goLast nav fuel _ := do pure ⟨← goLast nav fuel, []⟩

/-- Climb through `get_parent` until `test child` holds, then return `res child`; the root when it never holds
(the shape of `keep_calling` used by pre_order, post_order and leaves). -/
def climb (nav : Nav) (fuel : Nat) (test : Addr → Res Bool) (res : Addr → Res Ptr) (a : Addr) : Res Ptr := do
  let (r, _) ← keepCallingT nav.parent
    (fun (_ : Unit) child _ => do pure (← test child, ()))
    (fun _ child _ => do pure (← res child, ()))
    fuel () a
  pure r

/-- pre_order.hpp 15-37. -/
def preInc (nav : Nav) (fuel : Nat) (cur : Addr) : Res Ptr := do
  match ← nav.first cur with
  | some c => pure (some c)
  | none =>
    let result ← climb nav fuel (fun c => do pure (!(← nav.isLast c))) (fun c => nav.next c) cur
    if result == nav.root then pure none else pure result

/-- pre_order.hpp 39-54. -/
def preDec (nav : Nav) (fuel : Nat) (cur : Addr) : Res Ptr :=
  if nav.isRoot cur then pure none
  else do
    match ← nav.prev cur with
    | none => nav.parent cur
    | some p => do pure (some (← keepCalling nav.last fuel p))

/-- pre_order.hpp 56-62. -/
def preOrder : Policy :=
  stateless preInc preDec (fun nav _ => pure nav.root) (fun nav fuel => nav.getHighestLeaf false fuel)

/-- post_order.hpp 15-28. -/
def postInc (nav : Nav) (fuel : Nat) (cur : Addr) : Res Ptr :=
  if nav.isRoot cur then pure none
  else do
    match ← nav.next cur with
    | none => nav.parent cur
    | some p => do pure (some (← keepCalling nav.first fuel p))

/-- post_order.hpp 30-50. -/
def postDec (nav : Nav) (fuel : Nat) (cur : Addr) : Res Ptr := do
  match ← nav.last cur with
  | some c => pure (some c)
  | none => climb nav fuel (fun c => do pure (!(← nav.isFirst c))) (fun c => nav.prev c) cur

/-- post_order.hpp 52-58. -/
def postOrder : Policy :=
  stateless postInc postDec (fun nav fuel => nav.getHighestLeaf true fuel) (fun nav _ => pure nav.root)

/-- in_order.hpp 31-61. The captured flag is `found`. -/
def inInc (nav : Nav) (fuel : Nat) (cur : Addr) : Res Ptr := do
  match ← nav.right cur with
  | some r => do pure (some (← keepCalling nav.left fuel r))
  | none =>
    let (result, found) ← keepCallingT nav.parent
      (fun s child _ => do pure (← nav.isLeft child, s))
      (fun _ _ parent => pure (some parent, true))
      fuel false cur
    if found then pure result else pure none

/-- in_order.hpp 63-87. -/
def inDec (nav : Nav) (fuel : Nat) (cur : Addr) : Res Ptr := do
  match ← nav.left cur with
  | some l => do pure (some (← keepCalling nav.right fuel l))
  | none =>
    let (result, _) ← keepCallingT nav.parent
      (fun (_ : Unit) child _ => do pure (← nav.isRight child, ()))
      (fun _ _ parent => pure (some parent, ()))
      fuel () cur
    pure result

/-- in_order.hpp 89-103. -/
def inOrder : Policy :=
  stateless inInc inDec
    (fun nav fuel => do pure (some (← keepCalling nav.left fuel (← deref nav.root))))
    (fun nav fuel => do pure (some (← keepCalling nav.right fuel (← deref nav.root))))

/-- siblings.hpp 21-35. -/
def siblings : Policy :=
  stateless (fun nav _ a => nav.next a) (fun nav _ a => nav.prev a)
    (fun nav _ => do nav.first (← deref nav.root)) (fun nav _ => do nav.last (← deref nav.root))

/-- fixed.hpp 7-32. The container holds `initial` (empty when it is null). -/
def fixed : Policy where
  make _ _ p := pure ⟨p, p.toList⟩
  inc _ _ _ aux := pure ⟨none, aux⟩
  dec _ _ _ aux := pure ⟨none, aux⟩
  goFirst _ _ aux := pure ⟨aux.head?, aux⟩
  goLast _ _ aux := pure ⟨aux.head?, aux⟩

/-- breadth_first.hpp 30-49. -/
def bfsInc (nav : Nav) (open_ : List Addr) : Res ItState :=
  match open_ with
  | [] => pure ⟨none, []⟩
  | result :: rest => do
    let open_ := match ← nav.next result with
      | some sib => sib :: rest
      | none => rest
    match ← nav.first result with
    | some fc => pure ⟨some result, open_ ++ [fc]⟩
    | none => pure ⟨some result, open_⟩

/-- breadth_first.hpp 51-72. `back()`, `front()`, `pop_back()`, `pop_front()` on an empty deque are undefined
behaviour. -/
def bfsDec (nav : Nav) (fuel : Nat) (cur : Addr) (open_ : List Addr) : Res ItState := do
  let open_ ← match ← nav.first cur with
    | some _ => do
      let back ← deref open_.getLast?
      Res.assert ((← nav.parent back) == some cur)
      pure open_.dropLast
    | none => pure open_
  let open_ ← match ← nav.next cur with
    | some _ => do
      let front ← deref open_.head?
      Res.assert ((← nav.prev front) == some cur)
      pure open_.tail
    | none => pure open_
  let result ← nav.getOtherBranch true fuel cur
  let result ← match result with
    | some r => pure (some r)
    | none => do nav.getRowExtremum false fuel (← deref (← nav.parent cur))
  pure ⟨result, cur :: open_⟩

/-- The lambda `process_child` of breadth_first.hpp 90-95: appends the first child, if any. -/
def bfsChild (nav : Nav) (node : Addr) (acc : List Addr) : Res (List Addr) := do
  match ← nav.first node with
  | some fc => pure (acc ++ [fc])
  | none => pure acc

/-- The loops of breadth_first.hpp 105-108 (`stop = none`) and 111-114 (`stop = current`). -/
def bfsScan (nav : Nav) (fuel : Nat) (stop : Ptr) : Nat → Ptr → List Addr → Res (List Addr)
  | 0, _, _ => Res.diverge
  | n + 1, node, acc =>
    match node with
    | none => pure acc
    | some a =>
      if some a == stop then pure acc
      else do
        let acc ← bfsChild nav a acc
        bfsScan nav fuel stop n (← nav.getOtherBranch false fuel a) acc

/-- breadth_first.hpp 85-119, `manage_initial_status`. -/
def bfsMake (nav : Nav) (fuel : Nat) : Ptr → Res ItState
  | none => pure ⟨none, []⟩
  | some cur => do
    let acc := (← nav.next cur).toList
    let node ← if nav.isRoot cur then pure none
      else do nav.getOtherBranch false fuel (← deref (← nav.parent cur))
    let acc ← bfsScan nav fuel none fuel node acc
    let node ← nav.getRowExtremum true fuel cur
    let acc ← bfsScan nav fuel (some cur) fuel node acc
    let acc ← bfsChild nav cur acc
    pure ⟨some cur, acc⟩

/-- breadth_first.hpp 121-137, `update`: the first child of the replaced node leaves the queue, the first child of the
replacement enters it. -/
def bfsUpdate (nav : Nav) (s : ItState) (a : Addr) (r : Ptr) : Res ItState := do
  let open_ ← match ← nav.first a with
    | some _ => do
      let back ← deref s.aux.getLast?
      Res.assert ((← nav.parent back) == some a)
      pure s.aux.dropLast
    | none => pure s.aux
  let open_ ← match r with
    | some y => do
      match ← nav.first y with
      | some c => pure (open_ ++ [c])
      | none => pure open_
    | none => pure open_
  pure ⟨if s.cur == some a then r else s.cur, open_⟩

/-- breadth_first.hpp 74-83. -/
def breadthFirst : Policy where
  make := bfsMake
  inc nav _ _ open_ := bfsInc nav open_
  dec nav fuel cur open_ := bfsDec nav fuel cur open_
  goFirst nav _ _ := do bfsInc nav [← deref nav.root]
  goLast nav fuel _ := do pure ⟨← nav.getDeepestExtremumChild false fuel, []⟩
  update := bfsUpdate

/-- The loop of leaves.hpp 28-35 and 67-74: descend through first children, pushing the nodes that have a next
sibling. -/
def leavesDescend (nav : Nav) : Nat → Addr → List Addr → Res ItState
  | 0, _, _ => Res.diverge
  | n + 1, node, st => do
    let st := if (← nav.next node).isSome then node :: st else st
    match ← nav.first node with
    | some c => leavesDescend nav n c st
    | none => pure ⟨some node, st⟩

/-- leaves.hpp 22-36. -/
def leavesInc (nav : Nav) (fuel : Nat) (st : List Addr) : Res ItState :=
  match st with
  | [] => pure ⟨none, []⟩
  | top :: st => do
    let node ← deref (← nav.next top)
    leavesDescend nav fuel node st

/-- leaves.hpp 38-64. `keep_calling` never returns null for a non-null start, so the test of line 55 never
fires. -/
def leavesDec (nav : Nav) (fuel : Nat) (cur : Addr) (st : List Addr) : Res ItState := do
  match ← climb nav fuel (fun c => do pure (!(← nav.isFirst c))) (fun c => nav.prev c) cur with
  | none => pure ⟨none, st⟩
  | some node => do
    pure ⟨some (← keepCalling nav.last fuel node), node :: st⟩

/-- leaves.hpp 66-84. The stack starts empty (line 17), `go_first` does not clear it, `go_last` does. -/
def leaves : Policy where
  make _ _ p := pure ⟨p, []⟩
  inc nav fuel _ st := leavesInc nav fuel st
  dec nav fuel cur st := leavesDec nav fuel cur st
  goFirst nav fuel st := do leavesDescend nav fuel (← deref nav.root) st
  goLast nav fuel _ := do pure ⟨some (← keepCalling nav.last fuel (← deref nav.root)), []⟩

end Policy

/-! ## tree_iterator -/

namespace Iter

/-- tree_iterator.hpp 73-78: the iterator made by `end()` (tree_base.hpp 163-165): null position. -/
def end_ (P : Policy) (nav : Nav) (fuel : Nat) : Res ItState := P.make nav fuel none

/-- tree_iterator.hpp 257-270, `operator++`. -/
def inc (P : Policy) (nav : Nav) (fuel : Nat) (s : ItState) : Res ItState :=
  match s.cur with
  | some a => P.inc nav fuel a s.aux
  | none => match nav.root with
    | some _ => P.goFirst nav fuel s.aux
    | none => pure s

/-- tree_iterator.hpp 278-291, `operator--`. -/
def dec (P : Policy) (nav : Nav) (fuel : Nat) (s : ItState) : Res ItState :=
  match s.cur with
  | some a => P.dec nav fuel a s.aux
  | none => match nav.root with
    | some _ => P.goLast nav fuel s.aux
    | none => pure s

/-- tree_base.hpp 152-155 / tree.hpp 243-247, `begin()`: increment the end iterator. -/
def begin_ (P : Policy) (nav : Nav) (fuel : Nat) : Res ItState := do
  inc P nav fuel (← end_ P nav fuel)

/-- tree_iterator.hpp 131-136, `other_policy`: a fresh policy object at the same node. -/
def otherPolicy (Q : Policy) (nav : Nav) (fuel : Nat) (s : ItState) : Res ItState :=
  Q.make nav fuel s.cur

/-- tree_iterator.hpp 162-171, `do_move` with the navigator query `f`, behind `go_parent`, `go_prev_sibling`,
`go_next_sibling`, `go_first_child`, `go_last_child`, `go_child` (233-255): the navigator is asked about the current node
(a null dereference on `end()`) and a fresh policy object is made at the answer. -/
def go (P : Policy) (nav : Nav) (fuel : Nat) (f : Addr → Res Ptr) (s : ItState) : Res ItState := do
  P.make nav fuel (← f (← deref s.cur))

/-- tree_iterator.hpp 210-222, `operator==`: same node and same navigator root. -/
def eq (nav1 nav2 : Nav) (s1 s2 : ItState) : Bool := s1.cur == s2.cur && nav1.root == nav2.root

/-- The loop `for (it = begin(); it != end(); ++it) visit(*it);`: the addresses visited, in order.
Iterators over one tree differ exactly when their nodes differ (tree_iterator.hpp 215-222). -/
def forwardFrom (P : Policy) (nav : Nav) (fuel : Nat) : Nat → ItState → Res (List Addr)
  | 0, _ => Res.diverge
  | n + 1, s => match s.cur with
    | none => pure []
    | some a => do
      let s ← inc P nav fuel s
      pure (a :: (← forwardFrom P nav fuel n s))

def forward (P : Policy) (nav : Nav) (fuel : Nat) : Res (List Addr) := do
  forwardFrom P nav fuel fuel (← begin_ P nav fuel)

/-- The loop `for (it = rbegin(); it != rend(); ++it) visit(*it);` (tree_base.hpp 167-186): a
`std::reverse_iterator` whose base runs from `end()` to `begin()` through `operator--` and that designates the element
before its base. -/
def backwardFrom (P : Policy) (nav : Nav) (fuel : Nat) (stop : Ptr) : Nat → ItState → Res (List Addr)
  | 0, _ => Res.diverge
  | n + 1, s =>
    if s.cur == stop then pure []
    else do
      let s ← dec P nav fuel s
      let a ← deref s.cur
      pure (a :: (← backwardFrom P nav fuel stop n s))

def backward (P : Policy) (nav : Nav) (fuel : Nat) : Res (List Addr) := do
  let b ← begin_ P nav fuel
  backwardFrom P nav fuel b.cur fuel (← end_ P nav fuel)

/-- One move of an iterator. -/
inductive Move where
  | inc
  | dec
  deriving DecidableEq, Repr

def move (P : Policy) (nav : Nav) (fuel : Nat) (m : Move) (s : ItState) : Res ItState :=
  match m with
  | .inc => inc P nav fuel s
  | .dec => dec P nav fuel s

/-- A sequence of moves. -/
def moves (P : Policy) (nav : Nav) (fuel : Nat) : List Move → ItState → Res ItState
  | [], s => pure s
  | m :: ms, s => do moves P nav fuel ms (← move P nav fuel m s)

end Iter
