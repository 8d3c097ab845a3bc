import Verif.Model.Policy
/-!
# tree_iterator_filter and node_pred_navigator

Models include/TreeDS/tree_iterator_filter.hpp and include/TreeDS/node/navigator/node_pred_navigator.hpp.
The predicate of the filter looks at the value of the current element; here `p` is asked about the address and answers
with the predicate of the value stored there.
-/

namespace FilterIter

/-- tree_iterator_filter.hpp 117-122 and 130-135: the do-while loop around `operator++` / `operator--`. -/
def moveLoop (P : Policy) (nav : Nav) (fuel : Nat) (p : Addr → Res Bool) (m : Iter.Move) : Nat → ItState → Res ItState
  | 0, _ => Res.diverge
  | n + 1, s => do
    let s ← Iter.move P nav fuel m s
    match s.cur with
    | none => pure s
    | some a => if ← p a then pure s else moveLoop P nav fuel p m n s

def move (P : Policy) (nav : Nav) (fuel : Nat) (p : Addr → Res Bool) (m : Iter.Move) (s : ItState) : Res ItState :=
  moveLoop P nav fuel p m fuel s

def moves (P : Policy) (nav : Nav) (fuel : Nat) (p : Addr → Res Bool) : List Iter.Move → ItState → Res ItState
  | [], s => pure s
  | m :: ms, s => do moves P nav fuel p ms (← move P nav fuel p m s)

/-- tree_iterator_filter.hpp 39-45: wrap an iterator; skip ahead if its element fails the predicate. -/
def wrap (P : Policy) (nav : Nav) (fuel : Nat) (p : Addr → Res Bool) (s : ItState) : Res ItState :=
  match s.cur with
  | none => pure s
  | some a => do if ← p a then pure s else move P nav fuel p .inc s

end FilterIter

namespace PredNav

/-- The loop of node_pred_navigator.hpp 73-76: skip next siblings that fail the predicate. -/
def nextLoop (nav : Nav) (p : Addr → Res Bool) : Nat → Ptr → Res Ptr
  | 0, _ => Res.diverge
  | _ + 1, none => pure none
  | n + 1, some r => do
    if ← p r then pure (some r) else nextLoop nav p n (← nav.next r)

/-- node_pred_navigator.hpp 70-78, `get_next_sibling`. -/
def next (nav : Nav) (p : Addr → Res Bool) (fuel : Nat) (a : Addr) : Res Ptr := do
  nextLoop nav p fuel (← nav.next a)

/-- The loop of node_pred_navigator.hpp 63-66. The body asks again for the sibling of the argument `a`, not of the
result. -/
def prevLoop (nav : Nav) (p : Addr → Res Bool) (a : Addr) : Nat → Ptr → Res Ptr
  | 0, _ => Res.diverge
  | _ + 1, none => pure none
  | n + 1, some r => do
    if ← p r then pure (some r) else prevLoop nav p a n (← nav.prev a)

/-- node_pred_navigator.hpp 60-68, `get_prev_sibling`. -/
def prev (nav : Nav) (p : Addr → Res Bool) (fuel : Nat) (a : Addr) : Res Ptr := do
  prevLoop nav p a fuel (← nav.prev a)

/-- node_pred_navigator.hpp 80-87, `get_first_child`. -/
def first (nav : Nav) (p : Addr → Res Bool) (fuel : Nat) (a : Addr) : Res Ptr := do
  match ← nav.first a with
  | none => pure none
  | some r => if ← p r then pure (some r) else next nav p fuel r

/-- node_pred_navigator.hpp 89-96, `get_last_child`. -/
def last (nav : Nav) (p : Addr → Res Bool) (fuel : Nat) (a : Addr) : Res Ptr := do
  match ← nav.last a with
  | none => pure none
  | some r => if ← p r then pure (some r) else prev nav p fuel r

/-- node_pred_navigator.hpp 98-122, `get_left_child` and `get_right_child`. -/
def left (nav : Nav) (p : Addr → Res Bool) (a : Addr) : Res Ptr := do
  match ← nav.left a with
  | none => pure none
  | some r => if ← p r then pure (some r) else pure none

def right (nav : Nav) (p : Addr → Res Bool) (a : Addr) : Res Ptr := do
  match ← nav.right a with
  | none => pure none
  | some r => if ← p r then pure (some r) else pure none

/-- The navigator as the policies see it: navigator_base's `is_root`, `get_parent`, `is_first_child`, `is_last_child`
are not overridden, so they ignore the predicate. -/
def nav (nv : Nav) (p : Addr → Res Bool) (fuel : Nat) : Nav :=
  { nv with prev := prev nv p fuel, next := next nv p fuel, first := first nv p fuel, last := last nv p fuel,
            left := left nv p, right := right nv p }

end PredNav
