import Verif.Model.Generate
import Verif.Model.Multi
/-!
# generative_navigator

Models include/TreeDS/node/navigator/generative_navigator.hpp over a node_pred_navigator
(include/TreeDS/node/navigator/node_pred_navigator.hpp) and a multiple_node_pointer of two pointers: the first points into
the target tree, the second into the generated tree. Target and generated nodes have the same type
(multiple_node_pointer.hpp 17), so they live in one heap. The predicate looks at the value of the target node, as in
test/GenerativeNavigatorTest.cpp; it does not assign pointers (the predicate of the star matchers does: Model/Generate.lean).
-/

/-- What the navigator uses of a kind of nodes: the getters, the value, a new node with a value, `assign_child_like`. -/
structure Gen (ν α : Type) where
  step : Heap ν → Move → Addr → Res Ptr
  value : ν → α
  leaf : α → ν
  builder : Pattern.Builder ν

def Nary.gen (α : Type) : Gen (NNode α) α := ⟨Nary.step, NNode.value, (Nary.kind α).leaf, Nary.builder α⟩
def Binary.gen (α : Type) : Gen (BNode α) α := ⟨Binary.step, BNode.value, (Binary.kind α).leaf, Binary.builder α⟩

namespace Gen
variable {ν α : Type} (G : Gen ν α) (test : α → Bool) (root : Addr)

/-- multiple_node_pointer.hpp 49-57 for two pointers, the first not null. -/
def both (h : Heap ν) (mv : Move) (x : Addr) (g : Ptr) : Res (Ptr × Ptr) := do
  pure (← G.step h mv x, ← Multi.callOn (G.step h mv) g)

/-- `(*this->predicate)(result)`. -/
def accepts (h : Heap ν) (x : Addr) : Res Bool := do pure (test (G.value (← h.read x)))

/-- navigator_base.hpp 258-268: `get_parent`, `get_prev_sibling`, `get_next_sibling` stop at the root; multiple pointers are
compared by the first one (multiple_node_pointer.hpp 182-184). -/
def plain (h : Heap ν) (mv : Move) (x : Addr) (g : Ptr) : Res (Ptr × Ptr) :=
  if x = root then pure (none, none) else G.both h mv x g

/-- The loop of node_pred_navigator.hpp 70-78, `get_next_sibling`, from its test on. -/
def nextLoop (h : Heap ν) : Nat → Ptr × Ptr → Res (Ptr × Ptr)
  | 0, _ => Res.diverge
  | _ + 1, (none, g) => pure (none, g)
  | n + 1, (some x, g) => do
    if ← G.accepts test h x then pure (some x, g) else nextLoop h n (← G.plain root h .next x g)

/-- node_pred_navigator.hpp 70-78. -/
def getNext (h : Heap ν) (x : Addr) (g : Ptr) : Res (Ptr × Ptr) := do
  G.nextLoop test root h h.fuel (← G.plain root h .next x g)

/-- The loop of node_pred_navigator.hpp 60-68, `get_prev_sibling`: it asks for the previous sibling of the same node again. -/
def prevLoop (h : Heap ν) (x : Addr) (g : Ptr) : Nat → Ptr × Ptr → Res (Ptr × Ptr)
  | 0, _ => Res.diverge
  | _ + 1, (none, p) => pure (none, p)
  | n + 1, (some y, p) => do
    if ← G.accepts test h y then pure (some y, p) else prevLoop h x g n (← G.plain root h .prev x g)

/-- node_pred_navigator.hpp 60-68. -/
def getPrev (h : Heap ν) (x : Addr) (g : Ptr) : Res (Ptr × Ptr) := do
  G.prevLoop test root h x g h.fuel (← G.plain root h .prev x g)

/-- node_pred_navigator.hpp 80-87. -/
def getFirst (h : Heap ν) (x : Addr) (g : Ptr) : Res (Ptr × Ptr) := do
  match ← G.both h .first x g with
  | (some y, p) => do if ← G.accepts test h y then pure (some y, p) else G.getNext test root h y p
  | (none, p) => pure (none, p)

/-- node_pred_navigator.hpp 89-96. -/
def getLast (h : Heap ν) (x : Addr) (g : Ptr) : Res (Ptr × Ptr) := do
  match ← G.both h .last x g with
  | (some y, p) => do if ← G.accepts test h y then pure (some y, p) else G.getPrev test root h y p
  | (none, p) => pure (none, p)

/-- node_pred_navigator.hpp 98-120, `get_left_child` and `get_right_child`. -/
def getSide (mv : Move) (h : Heap ν) (x : Addr) (g : Ptr) : Res (Ptr × Ptr) := do
  match ← G.both h mv x g with
  | (some y, p) => do if ← G.accepts test h y then pure (some y, p) else pure (none, none)
  | (none, p) => pure (none, p)

/-- generative_navigator.hpp 56-73, `do_navigate_generate` after the navigation, with 60 (`reference_node`) and
allocator_utility.hpp 87-102; `above` is the generated node below which a new node is put. -/
def generate (h : Heap ν) (above : Res Addr) : Ptr × Ptr → Res (Heap ν × Option (Addr × Addr))
  | (none, _) => pure (h, none)
  | (some x, some g) => pure (h, some (x, g))
  | (some x, none) => do
    let n ← h.read x
    let (h, g) := h.alloc (G.leaf (G.value n))
    let h ← G.builder.attach h (← above) g x
    pure (h, some (x, g))

/-- One move of the pair `x`, `g`: generative_navigator.hpp 75-135; `get_parent` is the one of navigator_base.hpp 258-260.
`get_child(i)` is not redefined by generative_navigator and not used here. -/
def move (h : Heap ν) (mv : Move) (x g : Addr) : Res (Heap ν × Option (Addr × Addr)) :=
  let beside : Res Addr := do deref (← G.step h .parent g)
  match mv with
  | .parent => do
    match ← G.plain root h .parent x (some g) with
    | (some y, some p) => pure (h, some (y, p))
    | (none, _) => pure (h, none)
    | (some _, none) => Res.ub
  | .prev => do G.generate h beside (← G.getPrev test root h x (some g))
  | .next => do G.generate h beside (← G.getNext test root h x (some g))
  | .first => do G.generate h (pure g) (← G.getFirst test root h x (some g))
  | .last => do G.generate h (pure g) (← G.getLast test root h x (some g))
  | .left => do G.generate h (pure g) (← G.getSide test .left h x (some g))
  | .right => do G.generate h (pure g) (← G.getSide test .right h x (some g))
  | .child _ => Res.ub

/-- A program that moves the pair again and again; where a move answers null the program stays. -/
def run (h : Heap ν) (x g : Addr) : List Move → Res (Heap ν × Addr × Addr)
  | [] => pure (h, x, g)
  | mv :: ms => do
    match ← G.move test root h mv x g with
    | (h, some (x, g)) => run h x g ms
    | (h, none) => run h x g ms

end Gen
