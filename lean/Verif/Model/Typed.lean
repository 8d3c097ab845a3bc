import Verif.Spec.Matched
import Verif.Model.Pattern
/-!
# The type of nodes a pattern was matched with

Models the attribute `node_type` of a pattern (matcher/pattern.hpp 19) and the checks made with it, for programs with nary and binary trees
and views of the same value type. Model/Pattern.lean has one kind of nodes at a time and a flag instead.
-/

/-- `std::type_index` of the type of `raw_root_node()` (pattern.hpp 30): a pointer to nary or binary nodes (tree_base.hpp 242-248); the nodes of a view are const
(tree_view.hpp 18), and `typeid` tells pointers to const from others. -/
structure NodeType where
  binary : Bool
  const : Bool
  deriving DecidableEq

/-- tree.hpp 40, nary_tree.hpp 27, binary_tree.hpp 26, tree_view.hpp 18, nary_tree_view.hpp 15: `node_type` of trees and views. -/
def Target.nodeType (t : Target) : NodeType := ⟨t.isBinary, t.isView⟩

/-- pattern.hpp 17-20. `binary` is a ghost: what kind of nodes the `void*` `matched_node` (matcher.hpp 47) of the matchers point to, that is the kind of the
last object searched, since a search starts with `reset()`. -/
structure Pattern.Typed where
  memo : Memo
  nodeType : Option NodeType
  binary : Bool

/-- The trees of a program. -/
structure Session (α : Type) where
  nary : World (NNode α)
  binary : World (BNode α)

namespace Session
variable {α : Type}

/-- pattern.hpp 28-41, `do_search`, without the type. -/
def searchIn (S : Session α) (p : Pat α) (m : Memo) : Target → Res (Bool × Memo)
  | .naryTree x => do
    let (ok, s) ← S.nary.search (Nary.kind α) NNode.value p ⟨m, false⟩ x
    pure (ok, s.memo)
  | .binaryTree x => do
    let (ok, s) ← S.binary.search (Binary.kind α) BNode.value p ⟨m, false⟩ x
    pure (ok, s.memo)
  | .naryView root => Search.search (Nary.nav S.nary.heap) (fun a => do pure (← S.nary.heap.read a).value) S.nary.heap.fuel root p m
  | .binaryView root => Search.search (Binary.nav S.binary.heap) (fun a => do pure (← S.binary.heap.read a).value) S.binary.heap.fuel root p m

/-- pattern.hpp 28-41: `node_type` is set when a match is found (36) and is kept otherwise. -/
def search (S : Session α) (p : Pat α) (s : Pattern.Typed) (t : Target) : Res (Bool × Pattern.Typed) := do
  let (ok, m) ← S.searchIn p s.memo t
  pure (ok, ⟨m, if ok then some t.nodeType else s.nodeType, t.isBinary⟩)

/-- Some searches, one after the other, each in an object of the program as it then is. -/
def searches (p : Pat α) : Pattern.Typed → List (Session α × Target) → Res (List Bool × Pattern.Typed)
  | s, [] => pure ([], s)
  | s, (S, t) :: ts => do
    let (ok, s) ← S.search p s t
    let (oks, s) ← searches p s ts
    pure (ok :: oks, s)

/-- pattern.hpp 62-69 `assign_result`, for an nary tree, and 71-87 `assign_mark`; `q` is the matcher whose result is assigned. `false` is the `std::invalid_argument`. A
matcher that matched a node casts it to the kind of the tree (matcher.hpp 159-162). -/
def assignNary (S : Session α) (q : Pat α) (s : Pattern.Typed) (y : Nat) : Res (Bool × Session α) := do
  if s.nodeType ≠ some (Target.naryTree y).nodeType then pure (false, S)
  else if (s.memo.marks q.id).isSome && s.binary then Res.ub
  else do
    let (_, W) ← S.nary.assignPart (Nary.kind α) NNode.value (Nary.builder α) q ⟨s.memo, true⟩ y
    pure (true, { S with nary := W })

/-- The same for a binary tree. -/
def assignBinary (S : Session α) (q : Pat α) (s : Pattern.Typed) (y : Nat) : Res (Bool × Session α) := do
  if s.nodeType ≠ some (Target.binaryTree y).nodeType then pure (false, S)
  else if (s.memo.marks q.id).isSome && !s.binary then Res.ub
  else do
    let (_, W) ← S.binary.assignPart (Binary.kind α) BNode.value (Binary.builder α) q ⟨s.memo, true⟩ y
    pure (true, { S with binary := W })

end Session

/-- A new pattern: pattern.hpp 19. -/
def Pattern.Typed.new : Pattern.Typed := ⟨⟨fun _ => none, fun _ => none⟩, none, false⟩
