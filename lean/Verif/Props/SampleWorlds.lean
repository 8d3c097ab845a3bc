import Verif.Proof.Example
import Verif.Props.Samples
/-!
# Concrete program states and histories for the non-vacuity examples and the counterexamples
-/
open Tree World

namespace Samples

/-- The state a history leads to. -/
def after {ν α lit : Type} (K : Kind ν α lit) (ops : List (Op α lit)) : World ν :=
  match (start : World ν).run K ops with
  | .ok (W, _) => W
  | _ => start

/-- `nary_tree<int> x0 = n(1)(n(2)(n(5), n(6)(n(7))), n(3), n(4)), x1;` -/
def nops : List (Op Nat (Tree Nat)) :=
  [.newLit 0 (node 1 [node 2 [node 5 [], node 6 [node 7 []]], node 3 [], node 4 []]), .newEmpty 1]
def nworld : World (NNode Nat) := after (Nary.kind Nat) nops

theorem nops_supported : Supports (Nary.shape Nat) start nops := by
  have L := Nary.lawful Nat
  refine supports_next L (start_owned L) ⟨rfl, trivial⟩ ?_
  intro ts1 O1
  refine supports_next L O1 (dead O1 rfl) ?_
  intros; trivial

/-- The state holds `Samples.deep` in `x0` and the empty tree in `x1`. -/
theorem nstate : ∃ ts, Owned (Nary.shape Nat) nworld ts ∧ ts 0 = some (some deep) ∧ ts 1 = some none ∧ ts 2 = none := by
  obtain ⟨W, as, ts, h1, _, _, O⟩ := history_trace (Nary.lawful Nat) (Nary.determined Nat) nops (start_owned (Nary.lawful Nat)) nops_supported
  cases h1
  exact ⟨ts, O, pin (Nary.determined Nat) O rfl ((Nary.shape_rep _ _).mpr (by decide)) rfl,
    pin (Nary.determined Nat) O rfl ((Nary.lawful Nat).rep_nil _) rfl, dead O rfl⟩

/-- `binary_tree<int> x0 = n(1)(n(2)(n(), n(4)), n(3)(n(5))), x1;` -/
def bops : List (Op Nat (Lit Nat)) :=
  [.newLit 0 (node (some 1) [node (some 2) [node none [], node (some 4) []], node (some 3) [node (some 5) []]]), .newEmpty 1]
def bworld : World (BNode Nat) := after (Binary.kind Nat) bops

theorem bops_supported : Supports (Binary.shape Nat) start bops := by
  have L := Binary.lawful Nat
  refine supports_next L (start_owned L) ⟨rfl, rfl⟩ ?_
  intro ts1 O1
  refine supports_next L O1 (dead O1 rfl) ?_
  intros; trivial

/-- The state holds `Samples.bin` in `x0` and the empty tree in `x1`. -/
theorem bstate : ∃ ts, Owned (Binary.shape Nat) bworld ts ∧ ts 0 = some bin ∧ ts 1 = some .nil ∧ ts 2 = none := by
  obtain ⟨W, as, ts, h1, _, _, O⟩ := history_trace (Binary.lawful Nat) (Binary.determined Nat) bops (start_owned (Binary.lawful Nat)) bops_supported
  cases h1
  exact ⟨ts, O, pin (Binary.determined Nat) O rfl (show Binary.Rep _ _ by decide) rfl,
    pin (Binary.determined Nat) O rfl ((Binary.lawful Nat).rep_nil _) rfl, dead O rfl⟩

/-- Build, copy, replace by the moved copy, insert, erase, destroy. -/
def nhist : List (Op Nat (Tree Nat)) :=
  [.newLit 0 (node 1 [node 2 [], node 3 [], node 4 []]), .newCopy 1 0,
   .insertOver true false Policy.preOrder 0 ⟨⟨some 2, []⟩, some 0⟩ (.moveOf 1),
   .insertChild true Policy.preOrder 0 ⟨⟨some 1, []⟩, some 0⟩ (.value 9), .erase 0 ⟨⟨some 6, []⟩, some 0⟩,
   .destroy 0, .destroy 1]

theorem nhist_supported : Supports (Nary.shape Nat) start nhist := by
  have L := Nary.lawful Nat
  have D := Nary.determined Nat
  refine supports_next L (start_owned L) ⟨rfl, trivial⟩ ?_
  intro ts1 O1
  refine supports_next L O1 ⟨dead O1 rfl, live O1 rfl⟩ ?_
  intro ts2 O2
  have h2 : ts2 0 = some (some (node (0,1) [node (1,2) [], node (2,3) [], node (3,4) []])) :=
    pin D O2 rfl ((Nary.shape_rep _ _).mpr (by decide)) rfl
  have h2' : ts2 1 = some (some (node (4,1) [node (5,2) [], node (6,3) [], node (7,4) []])) :=
    pin D O2 rfl ((Nary.shape_rep _ _).mpr (by decide)) rfl
  refine supports_next L O2 ⟨_, h2, live O2 rfl, Or.inr (Or.inl ⟨_, _, nary_at preOrder_mem
    [⟨(0,1), [node (1,2) []], [node (3,4) []]⟩] (node (2,3) []) rfl rfl rfl rfl,
      Or.inr (Or.inl (by simp [SrcEmpty, h2', Nary.shape]))⟩)⟩ ?_
  intro ts3 O3
  have h3 : ts3 0 = some (some (node (0,1) [node (1,2) [], node (4,1) [node (5,2) [], node (6,3) [], node (7,4) []], node (3,4) []])) :=
    pin D O3 rfl ((Nary.shape_rep _ _).mpr (by decide)) rfl
  refine supports_next L O3 ⟨_, h3, trivial, Or.inr (Or.inl ⟨_, _, nary_at preOrder_mem
    [⟨(0,1), [], [node (4,1) [node (5,2) [], node (6,3) [], node (7,4) []], node (3,4) []]⟩] (node (1,2) []) rfl rfl rfl rfl,
    Or.inl rfl⟩)⟩ ?_
  intro ts4 O4
  have h4 : ts4 0 = some (some (node (0,1) [node (1,2) [node (8,9) []],
      node (4,1) [node (5,2) [], node (6,3) [], node (7,4) []], node (3,4) []])) :=
    pin D O4 rfl ((Nary.shape_rep _ _).mpr (by decide)) rfl
  refine supports_next L O4 ⟨_, h4, Or.inl ⟨_, _, nary_at postOrder_mem
    [⟨(4,1), [node (5,2) []], [node (7,4) []]⟩, ⟨(0,1), [node (1,2) [node (8,9) []]], [node (3,4) []]⟩]
    (node (6,3) []) rfl rfl rfl rfl, Or.inr rfl⟩⟩ ?_
  intro ts5 O5
  refine supports_next L O5 (live O5 rfl) ?_
  intro ts6 O6
  refine supports_next L O6 (live O6 rfl) ?_
  intros; trivial

/-- The same for binary trees, with the default policy breadth_first: insert below the root, erase the left child,
replace the right child by a copy of the tree itself. -/
def bhist : List (Op Nat (Lit Nat)) :=
  [.newLit 0 (node (some 1) [node (some 2) [], node (some 3) []]),
   .insertChild false Policy.breadthFirst 0 ⟨⟨some 1, [2]⟩, some 0⟩ (.lit (node (some 7) [node none [], node (some 8) []])),
   .insertOver true true Policy.preOrder 0 ⟨⟨some 2, []⟩, some 0⟩ (.copyOf 0),
   .erase 0 ⟨⟨some 1, []⟩, some 0⟩, .destroy 0]

theorem bhist_supported : Supports (Binary.shape Nat) start bhist := by
  have L := Binary.lawful Nat
  have D := Binary.determined Nat
  refine supports_next L (start_owned L) ⟨rfl, rfl⟩ ?_
  intro ts1 O1
  have h1 : ts1 0 = some (.node (0,1) (.node (1,2) .nil .nil) (.node (2,3) .nil .nil)) :=
    pin D O1 rfl (show Binary.Rep _ _ by decide) rfl
  refine supports_next L O1 ⟨_, h1, rfl, Or.inr (Or.inl ⟨_, _, binary_at breadthFirst_mem
    [⟨(0,1), true, .node (2,3) .nil .nil⟩] (.node (1,2) .nil .nil) rfl (by simp) rfl rfl rfl, Or.inl rfl⟩)⟩ ?_
  intro ts2 O2
  have h2 : ts2 0 = some (.node (0,1) (.node (1,2) .nil (.node (3,7) .nil (.node (4,8) .nil .nil))) (.node (2,3) .nil .nil)) :=
    pin D O2 rfl (show Binary.Rep _ _ by decide) rfl
  refine supports_next L O2 ⟨_, h2, live O2 rfl, Or.inr (Or.inl ⟨_, _, binary_at preOrder_mem
    [⟨(0,1), false, .node (1,2) .nil (.node (3,7) .nil (.node (4,8) .nil .nil))⟩] (.node (2,3) .nil .nil) rfl (by simp) rfl rfl rfl,
    Or.inr (Or.inr trivial)⟩)⟩ ?_
  intro ts3 O3
  have h3 : ts3 0 = some (.node (0,1) (.node (1,2) .nil (.node (3,7) .nil (.node (4,8) .nil .nil)))
      (.node (5,1) (.node (6,2) .nil (.node (7,7) .nil (.node (8,8) .nil .nil))) (.node (9,3) .nil .nil))) :=
    pin D O3 rfl (show Binary.Rep _ _ by decide) rfl
  refine supports_next L O3 ⟨_, h3, Or.inl ⟨_, _, binary_at postOrder_mem
    [⟨(0,1), true, (.node (5,1) (.node (6,2) .nil (.node (7,7) .nil (.node (8,8) .nil .nil))) (.node (9,3) .nil .nil))⟩]
    (.node (1,2) .nil (.node (3,7) .nil (.node (4,8) .nil .nil))) rfl (by simp) rfl rfl rfl, Or.inr trivial⟩⟩ ?_
  intro ts4 O4
  refine supports_next L O4 (live O4 rfl) ?_
  intros; trivial

end Samples
