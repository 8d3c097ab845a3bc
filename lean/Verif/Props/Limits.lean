import Verif.Proof.Limits
import Verif.Props.Editing
/-!
# C54: exactly which calls work

`Sensible`, `Failing`, `WorksOn`, `Breaks`, `Works`: Spec/Limits.lean.
-/
open Tree World
variable {α : Type}

namespace Generic
variable {ν lit T V C : Type} {K : Kind ν α lit} {S : Shape K T V C} {W : World ν} {ts : Nat → Option T}

theorem call (L : Lawful S) (D : Determined S) (hB : BadPlaces S) (O : Owned S W ts) {op : Op α lit}
    (hS : Sensible S W.heap ts op) (hl : ¬ Failing S W.heap ts op → Legal S W.heap ts op) :
    (WorksOn S W op ↔ ¬ Failing S W.heap ts op) ∧ (Breaks S W op ↔ Failing S W.heap ts op) := by
  have h1 : ¬ Failing S W.heap ts op → WorksOn S W op := fun h => by
    obtain ⟨W', o, ts', e, O', -⟩ := step_spec L O op (hl h)
    exact ⟨W', o, ts', e, O'⟩
  have h2 : Failing S W.heap ts op → Breaks S W op := breaks_of_failing L D hB O hS
  refine ⟨⟨fun h hf => not_breaks h (h2 hf), h1⟩, fun h => ?_, h2⟩
  exact Classical.byContradiction fun hf => not_breaks (h1 hf) h
end Generic

/-- In every state, a call with sensible arguments works if it is not one of the failing ones, and breaks the program if it
is: undefined behaviour, or a state that is no longer a family of trees (a lost node, a dangling tree, a broken link). -/
theorem C54_call_nary {W : World (NNode α)} {ts : Nat → Option (Option (Tree (Addr × α)))} (O : Owned (Nary.shape α) W ts)
    {op : Op α (Tree α)} (hS : Sensible (Nary.shape α) W.heap ts op) (hr : op.isRange = false) :
    (WorksOn (Nary.shape α) W op ↔ ¬ Failing (Nary.shape α) W.heap ts op) ∧
    (Breaks (Nary.shape α) W op ↔ Failing (Nary.shape α) W.heap ts op) :=
  Generic.call (Nary.lawful α) (Nary.determined α) (Nary.badPlaces α) O hS (legal_of_sensible hr hS)

/-- Binary trees: the same, also for the erasing of ranges, which always works. -/
theorem C54_call_binary {W : World (BNode α)} {ts : Nat → Option (BTree (Addr × α))} (O : Owned (Binary.shape α) W ts)
    {op : Op α (Lit α)} (hS : Sensible (Binary.shape α) W.heap ts op) :
    (WorksOn (Binary.shape α) W op ↔ ¬ Failing (Binary.shape α) W.heap ts op) ∧
    (Breaks (Binary.shape α) W op ↔ Failing (Binary.shape α) W.heap ts op) := by
  refine Generic.call (Binary.lawful α) (Binary.determined α) (Binary.badPlaces α) O hS (fun hf => ?_)
  cases op with
  | eraseRange x first last => exact Binary.range_legal O hS
  | _ => exact legal_of_sensible rfl hS hf

/-- Nothing fails on a binary tree because of the place: `erase` and `insert_over` at a node always work. -/
theorem C54_place_binary {W : World (BNode α)} {ts : Nat → Option (BTree (Addr × α))} (O : Owned (Binary.shape α) W ts) {x : Nat}
    {t s : BTree (Addr × α)} {c : List (BTree.Frame (Addr × α))} {pos : It} (hx : ts x = some t) :
    (At (Binary.shape α) Policy.postOrder W.heap t pos c s → WorksOn (Binary.shape α) W (.erase x pos)) ∧
    (∀ P src sb ab, SrcOk (Binary.shape α) ts src → At (Binary.shape α) P W.heap t pos c s →
      WorksOn (Binary.shape α) W (.insertOver sb ab P x pos src)) := by
  constructor
  · intro A
    refine (C54_call_binary O (op := .erase x pos) ⟨t, hx, Or.inl ⟨c, s, A⟩⟩).1.mpr ?_
    rintro ⟨_, _, _, _, _, _, h⟩
    exact h trivial
  · intro P src sb ab hok A
    refine (C54_call_binary O (op := .insertOver sb ab P x pos src) ⟨t, hx, hok, Or.inl ⟨c, s, A⟩⟩).1.mpr ?_
    rintro (⟨_, _, _, _, _, _, h, _⟩ | ⟨_, _, _, h, _⟩)
    · exact h trivial
    · obtain ⟨a, ha⟩ := (Binary.lawful α).ptr_of_ne A.node
      have := A.cur
      rw [h, ha] at this; cases this

/-- On an nary tree, `erase` works exactly at the root and at children with a sibling on both sides. -/
theorem C54_erase_nary {W : World (NNode α)} {ts : Nat → Option (Option (Tree (Addr × α)))} (O : Owned (Nary.shape α) W ts) {x : Nat}
    {t : Option (Tree (Addr × α))} {s : Tree (Addr × α)} {c : List (Frame (Addr × α))} {pos : It} (hx : ts x = some t)
    (A : At (Nary.shape α) Policy.postOrder W.heap t pos c (some s)) :
    WorksOn (Nary.shape α) W (.erase x pos) ↔ c = [] ∨ ∃ f fs, c = f :: fs ∧ f.lefts ≠ [] ∧ f.rights ≠ [] := by
  constructor
  · intro h
    cases c with
    | nil => exact Or.inl rfl
    | cons f fs =>
      refine Or.inr ⟨f, fs, rfl, ?_⟩
      constructor <;> intro e <;>
        exact not_breaks h (breaks_of_failing (Nary.lawful α) (Nary.determined α) (Nary.badPlaces α) O ⟨t, hx, Or.inl ⟨_, _, A⟩⟩
          ⟨t, _, _, hx, A, by simp [Nary.shape], by simp [Nary.shape, e]⟩)
  · intro h
    have hl : c = (Nary.shape α).top ∨ (Nary.shape α).removable c := by
      rcases h with rfl | ⟨f, fs, rfl, h1, h2⟩
      · exact Or.inl rfl
      · exact Or.inr (by simp [Nary.shape, h1, h2])
    obtain ⟨W', o, ts', e, O', -⟩ := step_spec (Nary.lawful α) O (.erase x pos) ⟨t, hx, Or.inl ⟨c, _, A, hl⟩⟩
    exact ⟨W', o, ts', e, O'⟩

/-- Histories: as long as the arguments make sense, the calls all work exactly if the history is supported (`Supports`, the condition of
C15). So the condition of C15 excludes nothing that works. -/
theorem C54_history_nary {ops : List (Op α (Tree α))} (hS : AllSensible (Nary.shape α) start ops) (hr : ∀ op ∈ ops, op.isRange = false) :
    Works (Nary.shape α) start ops ↔ Supports (Nary.shape α) start ops :=
  works_iff (Nary.lawful α) (Nary.determined α) (fun op => op.isRange = false)
    (fun _ _ _ hg O hS hl => breaks_of_illegal (Nary.lawful α) (Nary.determined α) (Nary.badPlaces α) O hg hS hl) ops start hr hS

theorem C54_history_binary {ops : List (Op α (Lit α))} (hS : AllSensible (Binary.shape α) start ops) :
    Works (Binary.shape α) start ops ↔ Supports (Binary.shape α) start ops := by
  refine works_iff (Binary.lawful α) (Binary.determined α) (fun _ => True) ?_ ops start (fun _ _ => trivial) hS
  intro W ts op _ O hS hl
  refine breaks_of_failing (Binary.lawful α) (Binary.determined α) (Binary.badPlaces α) O hS (Classical.byContradiction fun hf => hl ?_)
  cases op with
  | eraseRange x first last => exact Binary.range_legal O hS
  | _ => exact legal_of_sensible rfl hS hf

open Samples in
/-- Non-vacuity: on `1(2(5,6(7)),3,4)`, erasing `3` works; erasing `2`, erasing `4` or replacing `2` by the empty tree `x1` breaks. -/
example : ∃ ts, Owned (Nary.shape Nat) nworld ts ∧ WorksOn (Nary.shape Nat) nworld (.erase 0 ⟨⟨some 2, []⟩, some 0⟩) ∧
    Breaks (Nary.shape Nat) nworld (.erase 0 ⟨⟨some 1, []⟩, some 0⟩) ∧ Breaks (Nary.shape Nat) nworld (.erase 0 ⟨⟨some 3, []⟩, some 0⟩) ∧
    Breaks (Nary.shape Nat) nworld (.insertOver true true Policy.preOrder 0 ⟨⟨some 1, []⟩, some 0⟩ (.copyOf 1)) := by
  obtain ⟨ts, O, h0, h1, h2⟩ := nstate
  have A2 := nary_at (h := nworld.heap) (t := deep) (pos := ⟨⟨some 1, []⟩, some 0⟩) postOrder_mem
    [⟨(0,1), [], [node (2,3) [], node (3,4) []]⟩] (node (1,2) [node (4,5) [], node (5,6) [node (6,7) []]]) rfl rfl rfl rfl
  have A3 := nary_at (h := nworld.heap) (t := deep) (pos := ⟨⟨some 2, []⟩, some 0⟩) postOrder_mem
    [⟨(0,1), [node (1,2) [node (4,5) [], node (5,6) [node (6,7) []]]], [node (3,4) []]⟩] (node (2,3) []) rfl rfl rfl rfl
  have A4 := nary_at (h := nworld.heap) (t := deep) (pos := ⟨⟨some 3, []⟩, some 0⟩) postOrder_mem
    [⟨(0,1), [node (1,2) [node (4,5) [], node (5,6) [node (6,7) []]], node (2,3) []], []⟩] (node (3,4) []) rfl rfl rfl rfl
  have A2' := nary_at (h := nworld.heap) (t := deep) (pos := ⟨⟨some 1, []⟩, some 0⟩) preOrder_mem
    [⟨(0,1), [], [node (2,3) [], node (3,4) []]⟩] (node (1,2) [node (4,5) [], node (5,6) [node (6,7) []]]) rfl rfl rfl rfl
  refine ⟨ts, O, (C54_erase_nary O h0 A3).mpr (Or.inr ⟨_, _, rfl, by simp, by simp⟩), ?_, ?_, ?_⟩
  · exact (C54_call_nary O (op := .erase 0 _) ⟨_, h0, Or.inl ⟨_, _, A2⟩⟩ rfl).2.mpr ⟨_, _, _, h0, A2, by simp [Nary.shape], by simp [Nary.shape]⟩
  · exact (C54_call_nary O (op := .erase 0 _) ⟨_, h0, Or.inl ⟨_, _, A4⟩⟩ rfl).2.mpr ⟨_, _, _, h0, A4, by simp [Nary.shape], by simp [Nary.shape]⟩
  · exact (C54_call_nary O (op := .insertOver true true Policy.preOrder 0 _ (.copyOf 1)) ⟨_, h0, by simp [SrcOk, h1], Or.inl ⟨_, _, A2'⟩⟩ rfl).2.mpr
      (Or.inl ⟨_, _, _, h0, A2', by simp [Nary.shape], by simp [Nary.shape], h1, by simp⟩)

open Samples in
/-- Moving `x0` below the end of `x1` breaks a program with binary trees. -/
example : Breaks (Binary.shape Nat) bworld (.insertChild true Policy.preOrder 1 ⟨⟨none, []⟩, none⟩ (.moveOf 0)) := by
  obtain ⟨ts, O, h0, h1, h2⟩ := bstate
  exact (C54_call_binary O (op := .insertChild true Policy.preOrder 1 ⟨⟨none, []⟩, none⟩ (.moveOf 0)) ⟨_, h1, by simp [SrcOk, h0], Or.inr rfl⟩).2.mpr
    ⟨_, 0, _, h1, rfl, by simp, h0, by simp [bin, Binary.shape], Or.inl rfl⟩

theorem Generic.sensible_next {ν lit T V C : Type} {K : Kind ν α lit} {S : Shape K T V C} {W : World ν} {ts : Nat → Option T} (O : Owned S W ts)
    {op : Op α lit} {ops : List (Op α lit)} (hS : Sensible S W.heap ts op)
    (k : ∀ ts1, Owned S (next K W op) ts1 → AllSensible S (next K W op) ops) : AllSensible S W (op :: ops) := by
  refine ⟨⟨ts, O, hS⟩, fun W' o ts' e O' => ?_⟩
  have : next K W op = W' := by simp [next, e]
  rw [← this] at O' ⊢
  exact k ts' O'

/-- A sensible history that does not work: making `1(2(5,6(7)),3,4)` and an empty tree, and erasing `2`. -/
example : AllSensible (Nary.shape Nat) start (Samples.nops ++ [.erase 0 ⟨⟨some 1, []⟩, some 0⟩]) ∧
    ¬ Works (Nary.shape Nat) start (Samples.nops ++ [.erase 0 ⟨⟨some 1, []⟩, some 0⟩]) := by
  have L := Nary.lawful Nat
  constructor
  · refine Generic.sensible_next (start_owned L) ⟨rfl, trivial⟩ fun ts1 O1 => ?_
    refine Generic.sensible_next O1 (dead O1 rfl) fun ts2 O2 => ?_
    have h0 : ts2 0 = some (some Samples.deep) := pin (Nary.determined Nat) O2 rfl ((Nary.shape_rep _ _).mpr (by decide)) rfl
    refine Generic.sensible_next O2 ⟨_, h0, Or.inl ⟨_, _, nary_at postOrder_mem
      [⟨(0,1), [], [node (2,3) [], node (3,4) []]⟩] (node (1,2) [node (4,5) [], node (5,6) [node (6,7) []]]) rfl rfl rfl rfl⟩⟩ fun _ _ => trivial
  · rintro ⟨-, h⟩
    obtain ⟨-, h⟩ := h _ _ rfl
    obtain ⟨⟨W', o, ts', e, -⟩, -⟩ := h _ _ rfl
    cases e
