import Verif.Props.SampleWorlds
import Verif.Proof.NaryDefect
/-!
# C17-C19, C25, C60, C61, C65: insert_over, insert_child, erase, and what happens when they throw

Positions are given by `At S P h t pos c s` (Spec/World.lean): the iterator `pos` designates the root of the subtree `s` of
the tree `t`, and `c` is the rest of the tree: `t` is `c` with `s` in its hole. All nodes in `t`, `c`, `s` carry their
address and value, so that 'the tree afterwards is `c` with `n` in its hole' says that every node outside the position keeps
its identity, value, parent and order. `Owned` also says that there is no other allocated node.
-/
open Tree World

variable {α : Type}

/-! ## C17, C60 insert_over -/

/-- `insert_over`/`emplace_over` of a non-empty source: the subtree at the position is replaced, its nodes are freed. -/
theorem C17_insert_over_nary {W : World (NNode α)} {ts : Nat → Option (Option (Tree (Addr × α)))} (O : Owned (Nary.shape α) W ts)
    {x : Nat} {t s : Option (Tree (Addr × α))} {c : List (Frame (Addr × α))} {P : Policy} {pos : It} {src : Src α (Tree α)}
    (hx : ts x = some t) (A : At (Nary.shape α) P W.heap t pos c s) (hok : SrcOk (Nary.shape α) ts src) (hself : src ≠ .moveOf x)
    (hne : ¬ SrcEmpty (Nary.shape α) ts src) (sb ab : Bool) :
    ∃ W' n it, W.insertOver (Nary.kind α) sb ab P x pos src = Res.ok (W', .ret it) ∧
      SrcTree (Nary.shape α) ts src n ∧ SrcFresh (Nary.shape α) W.heap src n ∧
      Owned (Nary.shape α) W' (upd (afterSrc (Nary.shape α) ts src) x (some (Nary.fill c n))) ∧
      it.st.cur = (Nary.shape α).ptr n ∧ ∀ a ∈ (Nary.shape α).addrs s, W'.heap.cells a = none :=
  Generic.insertOver (Nary.lawful α) O hx hok hself A (Or.inr (Or.inl hne)) sb ab

/-- For binary trees also with an empty source. -/
theorem C17_insert_over_binary {W : World (BNode α)} {ts : Nat → Option (BTree (Addr × α))} (O : Owned (Binary.shape α) W ts)
    {x : Nat} {t s : BTree (Addr × α)} {c : List (BTree.Frame (Addr × α))} {P : Policy} {pos : It} {src : Src α (Lit α)}
    (hx : ts x = some t) (A : At (Binary.shape α) P W.heap t pos c s) (hok : SrcOk (Binary.shape α) ts src) (hself : src ≠ .moveOf x)
    (sb ab : Bool) :
    ∃ W' n it, W.insertOver (Binary.kind α) sb ab P x pos src = Res.ok (W', .ret it) ∧
      SrcTree (Binary.shape α) ts src n ∧ SrcFresh (Binary.shape α) W.heap src n ∧
      Owned (Binary.shape α) W' (upd (afterSrc (Binary.shape α) ts src) x (some (BTree.plug c n))) ∧
      it.st.cur = (Binary.shape α).ptr n ∧ ∀ a ∈ (Binary.shape α).addrs s, W'.heap.cells a = none :=
  Generic.insertOver (Binary.lawful α) O hx hok hself A (Or.inr (Or.inr trivial)) sb ab

/-- Nary trees with an empty source: works at the root and at children that are neither first nor last. Missing: first and
last children, see `C60_insert_over_empty_defect`. -/
theorem C60_insert_over_empty_partial {W : World (NNode α)} {ts : Nat → Option (Option (Tree (Addr × α)))}
    (O : Owned (Nary.shape α) W ts) {x : Nat} {t s : Option (Tree (Addr × α))} {c : List (Frame (Addr × α))} {P : Policy} {pos : It}
    {src : Src α (Tree α)} (hx : ts x = some t) (A : At (Nary.shape α) P W.heap t pos c s) (hok : SrcOk (Nary.shape α) ts src)
    (hself : src ≠ .moveOf x) (hmid : ∀ f fs, c = f :: fs → f.lefts ≠ [] ∧ f.rights ≠ []) (sb ab : Bool) :
    ∃ W' n it, W.insertOver (Nary.kind α) sb ab P x pos src = Res.ok (W', .ret it) ∧
      SrcTree (Nary.shape α) ts src n ∧ SrcFresh (Nary.shape α) W.heap src n ∧
      Owned (Nary.shape α) W' (upd (afterSrc (Nary.shape α) ts src) x (some (Nary.fill c n))) ∧
      it.st.cur = (Nary.shape α).ptr n ∧ ∀ a ∈ (Nary.shape α).addrs s, W'.heap.cells a = none := by
  refine Generic.insertOver (Nary.lawful α) O hx hok hself A ?_ sb ab
  cases c with
  | nil => exact Or.inl rfl
  | cons f fs =>
    obtain ⟨h1, h2⟩ := hmid f fs rfl
    exact Or.inr (Or.inr (by simp [Nary.shape, h1, h2]))

/-- On an empty tree, at `end()`, the new element becomes the root. -/
theorem C17_insert_over_empty_tree_nary {W : World (NNode α)} {ts : Nat → Option (Option (Tree (Addr × α)))}
    (O : Owned (Nary.shape α) W ts) {x : Nat} {P : Policy} {pos : It} {src : Src α (Tree α)} (hx : ts x = some none)
    (hend : AtEnd pos) (hok : SrcOk (Nary.shape α) ts src) (hself : src ≠ .moveOf x) (sb ab : Bool) :
    ∃ W' n, W.insertOver (Nary.kind α) sb ab P x pos src = Res.ok (W', .ret pos) ∧
      SrcTree (Nary.shape α) ts src n ∧ SrcFresh (Nary.shape α) W.heap src n ∧
      Owned (Nary.shape α) W' (upd (afterSrc (Nary.shape α) ts src) x (some n)) :=
  Generic.insertOverEmpty (Nary.lawful α) O hx hok hself hend sb ab

theorem C17_insert_over_empty_tree_binary {W : World (BNode α)} {ts : Nat → Option (BTree (Addr × α))}
    (O : Owned (Binary.shape α) W ts) {x : Nat} {P : Policy} {pos : It} {src : Src α (Lit α)} (hx : ts x = some .nil)
    (hend : AtEnd pos) (hok : SrcOk (Binary.shape α) ts src) (hself : src ≠ .moveOf x) (sb ab : Bool) :
    ∃ W' n, W.insertOver (Binary.kind α) sb ab P x pos src = Res.ok (W', .ret pos) ∧
      SrcTree (Binary.shape α) ts src n ∧ SrcFresh (Binary.shape α) W.heap src n ∧
      Owned (Binary.shape α) W' (upd (afterSrc (Binary.shape α) ts src) x (some n)) :=
  Generic.insertOverEmpty (Binary.lawful α) O hx hok hself hend sb ab

/-- Replacing an nary first child by a copy of an empty tree writes through a null pointer. -/
theorem C60_insert_over_empty_defect :
    start.run (Nary.kind Nat) [.newLit 0 (node 1 [node 2 [], node 3 []]), .newEmpty 1,
      .insertOver true true Policy.preOrder 0 ⟨⟨some 1, []⟩, some 0⟩ (.copyOf 1)] = Res.ub := rfl

open Samples in
/-- `x0.insert_over(<position of 2>, 9)` on `1(2(5,6(7)),3,4)`. -/
example : ∃ W' a ts, nworld.insertOver (Nary.kind Nat) true true Policy.preOrder 0 ⟨⟨some 1, []⟩, some 0⟩ (.value 9) =
      Res.ok (W', .ret ⟨⟨some a, []⟩, some 0⟩) ∧ Owned (Nary.shape Nat) W' ts ∧
    ts 0 = some (some (node (0,1) [node (a,9) [], node (2,3) [], node (3,4) []])) ∧ W'.heap.cells 6 = none := by
  obtain ⟨ts, O, h0, h1, h2⟩ := nstate
  obtain ⟨W', n, it, e, ⟨a, ha⟩, _, O', hc, hf⟩ := C17_insert_over_nary O h0 (pos := ⟨⟨some 1, []⟩, some 0⟩) (nary_at preOrder_mem
    [⟨(0,1), [], [node (2,3) [], node (3,4) []]⟩] (node (1,2) [node (4,5) [], node (5,6) [node (6,7) []]]) rfl rfl rfl rfl)
    (src := .value 9) trivial (by simp) (by simp [SrcEmpty]) true true
  cases ha
  obtain rfl : it = ⟨⟨some 7, []⟩, some 0⟩ := by cases e; rfl
  have hc' : some 7 = some a := hc
  cases hc'
  exact ⟨W', 7, _, e, O', by simp [upd]; rfl, hf 6 (by decide)⟩

open Samples in
example : ∃ W' n it ts, bworld.insertOver (Binary.kind Nat) false true Policy.inOrder 0 ⟨⟨some 3, []⟩, some 0⟩ (.copyOf 0) =
      Res.ok (W', .ret it) ∧ n.vals = bin.vals ∧ Owned (Binary.shape Nat) W' ts ∧
    ts 0 = some (.node (0,1) (.node (1,2) .nil (.node (2,4) .nil .nil)) n) := by
  obtain ⟨ts, O, h0, h1, h2⟩ := bstate
  obtain ⟨W', n, it, e, ⟨u, hu, hv⟩, _, O', hc, hf⟩ := C17_insert_over_binary O h0 (pos := ⟨⟨some 3, []⟩, some 0⟩) (binary_at inOrder_mem
    [⟨(0,1), false, .node (1,2) .nil (.node (2,4) .nil .nil)⟩] (.node (3,3) (.node (4,5) .nil .nil) .nil) rfl (by simp) rfl rfl rfl)
    (src := .copyOf 0) (by simp [SrcOk, h0]) (by simp) false true
  rw [h0] at hu; cases hu
  exact ⟨W', n, it, _, e, hv, O', by simp [upd]; rfl⟩

open Samples in
example : ∃ W' n it ts, n = (none : Option (Tree (Addr × Nat))) ∧ nworld.insertOver (Nary.kind Nat) false true Policy.preOrder 0 ⟨⟨some 2, []⟩, some 0⟩ (.moveOf 1) =
      Res.ok (W', .ret it) ∧ Owned (Nary.shape Nat) W' ts ∧
    ts 0 = some (some (node (0,1) [node (1,2) [node (4,5) [], node (5,6) [node (6,7) []]], node (3,4) []])) := by
  obtain ⟨ts, O, h0, h1, h2⟩ := nstate
  obtain ⟨W', n, it, e, hT, _, O', hc, hf⟩ := C60_insert_over_empty_partial O h0 (pos := ⟨⟨some 2, []⟩, some 0⟩) (nary_at preOrder_mem
    [⟨(0,1), [node (1,2) [node (4,5) [], node (5,6) [node (6,7) []]]], [node (3,4) []]⟩] (node (2,3) []) rfl rfl rfl rfl)
    (src := .moveOf 1) (by simp [SrcOk, h1]) (by simp) (by rintro f fs ⟨⟩; simp) false true
  have hT' : ts 1 = some n := hT
  rw [h1] at hT'; cases hT'
  exact ⟨W', none, it, _, rfl, e, O', by simp [upd]; rfl⟩

open Samples in
example : ∃ W' n ts, nworld.insertOver (Nary.kind Nat) true true Policy.preOrder 1 ⟨⟨none, []⟩, none⟩ (.moveOf 0) =
      Res.ok (W', .ret ⟨⟨none, []⟩, none⟩) ∧ Owned (Nary.shape Nat) W' ts ∧ n = some deep ∧ ts 1 = some n ∧ ts 0 = some none := by
  obtain ⟨ts, O, h0, h1, h2⟩ := nstate
  obtain ⟨W', n, e, hT, _, O'⟩ := C17_insert_over_empty_tree_nary (P := Policy.preOrder) O h1 (pos := ⟨⟨none, []⟩, none⟩) rfl
    (src := .moveOf 0) (by simp [SrcOk, h0]) (by simp) true true
  have hT' : ts 0 = some n := hT
  rw [h0] at hT'; cases hT'
  exact ⟨W', _, _, e, O', rfl, by simp [upd], by simp [upd, afterSrc]; rfl⟩

open Samples in
example : ∃ W' a ts, bworld.insertOver (Binary.kind Nat) true true Policy.preOrder 1 ⟨⟨none, []⟩, none⟩ (.value 9) =
      Res.ok (W', .ret ⟨⟨none, []⟩, none⟩) ∧ Owned (Binary.shape Nat) W' ts ∧ ts 1 = some (.node (a, 9) .nil .nil) := by
  obtain ⟨ts, O, h0, h1, h2⟩ := bstate
  obtain ⟨W', n, e, ⟨a, rfl⟩, _, O'⟩ := C17_insert_over_empty_tree_binary (P := Policy.preOrder) O h1 (pos := ⟨⟨none, []⟩, none⟩) rfl
    (src := .value 9) trivial (by simp) true true
  exact ⟨W', a, _, e, O', by simp [upd]; rfl⟩

/-! ## C18 insert_child_front, insert_child_back -/

/-- `insert_child_front/back`: the node at the position gets the new tree as first/last child; nothing else changes. The
returned iterator still designates the node at the position. -/
theorem C18_insert_child_nary {W : World (NNode α)} {ts : Nat → Option (Option (Tree (Addr × α)))} (O : Owned (Nary.shape α) W ts)
    {x : Nat} {t : Option (Tree (Addr × α))} {p : Addr × α} {cs : List (Tree (Addr × α))} {c : List (Frame (Addr × α))} {P : Policy}
    {pos : It} {src : Src α (Tree α)} (hx : ts x = some t) (A : At (Nary.shape α) P W.heap t pos c (some (node p cs)))
    (hok : SrcOk (Nary.shape α) ts src) (hself : src ≠ .moveOf x) (front : Bool) :
    ∃ W' n it, W.insertChild (Nary.kind α) front P x pos src = Res.ok (W', .ret it) ∧
      SrcTree (Nary.shape α) ts src n ∧ SrcFresh (Nary.shape α) W.heap src n ∧
      Owned (Nary.shape α) W' (upd (afterSrc (Nary.shape α) ts src) x
        (some (Nary.fill c (some (node p (if front then n.toList ++ cs else cs ++ n.toList)))))) ∧
      it.st.cur = pos.st.cur := by
  obtain ⟨W', n, it, e, h1, h2, h3, h4, _⟩ := Generic.insertChild (Nary.lawful α) O hx hok hself A rfl front
  refine ⟨W', n, it, e, h1, h2, ?_, h4⟩
  cases front <;> exact h3

/-- Binary trees: the new left (front) or right (back) child; an existing only child moves to the other side if needed. -/
theorem C18_insert_child_binary {W : World (BNode α)} {ts : Nat → Option (BTree (Addr × α))} (O : Owned (Binary.shape α) W ts)
    {x : Nat} {t l r : BTree (Addr × α)} {p : Addr × α} {c : List (BTree.Frame (Addr × α))} {P : Policy}
    {pos : It} {src : Src α (Lit α)} (hx : ts x = some t) (A : At (Binary.shape α) P W.heap t pos c (.node p l r))
    (hroom : l = .nil ∨ r = .nil) (hok : SrcOk (Binary.shape α) ts src) (hself : src ≠ .moveOf x)
    (hne : ¬ SrcEmpty (Binary.shape α) ts src) (front : Bool) :
    ∃ W' n it, W.insertChild (Binary.kind α) front P x pos src = Res.ok (W', .ret it) ∧ n ≠ .nil ∧
      SrcTree (Binary.shape α) ts src n ∧ SrcFresh (Binary.shape α) W.heap src n ∧
      Owned (Binary.shape α) W' (upd (afterSrc (Binary.shape α) ts src) x
        (some (BTree.plug c (if front then .node p n (r.or l) else .node p (l.or r) n)))) ∧
      it.st.cur = pos.st.cur := by
  have hf : (Binary.shape α).isFull (.node p l r) = false := by
    rcases hroom with rfl | rfl
    · rfl
    · cases l <;> rfl
  obtain ⟨W', n, it, e, h1, h2, h3, h4, _⟩ := Generic.insertChild (Binary.lawful α) O hx hok hself A hf front
  have hn : n ≠ .nil := by
    rintro rfl
    cases src with
    | value v => obtain ⟨a, ha⟩ := h1; cases ha
    | lit l =>
      have h1' : BTree.nil = Lit.toB l := h1
      obtain ⟨v, a, b, hb⟩ := Binary.toB_isSome (c := l) hok
      rw [hb] at h1'; cases h1'
    | emplaceLit l =>
      have h1' : BTree.nil = Lit.toB l := h1
      obtain ⟨v, a, b, hb⟩ := Binary.toB_isSome (c := l) hok
      rw [hb] at h1'; cases h1'
    | copyOf y =>
      obtain ⟨u, hu, hv⟩ := h1
      cases u with
      | nil => exact hne hu
      | node q a b => cases hv
    | moveOf y => exact hne h1
  refine ⟨W', n, it, e, hn, h1, h2, ?_, h4⟩
  cases n with
  | nil => exact absurd rfl hn
  | node q a b => cases front <;> exact h3

/-- A binary node with two children: the call throws and the trees are what they were; nothing is left allocated. -/
theorem C18_insert_child_full {W : World (BNode α)} {ts : Nat → Option (BTree (Addr × α))} (O : Owned (Binary.shape α) W ts)
    {x : Nat} {t l r : BTree (Addr × α)} {p : Addr × α} {c : List (BTree.Frame (Addr × α))} {P : Policy}
    {pos : It} {src : Src α (Lit α)} (hx : ts x = some t) (A : At (Binary.shape α) P W.heap t pos c (.node p l r))
    (hl : l ≠ .nil) (hr : r ≠ .nil) (hok : SrcOk (Binary.shape α) ts src) (hmove : ∀ y, src ≠ .moveOf y) (front : Bool) :
    ∃ W', W.insertChild (Binary.kind α) front P x pos src = Res.ok (W', .threw) ∧ Owned (Binary.shape α) W' ts := by
  refine Generic.childThrows (Binary.lawful α) O hx hok (Or.inr (Or.inr ⟨c, _, A, ?_⟩)) (Or.inr (Or.inl hmove)) front
  cases l with
  | nil => exact absurd rfl hl
  | node => cases r with
    | nil => exact absurd rfl hr
    | node => rfl

open Samples in
example : ∃ (W' : _) (n : Option (Tree (Addr × Nat))) (it : _) (ts : _), nworld.insertChild (Nary.kind Nat) false Policy.preOrder 0 ⟨⟨some 1, []⟩, some 0⟩ (.lit (node 8 [node 9 []])) =
      Res.ok (W', .ret it) ∧ Owned (Nary.shape Nat) W' ts ∧ n.map Tree.vals = some (node 8 [node 9 []]) ∧
    ts 0 = some (some (node (0,1) [node (1,2) ([node (4,5) [], node (5,6) [node (6,7) []]] ++ n.toList), node (2,3) [], node (3,4) []])) := by
  obtain ⟨ts, O, h0, h1, h2⟩ := nstate
  obtain ⟨W', n, it, e, hT, _, O', _⟩ := C18_insert_child_nary O h0 (pos := ⟨⟨some 1, []⟩, some 0⟩) (nary_at preOrder_mem
    [⟨(0,1), [], [node (2,3) [], node (3,4) []]⟩] (node (1,2) [node (4,5) [], node (5,6) [node (6,7) []]]) rfl rfl rfl rfl)
    (src := .lit (node 8 [node 9 []])) trivial (by simp) false
  exact ⟨W', n, it, _, e, O', hT, by simp [upd]; rfl⟩

open Samples in
example : ∃ W' n it ts, bworld.insertChild (Binary.kind Nat) true Policy.preOrder 0 ⟨⟨some 3, []⟩, some 0⟩ (.value 8) =
      Res.ok (W', .ret it) ∧ Owned (Binary.shape Nat) W' ts ∧
    ts 0 = some (.node (0,1) (.node (1,2) .nil (.node (2,4) .nil .nil)) (.node (3,3) n (.node (4,5) .nil .nil))) := by
  obtain ⟨ts, O, h0, h1, h2⟩ := bstate
  obtain ⟨W', n, it, e, _, hT, _, O', _⟩ := C18_insert_child_binary O h0 (pos := ⟨⟨some 3, []⟩, some 0⟩) (binary_at preOrder_mem
    [⟨(0,1), false, .node (1,2) .nil (.node (2,4) .nil .nil)⟩] (.node (3,3) (.node (4,5) .nil .nil) .nil) rfl (by simp) rfl rfl rfl)
    (Or.inr rfl) (src := .value 8) trivial (by simp) (by simp [SrcEmpty]) true
  exact ⟨W', n, it, _, e, O', by simp [upd]; rfl⟩

open Samples in
example : ∃ W' ts, bworld.insertChild (Binary.kind Nat) true Policy.preOrder 0 ⟨⟨some 0, []⟩, some 0⟩ (.copyOf 0) =
      Res.ok (W', .threw) ∧ Owned (Binary.shape Nat) W' ts ∧ ts 0 = some bin := by
  obtain ⟨ts, O, h0, h1, h2⟩ := bstate
  obtain ⟨W', e, O'⟩ := C18_insert_child_full O h0 (pos := ⟨⟨some 0, []⟩, some 0⟩) (binary_at preOrder_mem [] bin rfl (by simp [bin]) rfl rfl rfl)
    (by simp) (by simp) (src := .copyOf 0) (by simp [SrcOk, h0]) (by simp) true
  exact ⟨W', _, e, O', h0⟩

/-! ## C19, C61 erase -/

/-- Binary trees: `erase` removes the subtree, frees its nodes and leaves everything else in place. All navigation
afterwards is that of the smaller tree because the state is `Owned` by it (C11, C12). -/
theorem C19_erase_binary {W : World (BNode α)} {ts : Nat → Option (BTree (Addr × α))} (O : Owned (Binary.shape α) W ts)
    {x : Nat} {t s : BTree (Addr × α)} {c : List (BTree.Frame (Addr × α))} {pos : It} (hx : ts x = some t)
    (A : At (Binary.shape α) Policy.postOrder W.heap t pos c s) :
    ∃ W' it, W.erase (Binary.kind α) x pos = Res.ok (W', .ret it) ∧
      Owned (Binary.shape α) W' (upd ts x (some (BTree.plug c .nil))) ∧ ∀ a ∈ s.addrs, W'.heap.cells a = none := by
  obtain ⟨W', l1, l2, e, _, _, O', hf⟩ := Generic.erase (Binary.lawful α) O hx A (Or.inr trivial)
  exact ⟨W', _, e, O', fun a ha => hf a (by rw [Binary.shape_addrs]; exact ha)⟩

/-- Nary trees, when the position is the root or a child that is neither first nor last. Missing: first and last children,
where the code fails, see `C61_first_child_defect` and `C61_last_child_defect`. -/
theorem C61_erase_partial {W : World (NNode α)} {ts : Nat → Option (Option (Tree (Addr × α)))} (O : Owned (Nary.shape α) W ts)
    {x : Nat} {t : Option (Tree (Addr × α))} {s : Tree (Addr × α)} {c : List (Frame (Addr × α))} {pos : It} (hx : ts x = some t)
    (A : At (Nary.shape α) Policy.postOrder W.heap t pos c (some s)) (hmid : ∀ f fs, c = f :: fs → f.lefts ≠ [] ∧ f.rights ≠ []) :
    ∃ W' it, W.erase (Nary.kind α) x pos = Res.ok (W', .ret it) ∧
      Owned (Nary.shape α) W' (upd ts x (some (Nary.fill c none))) ∧ ∀ a ∈ s.addrs, W'.heap.cells a = none := by
  have hn : c = (Nary.shape α).top ∨ (Nary.shape α).removable c := by
    cases c with
    | nil => exact Or.inl rfl
    | cons f fs =>
      obtain ⟨h1, h2⟩ := hmid f fs rfl
      exact Or.inr (by simp [Nary.shape, h1, h2])
  obtain ⟨W', l1, l2, e, _, _, O', hf⟩ := Generic.erase (Nary.lawful α) O hx A hn
  exact ⟨W', _, e, O', fun a ha => hf a (by rw [Nary.shape_addrs]; exact ha)⟩

/-- `erase` of a first child of an nary tree always writes through a null pointer, whatever the tree. -/
theorem C61_first_child_defect {W : World (NNode α)} {ts : Nat → Option (Option (Tree (Addr × α)))} (O : Owned (Nary.shape α) W ts)
    {x : Nat} {t : Option (Tree (Addr × α))} {s : Tree (Addr × α)} {f : Frame (Addr × α)} {fs : List (Frame (Addr × α))} {pos : It}
    (hx : ts x = some t) (A : At (Nary.shape α) Policy.postOrder W.heap t pos (f :: fs) (some s)) (hfirst : f.lefts = []) :
    W.erase (Nary.kind α) x pos = Res.ub :=
  Nary.erase_first O hx A hfirst

/-- `erase` of a last child that has a sibling always leaves the parent with a first child but without a last child: the
nodes in memory are no longer any family of trees. -/
theorem C61_last_child_defect {W : World (NNode α)} {ts : Nat → Option (Option (Tree (Addr × α)))} (O : Owned (Nary.shape α) W ts)
    {x : Nat} {t : Option (Tree (Addr × α))} {s : Tree (Addr × α)} {f : Frame (Addr × α)} {fs : List (Frame (Addr × α))} {pos : It}
    (hx : ts x = some t) (A : At (Nary.shape α) Policy.postOrder W.heap t pos (f :: fs) (some s)) (hl : f.lefts ≠ []) (hlast : f.rights = []) :
    ∃ W' it n, W.erase (Nary.kind α) x pos = Res.ok (W', .ret it) ∧ W'.heap.cells f.label.1 = some n ∧ n.first.isSome ∧
      n.last = none ∧ ∀ ts', ¬ Owned (Nary.shape α) W' ts' := by
  obtain ⟨W', it, n, e, h1, h2, h3⟩ := Nary.erase_last O hx A hl hlast
  exact ⟨W', it, n, e, h1, h2, h3, fun ts' => Nary.not_owned h1 h2 h3⟩

open Samples in
example : ∃ W' it ts, bworld.erase (Binary.kind Nat) 0 ⟨⟨some 1, []⟩, some 0⟩ = Res.ok (W', .ret it) ∧ Owned (Binary.shape Nat) W' ts ∧
    ts 0 = some (.node (0,1) .nil (.node (3,3) (.node (4,5) .nil .nil) .nil)) := by
  obtain ⟨ts, O, h0, h1, h2⟩ := bstate
  obtain ⟨W', it, e, O', _⟩ := C19_erase_binary O h0 (pos := ⟨⟨some 1, []⟩, some 0⟩) (binary_at postOrder_mem
    [⟨(0,1), true, .node (3,3) (.node (4,5) .nil .nil) .nil⟩] (.node (1,2) .nil (.node (2,4) .nil .nil)) rfl (by simp) rfl rfl rfl)
  exact ⟨W', it, _, e, O', by simp [upd]; rfl⟩

open Samples in
example : ∃ W' it ts, nworld.erase (Nary.kind Nat) 0 ⟨⟨some 2, []⟩, some 0⟩ = Res.ok (W', .ret it) ∧ Owned (Nary.shape Nat) W' ts ∧
    ts 0 = some (some (node (0,1) [node (1,2) [node (4,5) [], node (5,6) [node (6,7) []]], node (3,4) []])) := by
  obtain ⟨ts, O, h0, h1, h2⟩ := nstate
  obtain ⟨W', it, e, O', _⟩ := C61_erase_partial O h0 (pos := ⟨⟨some 2, []⟩, some 0⟩) (nary_at postOrder_mem
    [⟨(0,1), [node (1,2) [node (4,5) [], node (5,6) [node (6,7) []]]], [node (3,4) []]⟩] (node (2,3) []) rfl rfl rfl rfl)
    (by rintro f fs ⟨⟩; simp)
  exact ⟨W', it, _, e, O', by simp [upd]; rfl⟩

open Samples in
example : nworld.erase (Nary.kind Nat) 0 ⟨⟨some 1, []⟩, some 0⟩ = Res.ub := by
  obtain ⟨ts, O, h0, h1, h2⟩ := nstate
  exact C61_first_child_defect O h0 (pos := ⟨⟨some 1, []⟩, some 0⟩) (nary_at postOrder_mem
    [⟨(0,1), [], [node (2,3) [], node (3,4) []]⟩] (node (1,2) [node (4,5) [], node (5,6) [node (6,7) []]]) rfl rfl rfl rfl) rfl

open Samples in
example : ∃ W' it, nworld.erase (Nary.kind Nat) 0 ⟨⟨some 3, []⟩, some 0⟩ = Res.ok (W', .ret it) ∧
    ∀ ts, ¬ Owned (Nary.shape Nat) W' ts := by
  obtain ⟨ts, O, h0, h1, h2⟩ := nstate
  obtain ⟨W', it, n, e, _, _, _, h⟩ := C61_last_child_defect O h0 (pos := ⟨⟨some 3, []⟩, some 0⟩) (nary_at postOrder_mem
    [⟨(0,1), [node (1,2) [node (4,5) [], node (5,6) [node (6,7) []]], node (2,3) []], []⟩] (node (3,4) []) rfl rfl rfl rfl)
    (by simp) rfl
  exact ⟨W', it, e, h⟩

/-! ## C25, C65 calls that throw -/

/-- `insert_over` of a moved tree (or of a copy of an empty one) that throws: every tree is what it was, nothing leaks.
Sources that allocate new nodes leak always (`C65_insert_over_leaks_nary_defect`). -/
theorem C25_insert_over_throws_nary {W : World (NNode α)} {ts : Nat → Option (Option (Tree (Addr × α)))}
    (O : Owned (Nary.shape α) W ts) {x : Nat} {t : Option (Tree (Addr × α))} {P : Policy} {pos : It} {src : Src α (Tree α)}
    (hx : ts x = some t) (hok : SrcOk (Nary.shape α) ts src) (hthrow : src = .moveOf x ∨ (AtEnd pos ∧ t ≠ none))
    (hs : (∃ y, src = .moveOf y) ∨ SrcEmpty (Nary.shape α) ts src) (sb ab : Bool) :
    ∃ W', W.insertOver (Nary.kind α) sb ab P x pos src = Res.ok (W', .threw) ∧ Owned (Nary.shape α) W' ts :=
  Generic.overThrows (Nary.lawful α) O hx hok hthrow hs sb ab

theorem C25_insert_over_throws_binary {W : World (BNode α)} {ts : Nat → Option (BTree (Addr × α))}
    (O : Owned (Binary.shape α) W ts) {x : Nat} {t : BTree (Addr × α)} {P : Policy} {pos : It} {src : Src α (Lit α)}
    (hx : ts x = some t) (hok : SrcOk (Binary.shape α) ts src) (hthrow : src = .moveOf x ∨ (AtEnd pos ∧ t ≠ .nil))
    (hs : (∃ y, src = .moveOf y) ∨ SrcEmpty (Binary.shape α) ts src) (sb ab : Bool) :
    ∃ W', W.insertOver (Binary.kind α) sb ab P x pos src = Res.ok (W', .threw) ∧ Owned (Binary.shape α) W' ts :=
  Generic.overThrows (Binary.lawful α) O hx hok hthrow hs sb ab

/-- `insert_child_front/back` of anything but a moved non-empty tree that throws: every tree is what it was, nothing leaks.
The nodes of moved non-empty trees are freed (`C65_insert_child_move_nary_defect`). -/
theorem C25_insert_child_throws_nary {W : World (NNode α)} {ts : Nat → Option (Option (Tree (Addr × α)))}
    (O : Owned (Nary.shape α) W ts) {x : Nat} {t : Option (Tree (Addr × α))} {P : Policy} {pos : It} {src : Src α (Tree α)}
    (hx : ts x = some t) (hok : SrcOk (Nary.shape α) ts src) (hthrow : src = .moveOf x ∨ AtEnd pos)
    (hs : src = .moveOf x ∨ (∀ y, src ≠ .moveOf y) ∨ SrcEmpty (Nary.shape α) ts src) (front : Bool) :
    ∃ W', W.insertChild (Nary.kind α) front P x pos src = Res.ok (W', .threw) ∧ Owned (Nary.shape α) W' ts :=
  Generic.childThrows (Nary.lawful α) O hx hok (hthrow.elim Or.inl (fun h => Or.inr (Or.inl h))) hs front

theorem C25_insert_child_throws_binary {W : World (BNode α)} {ts : Nat → Option (BTree (Addr × α))}
    (O : Owned (Binary.shape α) W ts) {x : Nat} {t : BTree (Addr × α)} {P : Policy} {pos : It} {src : Src α (Lit α)}
    (hx : ts x = some t) (hok : SrcOk (Binary.shape α) ts src)
    (hthrow : src = .moveOf x ∨ AtEnd pos ∨ ∃ c s, At (Binary.shape α) P W.heap t pos c s ∧ Binary.twoKids s = true)
    (hs : src = .moveOf x ∨ (∀ y, src ≠ .moveOf y) ∨ SrcEmpty (Binary.shape α) ts src) (front : Bool) :
    ∃ W', W.insertChild (Binary.kind α) front P x pos src = Res.ok (W', .threw) ∧ Owned (Binary.shape α) W' ts :=
  Generic.childThrows (Binary.lawful α) O hx hok hthrow hs front

/-- `insert_over` with a new element at `end()` of a non-empty tree throws and always leaks: some node that was not allocated
before is allocated now and no family of trees accounts for the memory. -/
theorem C65_insert_over_leaks_nary_defect {W : World (NNode α)} {ts : Nat → Option (Option (Tree (Addr × α)))}
    (O : Owned (Nary.shape α) W ts) {x : Nat} {t : Option (Tree (Addr × α))} {P : Policy} {pos : It} {src : Src α (Tree α)}
    (hx : ts x = some t) (ht : t ≠ none) (hok : SrcOk (Nary.shape α) ts src) (hend : AtEnd pos)
    (hnew : ∀ y, src ≠ .moveOf y) (hne : ¬ SrcEmpty (Nary.shape α) ts src) (sb ab : Bool) :
    ∃ W' a, W.insertOver (Nary.kind α) sb ab P x pos src = Res.ok (W', .threw) ∧ W.heap.cells a = none ∧ (W'.heap.cells a).isSome ∧
      ∀ ts', ¬ Owned (Nary.shape α) W' ts' :=
  Generic.overLeaks (Nary.lawful α) (Nary.determined α) O hx ht hok hend hnew hne sb ab

theorem C65_insert_over_leaks_binary_defect {W : World (BNode α)} {ts : Nat → Option (BTree (Addr × α))}
    (O : Owned (Binary.shape α) W ts) {x : Nat} {t : BTree (Addr × α)} {P : Policy} {pos : It} {src : Src α (Lit α)}
    (hx : ts x = some t) (ht : t ≠ .nil) (hok : SrcOk (Binary.shape α) ts src) (hend : AtEnd pos)
    (hnew : ∀ y, src ≠ .moveOf y) (hne : ¬ SrcEmpty (Binary.shape α) ts src) (sb ab : Bool) :
    ∃ W' a, W.insertOver (Binary.kind α) sb ab P x pos src = Res.ok (W', .threw) ∧ W.heap.cells a = none ∧ (W'.heap.cells a).isSome ∧
      ∀ ts', ¬ Owned (Binary.shape α) W' ts' :=
  Generic.overLeaks (Binary.lawful α) (Binary.determined α) O hx ht hok hend hnew hne sb ab

/-- `insert_child` of a moved non-empty tree that throws always leaves the moved tree object pointing to freed memory. -/
theorem C65_insert_child_move_nary_defect {W : World (NNode α)} {ts : Nat → Option (Option (Tree (Addr × α)))}
    (O : Owned (Nary.shape α) W ts) {x y : Nat} {t u : Option (Tree (Addr × α))} {P : Policy} {pos : It}
    (hx : ts x = some t) (hy : ts y = some u) (hu : u ≠ none) (hxy : x ≠ y) (hend : AtEnd pos) (front : Bool) :
    ∃ W' r a, W.insertChild (Nary.kind α) front P x pos (.moveOf y) = Res.ok (W', .threw) ∧ W'.vars y = some r ∧ r.root = some a ∧
      W'.heap.cells a = none ∧ ∀ ts', ¬ Owned (Nary.shape α) W' ts' :=
  Generic.childMoveDangles (Nary.lawful α) O hx hy hu hxy (Or.inl hend) front

theorem C65_insert_child_move_binary_defect {W : World (BNode α)} {ts : Nat → Option (BTree (Addr × α))}
    (O : Owned (Binary.shape α) W ts) {x y : Nat} {t u : BTree (Addr × α)} {P : Policy} {pos : It}
    (hx : ts x = some t) (hy : ts y = some u) (hu : u ≠ .nil) (hxy : x ≠ y)
    (hbad : AtEnd pos ∨ ∃ c s, At (Binary.shape α) P W.heap t pos c s ∧ Binary.twoKids s = true) (front : Bool) :
    ∃ W' r a, W.insertChild (Binary.kind α) front P x pos (.moveOf y) = Res.ok (W', .threw) ∧ W'.vars y = some r ∧ r.root = some a ∧
      W'.heap.cells a = none ∧ ∀ ts', ¬ Owned (Binary.shape α) W' ts' :=
  Generic.childMoveDangles (Binary.lawful α) O hx hy hu hxy hbad front

open Samples in
/-- `x0.insert_over(x0.end(), std::move(x1))`, and moving a tree into itself. -/
example : (∃ W' ts, nworld.insertOver (Nary.kind Nat) true true Policy.preOrder 0 ⟨⟨none, []⟩, some 0⟩ (.moveOf 1) = Res.ok (W', .threw) ∧
      Owned (Nary.shape Nat) W' ts ∧ ts 0 = some (some deep)) ∧
    ∃ W' ts, nworld.insertOver (Nary.kind Nat) true true Policy.preOrder 0 ⟨⟨some 1, []⟩, some 0⟩ (.moveOf 0) = Res.ok (W', .threw) ∧
      Owned (Nary.shape Nat) W' ts ∧ ts 0 = some (some deep) := by
  obtain ⟨ts, O, h0, h1, h2⟩ := nstate
  obtain ⟨W1, e1, O1⟩ := C25_insert_over_throws_nary (P := Policy.preOrder) (pos := ⟨⟨none, []⟩, some 0⟩) (src := .moveOf 1) O h0
    (by simp [SrcOk, h1]) (Or.inr ⟨rfl, by simp⟩) (Or.inl ⟨_, rfl⟩) true true
  obtain ⟨W2, e2, O2⟩ := C25_insert_over_throws_nary (P := Policy.preOrder) (pos := ⟨⟨some 1, []⟩, some 0⟩) (src := .moveOf 0) O h0
    (by simp [SrcOk, h0]) (Or.inl rfl) (Or.inl ⟨_, rfl⟩) true true
  exact ⟨⟨W1, ts, e1, O1, h0⟩, ⟨W2, ts, e2, O2, h0⟩⟩

open Samples in
example : ∃ W' ts, bworld.insertOver (Binary.kind Nat) true true Policy.preOrder 1 ⟨⟨none, []⟩, some 0⟩ (.moveOf 1) = Res.ok (W', .threw) ∧
      Owned (Binary.shape Nat) W' ts ∧ ts 0 = some bin := by
  obtain ⟨ts, O, h0, h1, h2⟩ := bstate
  obtain ⟨W1, e1, O1⟩ := C25_insert_over_throws_binary (P := Policy.preOrder) (pos := ⟨⟨none, []⟩, some 0⟩) (src := .moveOf 1) O h1
    (by simp [SrcOk, h1]) (Or.inl rfl) (Or.inl ⟨_, rfl⟩) true true
  exact ⟨W1, ts, e1, O1, h0⟩

open Samples in
example : ∃ W' ts, nworld.insertChild (Nary.kind Nat) true Policy.preOrder 0 ⟨⟨none, []⟩, some 0⟩ (.value 3) = Res.ok (W', .threw) ∧
      Owned (Nary.shape Nat) W' ts ∧ ts 0 = some (some deep) := by
  obtain ⟨ts, O, h0, h1, h2⟩ := nstate
  obtain ⟨W1, e1, O1⟩ := C25_insert_child_throws_nary (P := Policy.preOrder) (pos := ⟨⟨none, []⟩, some 0⟩) (src := .value 3) O h0
    trivial (Or.inr rfl) (Or.inr (Or.inl (by simp))) true
  exact ⟨W1, ts, e1, O1, h0⟩

open Samples in
example : ∃ W' ts, bworld.insertChild (Binary.kind Nat) false Policy.preOrder 0 ⟨⟨some 0, []⟩, some 0⟩ (.moveOf 1) = Res.ok (W', .threw) ∧
      Owned (Binary.shape Nat) W' ts ∧ ts 0 = some bin := by
  obtain ⟨ts, O, h0, h1, h2⟩ := bstate
  obtain ⟨W1, e1, O1⟩ := C25_insert_child_throws_binary (P := Policy.preOrder) (pos := ⟨⟨some 0, []⟩, some 0⟩) (src := .moveOf 1) O h0
    (by simp [SrcOk, h1]) (Or.inr (Or.inr ⟨_, _, binary_at preOrder_mem [] bin rfl (by simp [bin]) rfl rfl rfl, rfl⟩))
    (Or.inr (Or.inr h1)) false
  exact ⟨W1, ts, e1, O1, h0⟩

open Samples in
example : ∃ W', nworld.insertOver (Nary.kind Nat) true true Policy.preOrder 0 ⟨⟨none, []⟩, some 0⟩ (.value 3) = Res.ok (W', .threw) ∧
      ∀ ts, ¬ Owned (Nary.shape Nat) W' ts := by
  obtain ⟨ts, O, h0, h1, h2⟩ := nstate
  obtain ⟨W1, a, e1, _, _, h⟩ := C65_insert_over_leaks_nary_defect (P := Policy.preOrder) (pos := ⟨⟨none, []⟩, some 0⟩) (src := .value 3) O h0
    (by simp) trivial rfl (by simp) (by simp [SrcEmpty]) true true
  exact ⟨W1, e1, h⟩

open Samples in
example : ∃ W', bworld.insertOver (Binary.kind Nat) true true Policy.preOrder 0 ⟨⟨none, []⟩, some 0⟩ (.copyOf 0) = Res.ok (W', .threw) ∧
      ∀ ts, ¬ Owned (Binary.shape Nat) W' ts := by
  obtain ⟨ts, O, h0, h1, h2⟩ := bstate
  obtain ⟨W1, a, e1, _, _, h⟩ := C65_insert_over_leaks_binary_defect (P := Policy.preOrder) (pos := ⟨⟨none, []⟩, some 0⟩) (src := .copyOf 0) O h0
    (by simp [bin]) (by simp [SrcOk, h0]) rfl (by simp) (by simp [SrcEmpty, h0, Binary.shape, bin]) true true
  exact ⟨W1, e1, h⟩

open Samples in
example : ∃ W', nworld.insertChild (Nary.kind Nat) true Policy.preOrder 1 ⟨⟨none, []⟩, none⟩ (.moveOf 0) = Res.ok (W', .threw) ∧
      ∀ ts, ¬ Owned (Nary.shape Nat) W' ts := by
  obtain ⟨ts, O, h0, h1, h2⟩ := nstate
  obtain ⟨W1, r, a, e1, _, _, _, h⟩ := C65_insert_child_move_nary_defect (P := Policy.preOrder) (pos := ⟨⟨none, []⟩, none⟩) O h1 h0
    (by simp) (by decide) rfl true
  exact ⟨W1, e1, h⟩

open Samples in
example : ∃ W', bworld.insertChild (Binary.kind Nat) true Policy.preOrder 1 ⟨⟨none, []⟩, none⟩ (.moveOf 0) = Res.ok (W', .threw) ∧
      ∀ ts, ¬ Owned (Binary.shape Nat) W' ts := by
  obtain ⟨ts, O, h0, h1, h2⟩ := bstate
  obtain ⟨W1, r, a, e1, _, _, _, h⟩ := C65_insert_child_move_binary_defect (P := Policy.preOrder) (pos := ⟨⟨none, []⟩, none⟩) O h1 h0
    (by simp [bin]) (by decide) (Or.inl rfl) true
  exact ⟨W1, e1, h⟩
