import Verif.Props.Editing
import Verif.Proof.Returned
/-!
# C26-C29, C61, C66, C67: iterators returned by modifiers, and what modifications leave alone

`CursorFrom P nav fuel L k st` (Spec/Cursor.lean): the iterator state `st` is a cursor over `L` at index `k`: any in-range
sequence of `++` and `--` leads to the element with the right index. `ordered P ord` (Spec/World.lean): the order of
pre_order, post_order, breadth_first.
-/
open Tree World

variable {α : Type}

/-! ## C26, C66 the iterator returned by insert_over -/

/-- Below the root: the returned iterator designates the new element and continues over the modified tree. At the root and at
`end()` of an empty tree the code fails: C66. -/
theorem C26_returned_nary {W : World (NNode α)} {ts : Nat → Option (Option (Tree (Addr × α)))} (O : Owned (Nary.shape α) W ts)
    {x : Nat} {t s : Option (Tree (Addr × α))} {f : Frame (Addr × α)} {fs : List (Frame (Addr × α))} {P : Policy} {pos : It}
    {src : Src α (Tree α)} (hx : ts x = some t) (A : At (Nary.shape α) P W.heap t pos (f :: fs) s) (hok : SrcOk (Nary.shape α) ts src)
    (hself : src ≠ .moveOf x) (hne : ¬ SrcEmpty (Nary.shape α) ts src) (sb ab : Bool)
    {ord : Tree Addr → List Addr} (ho : ordered P ord)
    (hpos : P.make (Nary.nav W.heap pos.root) W.heap.fuel pos.st.cur = Res.ok pos.st) :
    ∃ W' n it k, W.insertOver (Nary.kind α) sb ab P x pos src = Res.ok (W', .ret it) ∧ SrcTree (Nary.shape α) ts src (some n) ∧
      Owned (Nary.shape α) W' (upd (afterSrc (Nary.shape α) ts src) x (some (some (plug (f :: fs) n)))) ∧ it.st.cur = some n.addr ∧
      it.root = some (plug (f :: fs) n).addr ∧
      CursorFrom P (Nary.nav W'.heap it.root) W'.heap.fuel (ord (plug (f :: fs) n).addrTree) k it.st := by
  obtain ⟨W', n, it, R, k, e, h1, h2, h3, h4, h5, h6⟩ := Generic.returned (Nary.lawful α) O hx hok hself A (by simp [Nary.shape]) hne sb ab ho hpos
  cases n with
  | none =>
    exfalso
    cases src with
    | value v => obtain ⟨a, ha⟩ := h1; cases ha
    | lit l => cases h1
    | emplaceLit l => cases h1
    | copyOf y =>
      obtain ⟨u, hu, hv⟩ := h1
      cases u with
      | none => exact hne hu
      | some u => cases hv
    | moveOf y => exact hne h1
  | some n =>
    rw [Nary.shape_plug, Nary.fill_some] at h2 h3 h5
    rw [Nary.shape_ptr] at h4 h5
    have hR : R = (plug (f :: fs) n).addrTree := by simpa [Nary.shape] using h3.symm
    subst hR
    exact ⟨W', n, it, k, e, h1, h2, h4, h5, h6⟩

theorem C26_returned_binary {W : World (BNode α)} {ts : Nat → Option (BTree (Addr × α))} (O : Owned (Binary.shape α) W ts)
    {x : Nat} {t s : BTree (Addr × α)} {f : BTree.Frame (Addr × α)} {fs : List (BTree.Frame (Addr × α))} {P : Policy} {pos : It}
    {src : Src α (Lit α)} (hx : ts x = some t) (A : At (Binary.shape α) P W.heap t pos (f :: fs) s) (hok : SrcOk (Binary.shape α) ts src)
    (hself : src ≠ .moveOf x) (hne : ¬ SrcEmpty (Binary.shape α) ts src) (sb ab : Bool)
    {ord : Tree Addr → List Addr} (ho : ordered P ord)
    (hpos : P.make (Binary.nav W.heap pos.root) W.heap.fuel pos.st.cur = Res.ok pos.st) :
    ∃ W' n it R k, W.insertOver (Binary.kind α) sb ab P x pos src = Res.ok (W', .ret it) ∧ SrcTree (Binary.shape α) ts src n ∧
      Owned (Binary.shape α) W' (upd (afterSrc (Binary.shape α) ts src) x (some (BTree.plug (f :: fs) n))) ∧ it.st.cur = n.addr? ∧
      it.root = (BTree.plug (f :: fs) n).addr? ∧ (BTree.plug (f :: fs) n).addrTree.toRose = [R] ∧
      CursorFrom P (Binary.nav W'.heap it.root) W'.heap.fuel (ord R) k it.st := by
  obtain ⟨W', n, it, R, k, e, h1, h2, h3, h4, h5, h6⟩ := Generic.returned (Binary.lawful α) O hx hok hself A (by simp [Binary.shape]) hne sb ab ho hpos
  rw [Binary.shape_ptr] at h4 h5
  exact ⟨W', n, it, R, k, e, h1, h2, h4, h5, h3, h6⟩

/-- in_order. -/
theorem C26_returned_in_order {W : World (BNode α)} {ts : Nat → Option (BTree (Addr × α))} (O : Owned (Binary.shape α) W ts)
    {x : Nat} {t s : BTree (Addr × α)} {f : BTree.Frame (Addr × α)} {fs : List (BTree.Frame (Addr × α))} {pos : It}
    {src : Src α (Lit α)} (hx : ts x = some t) (A : At (Binary.shape α) Policy.inOrder W.heap t pos (f :: fs) s)
    (hok : SrcOk (Binary.shape α) ts src) (hself : src ≠ .moveOf x) (hne : ¬ SrcEmpty (Binary.shape α) ts src) (sb ab : Bool)
    (hpos : Policy.inOrder.make (Binary.nav W.heap pos.root) W.heap.fuel pos.st.cur = Res.ok pos.st) :
    ∃ W' n it k, W.insertOver (Binary.kind α) sb ab Policy.inOrder x pos src = Res.ok (W', .ret it) ∧ SrcTree (Binary.shape α) ts src n ∧
      Owned (Binary.shape α) W' (upd (afterSrc (Binary.shape α) ts src) x (some (BTree.plug (f :: fs) n))) ∧ it.st.cur = n.addr? ∧
      it.root = (BTree.plug (f :: fs) n).addr? ∧
      CursorFrom Policy.inOrder (Binary.nav W'.heap it.root) W'.heap.fuel (BTree.plug (f :: fs) n).addrTree.inorder k it.st := by
  obtain ⟨W', n, it, a, e, h1, h2, h3, h4, h5, h6⟩ := Generic.returnedMake (Binary.lawful α) O hx hok hself A (by simp [Binary.shape]) hne sb ab
    (Or.inr ⟨_, _, _, _, rfl⟩) hpos
  rw [Binary.shape_ptr] at h3 h5
  have H : Binary.Rep W'.heap (BTree.plug (f :: fs) n) := h2.rep x _ (by simp [upd]; rfl)
  obtain ⟨r, hr⟩ : ∃ r, (BTree.plug (f :: fs) n).addr? = some r := by
    obtain ⟨r, hr⟩ := (Binary.lawful α).ptr_plug_mem (f :: fs) (by simp [Binary.shape])
    exact ⟨r, by rw [← Binary.shape_ptr, ← hr]; exact (Binary.lawful α).ptr_plug (f :: fs) n .nil (by simp [Binary.shape])⟩
  have hne' : (BTree.plug (f :: fs) n).addrTree ≠ .nil := by
    intro h
    cases hb : BTree.plug (f :: fs) n with
    | nil => rw [hb] at hr; cases hr
    | node => rw [hb] at h; cases h
  have hm : a ∈ (BTree.plug (f :: fs) n).addrTree.inorder := by
    have h : a ∈ (Binary.shape α).addrs ((Binary.shape α).plug (f :: fs) n) :=
      (Binary.lawful α).mem_plug.mpr (Or.inr ((Binary.lawful α).ptr_mem (by rw [Binary.shape_ptr]; exact h3)))
    rw [Binary.shape_addrs] at h
    refine (BTree.inorder_perm_pre _).mem_iff.mpr ?_
    rw [BTree.addrTree, BTree.pre_map]
    exact h
  have h5' : it.root = (BTree.plug (f :: fs) n).addr? := h5
  obtain ⟨k, _, hk⟩ := (inOrder_at (Binary.bnav_spec (gs := []) H hr) hne' (fuel := W'.heap.fuel) (by
    have hs : (BTree.plug fs (f.fill n)).size ≤ W'.heap.next := Binary.size_le h2.wf H
    rw [BTree.addrTree, BTree.size_map]
    simp only [Heap.fuel, BTree.plug]; omega)).from hm (by rw [h5', hr] at h6; exact h6)
  exact ⟨W', n, it, k, e, h1, h2, h4.trans h3.symm, h5', by rw [h5', hr]; exact hk⟩

/-- `insert_child_front/back` return an iterator at the same node that continues over the modified tree. -/
theorem C26_insert_child_nary {W : World (NNode α)} {ts : Nat → Option (Option (Tree (Addr × α)))} (O : Owned (Nary.shape α) W ts)
    {x : Nat} {t : Option (Tree (Addr × α))} {p : Addr × α} {cs : List (Tree (Addr × α))} {c : List (Frame (Addr × α))} {P : Policy}
    {pos : It} {src : Src α (Tree α)} (hx : ts x = some t) (A : At (Nary.shape α) P W.heap t pos c (some (node p cs)))
    (hok : SrcOk (Nary.shape α) ts src) (hself : src ≠ .moveOf x) (front : Bool) {ord : Tree Addr → List Addr} (ho : ordered P ord) :
    ∃ W' n it k, W.insertChild (Nary.kind α) front P x pos src = Res.ok (W', .ret it) ∧ SrcTree (Nary.shape α) ts src n ∧
      Owned (Nary.shape α) W' (upd (afterSrc (Nary.shape α) ts src) x
        (some (some (plug c (node p (if front then n.toList ++ cs else cs ++ n.toList)))))) ∧
      it.st.cur = some p.1 ∧
      CursorFrom P (Nary.nav W'.heap it.root) W'.heap.fuel
        (ord (plug c (node p (if front then n.toList ++ cs else cs ++ n.toList))).addrTree) k it.st := by
  obtain ⟨W', n, it, R, k, e, h1, h2, h3, h4, h5⟩ := Generic.returnedChild (Nary.lawful α) O hx hok hself A rfl front ho
  have hs : (if front then (Nary.shape α).front n (some (node p cs)) else (Nary.shape α).back n (some (node p cs))) =
      some (node p (if front then n.toList ++ cs else cs ++ n.toList)) := by cases front <;> rfl
  rw [hs, Nary.shape_plug, Nary.fill_some] at h2 h3
  have hR : R = (plug c (node p (if front then n.toList ++ cs else cs ++ n.toList))).addrTree := by simpa [Nary.shape] using h3.symm
  subst hR
  exact ⟨W', n, it, k, e, h1, h2, by rw [h4, A.cur, Nary.shape_ptr]; rfl, h5⟩

theorem C26_insert_child_binary {W : World (BNode α)} {ts : Nat → Option (BTree (Addr × α))} (O : Owned (Binary.shape α) W ts)
    {x : Nat} {t l r : BTree (Addr × α)} {p : Addr × α} {c : List (BTree.Frame (Addr × α))} {P : Policy}
    {pos : It} {src : Src α (Lit α)} (hx : ts x = some t) (A : At (Binary.shape α) P W.heap t pos c (.node p l r))
    (hroom : l = .nil ∨ r = .nil) (hok : SrcOk (Binary.shape α) ts src) (hself : src ≠ .moveOf x) (front : Bool)
    {ord : Tree Addr → List Addr} (ho : ordered P ord) :
    ∃ W' n it t' R k, W.insertChild (Binary.kind α) front P x pos src = Res.ok (W', .ret it) ∧ SrcTree (Binary.shape α) ts src n ∧
      t' = BTree.plug c (if front then Binary.addLeft n (.node p l r) else Binary.addRight n (.node p l r)) ∧
      Owned (Binary.shape α) W' (upd (afterSrc (Binary.shape α) ts src) x (some t')) ∧
      it.st.cur = some p.1 ∧ t'.addrTree.toRose = [R] ∧
      CursorFrom P (Binary.nav W'.heap it.root) W'.heap.fuel (ord R) k it.st := by
  have hf : (Binary.shape α).isFull (.node p l r) = false := by
    rcases hroom with rfl | rfl
    · rfl
    · cases l <;> rfl
  obtain ⟨W', n, it, R, k, e, h1, h2, h3, h4, h5⟩ := Generic.returnedChild (Binary.lawful α) O hx hok hself A hf front ho
  exact ⟨W', n, it, _, R, k, e, h1, rfl, h2, by rw [h4, A.cur, Binary.shape_ptr]; rfl, h3, h5⟩

/-- At the root the returned iterator designates the new root but remembers, as the root of what it iterates over, the
old root, whose memory is freed. -/
theorem C66_nary_defect {W : World (NNode α)} {ts : Nat → Option (Option (Tree (Addr × α)))} (O : Owned (Nary.shape α) W ts)
    {x : Nat} {t s : Option (Tree (Addr × α))} {P : Policy} {pos : It}
    {src : Src α (Tree α)} (hx : ts x = some t) (A : At (Nary.shape α) P W.heap t pos [] s) (hok : SrcOk (Nary.shape α) ts src)
    (hself : src ≠ .moveOf x) (sb ab : Bool) :
    ∃ W' n it b, W.insertOver (Nary.kind α) sb ab P x pos src = Res.ok (W', .ret it) ∧ SrcTree (Nary.shape α) ts src n ∧
      Owned (Nary.shape α) W' (upd (afterSrc (Nary.shape α) ts src) x (some n)) ∧ it.st.cur = (Nary.shape α).ptr n ∧
      it.root = some b ∧ W'.heap.cells b = none :=
  Generic.staleRoot (Nary.lawful α) O hx hok hself A sb ab

theorem C66_binary_defect {W : World (BNode α)} {ts : Nat → Option (BTree (Addr × α))} (O : Owned (Binary.shape α) W ts)
    {x : Nat} {t s : BTree (Addr × α)} {P : Policy} {pos : It}
    {src : Src α (Lit α)} (hx : ts x = some t) (A : At (Binary.shape α) P W.heap t pos [] s) (hok : SrcOk (Binary.shape α) ts src)
    (hself : src ≠ .moveOf x) (sb ab : Bool) :
    ∃ W' n it b, W.insertOver (Binary.kind α) sb ab P x pos src = Res.ok (W', .ret it) ∧ SrcTree (Binary.shape α) ts src n ∧
      Owned (Binary.shape α) W' (upd (afterSrc (Binary.shape α) ts src) x (some n)) ∧ it.st.cur = (Binary.shape α).ptr n ∧
      it.root = some b ∧ W'.heap.cells b = none :=
  Generic.staleRoot (Binary.lawful α) O hx hok hself A sb ab

/-- `x0 = 1(2)`, `insert_over(begin(), n(5)(n(6)))`. -/
def Samples.rootOps : List (Op Nat (Tree Nat)) := [.newLit 0 (node 1 [node 2 []]),
  .insertOver true true Policy.preOrder 0 ⟨⟨some 0, []⟩, some 0⟩ (.lit (node 5 [node 6 []]))]

open Samples in
/-- What that means: from the returned iterator on the new root 5, `++` goes to 6, and `++` from there, in the new tree the
last node, comes back to 5 instead of ending. A fresh iterator ends there. -/
theorem C66_loop_defect : ∃ W it, start.run (Nary.kind Nat) rootOps = Res.ok (W, [.unit, .iter (.ret it)]) ∧
    it = ⟨⟨some 2, []⟩, some 0⟩ ∧
    Iter.moves Policy.preOrder (Nary.nav W.heap it.root) W.heap.fuel [.inc] it.st = Res.ok ⟨some 3, []⟩ ∧
    Iter.moves Policy.preOrder (Nary.nav W.heap it.root) W.heap.fuel [.inc, .inc] it.st = Res.ok ⟨some 2, []⟩ ∧
    Iter.moves Policy.preOrder (Nary.nav W.heap (some 2)) W.heap.fuel [.inc, .inc] it.st = Res.ok ⟨none, []⟩ :=
  ⟨after (Nary.kind Nat) rootOps, _, rfl, rfl, rfl, rfl, rfl⟩

open Samples in
example : ∃ W' n it k ts, nworld.insertOver (Nary.kind Nat) true true Policy.breadthFirst 0 ⟨⟨some 2, [3, 4]⟩, some 0⟩ (.lit (node 8 [node 9 []])) =
      Res.ok (W', .ret it) ∧ Owned (Nary.shape Nat) W' ts ∧
      ts 0 = some (some (node (0,1) [node (1,2) [node (4,5) [], node (5,6) [node (6,7) []]], n, node (3,4) []])) ∧
      it.st.cur = some n.addr ∧ CursorFrom Policy.breadthFirst (Nary.nav W'.heap it.root) W'.heap.fuel
        (node (0,1) [node (1,2) [node (4,5) [], node (5,6) [node (6,7) []]], n, node (3,4) []]).addrTree.bfs k it.st := by
  obtain ⟨ts, O, h0, h1, h2⟩ := nstate
  obtain ⟨W', n, it, k, e, _, O', h3, h4, h5⟩ := C26_returned_nary O h0 (pos := ⟨⟨some 2, [3, 4]⟩, some 0⟩)
    (nary_at breadthFirst_mem [⟨(0,1), [node (1,2) [node (4,5) [], node (5,6) [node (6,7) []]]], [node (3,4) []]⟩] (node (2,3) []) rfl rfl rfl rfl)
    (src := .lit (node 8 [node 9 []])) trivial (by simp) (by simp [SrcEmpty]) true true (Or.inr (Or.inr ⟨rfl, rfl⟩)) rfl
  exact ⟨W', n, it, k, _, e, O', by simp [upd, plug], h3, h5⟩

open Samples in
example : ∃ W' n it R k ts, bworld.insertOver (Binary.kind Nat) true true Policy.postOrder 0 ⟨⟨some 3, []⟩, some 0⟩ (.value 9) =
      Res.ok (W', .ret it) ∧ Owned (Binary.shape Nat) W' ts ∧
      ts 0 = some (.node (0,1) (.node (1,2) .nil (.node (2,4) .nil .nil)) n) ∧
      CursorFrom Policy.postOrder (Binary.nav W'.heap it.root) W'.heap.fuel (Tree.post R) k it.st := by
  obtain ⟨ts, O, h0, h1, h2⟩ := bstate
  obtain ⟨W', n, it, R, k, e, _, O', h3, h4, _, h5⟩ := C26_returned_binary O h0 (pos := ⟨⟨some 3, []⟩, some 0⟩) (binary_at postOrder_mem
    [⟨(0,1), false, .node (1,2) .nil (.node (2,4) .nil .nil)⟩] (.node (3,3) (.node (4,5) .nil .nil) .nil) rfl (by simp) rfl rfl rfl)
    (src := .value 9) trivial (by simp) (by simp [SrcEmpty]) true true (Or.inr (Or.inl ⟨rfl, rfl⟩)) rfl
  exact ⟨W', n, it, R, k, _, e, O', by simp [upd]; rfl, h5⟩

open Samples in
example : ∃ W' n it k ts, bworld.insertOver (Binary.kind Nat) true true Policy.inOrder 0 ⟨⟨some 3, []⟩, some 0⟩ (.value 9) =
      Res.ok (W', .ret it) ∧ Owned (Binary.shape Nat) W' ts ∧
      CursorFrom Policy.inOrder (Binary.nav W'.heap it.root) W'.heap.fuel
        (BTree.node (0,1) (.node (1,2) .nil (.node (2,4) .nil .nil)) n).addrTree.inorder k it.st := by
  obtain ⟨ts, O, h0, h1, h2⟩ := bstate
  obtain ⟨W', n, it, k, e, _, O', h3, h4, h5⟩ := C26_returned_in_order O h0 (pos := ⟨⟨some 3, []⟩, some 0⟩) (binary_at inOrder_mem
    [⟨(0,1), false, .node (1,2) .nil (.node (2,4) .nil .nil)⟩] (.node (3,3) (.node (4,5) .nil .nil) .nil) rfl (by simp) rfl rfl rfl)
    (src := .value 9) trivial (by simp) (by simp [SrcEmpty]) true true rfl
  exact ⟨W', n, it, k, _, e, O', h5⟩

open Samples in
example : ∃ W' n it k ts, nworld.insertChild (Nary.kind Nat) true Policy.preOrder 0 ⟨⟨some 2, []⟩, some 0⟩ (.value 8) =
      Res.ok (W', .ret it) ∧ Owned (Nary.shape Nat) W' ts ∧ it.st.cur = some 2 ∧
      CursorFrom Policy.preOrder (Nary.nav W'.heap it.root) W'.heap.fuel
        (node (0,1) [node (1,2) [node (4,5) [], node (5,6) [node (6,7) []]], node (2,3) (Option.toList n), node (3,4) []]).addrTree.pre k it.st := by
  obtain ⟨ts, O, h0, h1, h2⟩ := nstate
  obtain ⟨W', n, it, k, e, _, O', h3, h5⟩ := C26_insert_child_nary O h0 (pos := ⟨⟨some 2, []⟩, some 0⟩)
    (nary_at preOrder_mem [⟨(0,1), [node (1,2) [node (4,5) [], node (5,6) [node (6,7) []]]], [node (3,4) []]⟩] (node (2,3) []) rfl rfl rfl rfl)
    (src := .value 8) trivial (by simp) true (Or.inl ⟨rfl, rfl⟩)
  refine ⟨W', n, it, k, _, e, O', h3, ?_⟩
  simpa [plug] using h5

open Samples in
example : ∃ W' n it R k ts, bworld.insertChild (Binary.kind Nat) false Policy.breadthFirst 0 ⟨⟨some 1, [3, 2]⟩, some 0⟩ (.value 8) =
      Res.ok (W', .ret it) ∧ Owned (Binary.shape Nat) W' ts ∧
      ts 0 = some (.node (0,1) (Binary.addRight n (.node (1,2) .nil (.node (2,4) .nil .nil))) (.node (3,3) (.node (4,5) .nil .nil) .nil)) ∧
      CursorFrom Policy.breadthFirst (Binary.nav W'.heap it.root) W'.heap.fuel (Tree.bfs R) k it.st := by
  obtain ⟨ts, O, h0, h1, h2⟩ := bstate
  obtain ⟨W', n, it, t', R, k, e, _, ht', O', _, _, h5⟩ := C26_insert_child_binary O h0 (pos := ⟨⟨some 1, [3, 2]⟩, some 0⟩) (binary_at breadthFirst_mem
    [⟨(0,1), true, .node (3,3) (.node (4,5) .nil .nil) .nil⟩] (.node (1,2) .nil (.node (2,4) .nil .nil)) rfl (by simp) rfl rfl rfl)
    (Or.inl rfl) (src := .value 8) trivial (by simp) false (Or.inr (Or.inr ⟨rfl, rfl⟩))
  exact ⟨W', n, it, R, k, _, e, O', by rw [ht']; simp [upd]; rfl, h5⟩

open Samples in
example : ∃ W' n it b ts, bworld.insertOver (Binary.kind Nat) true true Policy.preOrder 0 ⟨⟨some 0, []⟩, some 0⟩ (.value 9) =
      Res.ok (W', .ret it) ∧ Owned (Binary.shape Nat) W' ts ∧ ts 0 = some n ∧ it.root = some b ∧ W'.heap.cells b = none := by
  obtain ⟨ts, O, h0, h1, h2⟩ := bstate
  obtain ⟨W', n, it, b, e, _, O', _, h5, h6⟩ := C66_binary_defect O h0 (pos := ⟨⟨some 0, []⟩, some 0⟩)
    (binary_at preOrder_mem [] bin rfl (by simp [bin]) rfl rfl rfl) (src := .value 9) trivial (by simp) true true
  exact ⟨W', n, it, b, _, e, O', by simp [upd], h5, h6⟩

open Samples in
example : ∃ W' n it b ts, nworld.insertOver (Nary.kind Nat) true true Policy.preOrder 0 ⟨⟨some 0, []⟩, some 0⟩ (.value 9) =
      Res.ok (W', .ret it) ∧ Owned (Nary.shape Nat) W' ts ∧ ts 0 = some n ∧ it.root = some b ∧ W'.heap.cells b = none := by
  obtain ⟨ts, O, h0, h1, h2⟩ := nstate
  obtain ⟨W', n, it, b, e, _, O', _, h5, h6⟩ := C66_nary_defect O h0 (pos := ⟨⟨some 0, []⟩, some 0⟩)
    (nary_at preOrder_mem [] deep rfl rfl rfl rfl) (src := .value 9) trivial (by simp) true true
  exact ⟨W', n, it, b, _, e, O', by simp [upd], h5, h6⟩

/-! ## C27, C61 the iterator returned by erase, and erasing ranges -/

/-- The post-order of the tree is what comes before the erased subtree, the subtree, and `l2`. Afterwards it is what came
before followed by `l2`, and the returned iterator is at the first node of `l2` (`end()` if there is none), a cursor over the
remaining tree. -/
theorem C27_erase_returns_binary {W : World (BNode α)} {ts : Nat → Option (BTree (Addr × α))} (O : Owned (Binary.shape α) W ts)
    {x : Nat} {t s : BTree (Addr × α)} {c : List (BTree.Frame (Addr × α))} {pos : It} (hx : ts x = some t)
    (A : At (Binary.shape α) Policy.postOrder W.heap t pos c s) :
    ∃ W' it l1 l2, W.erase (Binary.kind α) x pos = Res.ok (W', .ret it) ∧
      postL t.addrTree.toRose = l1 ++ postL s.addrTree.toRose ++ l2 ∧
      postL (BTree.plug c .nil).addrTree.toRose = l1 ++ l2 ∧ it.st.cur = l2.head? ∧
      Owned (Binary.shape α) W' (upd ts x (some (BTree.plug c .nil))) ∧
      CursorFrom Policy.postOrder (Binary.nav W'.heap it.root) W'.heap.fuel (l1 ++ l2) l1.length it.st := by
  obtain ⟨W', l1, l2, e, h1, h2, O', _⟩ := Generic.erase (Binary.lawful α) O hx A (Or.inr trivial)
  have := Generic.postCursor (Binary.lawful α) O'.wf (O'.rep x _ (upd_same _ _ _)) h2
  rw [h2] at this
  exact ⟨W', _, l1, l2, e, h1, h2, rfl, O', this⟩

/-- What `erase` returns. Missing: first and last children, where `erase` fails. -/
theorem C61_returns_partial {W : World (NNode α)} {ts : Nat → Option (Option (Tree (Addr × α)))} (O : Owned (Nary.shape α) W ts)
    {x : Nat} {t s : Tree (Addr × α)} {f : Frame (Addr × α)} {fs : List (Frame (Addr × α))} {pos : It} (hx : ts x = some (some t))
    (A : At (Nary.shape α) Policy.postOrder W.heap (some t) pos (f :: fs) (some s)) (hl : f.lefts ≠ []) (hr : f.rights ≠ []) :
    ∃ W' t' it l1 l2, t' = plug fs (node f.label (f.lefts ++ f.rights)) ∧ W.erase (Nary.kind α) x pos = Res.ok (W', .ret it) ∧
      t.addrTree.post = l1 ++ s.addrTree.post ++ l2 ∧ t'.addrTree.post = l1 ++ l2 ∧ it.st.cur = l2.head? ∧
      Owned (Nary.shape α) W' (upd ts x (some (some t'))) ∧
      CursorFrom Policy.postOrder (Nary.nav W'.heap it.root) W'.heap.fuel (l1 ++ l2) l1.length it.st := by
  obtain ⟨W', l1, l2, e, h1, h2, O', _⟩ := Generic.erase (Nary.lawful α) O hx A (Or.inr (by simp [Nary.shape, hl, hr]))
  have hc := Generic.postCursor (Nary.lawful α) O'.wf (O'.rep x _ (upd_same _ _ _)) h2
  rw [h2] at hc
  have hp : (Nary.shape α).plug (f :: fs) (Nary.shape α).nil = some (plug fs (node f.label (f.lefts ++ f.rights))) := by
    simp [Nary.shape, Nary.fill]
  rw [hp] at h2 O' e
  refine ⟨W', _, _, l1, l2, rfl, e, ?_, ?_, rfl, O', by rw [hp] at hc; exact hc⟩
  · simpa [Shape.post, Nary.shape, postL] using h1
  · simpa [Shape.post, Nary.shape, postL] using h2

/-- `erase(first, last)`: `m` are the nodes from `first` up to `last` in post-order. Afterwards every node whose subtree was
in the range has gone with all nodes below it; the returned iterator is at `last`. -/
theorem C27_erase_range_binary {W : World (BNode α)} {ts : Nat → Option (BTree (Addr × α))} (O : Owned (Binary.shape α) W ts)
    {x : Nat} {t : BTree (Addr × α)} {first last : It} {m : List Addr} (hx : ts x = some t)
    (hR : Range (Binary.shape α) t first last m) :
    ∃ W' it, W.eraseRange (Binary.kind α) x first last = Res.ok (W', .ret it) ∧
      Owned (Binary.shape α) W' (upd ts x (some (t.prune (fun p => decide (p.1 ∈ m))))) ∧ it.st.cur = last.st.cur ∧
      it.root = (t.prune (fun p => decide (p.1 ∈ m))).addr? := by
  have hn := (Binary.lawful α).rep_nodup _ _ (O.rep x t hx)
  obtain ⟨l1, l2, hp, _⟩ := id hR
  obtain ⟨t', hP⟩ := prune_exists (Binary.lawful α) (fun _ => trivial) hn hp
  have ht' := Binary.prune_eq hP (by rw [← Binary.shape_addrs]; exact hn)
  obtain ⟨W', it, e, O', h1, h2⟩ := Generic.eraseRange (Binary.lawful α) O hx hR hP
  rw [ht'] at O' h2
  rw [Binary.shape_ptr] at h2
  exact ⟨W', it, e, O', h1, h2⟩

/-- Exactly the range goes, and the returned iterator is a cursor over what is left, when the range contains with a node all
nodes below it. -/
theorem C27_erase_range_exact {W : World (BNode α)} {ts : Nat → Option (BTree (Addr × α))} (O : Owned (Binary.shape α) W ts)
    {x : Nat} {t : BTree (Addr × α)} {first last : It} {l1 m l2 : List Addr} (hx : ts x = some t)
    (hp : postL t.addrTree.toRose = l1 ++ m ++ l2) (hf : first.st.cur = (m ++ l2).head?) (hl : last.st.cur = l2.head?)
    (hfr : first.root = t.addr?) (hlr : last.root = t.addr?)
    (hclosed : t.Closed (fun p => decide (p.1 ∈ m))) :
    ∃ W' it t', W.eraseRange (Binary.kind α) x first last = Res.ok (W', .ret it) ∧ Owned (Binary.shape α) W' (upd ts x (some t')) ∧
      postL t'.addrTree.toRose = l1 ++ l2 ∧ it.st.cur = l2.head? ∧ it.root = t'.addr? := by
  obtain ⟨W', it, e, O', h1, h2⟩ := C27_erase_range_binary O hx ⟨l1, l2, hp, hf, hl, by rw [Binary.shape_ptr]; exact hfr, by rw [Binary.shape_ptr]; exact hlr⟩
  refine ⟨W', it, _, e, O', ?_, h1.trans hl, h2⟩
  have hnd : (l1 ++ m ++ l2).Nodup := by
    rw [← hp]
    exact ((Binary.lawful α).post_perm t).nodup_iff.mpr ((Binary.lawful α).rep_nodup _ _ (O.rep x t hx))
  have := BTree.prune_post (fun p : Addr × α => decide (p.1 ∈ m)) t hclosed
  rw [BTree.post_addr] at hp ⊢
  rw [this, BTree.filter_fst, hp]
  exact filter_middle hnd

open Samples in
/-- Range `[<4>, <5>)` of `1(2(-,4),3(5))`, the nodes 4 and 2. -/
example : ∃ W' it t' ts, bworld.eraseRange (Binary.kind Nat) 0 ⟨⟨some 2, []⟩, some 0⟩ ⟨⟨some 4, []⟩, some 0⟩ = Res.ok (W', .ret it) ∧
    Owned (Binary.shape Nat) W' ts ∧ ts 0 = some t' ∧ postL t'.addrTree.toRose = [4, 3, 0] ∧ it.st.cur = some 4 := by
  obtain ⟨ts, O, h0, h1, h2⟩ := bstate
  obtain ⟨W', it, t', e, O', h3, h4, h5⟩ := C27_erase_range_exact O h0 (first := ⟨⟨some 2, []⟩, some 0⟩) (last := ⟨⟨some 4, []⟩, some 0⟩)
    (l1 := []) (m := [2, 1]) (l2 := [4, 3, 0]) rfl rfl rfl rfl rfl (by simp [bin, BTree.Closed, BTree.pre])
  exact ⟨W', it, t', _, e, O', by simp [upd], h3, h4⟩

open Samples in
/-- Range `[<2>, <5>)` of `1(2(-,4),3(5))`: node 2 alone, but 4 goes with it. -/
example : ∃ W' it ts, bworld.eraseRange (Binary.kind Nat) 0 ⟨⟨some 1, []⟩, some 0⟩ ⟨⟨some 4, []⟩, some 0⟩ = Res.ok (W', .ret it) ∧
    Owned (Binary.shape Nat) W' ts ∧ ts 0 = some (.node (0,1) .nil (.node (3,3) (.node (4,5) .nil .nil) .nil)) ∧ it.st.cur = some 4 := by
  obtain ⟨ts, O, h0, h1, h2⟩ := bstate
  obtain ⟨W', it, e, O', h3, h4⟩ := C27_erase_range_binary O h0 (first := ⟨⟨some 1, []⟩, some 0⟩) (last := ⟨⟨some 4, []⟩, some 0⟩)
    (m := [1]) ⟨[2], [4, 3, 0], rfl, rfl, rfl, rfl, rfl⟩
  exact ⟨W', it, _, e, O', by simp [upd]; rfl, h3⟩

/-- Nary trees, when every single step erases a node that is neither first nor last child, or the root (`Prune`). Missing: all
other ranges, see `C61_range_defect`. -/
theorem C61_range_partial {W : World (NNode α)} {ts : Nat → Option (Option (Tree (Addr × α)))} (O : Owned (Nary.shape α) W ts)
    {x : Nat} {t : Option (Tree (Addr × α))} {first last : It} {m : List Addr} (hx : ts x = some t)
    (hR : Range (Nary.shape α) t first last m) (hP : ∃ t', Prune (Nary.shape α) t m t') :
    ∃ W' it, W.eraseRange (Nary.kind α) x first last = Res.ok (W', .ret it) ∧
      Owned (Nary.shape α) W' (upd ts x (some (t.bind (Tree.prune (fun p => decide (p.1 ∈ m)))))) ∧ it.st.cur = last.st.cur := by
  obtain ⟨t', hP⟩ := hP
  have ht' := Nary.prune_eq hP ((Nary.lawful α).rep_nodup _ _ (O.rep x t hx))
  obtain ⟨W', it, e, O', h1, h2⟩ := Generic.eraseRange (Nary.lawful α) O hx hR hP
  rw [ht'] at O'
  exact ⟨W', it, e, O', h1⟩

open Samples in
example : ∃ W' it ts, nworld.eraseRange (Nary.kind Nat) 0 ⟨⟨some 2, []⟩, some 0⟩ ⟨⟨some 3, []⟩, some 0⟩ = Res.ok (W', .ret it) ∧
    Owned (Nary.shape Nat) W' ts ∧
    ts 0 = some (some (node (0,1) [node (1,2) [node (4,5) [], node (5,6) [node (6,7) []]], node (3,4) []])) := by
  obtain ⟨ts, O, h0, h1, h2⟩ := nstate
  obtain ⟨W', it, e, O', h3⟩ := C61_range_partial O h0 (first := ⟨⟨some 2, []⟩, some 0⟩) (last := ⟨⟨some 3, []⟩, some 0⟩)
    (m := [2]) ⟨[4,6,5,1], [3,0], rfl, rfl, rfl, rfl, rfl⟩ ⟨_, Prune.step (S := Nary.shape Nat)
      [⟨(0,1), [node (1,2) [node (4,5) [], node (5,6) [node (6,7) []]]], [node (3,4) []]⟩] (some (node (2,3) [])) 2 [] _ rfl (Or.inr rfl) (.done _)⟩
  exact ⟨W', it, _, e, O', by simp [upd]; rfl⟩

/-- `erase(begin(), end())` on the nary tree `1(2)`. -/
theorem C61_range_defect : start.run (Nary.kind Nat) [.newLit 0 (node 1 [node 2 []]),
    .eraseRange 0 ⟨⟨some 1, []⟩, some 0⟩ ⟨⟨none, []⟩, some 0⟩] = Res.ub := rfl

open Samples in
example : ∃ W' it ts, bworld.erase (Binary.kind Nat) 0 ⟨⟨some 1, []⟩, some 0⟩ = Res.ok (W', .ret it) ∧ Owned (Binary.shape Nat) W' ts ∧
    it.st.cur = some 4 ∧ CursorFrom Policy.postOrder (Binary.nav W'.heap it.root) W'.heap.fuel [4, 3, 0] 0 it.st := by
  obtain ⟨ts, O, h0, h1, h2⟩ := bstate
  obtain ⟨W', it, l1, l2, e, h3, h4, h5, O', h6⟩ := C27_erase_returns_binary O h0 (pos := ⟨⟨some 1, []⟩, some 0⟩) (binary_at postOrder_mem
    [⟨(0,1), true, .node (3,3) (.node (4,5) .nil .nil) .nil⟩] (.node (1,2) .nil (.node (2,4) .nil .nil)) rfl (by simp) rfl rfl rfl)
  have h7 : [2, 1, 4, 3, 0] = l1 ++ [2, 1] ++ l2 := h3
  have h8 : [4, 3, 0] = l1 ++ l2 := h4
  cases l1 with
  | nil => simp only [List.nil_append] at h8; subst h8; exact ⟨W', it, _, e, O', h5, h6⟩
  | cons a l1 =>
    simp only [List.cons_append, List.cons.injEq] at h7 h8
    have := h7.1.trans h8.1.symm
    simp at this

open Samples in
example : ∃ W' it ts, nworld.erase (Nary.kind Nat) 0 ⟨⟨some 2, []⟩, some 0⟩ = Res.ok (W', .ret it) ∧ Owned (Nary.shape Nat) W' ts ∧
    ∃ l1 l2, l1 ++ l2 = [4, 6, 5, 1, 3, 0] ∧ it.st.cur = l2.head? ∧
      CursorFrom Policy.postOrder (Nary.nav W'.heap it.root) W'.heap.fuel [4, 6, 5, 1, 3, 0] l1.length it.st := by
  obtain ⟨ts, O, h0, h1, h2⟩ := nstate
  obtain ⟨W', t', it, l1, l2, rfl, e, h3, h4, h5, O', h6⟩ := C61_returns_partial O h0 (pos := ⟨⟨some 2, []⟩, some 0⟩) (nary_at postOrder_mem
    [⟨(0,1), [node (1,2) [node (4,5) [], node (5,6) [node (6,7) []]]], [node (3,4) []]⟩] (node (2,3) []) rfl rfl rfl rfl)
    (by simp) (by simp)
  have h7 : [4, 6, 5, 1, 3, 0] = l1 ++ l2 := h4
  rw [← h7] at h6
  exact ⟨W', it, _, e, O', l1, l2, h7.symm, h5, h6⟩

/-! ## C28, C61, C67 other nodes and their iterators -/

/-- Every node outside the replaced subtree is, after `insert_over`, still allocated at the same address in the same tree
with the same value. (With an empty source this is `erase`-like and restricted, C60.) -/
theorem C28_insert_over_nary {W : World (NNode α)} {ts : Nat → Option (Option (Tree (Addr × α)))} (O : Owned (Nary.shape α) W ts)
    {x : Nat} {t s : Option (Tree (Addr × α))} {c : List (Frame (Addr × α))} {P : Policy} {pos : It} {src : Src α (Tree α)}
    (hx : ts x = some t) (A : At (Nary.shape α) P W.heap t pos c s) (hok : SrcOk (Nary.shape α) ts src) (hself : src ≠ .moveOf x)
    (hne : ¬ SrcEmpty (Nary.shape α) ts src) (sb ab : Bool) :
    ∃ W' it ts' t', W.insertOver (Nary.kind α) sb ab P x pos src = Res.ok (W', .ret it) ∧ Owned (Nary.shape α) W' ts' ∧
      ts' x = some t' ∧ ∀ a ∈ (Nary.shape α).addrs t, a ∉ (Nary.shape α).addrs s →
        a ∈ (Nary.shape α).addrs t' ∧ (W'.heap.cells a).isSome ∧
        (W'.heap.cells a).map NNode.value = (W.heap.cells a).map NNode.value := by
  obtain ⟨W', n, it, e, _, _, O', _⟩ := C17_insert_over_nary O hx A hok hself hne sb ab
  refine ⟨W', it, _, _, e, O', upd_same _ _ _, ?_⟩
  have := A.place
  subst this
  exact Generic.outside (Nary.lawful α) (Nary.exact α) O O' hx (upd_same _ _ _)

theorem C28_insert_over_binary {W : World (BNode α)} {ts : Nat → Option (BTree (Addr × α))} (O : Owned (Binary.shape α) W ts)
    {x : Nat} {t s : BTree (Addr × α)} {c : List (BTree.Frame (Addr × α))} {P : Policy} {pos : It} {src : Src α (Lit α)}
    (hx : ts x = some t) (A : At (Binary.shape α) P W.heap t pos c s) (hok : SrcOk (Binary.shape α) ts src) (hself : src ≠ .moveOf x)
    (sb ab : Bool) :
    ∃ W' it ts' t', W.insertOver (Binary.kind α) sb ab P x pos src = Res.ok (W', .ret it) ∧ Owned (Binary.shape α) W' ts' ∧
      ts' x = some t' ∧ ∀ a ∈ t.addrs, a ∉ s.addrs →
        a ∈ t'.addrs ∧ (W'.heap.cells a).isSome ∧ (W'.heap.cells a).map BNode.value = (W.heap.cells a).map BNode.value := by
  obtain ⟨W', n, it, e, _, _, O', _⟩ := C17_insert_over_binary O hx A hok hself sb ab
  refine ⟨W', it, _, _, e, O', upd_same _ _ _, ?_⟩
  have := A.place
  subst this
  have := Generic.outside (Binary.lawful α) (Binary.exact α) O O' hx (upd_same _ _ _)
  simp only [Binary.shape_addrs] at this
  exact this

/-- `insert_child`: every node of the tree survives with its value. -/
theorem C28_insert_child_nary {W : World (NNode α)} {ts : Nat → Option (Option (Tree (Addr × α)))} (O : Owned (Nary.shape α) W ts)
    {x : Nat} {t s : Option (Tree (Addr × α))} {c : List (Frame (Addr × α))} {P : Policy} {pos : It} {src : Src α (Tree α)}
    (hx : ts x = some t) (A : At (Nary.shape α) P W.heap t pos c s) (hok : SrcOk (Nary.shape α) ts src) (hself : src ≠ .moveOf x)
    (front : Bool) :
    ∃ W' it ts' t', W.insertChild (Nary.kind α) front P x pos src = Res.ok (W', .ret it) ∧ Owned (Nary.shape α) W' ts' ∧
      ts' x = some t' ∧ ∀ a ∈ (Nary.shape α).addrs t,
        a ∈ (Nary.shape α).addrs t' ∧ (W'.heap.cells a).isSome ∧
        (W'.heap.cells a).map NNode.value = (W.heap.cells a).map NNode.value := by
  obtain ⟨W', n, it, e, _, _, O', _⟩ := Generic.insertChild (Nary.lawful α) O hx hok hself A rfl front
  refine ⟨W', it, _, _, e, O', upd_same _ _ _, ?_⟩
  have := A.place
  subst this
  exact Generic.outsideChild (Nary.lawful α) (Nary.exact α) O O' hx A.node rfl (upd_same _ _ _)

theorem C28_insert_child_binary {W : World (BNode α)} {ts : Nat → Option (BTree (Addr × α))} (O : Owned (Binary.shape α) W ts)
    {x : Nat} {t s : BTree (Addr × α)} {c : List (BTree.Frame (Addr × α))} {P : Policy} {pos : It} {src : Src α (Lit α)}
    (hx : ts x = some t) (A : At (Binary.shape α) P W.heap t pos c s) (hroom : Binary.twoKids s = false)
    (hok : SrcOk (Binary.shape α) ts src) (hself : src ≠ .moveOf x) (front : Bool) :
    ∃ W' it ts' t', W.insertChild (Binary.kind α) front P x pos src = Res.ok (W', .ret it) ∧ Owned (Binary.shape α) W' ts' ∧
      ts' x = some t' ∧ ∀ a ∈ t.addrs,
        a ∈ t'.addrs ∧ (W'.heap.cells a).isSome ∧ (W'.heap.cells a).map BNode.value = (W.heap.cells a).map BNode.value := by
  obtain ⟨W', n, it, e, _, _, O', _⟩ := Generic.insertChild (Binary.lawful α) O hx hok hself A hroom front
  refine ⟨W', it, _, _, e, O', upd_same _ _ _, ?_⟩
  have := A.place
  subst this
  have := Generic.outsideChild (Binary.lawful α) (Binary.exact α) O O' hx A.node hroom (upd_same _ _ _)
  simp only [Binary.shape_addrs] at this
  exact this

/-- `erase`. -/
theorem C28_erase_binary {W : World (BNode α)} {ts : Nat → Option (BTree (Addr × α))} (O : Owned (Binary.shape α) W ts)
    {x : Nat} {t s : BTree (Addr × α)} {c : List (BTree.Frame (Addr × α))} {pos : It} (hx : ts x = some t)
    (A : At (Binary.shape α) Policy.postOrder W.heap t pos c s) :
    ∃ W' it ts' t', W.erase (Binary.kind α) x pos = Res.ok (W', .ret it) ∧ Owned (Binary.shape α) W' ts' ∧
      ts' x = some t' ∧ ∀ a ∈ t.addrs, a ∉ s.addrs →
        a ∈ t'.addrs ∧ (W'.heap.cells a).isSome ∧ (W'.heap.cells a).map BNode.value = (W.heap.cells a).map BNode.value := by
  obtain ⟨W', it, e, O', _⟩ := C19_erase_binary O hx A
  refine ⟨W', it, _, _, e, O', upd_same _ _ _, ?_⟩
  have := A.place
  subst this
  have := Generic.outside (Binary.lawful α) (Binary.exact α) O O' hx (upd_same _ _ _)
  simp only [Binary.shape_addrs] at this
  exact this

/-- The other nodes. Missing: first and last children. -/
theorem C61_others_partial {W : World (NNode α)} {ts : Nat → Option (Option (Tree (Addr × α)))} (O : Owned (Nary.shape α) W ts)
    {x : Nat} {t : Option (Tree (Addr × α))} {s : Tree (Addr × α)} {c : List (Frame (Addr × α))} {pos : It} (hx : ts x = some t)
    (A : At (Nary.shape α) Policy.postOrder W.heap t pos c (some s)) (hmid : ∀ f fs, c = f :: fs → f.lefts ≠ [] ∧ f.rights ≠ []) :
    ∃ W' it ts' t', W.erase (Nary.kind α) x pos = Res.ok (W', .ret it) ∧ Owned (Nary.shape α) W' ts' ∧
      ts' x = some t' ∧ ∀ a ∈ (Nary.shape α).addrs t, a ∉ s.addrs →
        a ∈ (Nary.shape α).addrs t' ∧ (W'.heap.cells a).isSome ∧
        (W'.heap.cells a).map NNode.value = (W.heap.cells a).map NNode.value := by
  obtain ⟨W', it, e, O', _⟩ := C61_erase_partial O hx A hmid
  refine ⟨W', it, _, _, e, O', upd_same _ _ _, ?_⟩
  have := A.place
  subst this
  have := Generic.outside (Nary.lawful α) (Nary.exact α) O O' hx (upd_same _ _ _)
  rw [Nary.shape_addrs (some s)] at this
  exact this

/-- Iterators: a pre_order or post_order iterator taken before any of these calls at a node that survives, in a tree whose
root survives, is afterwards a cursor over the modified tree, at that node. (`hroot`: always true except when the call
replaces the root itself.) Not so breadth_first iterators, which hold a queue of nodes, see `C67_breadth_first_defect`. -/
theorem C28_iterators_nary {W W' : World (NNode α)} {ts ts' : Nat → Option (Option (Tree (Addr × α)))} (O' : Owned (Nary.shape α) W' ts')
    {x : Nat} {t : Option (Tree (Addr × α))} {t' : Tree (Addr × α)} {P : Policy} {it : It} {a : Addr} {c : List (Frame (Addr × α))} {s : Option (Tree (Addr × α))}
    (hx : ts x = some t) (hx' : ts' x = some (some t')) (A : At (Nary.shape α) P W.heap t it c s)
    (hmake : P.make (Nary.nav W.heap it.root) W.heap.fuel it.st.cur = Res.ok it.st)
    (ha : it.st.cur = some a) (ha' : a ∈ t'.addrs) (hroot : t.map Tree.addr = some t'.addr)
    {ord : Tree Addr → List Addr} (ho : ordered P ord) (hP : P ≠ Policy.breadthFirst) :
    ∃ k, (ord t'.addrTree)[k]? = some a ∧
      CursorFrom P (Nary.nav W'.heap it.root) W'.heap.fuel (ord t'.addrTree) k it.st := by
  obtain ⟨R, k, hR, h1, h2⟩ := Generic.survives (Nary.lawful α) O' hx' (a := a) (by rw [Nary.shape_addrs]; exact ha') ho hP
  have hR' : R = t'.addrTree := by simpa [Nary.shape] using hR.symm
  subst hR'
  have hst : it.st = ⟨some a, []⟩ := Policy.make_stateless ho hP ha hmake
  have hr : it.root = (Nary.shape α).ptr (some t') := by
    rw [A.root, Nary.shape_ptr, Nary.shape_ptr]; exact hroot
  exact ⟨k, h1, by rw [hst, hr]; exact h2⟩

theorem C28_iterators_binary {W W' : World (BNode α)} {ts ts' : Nat → Option (BTree (Addr × α))} (O' : Owned (Binary.shape α) W' ts')
    {x : Nat} {t t' : BTree (Addr × α)} {P : Policy} {it : It} {a : Addr} {c : List (BTree.Frame (Addr × α))} {s : BTree (Addr × α)}
    (hx : ts x = some t) (hx' : ts' x = some t') (A : At (Binary.shape α) P W.heap t it c s)
    (hmake : P.make (Binary.nav W.heap it.root) W.heap.fuel it.st.cur = Res.ok it.st)
    (ha : it.st.cur = some a) (ha' : a ∈ t'.addrs) (hroot : t.addr? = t'.addr?)
    {ord : Tree Addr → List Addr} (ho : ordered P ord) (hP : P ≠ Policy.breadthFirst) :
    ∃ R k, t'.addrTree.toRose = [R] ∧ (ord R)[k]? = some a ∧
      CursorFrom P (Binary.nav W'.heap it.root) W'.heap.fuel (ord R) k it.st := by
  obtain ⟨R, k, hR, h1, h2⟩ := Generic.survives (Binary.lawful α) O' hx' (a := a) (by rw [Binary.shape_addrs]; exact ha') ho hP
  have hst : it.st = ⟨some a, []⟩ := Policy.make_stateless ho hP ha hmake
  have hr : it.root = (Binary.shape α).ptr t' := by
    rw [A.root, Binary.shape_ptr, Binary.shape_ptr]; exact hroot
  exact ⟨R, k, hR, h1, by rw [hst, hr]; exact h2⟩

/-- A breadth_first iterator does not survive: `x0 = 1(2,3)`, iterator at 2 (its queue holds 3), erase 3, then `++` reads freed
memory although the node the iterator is at is still there. -/
theorem C67_breadth_first_defect : ∃ W as it, start.run (Binary.kind Nat)
      [.newLit 0 (node (some 1) [node (some 2) [], node (some 3) []])] = Res.ok (W, as) ∧
    (do let b ← Iter.begin_ Policy.breadthFirst (Binary.nav W.heap (some 0)) W.heap.fuel
        Iter.inc Policy.breadthFirst (Binary.nav W.heap (some 0)) W.heap.fuel b) = Res.ok it ∧ it.cur = some 1 ∧
    ∃ W' o, W.step (Binary.kind Nat) (.erase 0 ⟨⟨some 2, []⟩, some 0⟩) = Res.ok (W', o) ∧ (W'.heap.cells 1).isSome ∧
      Iter.inc Policy.breadthFirst (Binary.nav W'.heap (some 0)) W'.heap.fuel it = Res.ub :=
  ⟨_, _, ⟨some 1, [2]⟩, rfl, rfl, rfl, _, _, rfl, rfl, rfl⟩

open Samples in
example : ∃ W' it ts' t', nworld.insertOver (Nary.kind Nat) true true Policy.preOrder 0 ⟨⟨some 1, []⟩, some 0⟩ (.value 9) =
      Res.ok (W', .ret it) ∧ Owned (Nary.shape Nat) W' ts' ∧ ts' 0 = some t' ∧ 3 ∈ (Nary.shape Nat).addrs t' ∧
      (W'.heap.cells 3).map NNode.value = some 4 := by
  obtain ⟨ts, O, h0, h1, h2⟩ := nstate
  obtain ⟨W', it, ts', t', e, O', h3, h4⟩ := C28_insert_over_nary O h0 (pos := ⟨⟨some 1, []⟩, some 0⟩) (nary_at preOrder_mem
    [⟨(0,1), [], [node (2,3) [], node (3,4) []]⟩] (node (1,2) [node (4,5) [], node (5,6) [node (6,7) []]]) rfl rfl rfl rfl)
    (src := .value 9) trivial (by simp) (by simp [SrcEmpty]) true true
  have := h4 3 (by decide) (by decide)
  exact ⟨W', it, ts', t', e, O', h3, this.1, this.2.2⟩

open Samples in
example : ∃ W' it ts' t', bworld.insertOver (Binary.kind Nat) true true Policy.preOrder 0 ⟨⟨some 3, []⟩, some 0⟩ (.value 9) =
      Res.ok (W', .ret it) ∧ Owned (Binary.shape Nat) W' ts' ∧ ts' 0 = some t' ∧ 2 ∈ t'.addrs ∧
      (W'.heap.cells 2).map BNode.value = some 4 := by
  obtain ⟨ts, O, h0, h1, h2⟩ := bstate
  obtain ⟨W', it, ts', t', e, O', h3, h4⟩ := C28_insert_over_binary O h0 (pos := ⟨⟨some 3, []⟩, some 0⟩) (binary_at preOrder_mem
    [⟨(0,1), false, .node (1,2) .nil (.node (2,4) .nil .nil)⟩] (.node (3,3) (.node (4,5) .nil .nil) .nil) rfl (by simp) rfl rfl rfl)
    (src := .value 9) trivial (by simp) true true
  have := h4 2 (by decide) (by decide)
  exact ⟨W', it, ts', t', e, O', h3, this.1, this.2.2⟩

open Samples in
example : ∃ W' it ts' t', nworld.insertChild (Nary.kind Nat) true Policy.preOrder 0 ⟨⟨some 1, []⟩, some 0⟩ (.value 9) =
      Res.ok (W', .ret it) ∧ Owned (Nary.shape Nat) W' ts' ∧ ts' 0 = some t' ∧ 6 ∈ (Nary.shape Nat).addrs t' ∧
      (W'.heap.cells 6).map NNode.value = some 7 := by
  obtain ⟨ts, O, h0, h1, h2⟩ := nstate
  obtain ⟨W', it, ts', t', e, O', h3, h4⟩ := C28_insert_child_nary O h0 (pos := ⟨⟨some 1, []⟩, some 0⟩) (nary_at preOrder_mem
    [⟨(0,1), [], [node (2,3) [], node (3,4) []]⟩] (node (1,2) [node (4,5) [], node (5,6) [node (6,7) []]]) rfl rfl rfl rfl)
    (src := .value 9) trivial (by simp) true
  have := h4 6 (by decide)
  exact ⟨W', it, ts', t', e, O', h3, this.1, this.2.2⟩

open Samples in
example : ∃ W' it ts' t', bworld.insertChild (Binary.kind Nat) true Policy.preOrder 0 ⟨⟨some 3, []⟩, some 0⟩ (.value 9) =
      Res.ok (W', .ret it) ∧ Owned (Binary.shape Nat) W' ts' ∧ ts' 0 = some t' ∧ 4 ∈ t'.addrs ∧
      (W'.heap.cells 4).map BNode.value = some 5 := by
  obtain ⟨ts, O, h0, h1, h2⟩ := bstate
  obtain ⟨W', it, ts', t', e, O', h3, h4⟩ := C28_insert_child_binary O h0 (pos := ⟨⟨some 3, []⟩, some 0⟩) (binary_at preOrder_mem
    [⟨(0,1), false, .node (1,2) .nil (.node (2,4) .nil .nil)⟩] (.node (3,3) (.node (4,5) .nil .nil) .nil) rfl (by simp) rfl rfl rfl)
    rfl (src := .value 9) trivial (by simp) true
  have := h4 4 (by decide)
  exact ⟨W', it, ts', t', e, O', h3, this.1, this.2.2⟩

open Samples in
/-- Erase 3 while a pre_order iterator is at 5 in `1(2(5,6(7)),3,4)`. -/
example : ∃ W' it ts' t', nworld.erase (Nary.kind Nat) 0 ⟨⟨some 2, []⟩, some 0⟩ = Res.ok (W', .ret it) ∧ Owned (Nary.shape Nat) W' ts' ∧
    ts' 0 = some (some t') ∧ ∃ k, CursorFrom Policy.preOrder (Nary.nav W'.heap (some 0)) W'.heap.fuel t'.addrTree.pre k ⟨some 4, []⟩ := by
  obtain ⟨ts, O, h0, h1, h2⟩ := nstate
  obtain ⟨W', it, e, O', _⟩ := C61_erase_partial O h0 (pos := ⟨⟨some 2, []⟩, some 0⟩) (nary_at postOrder_mem
    [⟨(0,1), [node (1,2) [node (4,5) [], node (5,6) [node (6,7) []]]], [node (3,4) []]⟩] (node (2,3) []) rfl rfl rfl rfl)
    (by rintro f fs ⟨⟩; simp)
  obtain ⟨k, _, hk⟩ := C28_iterators_nary O' (W := nworld) (it := ⟨⟨some 4, []⟩, some 0⟩) (a := 4) h0 (upd_same _ _ _)
    (nary_at preOrder_mem [⟨(1,2), [], [node (5,6) [node (6,7) []]]⟩, ⟨(0,1), [], [node (2,3) [], node (3,4) []]⟩] (node (4,5) []) rfl rfl rfl rfl)
    rfl rfl (by decide) rfl (Or.inl ⟨rfl, rfl⟩) (Policy.bfs_ne_stateless _ _ _ _)
  exact ⟨W', it, _, _, e, O', upd_same _ _ _, k, hk⟩

open Samples in
example : ∃ W' it ts' t', nworld.erase (Nary.kind Nat) 0 ⟨⟨some 2, []⟩, some 0⟩ = Res.ok (W', .ret it) ∧ Owned (Nary.shape Nat) W' ts' ∧
    ts' 0 = some t' ∧ 6 ∈ (Nary.shape Nat).addrs t' ∧ (W'.heap.cells 6).map NNode.value = some 7 := by
  obtain ⟨ts, O, h0, h1, h2⟩ := nstate
  obtain ⟨W', it, ts', t', e, O', h3, h4⟩ := C61_others_partial O h0 (pos := ⟨⟨some 2, []⟩, some 0⟩) (nary_at postOrder_mem
    [⟨(0,1), [node (1,2) [node (4,5) [], node (5,6) [node (6,7) []]]], [node (3,4) []]⟩] (node (2,3) []) rfl rfl rfl rfl)
    (by rintro f fs ⟨⟩; simp)
  have := h4 6 (by decide) (by decide)
  exact ⟨W', it, ts', t', e, O', h3, this.1, this.2.2⟩

open Samples in
example : ∃ W' it ts' t', bworld.erase (Binary.kind Nat) 0 ⟨⟨some 1, []⟩, some 0⟩ = Res.ok (W', .ret it) ∧ Owned (Binary.shape Nat) W' ts' ∧
    ts' 0 = some t' ∧ (4 ∈ t'.addrs ∧ (W'.heap.cells 4).map BNode.value = some 5) ∧ ∃ R k, t'.addrTree.toRose = [R] ∧
      CursorFrom Policy.postOrder (Binary.nav W'.heap (some 0)) W'.heap.fuel R.post k ⟨some 4, []⟩ := by
  obtain ⟨ts, O, h0, h1, h2⟩ := bstate
  obtain ⟨W', it, ts', t', e, O', h3, h4⟩ := C28_erase_binary O h0 (pos := ⟨⟨some 1, []⟩, some 0⟩) (binary_at postOrder_mem
    [⟨(0,1), true, .node (3,3) (.node (4,5) .nil .nil) .nil⟩] (.node (1,2) .nil (.node (2,4) .nil .nil)) rfl (by simp) rfl rfl rfl)
  obtain ⟨W2, it2, e2, O2, _⟩ := C19_erase_binary O h0 (pos := ⟨⟨some 1, []⟩, some 0⟩) (binary_at postOrder_mem
    [⟨(0,1), true, .node (3,3) (.node (4,5) .nil .nil) .nil⟩] (.node (1,2) .nil (.node (2,4) .nil .nil)) rfl (by simp) rfl rfl rfl)
  rw [e] at e2
  obtain ⟨rfl, _⟩ : W' = W2 ∧ True := by simp at e2; exact ⟨e2.1, trivial⟩
  have hu := OwnedBut.unique (Binary.determined Nat) O' O2
  have ht : t' = .node (0,1) .nil (.node (3,3) (.node (4,5) .nil .nil) .nil) := by
    rw [hu] at h3; simpa [upd, BTree.plug, BTree.Frame.fill, eq_comm] using h3
  have := h4 4 (by decide) (by decide)
  obtain ⟨R, k, h5, _, h6⟩ := C28_iterators_binary O' (W := bworld) (it := ⟨⟨some 4, []⟩, some 0⟩) (a := 4) h0 h3
    (binary_at postOrder_mem [⟨(3,3), true, .nil⟩, ⟨(0,1), false, .node (1,2) .nil (.node (2,4) .nil .nil)⟩]
      (.node (4,5) .nil .nil) rfl (by simp) rfl rfl rfl) rfl rfl this.1 (by rw [ht]; rfl) (Or.inr (Or.inl ⟨rfl, rfl⟩)) (Policy.bfs_ne_stateless _ _ _ _)
  exact ⟨W', it, ts', t', e, O', h3, ⟨this.1, this.2.2⟩, R, k, h5, h6⟩

/-! ## C29 other trees -/

/-- A supported call leaves every tree that it does not name exactly as it is: the object with its remembered counts, the
nodes, and every field of every node. -/
theorem C29_other_trees_nary {W : World (NNode α)} {ts : Nat → Option (Option (Tree (Addr × α)))} (O : Owned (Nary.shape α) W ts)
    {op : Op α (Tree α)} {z : Nat} (hl : Legal (Nary.shape α) W.heap ts op) (hz : z ∉ op.objects) :
    ∃ W' o ts', W.step (Nary.kind α) op = Res.ok (W', o) ∧ Owned (Nary.shape α) W' ts' ∧ ts' z = ts z ∧ W'.vars z = W.vars z ∧
      ∀ t, ts z = some t → ∀ a ∈ (Nary.shape α).addrs t, W'.heap.cells a = W.heap.cells a :=
  Generic.others (Nary.lawful α) (Nary.exact α) O hl hz

theorem C29_other_trees_binary {W : World (BNode α)} {ts : Nat → Option (BTree (Addr × α))} (O : Owned (Binary.shape α) W ts)
    {op : Op α (Lit α)} {z : Nat} (hl : Legal (Binary.shape α) W.heap ts op) (hz : z ∉ op.objects) :
    ∃ W' o ts', W.step (Binary.kind α) op = Res.ok (W', o) ∧ Owned (Binary.shape α) W' ts' ∧ ts' z = ts z ∧ W'.vars z = W.vars z ∧
      ∀ t, ts z = some t → ∀ a ∈ t.addrs, W'.heap.cells a = W.heap.cells a := by
  have := Generic.others (Binary.lawful α) (Binary.exact α) O hl hz
  simp only [Binary.shape_addrs] at this
  exact this

/-- The same for a history of supported calls. -/
theorem C29_history_nary {W : World (NNode α)} {ts : Nat → Option (Option (Tree (Addr × α)))} (O : Owned (Nary.shape α) W ts)
    {ops : List (Op α (Tree α))} {z : Nat} (hs : Supports (Nary.shape α) W ops) (hz : ∀ op ∈ ops, z ∉ op.objects) :
    ∃ W' as ts', W.run (Nary.kind α) ops = Res.ok (W', as) ∧ Owned (Nary.shape α) W' ts' ∧ ts' z = ts z ∧ W'.vars z = W.vars z ∧
      ∀ t, ts z = some t → ∀ a ∈ (Nary.shape α).addrs t, W'.heap.cells a = W.heap.cells a :=
  Generic.othersHistory (Nary.lawful α) (Nary.determined α) (Nary.exact α) O hs hz

theorem C29_history_binary {W : World (BNode α)} {ts : Nat → Option (BTree (Addr × α))} (O : Owned (Binary.shape α) W ts)
    {ops : List (Op α (Lit α))} {z : Nat} (hs : Supports (Binary.shape α) W ops) (hz : ∀ op ∈ ops, z ∉ op.objects) :
    ∃ W' as ts', W.run (Binary.kind α) ops = Res.ok (W', as) ∧ Owned (Binary.shape α) W' ts' ∧ ts' z = ts z ∧ W'.vars z = W.vars z ∧
      ∀ t, ts z = some t → ∀ a ∈ t.addrs, W'.heap.cells a = W.heap.cells a := by
  have := Generic.othersHistory (Binary.lawful α) (Binary.determined α) (Binary.exact α) O hs hz
  simp only [Binary.shape_addrs] at this
  exact this

/-- Even a call outside the supported ones changes no tree object that it does not name (the nodes may be another matter). -/
theorem C29_objects {ν lit : Type} {K : Kind ν α lit} {W W' : World ν} {ops : List (Op α lit)} {as : List Ans} {z : Nat}
    (h : W.run K ops = Res.ok (W', as)) (hz : ∀ op ∈ ops, z ∉ op.objects) : W'.vars z = W.vars z :=
  World.run_vars h hz

open Samples in
/-- `x1.insert_over(x1.end(), x2 …)` and clearing `x1` leave `x0` alone. -/
example : ∃ W' as ts', nworld.run (Nary.kind Nat) [.insertOver true true Policy.preOrder 1 ⟨⟨none, []⟩, none⟩ (.value 7), .clear 1] =
      Res.ok (W', as) ∧ Owned (Nary.shape Nat) W' ts' ∧ ts' 0 = some (some deep) ∧ W'.vars 0 = nworld.vars 0 := by
  obtain ⟨ts, O, h0, h1, h2⟩ := nstate
  obtain ⟨W', as, ts', e, O', h3, h4, _⟩ := C29_history_nary O (z := 0)
    (ops := [.insertOver true true Policy.preOrder 1 ⟨⟨none, []⟩, none⟩ (.value 7), .clear 1])
    (supports_next (Nary.lawful Nat) O ⟨_, h1, trivial, Or.inr (Or.inr ⟨rfl, Or.inl rfl⟩)⟩ (fun ts1 O1 =>
      supports_next (Nary.lawful Nat) O1 (live O1 rfl) (fun _ _ => trivial))) (by simp [Op.objects, World.Src.objects])
  exact ⟨W', as, ts', e, O', h3.trans h0, h4⟩

open Samples in
example : ∃ W' o ts', bworld.step (Binary.kind Nat) (.clear 1) = Res.ok (W', o) ∧ Owned (Binary.shape Nat) W' ts' ∧ ts' 0 = some bin := by
  obtain ⟨ts, O, h0, h1, h2⟩ := bstate
  obtain ⟨W', o, ts', e, O', h3, _⟩ := C29_other_trees_binary O (z := 0) (op := .clear 1) (by simp [Legal, h1]) (by simp [Op.objects])
  exact ⟨W', o, ts', e, O', h3.trans h0⟩

open Samples in
example : ∃ W' o ts', nworld.step (Nary.kind Nat) (.newCopy 2 0) = Res.ok (W', o) ∧ Owned (Nary.shape Nat) W' ts' ∧ ts' 1 = some none := by
  obtain ⟨ts, O, h0, h1, h2⟩ := nstate
  obtain ⟨W', o, ts', e, O', h3, _⟩ := C29_other_trees_nary O (z := 1) (op := .newCopy 2 0) (by simp [Legal, h2, h0]) (by simp [Op.objects])
  exact ⟨W', o, ts', e, O', h3.trans h1⟩

open Samples in
example : ∃ W' as ts', bworld.run (Binary.kind Nat) [.newCopy 2 0, .clear 0] = Res.ok (W', as) ∧ Owned (Binary.shape Nat) W' ts' ∧
    ts' 1 = some .nil := by
  obtain ⟨ts, O, h0, h1, h2⟩ := bstate
  obtain ⟨W', as, ts', e, O', h3, _⟩ := C29_history_binary O (z := 1) (ops := [.newCopy 2 0, .clear 0])
    (supports_next (Binary.lawful Nat) O ⟨h2, by simp [h0]⟩ (fun ts1 O1 =>
      supports_next (Binary.lawful Nat) O1 (live O1 rfl) (fun _ _ => trivial))) (by simp [Op.objects])
  exact ⟨W', as, ts', e, O', h3.trans h1⟩

open Samples in
example : (after (Nary.kind Nat) (nops ++ [.clear 0])).vars 1 = nworld.vars 1 := by
  have h : nworld.run (Nary.kind Nat) [.clear 0] = Res.ok (after (Nary.kind Nat) (nops ++ [.clear 0]), [.unit]) := rfl
  exact C29_objects h (by simp [Op.objects])
