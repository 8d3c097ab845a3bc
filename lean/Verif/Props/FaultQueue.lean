import Verif.Proof.FaultQueue
import Verif.Props.SampleWorlds
/-!
# C91: insertions in which the queue of a breadth_first iterator cannot be allocated

`insertOverQ K q …` and `insertChildQ K q …` (Model/Faults.lean) are insertions left by the exception of a queue: `q` says whether
the queue is that of the copy of the iterator that is handed to the function (`copy`) or one that grows or is made inside of it
(`inside`). `OwnedBut G S W ts` (Spec/World.lean): the program state `W` is exactly the family of trees `ts` and, besides, the
blocks `G`, which belong to no tree. The other policies have no queue.
-/
open Tree World

variable {α : Type}

section nary
variable {G : Addr → Prop} {W : World (NNode α)} {ts : Nat → Option (Option (Tree (Addr × α)))} {x y : Nat} {src : Src α (Tree α)}
  {P : Policy} {pos : It}

/-- C91, what holds: an insertion of new nodes (a value, a literal, a copy) that cannot copy the queue has no effect and loses
nothing. -/
theorem C91_new_nodes_copy_nary_partial (O : OwnedBut G (Nary.shape α) W ts) (hok : SrcOk (Nary.shape α) ts src)
    (hm : ∀ y, src ≠ .moveOf y) :
    (∀ sb ab, ∃ W', insertOverQ (Nary.kind α) .copy sb ab W x src = Res.ok W' ∧ OwnedBut G (Nary.shape α) W' ts) ∧
    ∀ front, ∃ W', insertChildQ (Nary.kind α) .copy front P W x pos src = Res.ok W' ∧ OwnedBut G (Nary.shape α) W' ts :=
  ⟨Generic.overCopyNew (Nary.lawful α) O hok hm, Generic.childCopyNew (Nary.lawful α) O hok hm⟩

/-- C91, what holds: nor has `insert_over` with a moved tree, if the queue cannot grow. -/
theorem C91_moved_tree_update_nary_partial (O : OwnedBut G (Nary.shape α) W ts) {u : Option (Tree (Addr × α))} (hy : ts y = some u)
    (hxy : x ≠ y) (sb ab : Bool) :
    ∃ W', insertOverQ (Nary.kind α) .inside sb ab W x (.moveOf y) = Res.ok W' ∧ OwnedBut G (Nary.shape α) W' ts :=
  Generic.overUpdateMove (Nary.lawful α) O hy hxy sb ab

/-- C91 is refuted: moving a non-empty tree, a queue that cannot be copied makes the program state one of no family of trees: the
tree that was to be moved refers to nodes that have been freed. -/
theorem C91_moved_tree_copy_nary_defect (O : OwnedBut G (Nary.shape α) W ts) {u : Tree (Addr × α)} (hy : ts y = some (some u))
    (hxy : x ≠ y) :
    (∀ sb ab, ∃ W' r a, insertOverQ (Nary.kind α) .copy sb ab W x (.moveOf y) = Res.ok W' ∧ W'.vars y = some r ∧ r.root = some a ∧
      W'.heap.cells a = none ∧ ∀ G' ts', ¬ OwnedBut G' (Nary.shape α) W' ts') ∧
    ∀ front, ∃ W' r a, insertChildQ (Nary.kind α) .copy front P W x pos (.moveOf y) = Res.ok W' ∧ W'.vars y = some r ∧
      r.root = some a ∧ W'.heap.cells a = none ∧ ∀ G' ts', ¬ OwnedBut G' (Nary.shape α) W' ts' :=
  ⟨Generic.overCopyMove (Nary.lawful α) O hy nofun hxy, Generic.childCopyMove (Nary.lawful α) O hy nofun hxy⟩

/-- C91 is refuted: `insert_over` with new nodes leaves the trees alone when the queue cannot grow, but all the new nodes leak. -/
theorem C91_new_nodes_update_nary_defect (O : OwnedBut G (Nary.shape α) W ts) (hok : SrcOk (Nary.shape α) ts src)
    (hm : ∀ y, src ≠ .moveOf y) (sb ab : Bool) :
    ∃ W' n, insertOverQ (Nary.kind α) .inside sb ab W x src = Res.ok W' ∧ SrcTree (Nary.shape α) ts src n ∧
      SrcFresh (Nary.shape α) W.heap src n ∧ OwnedBut (fun a => G a ∨ a ∈ (Nary.shape α).addrs n) (Nary.shape α) W' ts :=
  Generic.overUpdateNew (Nary.lawful α) O hok hm sb ab

/-- C91 is refuted: `insert_child` throws, but the new child is in the tree. -/
theorem C91_new_child_stays_nary_defect (O : OwnedBut G (Nary.shape α) W ts) {t s : Option (Tree (Addr × α))}
    {c : List (Frame (Addr × α))} (hx : ts x = some t) (hok : SrcOk (Nary.shape α) ts src) (hm : ∀ y, src ≠ .moveOf y)
    (A : At (Nary.shape α) P W.heap t pos c s) (front : Bool) :
    ∃ W' n, insertChildQ (Nary.kind α) .inside front P W x pos src = Res.ok W' ∧ SrcTree (Nary.shape α) ts src n ∧
      SrcFresh (Nary.shape α) W.heap src n ∧
      OwnedBut G (Nary.shape α) W' (upd ts x (some ((Nary.shape α).plug c
        (if front then (Nary.shape α).front n s else (Nary.shape α).back n s)))) :=
  Generic.childMakeNew (Nary.lawful α) O hx hok hm A rfl front

/-- C91 is refuted: `insert_child` with a moved tree throws, and both tree objects have the moved nodes. -/
theorem C91_moved_child_has_two_owners_nary_defect (O : OwnedBut G (Nary.shape α) W ts) {t s : Option (Tree (Addr × α))}
    {u : Tree (Addr × α)} {c : List (Frame (Addr × α))} (hx : ts x = some t) (hy : ts y = some (some u)) (hxy : x ≠ y)
    (A : At (Nary.shape α) P W.heap t pos c s) (front : Bool) :
    ∃ W' rx ry t' a, insertChildQ (Nary.kind α) .inside front P W x pos (.moveOf y) = Res.ok W' ∧ W'.vars x = some rx ∧
      W'.vars y = some ry ∧ (Nary.shape α).Rep W'.heap t' ∧ rx.root = (Nary.shape α).ptr t' ∧ a ∈ (Nary.shape α).addrs t' ∧
      ry.root = some a ∧ ∀ G' ts', ¬ OwnedBut G' (Nary.shape α) W' ts' :=
  Generic.childMakeMove (Nary.lawful α) (Nary.determined α) O hx hy nofun hxy A rfl front
end nary

section binary
variable {G : Addr → Prop} {W : World (BNode α)} {ts : Nat → Option (BTree (Addr × α))} {x y : Nat} {src : Src α (Lit α)}
  {P : Policy} {pos : It}

/-- C91, what holds, for binary trees: an insertion of new nodes (a value, a literal, a copy) that cannot copy the queue has no
effect and loses nothing. -/
theorem C91_new_nodes_copy_binary_partial (O : OwnedBut G (Binary.shape α) W ts) (hok : SrcOk (Binary.shape α) ts src)
    (hm : ∀ y, src ≠ .moveOf y) :
    (∀ sb ab, ∃ W', insertOverQ (Binary.kind α) .copy sb ab W x src = Res.ok W' ∧ OwnedBut G (Binary.shape α) W' ts) ∧
    ∀ front, ∃ W', insertChildQ (Binary.kind α) .copy front P W x pos src = Res.ok W' ∧ OwnedBut G (Binary.shape α) W' ts :=
  ⟨Generic.overCopyNew (Binary.lawful α) O hok hm, Generic.childCopyNew (Binary.lawful α) O hok hm⟩

/-- C91, what holds, for binary trees: nor has `insert_over` with a moved tree, if the queue cannot grow. -/
theorem C91_moved_tree_update_binary_partial (O : OwnedBut G (Binary.shape α) W ts) {u : BTree (Addr × α)} (hy : ts y = some u)
    (hxy : x ≠ y) (sb ab : Bool) :
    ∃ W', insertOverQ (Binary.kind α) .inside sb ab W x (.moveOf y) = Res.ok W' ∧ OwnedBut G (Binary.shape α) W' ts :=
  Generic.overUpdateMove (Binary.lawful α) O hy hxy sb ab

/-- C91 is refuted, for binary trees: moving a non-empty tree, a queue that cannot be copied leaves the tree that was to be moved
referring to nodes that have been freed. -/
theorem C91_moved_tree_copy_binary_defect (O : OwnedBut G (Binary.shape α) W ts) {u : BTree (Addr × α)} (hy : ts y = some u)
    (hu : u ≠ .nil) (hxy : x ≠ y) :
    (∀ sb ab, ∃ W' r a, insertOverQ (Binary.kind α) .copy sb ab W x (.moveOf y) = Res.ok W' ∧ W'.vars y = some r ∧ r.root = some a ∧
      W'.heap.cells a = none ∧ ∀ G' ts', ¬ OwnedBut G' (Binary.shape α) W' ts') ∧
    ∀ front, ∃ W' r a, insertChildQ (Binary.kind α) .copy front P W x pos (.moveOf y) = Res.ok W' ∧ W'.vars y = some r ∧
      r.root = some a ∧ W'.heap.cells a = none ∧ ∀ G' ts', ¬ OwnedBut G' (Binary.shape α) W' ts' :=
  ⟨Generic.overCopyMove (Binary.lawful α) O hy hu hxy, Generic.childCopyMove (Binary.lawful α) O hy hu hxy⟩

/-- C91 is refuted, for binary trees: `insert_over` with new nodes leaves the trees alone when the queue cannot grow, but all the
new nodes leak. -/
theorem C91_new_nodes_update_binary_defect (O : OwnedBut G (Binary.shape α) W ts) (hok : SrcOk (Binary.shape α) ts src)
    (hm : ∀ y, src ≠ .moveOf y) (sb ab : Bool) :
    ∃ W' n, insertOverQ (Binary.kind α) .inside sb ab W x src = Res.ok W' ∧ SrcTree (Binary.shape α) ts src n ∧
      SrcFresh (Binary.shape α) W.heap src n ∧ OwnedBut (fun a => G a ∨ a ∈ (Binary.shape α).addrs n) (Binary.shape α) W' ts :=
  Generic.overUpdateNew (Binary.lawful α) O hok hm sb ab

/-- C91 is refuted, for binary trees: `insert_child` at a node with a free place throws, but the new child is in the tree. -/
theorem C91_new_child_stays_binary_defect (O : OwnedBut G (Binary.shape α) W ts) {t s : BTree (Addr × α)}
    {c : List (BTree.Frame (Addr × α))} (hx : ts x = some t) (hok : SrcOk (Binary.shape α) ts src) (hm : ∀ y, src ≠ .moveOf y)
    (A : At (Binary.shape α) P W.heap t pos c s) (hf : (Binary.shape α).isFull s = false) (front : Bool) :
    ∃ W' n, insertChildQ (Binary.kind α) .inside front P W x pos src = Res.ok W' ∧ SrcTree (Binary.shape α) ts src n ∧
      SrcFresh (Binary.shape α) W.heap src n ∧
      OwnedBut G (Binary.shape α) W' (upd ts x (some ((Binary.shape α).plug c
        (if front then (Binary.shape α).front n s else (Binary.shape α).back n s)))) :=
  Generic.childMakeNew (Binary.lawful α) O hx hok hm A hf front

/-- C91 is refuted, for binary trees: `insert_child` with a moved tree throws, and both tree objects have the moved nodes. -/
theorem C91_moved_child_has_two_owners_binary_defect (O : OwnedBut G (Binary.shape α) W ts) {t s u : BTree (Addr × α)}
    {c : List (BTree.Frame (Addr × α))} (hx : ts x = some t) (hy : ts y = some u) (hu : u ≠ .nil) (hxy : x ≠ y)
    (A : At (Binary.shape α) P W.heap t pos c s) (hf : (Binary.shape α).isFull s = false) (front : Bool) :
    ∃ W' rx ry t' a, insertChildQ (Binary.kind α) .inside front P W x pos (.moveOf y) = Res.ok W' ∧ W'.vars x = some rx ∧
      W'.vars y = some ry ∧ (Binary.shape α).Rep W'.heap t' ∧ rx.root = (Binary.shape α).ptr t' ∧ a ∈ (Binary.shape α).addrs t' ∧
      ry.root = some a ∧ ∀ G' ts', ¬ OwnedBut G' (Binary.shape α) W' ts' :=
  Generic.childMakeMove (Binary.lawful α) (Binary.determined α) O hx hy hu hxy A hf front
end binary

/-! ### concrete cases -/
namespace Samples
/-- `x0 = n(1)(n(2)(n(5), n(6)(n(7))), n(3), n(4)), x1, x2 = n(8)(n(9));` -/
def nqueue : World (NNode Nat) := after (Nary.kind Nat) (nops ++ [.newLit 2 (node 8 [node 9 []])])

/-- The iterator at node 3 of `x0`: breadth_first, the queue holds the next sibling and the first child of 2. -/
def nqueueAt : It := ⟨⟨some 2, [3, 4]⟩, some 0⟩

theorem nqueue_state : ∃ ts, Owned (Nary.shape Nat) nqueue ts ∧ ts 0 = some (some deep) ∧ ts 1 = some none ∧
    ts 2 = some (some (node (7, 8) [node (8, 9) []])) := by
  have L := Nary.lawful Nat
  have D := Nary.determined Nat
  have hs : Supports (Nary.shape Nat) start (nops ++ [.newLit 2 (node 8 [node 9 []])]) := by
    refine supports_next L (start_owned L) ⟨rfl, trivial⟩ ?_
    intro ts1 O1
    refine supports_next L O1 (dead O1 rfl) ?_
    intro ts2 O2
    refine supports_next L O2 ⟨dead O2 rfl, trivial⟩ ?_
    intros; trivial
  obtain ⟨W, as, ts, h1, _, _, O⟩ := history_trace L D _ (start_owned L) hs
  cases h1
  exact ⟨ts, O, pin D O rfl ((Nary.shape_rep _ _).mpr (by decide)) rfl, pin D O rfl (L.rep_nil _) rfl,
    pin D O rfl ((Nary.shape_rep _ _).mpr (by decide)) rfl⟩

theorem nqueue_at : At (Nary.shape Nat) Policy.breadthFirst nqueue.heap (some deep) nqueueAt
    [⟨(0, 1), [node (1, 2) [node (4, 5) [], node (5, 6) [node (6, 7) []]]], [node (3, 4) []]⟩] (some (node (2, 3) [])) :=
  nary_at breadthFirst_mem _ (node (2, 3) []) rfl rfl rfl (by decide)

/-- What `then destroy x2; destroy x0` does after such a call. -/
def thenDestroy (r : Res (World (NNode Nat))) (l : List Nat) : Res (List Ans) := do
  let (_, as) ← (← r).run (Nary.kind Nat) (l.map .destroy)
  pure as
end Samples

open Samples in
/-- A moved tree whose nodes have been freed is destroyed. -/
example : thenDestroy (insertOverQ (Nary.kind Nat) .copy true true nqueue 0 (.moveOf 2)) [2] = Res.ub := rfl

open Samples in
/-- The nodes of both trees are freed twice. -/
example : thenDestroy (insertChildQ (Nary.kind Nat) .inside true Policy.breadthFirst nqueue 0 nqueueAt (.moveOf 2)) [2, 0] = Res.ub := rfl

open Samples in
example : ∃ W' r a, insertChildQ (Nary.kind Nat) .copy false Policy.breadthFirst nqueue 0 nqueueAt (.moveOf 2) = Res.ok W' ∧
    W'.vars 2 = some r ∧ r.root = some a ∧ W'.heap.cells a = none ∧ ∀ G' ts', ¬ OwnedBut G' (Nary.shape Nat) W' ts' := by
  obtain ⟨ts, O, _, _, h2⟩ := nqueue_state
  exact (C91_moved_tree_copy_nary_defect O h2 (by decide)).2 false

open Samples in
/-- The child stays below node 3. -/
example : ∃ W' ts', insertChildQ (Nary.kind Nat) .inside true Policy.breadthFirst nqueue 0 nqueueAt (.copyOf 2) = Res.ok W' ∧
    Owned (Nary.shape Nat) W' ts' ∧ ∃ a b, ts' 0 = some (some (node (0,1) [node (1,2) [node (4,5) [], node (5,6) [node (6,7) []]],
      node (2,3) [node (a, 8) [node (b, 9) []]], node (3,4) []])) := by
  obtain ⟨ts, O, h0, _, h2⟩ := nqueue_state
  obtain ⟨W', n, e, hn, _, O'⟩ := C91_new_child_stays_nary_defect O (src := .copyOf 2) h0 (by simp [SrcOk, h2]) nofun nqueue_at true
  refine ⟨W', _, e, O', ?_⟩
  obtain ⟨t', ht', hv⟩ : ∃ t', ts 2 = some t' ∧ (Nary.shape Nat).vals n = (Nary.shape Nat).vals t' := hn
  rw [h2] at ht'; cases ht'
  have hv' : n.map (Tree.map Prod.snd) = some (node 8 [node 9 []]) := hv
  rcases n with _ | ⟨⟨a, v⟩, _ | ⟨⟨⟨b, w⟩, _ | _⟩, _ | _⟩⟩ <;> simp_all [Tree.map, Tree.mapL]
  exact ⟨a, b, rfl⟩

open Samples in
/-- The two nodes of the literal leak; a queue that cannot be copied loses nothing. -/
example : (∃ W' n, insertOverQ (Nary.kind Nat) .inside true true nqueue 0 (.lit (node 8 [node 9 []])) = Res.ok W' ∧
      n.map (Tree.map Prod.snd) = some (node 8 [node 9 []]) ∧
      ∃ ts, OwnedBut (fun a => a ∈ (Nary.shape Nat).addrs n) (Nary.shape Nat) W' ts ∧ ts 0 = some (some deep)) ∧
    ∃ W' ts, insertOverQ (Nary.kind Nat) .copy true true nqueue 0 (.lit (node 8 [node 9 []])) = Res.ok W' ∧
      Owned (Nary.shape Nat) W' ts ∧ ts 0 = some (some deep) := by
  obtain ⟨ts, O, h0, _, h2⟩ := nqueue_state
  refine ⟨?_, ?_⟩
  · obtain ⟨W', n, e, hn, _, O'⟩ := C91_new_nodes_update_nary_defect (x := 0) O (src := .lit (node 8 [node 9 []])) trivial nofun true true
    exact ⟨W', n, e, hn, ts, by simpa using O', h0⟩
  · obtain ⟨W', e, O'⟩ := (C91_new_nodes_copy_nary_partial (x := 0) (P := Policy.breadthFirst) (pos := nqueueAt) O
      (src := .lit (node 8 [node 9 []])) trivial nofun).1 true true
    exact ⟨W', ts, e, O', h0⟩

open Samples in
example : ∃ W' rx ry t' a, insertChildQ (Binary.kind Nat) .inside true Policy.breadthFirst
      (after (Binary.kind Nat) (bops ++ [.newLit 2 (node (some 8) [])])) 0 ⟨⟨some 1, [3, 2]⟩, some 0⟩ (.moveOf 2) = Res.ok W' ∧
    W'.vars 0 = some rx ∧ W'.vars 2 = some ry ∧ (Binary.shape Nat).Rep W'.heap t' ∧ rx.root = (Binary.shape Nat).ptr t' ∧
      a ∈ (Binary.shape Nat).addrs t' ∧ ry.root = some a := by
  have L := Binary.lawful Nat
  have D := Binary.determined Nat
  have hs : Supports (Binary.shape Nat) start (bops ++ [.newLit 2 (node (some 8) [])]) := by
    refine supports_next L (start_owned L) ⟨rfl, rfl⟩ ?_
    intro ts1 O1
    refine supports_next L O1 (dead O1 rfl) ?_
    intro ts2 O2
    refine supports_next L O2 ⟨dead O2 rfl, rfl⟩ ?_
    intros; trivial
  obtain ⟨W, as, ts, h1, _, _, O⟩ := history_trace L D _ (start_owned L) hs
  have hW : after (Binary.kind Nat) (bops ++ [.newLit 2 (node (some 8) [])]) = W := by simp only [after, h1]
  cases h1
  have h0 : ts 0 = some bin := pin D O rfl (show Binary.Rep _ _ by decide) rfl
  have h2 : ts 2 = some (.node (5, 8) .nil .nil) := pin D O rfl (show Binary.Rep _ _ by decide) rfl
  obtain ⟨W', rx, ry, t', a, h⟩ := C91_moved_child_has_two_owners_binary_defect O (x := 0) (y := 2) h0 h2 nofun (by decide)
    (binary_at breadthFirst_mem [⟨(0,1), true, .node (3,3) (.node (4,5) .nil .nil) .nil⟩] (.node (1,2) .nil (.node (2,4) .nil .nil)) rfl
      (by simp) rfl rfl (by decide) : At (Binary.shape Nat) Policy.breadthFirst _ bin ⟨⟨some 1, [3, 2]⟩, some 0⟩ _ _) rfl true
  exact ⟨W', rx, ry, t', a, h.1, h.2.1, h.2.2.1, h.2.2.2.1, h.2.2.2.2.1, h.2.2.2.2.2.1, h.2.2.2.2.2.2.1⟩
