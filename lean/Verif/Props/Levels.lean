import Verif.Props.Frames
import Verif.Proof.Levels
/-!
# C67: breadth_first iterators that do survive

`C67_breadth_first_defect` (Frames.lean): a breadth_first iterator holds a queue of nodes and is lost when one of them goes.
Here: the queue of an iterator at level `d` only mentions the levels `d` and `d + 1`, so a change that leaves the levels
`0 … d + 1` alone leaves the iterator a cursor over the modified tree. `Tree.top n` (Spec/Levels.lean) is the tree cut off below
level `n`; the level of the place `c` is the number of its frames, `c.length`.
-/
open Tree World

variable {α : Type}

/-- A breadth_first iterator at level `d` survives, whatever happens, when the tree held by the variable afterwards has the same
nodes at levels `0 … d + 1`: it is a cursor, at the same node, over all the nodes of the modified tree. Missing: changes at
level `d + 1` and above, see `C67_breadth_first_defect`. -/
theorem C67_levels_nary_partial {W W' : World (NNode α)} {ts ts' : Nat → Option (Option (Tree (Addr × α)))}
    (O : Owned (Nary.shape α) W ts) (O' : Owned (Nary.shape α) W' ts') {x : Nat} {t t' : Tree (Addr × α)} {it : It}
    {c : List (Frame (Addr × α))} {s : Option (Tree (Addr × α))} (hx : ts x = some (some t)) (hx' : ts' x = some (some t'))
    (B : At (Nary.shape α) Policy.breadthFirst W.heap (some t) it c s)
    (hsame : t.addrTree.top (c.length + 1) = t'.addrTree.top (c.length + 1)) :
    ∃ a k, it.st.cur = some a ∧ t'.addrTree.bfs[k]? = some a ∧
      CursorFrom Policy.breadthFirst (Nary.nav W'.heap it.root) W'.heap.fuel t'.addrTree.bfs k it.st :=
  Generic.bfs_at_level (Nary.lawful α) (Nary.levelled α) O hx B O' hx' rfl rfl hsame

theorem C67_levels_binary_partial {W W' : World (BNode α)} {ts ts' : Nat → Option (BTree (Addr × α))}
    (O : Owned (Binary.shape α) W ts) (O' : Owned (Binary.shape α) W' ts') {x : Nat} {t t' : BTree (Addr × α)} {it : It}
    {c : List (BTree.Frame (Addr × α))} {s : BTree (Addr × α)} (hx : ts x = some t) (hx' : ts' x = some t')
    (B : At (Binary.shape α) Policy.breadthFirst W.heap t it c s) {R R' : Tree Addr} (hR : t.addrTree.toRose = [R])
    (hR' : t'.addrTree.toRose = [R']) (hsame : R.top (c.length + 1) = R'.top (c.length + 1)) :
    ∃ a k, it.st.cur = some a ∧ R'.bfs[k]? = some a ∧
      CursorFrom Policy.breadthFirst (Binary.nav W'.heap it.root) W'.heap.fuel R'.bfs k it.st :=
  Generic.bfs_at_level (Binary.lawful α) (Binary.levelled α) O hx B O' hx' hR hR' hsame

/-- So it survives `insert_over` at a position two or more levels further down (of any source that is not empty). -/
theorem C67_insert_over_nary_partial {W : World (NNode α)} {ts : Nat → Option (Option (Tree (Addr × α)))} (O : Owned (Nary.shape α) W ts)
    {x : Nat} {t s s2 : Option (Tree (Addr × α))} {c c2 : List (Frame (Addr × α))} {P : Policy} {pos it : It} {src : Src α (Tree α)}
    (hx : ts x = some t) (A : At (Nary.shape α) P W.heap t pos c s) (hok : SrcOk (Nary.shape α) ts src) (hself : src ≠ .moveOf x)
    (hne : ¬ SrcEmpty (Nary.shape α) ts src) (sb ab : Bool)
    (B : At (Nary.shape α) Policy.breadthFirst W.heap t it c2 s2) (hdeep : c2.length + 2 ≤ c.length) :
    ∃ W' r ts' t' a k, W.insertOver (Nary.kind α) sb ab P x pos src = Res.ok (W', .ret r) ∧ Owned (Nary.shape α) W' ts' ∧
      ts' x = some (some t') ∧ it.st.cur = some a ∧ t'.addrTree.bfs[k]? = some a ∧
      CursorFrom Policy.breadthFirst (Nary.nav W'.heap it.root) W'.heap.fuel t'.addrTree.bfs k it.st := by
  obtain ⟨W', n, r, e, _, _, O', _⟩ := C17_insert_over_nary O hx A hok hself hne sb ab
  obtain ⟨R, R', h1, h2, h3⟩ := Generic.top_replace (Nary.lawful α) (Nary.levelled α) (s' := n) (n := c2.length + 1) A.node (by omega : _ < c.length)
  rw [A.place] at h1
  obtain ⟨a, k, g1, g2, g3⟩ := Generic.bfs_at_level (Nary.lawful α) (Nary.levelled α) O hx B O' (upd_same _ _ _) h1 h2 h3
  have hR' : ∃ t', Nary.fill c n = some t' := by
    cases h : Nary.fill c n with
    | none => rw [Nary.shape_plug, h] at h2; simp [Nary.shape] at h2
    | some t' => exact ⟨t', rfl⟩
  obtain ⟨t', ht'⟩ := hR'
  rw [Nary.shape_plug, ht'] at h2
  obtain rfl : t'.addrTree = R' := by simpa [Nary.shape] using h2
  rw [ht'] at O'
  exact ⟨W', r, _, t', a, k, e, O', upd_same _ _ _, g1, g2, g3⟩

/-- For binary trees also with an empty source. -/
theorem C67_insert_over_binary_partial {W : World (BNode α)} {ts : Nat → Option (BTree (Addr × α))} (O : Owned (Binary.shape α) W ts)
    {x : Nat} {t s s2 : BTree (Addr × α)} {c c2 : List (BTree.Frame (Addr × α))} {P : Policy} {pos it : It} {src : Src α (Lit α)}
    (hx : ts x = some t) (A : At (Binary.shape α) P W.heap t pos c s) (hok : SrcOk (Binary.shape α) ts src) (hself : src ≠ .moveOf x)
    (sb ab : Bool) (B : At (Binary.shape α) Policy.breadthFirst W.heap t it c2 s2) (hdeep : c2.length + 2 ≤ c.length) :
    ∃ W' r ts' t' R a k, W.insertOver (Binary.kind α) sb ab P x pos src = Res.ok (W', .ret r) ∧ Owned (Binary.shape α) W' ts' ∧
      ts' x = some t' ∧ t'.addrTree.toRose = [R] ∧ it.st.cur = some a ∧ R.bfs[k]? = some a ∧
      CursorFrom Policy.breadthFirst (Binary.nav W'.heap it.root) W'.heap.fuel R.bfs k it.st := by
  obtain ⟨W', n, r, e, _, _, O', _⟩ := C17_insert_over_binary O hx A hok hself sb ab
  obtain ⟨R, R', h1, h2, h3⟩ := Generic.top_replace (Binary.lawful α) (Binary.levelled α) (s' := n) (n := c2.length + 1) A.node (by omega : _ < c.length)
  rw [A.place] at h1
  obtain ⟨a, k, g⟩ := Generic.bfs_at_level (Binary.lawful α) (Binary.levelled α) O hx B O' (upd_same _ _ _) h1 h2 h3
  exact ⟨W', r, _, _, R', a, k, e, O', upd_same _ _ _, h2, g⟩

/-- `insert_child_front` and `insert_child_back` under a node one or more levels further down. -/
theorem C67_insert_child_nary_partial {W : World (NNode α)} {ts : Nat → Option (Option (Tree (Addr × α)))} (O : Owned (Nary.shape α) W ts)
    {x : Nat} {t s s2 : Option (Tree (Addr × α))} {c c2 : List (Frame (Addr × α))} {P : Policy} {pos it : It} {src : Src α (Tree α)}
    (hx : ts x = some t) (A : At (Nary.shape α) P W.heap t pos c s) (hok : SrcOk (Nary.shape α) ts src) (hself : src ≠ .moveOf x)
    (front : Bool) (B : At (Nary.shape α) Policy.breadthFirst W.heap t it c2 s2) (hdeep : c2.length + 1 ≤ c.length) :
    ∃ W' r ts' t' a k, W.insertChild (Nary.kind α) front P x pos src = Res.ok (W', .ret r) ∧ Owned (Nary.shape α) W' ts' ∧
      ts' x = some (some t') ∧ it.st.cur = some a ∧ t'.addrTree.bfs[k]? = some a ∧
      CursorFrom Policy.breadthFirst (Nary.nav W'.heap it.root) W'.heap.fuel t'.addrTree.bfs k it.st := by
  obtain ⟨W', n, r, e, _, _, O', _⟩ := Generic.insertChild (Nary.lawful α) O hx hok hself A rfl front
  obtain ⟨R, R', h1, h2, h3⟩ := Generic.top_child (Nary.lawful α) (Nary.levelled α) A.node rfl front n hdeep
  rw [A.place] at h1
  obtain ⟨a, k, g1, g2, g3⟩ := Generic.bfs_at_level (Nary.lawful α) (Nary.levelled α) O hx B O' (upd_same _ _ _) h1 h2 h3
  obtain ⟨t', ht'⟩ : ∃ t', (Nary.shape α).plug c (if front then (Nary.shape α).front n s else (Nary.shape α).back n s) = some t' := by
    cases h : (Nary.shape α).plug c (if front then (Nary.shape α).front n s else (Nary.shape α).back n s) with
    | none => rw [h] at h2; simp [Nary.shape] at h2
    | some t' => exact ⟨t', rfl⟩
  rw [ht'] at h2
  obtain rfl : t'.addrTree = R' := by simpa [Nary.shape] using h2
  rw [ht'] at O'
  exact ⟨W', r, _, t', a, k, e, O', upd_same _ _ _, g1, g2, g3⟩

theorem C67_insert_child_binary_partial {W : World (BNode α)} {ts : Nat → Option (BTree (Addr × α))} (O : Owned (Binary.shape α) W ts)
    {x : Nat} {t s s2 : BTree (Addr × α)} {c c2 : List (BTree.Frame (Addr × α))} {P : Policy} {pos it : It} {src : Src α (Lit α)}
    (hx : ts x = some t) (A : At (Binary.shape α) P W.heap t pos c s) (hroom : Binary.twoKids s = false)
    (hok : SrcOk (Binary.shape α) ts src) (hself : src ≠ .moveOf x) (front : Bool)
    (B : At (Binary.shape α) Policy.breadthFirst W.heap t it c2 s2) (hdeep : c2.length + 1 ≤ c.length) :
    ∃ W' r ts' t' R a k, W.insertChild (Binary.kind α) front P x pos src = Res.ok (W', .ret r) ∧ Owned (Binary.shape α) W' ts' ∧
      ts' x = some t' ∧ t'.addrTree.toRose = [R] ∧ it.st.cur = some a ∧ R.bfs[k]? = some a ∧
      CursorFrom Policy.breadthFirst (Binary.nav W'.heap it.root) W'.heap.fuel R.bfs k it.st := by
  obtain ⟨W', n, r, e, _, _, O', _⟩ := Generic.insertChild (Binary.lawful α) O hx hok hself A hroom front
  obtain ⟨R, R', h1, h2, h3⟩ := Generic.top_child (Binary.lawful α) (Binary.levelled α) A.node hroom front n hdeep
  rw [A.place] at h1
  obtain ⟨a, k, g⟩ := Generic.bfs_at_level (Binary.lawful α) (Binary.levelled α) O hx B O' (upd_same _ _ _) h1 h2 h3
  exact ⟨W', r, _, _, R', a, k, e, O', upd_same _ _ _, h2, g⟩

/-- `erase` of a subtree two or more levels further down. -/
theorem C67_erase_binary_partial {W : World (BNode α)} {ts : Nat → Option (BTree (Addr × α))} (O : Owned (Binary.shape α) W ts)
    {x : Nat} {t s s2 : BTree (Addr × α)} {c c2 : List (BTree.Frame (Addr × α))} {pos it : It} (hx : ts x = some t)
    (A : At (Binary.shape α) Policy.postOrder W.heap t pos c s)
    (B : At (Binary.shape α) Policy.breadthFirst W.heap t it c2 s2) (hdeep : c2.length + 2 ≤ c.length) :
    ∃ W' r ts' t' R a k, W.erase (Binary.kind α) x pos = Res.ok (W', .ret r) ∧ Owned (Binary.shape α) W' ts' ∧
      ts' x = some t' ∧ t'.addrTree.toRose = [R] ∧ it.st.cur = some a ∧ R.bfs[k]? = some a ∧
      CursorFrom Policy.breadthFirst (Binary.nav W'.heap it.root) W'.heap.fuel R.bfs k it.st := by
  obtain ⟨W', r, e, O', _⟩ := C19_erase_binary O hx A
  obtain ⟨R, R', h1, h2, h3⟩ := Generic.top_replace (Binary.lawful α) (Binary.levelled α) (s' := .nil) (n := c2.length + 1) A.node (by omega : _ < c.length)
  rw [A.place] at h1
  obtain ⟨a, k, g⟩ := Generic.bfs_at_level (Binary.lawful α) (Binary.levelled α) O hx B O' (upd_same _ _ _) h1 h2 h3
  exact ⟨W', r, _, _, R', a, k, e, O', upd_same _ _ _, h2, g⟩

/-- Not one level less: `insert_over` at the first child of the iterator's node. `x0 = 1(2)`, iterator at 1 (its queue holds 2),
insert 9 over 2; the next `++` reads the freed node. -/
theorem C67_next_level_defect : ∃ W as it, start.run (Nary.kind Nat) [.newLit 0 (node 1 [node 2 []])] = Res.ok (W, as) ∧
    Iter.begin_ Policy.breadthFirst (Nary.nav W.heap (some 0)) W.heap.fuel = Res.ok it ∧ it.cur = some 0 ∧
    ∃ W' o, W.step (Nary.kind Nat) (.insertOver true true Policy.preOrder 0 ⟨⟨some 1, []⟩, some 0⟩ (.value 9)) = Res.ok (W', o) ∧
      (W'.heap.cells 0).isSome ∧ Iter.inc Policy.breadthFirst (Nary.nav W'.heap (some 0)) W'.heap.fuel it = Res.ub :=
  ⟨_, _, ⟨some 0, [1]⟩, rfl, rfl, rfl, _, _, rfl, rfl, rfl⟩

/- The iterator at the root of `1(2(5,6(7)),3,4)` (its queue: the node 2) survives inserting over 6. -/
open Samples in
example : ∃ W' r ts' t' k, nworld.insertOver (Nary.kind Nat) true true Policy.preOrder 0 ⟨⟨some 5, []⟩, some 0⟩ (.value 9) =
      Res.ok (W', .ret r) ∧ ts' 0 = some (some t') ∧ Owned (Nary.shape Nat) W' ts' ∧ t'.addrTree.bfs[k]? = some 0 ∧
      CursorFrom Policy.breadthFirst (Nary.nav W'.heap (some 0)) W'.heap.fuel t'.addrTree.bfs k ⟨some 0, [1]⟩ := by
  obtain ⟨ts, O, h0, h1, h2⟩ := nstate
  obtain ⟨W', r, ts', t', a, k, e, O', h3, h4, h5, h6⟩ := C67_insert_over_nary_partial O h0 (pos := ⟨⟨some 5, []⟩, some 0⟩)
    (it := ⟨⟨some 0, [1]⟩, some 0⟩) (nary_at preOrder_mem
    [⟨(1,2), [node (4,5) []], []⟩, ⟨(0,1), [], [node (2,3) [], node (3,4) []]⟩] (node (5,6) [node (6,7) []]) rfl rfl rfl rfl)
    (src := .value 9) trivial (by simp) (by simp [SrcEmpty]) true true
    (nary_at breadthFirst_mem [] _ rfl rfl rfl rfl) (by simp)
  obtain rfl : 0 = a := by simpa using h4
  exact ⟨W', r, ts', t', k, e, h3, O', h5, h6⟩

/- The iterator at the root of `1(2(-,4),3(5,-))` survives erasing 4 and inserting under 2. -/
open Samples in
example : ∃ W' r ts' t' R k, bworld.erase (Binary.kind Nat) 0 ⟨⟨some 2, []⟩, some 0⟩ = Res.ok (W', .ret r) ∧
      Owned (Binary.shape Nat) W' ts' ∧ ts' 0 = some t' ∧ t'.addrTree.toRose = [R] ∧ R.bfs[k]? = some 0 ∧
      CursorFrom Policy.breadthFirst (Binary.nav W'.heap (some 0)) W'.heap.fuel R.bfs k ⟨some 0, [1]⟩ := by
  obtain ⟨ts, O, h0, h1, h2⟩ := bstate
  obtain ⟨W', r, ts', t', R, a, k, e, O', h3, hR, h4, h5, h6⟩ := C67_erase_binary_partial O h0 (pos := ⟨⟨some 2, []⟩, some 0⟩)
    (it := ⟨⟨some 0, [1]⟩, some 0⟩) (binary_at postOrder_mem
    [⟨(1,2), false, .nil⟩, ⟨(0,1), true, .node (3,3) (.node (4,5) .nil .nil) .nil⟩] (.node (2,4) .nil .nil) rfl (by simp) rfl rfl rfl)
    (binary_at breadthFirst_mem [] _ rfl (by simp) rfl rfl rfl) (by simp)
  obtain rfl : 0 = a := by simpa using h4
  exact ⟨W', r, ts', t', R, k, e, O', h3, hR, h5, h6⟩

open Samples in
example : ∃ W' r ts' t' R k, bworld.insertChild (Binary.kind Nat) true Policy.preOrder 0 ⟨⟨some 1, []⟩, some 0⟩ (.value 9) =
      Res.ok (W', .ret r) ∧ Owned (Binary.shape Nat) W' ts' ∧ ts' 0 = some t' ∧ t'.addrTree.toRose = [R] ∧ R.bfs[k]? = some 0 ∧
      CursorFrom Policy.breadthFirst (Binary.nav W'.heap (some 0)) W'.heap.fuel R.bfs k ⟨some 0, [1]⟩ := by
  obtain ⟨ts, O, h0, h1, h2⟩ := bstate
  obtain ⟨W', r, ts', t', R, a, k, e, O', h3, hR, h4, h5, h6⟩ := C67_insert_child_binary_partial O h0 (pos := ⟨⟨some 1, []⟩, some 0⟩)
    (it := ⟨⟨some 0, [1]⟩, some 0⟩) (binary_at preOrder_mem
    [⟨(0,1), true, .node (3,3) (.node (4,5) .nil .nil) .nil⟩] (.node (1,2) .nil (.node (2,4) .nil .nil)) rfl (by simp) rfl rfl rfl)
    rfl (src := .value 9) trivial (by simp) true
    (binary_at breadthFirst_mem [] _ rfl (by simp) rfl rfl rfl) (by simp)
  obtain rfl : 0 = a := by simpa using h4
  exact ⟨W', r, ts', t', R, k, e, O', h3, hR, h5, h6⟩
