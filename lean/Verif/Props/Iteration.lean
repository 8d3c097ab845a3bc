import Verif.Spec.Laws
import Verif.Proof.Laws
import Verif.Proof.Reverse
import Verif.Props.Samples
import Verif.Spec.World
/-!
# C01-C10: iteration

Each theorem speaks of a heap `h` that holds a tree (`Nary.Rep h t`, `Binary.Rep h b`: Spec/Repr.lean) and of
the navigator the library builds for it. `fuel` bounds the number of loop rounds; the theorems hold for every bound that is
at least the number of nodes, so every step terminates. `ok` outcomes exclude undefined behaviour.
A binary tree as the policies see it is the rose tree `T` with `b.toRose = [T]`.
-/
open Tree Policy Iter

variable {α : Type}

/-! ## C01 pre-order -/

theorem C01_pre_order_nary {h : NHeap α} {t : Tree (Addr × α)} (H : Nary.Rep h t) {fuel : Nat} (hf : t.size ≤ fuel) :
    IsCursor preOrder (Nary.nav h (some t.addr)) fuel t.addrTree.pre :=
  preOrder_cursor (Nary.nav_spec (gs := []) H) (by rwa [addrTree_size])

example : IsCursor preOrder (Nary.nav Samples.deepHeap (some 0)) 7 [0, 1, 4, 5, 6, 2, 3] :=
  C01_pre_order_nary Samples.deep_rep (by decide)

theorem C01_pre_order_binary {h : BHeap α} {b : BTree (Addr × α)} {T : Tree (Addr × α)} (H : Binary.Rep h b)
    (hT : b.toRose = [T]) {fuel : Nat} (hf : b.size ≤ fuel) :
    IsCursor preOrder (Binary.nav h (some T.addr)) fuel T.addrTree.pre :=
  preOrder_cursor (Binary.navSpec_of (gs := []) H hT) (by rwa [addrTree_size, Binary.size_of_toRose hT])

example : IsCursor preOrder (Binary.nav Samples.binHeap (some 0)) 5 [0, 1, 2, 3, 4] :=
  C01_pre_order_binary Samples.bin_rep Samples.bin_toRose (by decide)

/-! ## C02 post-order -/

theorem C02_post_order_nary {h : NHeap α} {t : Tree (Addr × α)} (H : Nary.Rep h t) {fuel : Nat} (hf : t.size ≤ fuel) :
    IsCursor postOrder (Nary.nav h (some t.addr)) fuel t.addrTree.post :=
  postOrder_cursor (Nary.nav_spec (gs := []) H) (by rwa [addrTree_size])

example : IsCursor postOrder (Nary.nav Samples.deepHeap (some 0)) 7 [4, 6, 5, 1, 2, 3, 0] :=
  C02_post_order_nary Samples.deep_rep (by decide)

theorem C02_post_order_binary {h : BHeap α} {b : BTree (Addr × α)} {T : Tree (Addr × α)} (H : Binary.Rep h b)
    (hT : b.toRose = [T]) {fuel : Nat} (hf : b.size ≤ fuel) :
    IsCursor postOrder (Binary.nav h (some T.addr)) fuel T.addrTree.post :=
  postOrder_cursor (Binary.navSpec_of (gs := []) H hT) (by rwa [addrTree_size, Binary.size_of_toRose hT])

example : IsCursor postOrder (Binary.nav Samples.binHeap (some 0)) 5 [2, 1, 4, 3, 0] :=
  C02_post_order_binary Samples.bin_rep Samples.bin_toRose (by decide)

/-! ## C03 in-order -/

theorem C03_in_order {h : BHeap α} {b : BTree (Addr × α)} (H : Binary.Rep h b) {r : Addr} (hr : b.addr? = some r)
    {fuel : Nat} (hf : b.size ≤ fuel) :
    IsCursor inOrder (Binary.nav h (some r)) fuel b.addrTree.inorder :=
  (inOrder_inv (Binary.bnav_spec (gs := []) H hr) (by cases b <;> simp_all [BTree.addrTree, BTree.map])
    (by rwa [BTree.addrTree, BTree.size_map])).isCursor

example : IsCursor inOrder (Binary.nav Samples.binHeap (some 0)) 5 [1, 2, 0, 4, 3] :=
  C03_in_order Samples.bin_rep rfl (by decide)

/-! ## C04 breadth-first -/

theorem C04_breadth_first_nary {h : NHeap α} {t : Tree (Addr × α)} (H : Nary.Rep h t) {fuel : Nat} (hf : t.size ≤ fuel) :
    IsCursor breadthFirst (Nary.nav h (some t.addr)) fuel t.addrTree.bfs :=
  bfs_cursor (Nary.nav_spec (gs := []) H) (by rwa [addrTree_size])

example : IsCursor breadthFirst (Nary.nav Samples.deepHeap (some 0)) 7 [0, 1, 2, 3, 4, 5, 6] :=
  C04_breadth_first_nary Samples.deep_rep (by decide)

theorem C04_breadth_first_binary {h : BHeap α} {b : BTree (Addr × α)} {T : Tree (Addr × α)} (H : Binary.Rep h b)
    (hT : b.toRose = [T]) {fuel : Nat} (hf : b.size ≤ fuel) :
    IsCursor breadthFirst (Binary.nav h (some T.addr)) fuel T.addrTree.bfs :=
  bfs_cursor (Binary.navSpec_of (gs := []) H hT) (by rwa [addrTree_size, Binary.size_of_toRose hT])

example : IsCursor breadthFirst (Binary.nav Samples.binHeap (some 0)) 5 [0, 1, 3, 2, 4] :=
  C04_breadth_first_binary Samples.bin_rep Samples.bin_toRose (by decide)

/-- The order really contains every node exactly once. -/
theorem C04_all_nodes (t : Tree Addr) : t.bfs.Perm t.pre := bfs_perm t

/-! ## C05, C57 leaves -/

/-- Any number of `++`
from `begin()` followed by any number of `--`, and the whole forward and backward loops (`C05_leaves_loops_nary`, `C05_leaves_loops_binary`). -/
theorem C05_leaves_nary {h : NHeap α} {t : Tree (Addr × α)} (H : Nary.Rep h t) {fuel : Nat} (hf : t.size ≤ fuel)
    (i j : Nat) (hi : i ≤ t.addrTree.leaves.length) (hj : j ≤ i) :
    ∃ b s, begin_ Policy.leaves (Nary.nav h (some t.addr)) fuel = Res.ok b ∧
      moves Policy.leaves (Nary.nav h (some t.addr)) fuel (List.replicate i .inc ++ List.replicate j .dec) b = Res.ok s ∧
      s.cur = t.addrTree.leaves[i - j]? :=
  leaves_inc_dec (Nary.nav_spec (gs := []) H) (by rwa [addrTree_size]) i j hi hj

example := C05_leaves_nary Samples.deep_rep (fuel := 7) (by decide) 3 2 (by decide) (by decide)
example : Samples.deep.addrTree.leaves = [4, 6, 2, 3] := rfl

theorem C05_leaves_binary {h : BHeap α} {b : BTree (Addr × α)} {T : Tree (Addr × α)} (H : Binary.Rep h b)
    (hT : b.toRose = [T]) {fuel : Nat} (hf : b.size ≤ fuel)
    (i j : Nat) (hi : i ≤ T.addrTree.leaves.length) (hj : j ≤ i) :
    ∃ s0 s, begin_ Policy.leaves (Binary.nav h (some T.addr)) fuel = Res.ok s0 ∧
      moves Policy.leaves (Binary.nav h (some T.addr)) fuel (List.replicate i .inc ++ List.replicate j .dec) s0 = Res.ok s ∧
      s.cur = T.addrTree.leaves[i - j]? :=
  leaves_inc_dec (Binary.navSpec_of (gs := []) H hT) (by rwa [addrTree_size, Binary.size_of_toRose hT]) i j hi hj

example := C05_leaves_binary Samples.bin_rep Samples.bin_toRose (fuel := 5) (by decide) 2 1 (by decide) (by decide)

theorem C05_leaves_loops_nary {h : NHeap α} {t : Tree (Addr × α)} (H : Nary.Rep h t) {fuel : Nat} (hf : t.size < fuel) :
    forward Policy.leaves (Nary.nav h (some t.addr)) fuel = Res.ok t.addrTree.leaves ∧
    backward Policy.leaves (Nary.nav h (some t.addr)) fuel = Res.ok t.addrTree.leaves.reverse :=
  ⟨leaves_forward (Nary.nav_spec (gs := []) H) (by rwa [addrTree_size]),
   leaves_backward (Nary.nav_spec (gs := []) H) (by rwa [addrTree_size])⟩

example : forward Policy.leaves (Nary.nav Samples.deepHeap (some 0)) 8 = Res.ok [4, 6, 2, 3] :=
  (C05_leaves_loops_nary Samples.deep_rep (by decide)).1

theorem C05_leaves_loops_binary {h : BHeap α} {b : BTree (Addr × α)} {T : Tree (Addr × α)} (H : Binary.Rep h b) (hT : b.toRose = [T])
    {fuel : Nat} (hf : b.size < fuel) :
    forward Policy.leaves (Binary.nav h (some T.addr)) fuel = Res.ok T.addrTree.leaves ∧
    backward Policy.leaves (Binary.nav h (some T.addr)) fuel = Res.ok T.addrTree.leaves.reverse :=
  ⟨leaves_forward (Binary.navSpec_of (gs := []) H hT) (by rwa [addrTree_size, Binary.size_of_toRose hT]),
   leaves_backward (Binary.navSpec_of (gs := []) H hT) (by rwa [addrTree_size, Binary.size_of_toRose hT])⟩

example := C05_leaves_loops_binary Samples.bin_rep Samples.bin_toRose (fuel := 6) (by decide)

/-! C57 is false of the code: `--` does not undo the stack entries `++` pushed. -/

/-- On `1(2,3,4)`: `++ -- ++ ++ ++` from `begin()` must reach `end()`, but visits the last leaf twice. -/
theorem C57_mixed_defect (fuel : Nat) (hf : 10 ≤ fuel) :
    Nary.Rep Samples.flatHeap Samples.flat ∧
    ¬ IsCursor Policy.leaves (Nary.nav Samples.flatHeap (some Samples.flat.addr)) fuel Samples.flat.addrTree.leaves := by
  refine ⟨Samples.flat_rep, fun ⟨h, _⟩ => ?_⟩
  obtain ⟨n, rfl⟩ : ∃ n, fuel = n + 10 := ⟨fuel - 10, by omega⟩
  obtain ⟨b, s, h1, h2, h3⟩ := h [.inc, .dec, .inc, .inc, .inc] 3 (by decide)
  have e : begin_ Policy.leaves (Nary.nav Samples.flatHeap (some Samples.flat.addr)) (n + 10) = Res.ok ⟨some 1, [1]⟩ := rfl
  rw [e] at h1
  cases h1
  have e2 : moves Policy.leaves (Nary.nav Samples.flatHeap (some Samples.flat.addr)) (n + 10) [.inc, .dec, .inc, .inc, .inc]
    ⟨some 1, [1]⟩ = Res.ok ⟨some 3, []⟩ := rfl
  rw [e2] at h2
  cases h2
  revert h3
  decide

/-! ## C06 siblings and fixed -/

theorem C06_siblings_nary {h : NHeap α} {t : Tree (Addr × α)} (H : Nary.Rep h t) (fuel : Nat) :
    IsCursor siblings (Nary.nav h (some t.addr)) fuel (t.children.map addr) := by
  have := siblings_cursor (fuel := fuel) (Nary.nav_spec (gs := []) H)
  have e : ∀ cs : List (Tree (Addr × α)), (cs.map (Tree.map Prod.fst)).map label = cs.map addr := by
    intro cs; simp [Tree.addr]
  simpa [addrTree, e] using this

example : IsCursor siblings (Nary.nav Samples.deepHeap (some 0)) 1 [1, 2, 3] := C06_siblings_nary Samples.deep_rep 1

theorem C06_siblings_binary {h : BHeap α} {b : BTree (Addr × α)} {T : Tree (Addr × α)} (H : Binary.Rep h b)
    (hT : b.toRose = [T]) (fuel : Nat) :
    IsCursor siblings (Binary.nav h (some T.addr)) fuel (T.children.map addr) := by
  have := siblings_cursor (fuel := fuel) (Binary.navSpec_of (gs := []) H hT)
  have e : ∀ cs : List (Tree (Addr × α)), (cs.map (Tree.map Prod.fst)).map label = cs.map addr := by
    intro cs; simp [Tree.addr]
  simpa [addrTree, e] using this

example : IsCursor siblings (Binary.nav Samples.binHeap (some 0)) 1 [1, 3] :=
  C06_siblings_binary Samples.bin_rep Samples.bin_toRose 1

/-- `fixed`, made at any node `a` of a non-empty tree. -/
theorem C06_fixed (nav : Nav) (fuel : Nat) (r : Addr) (hr : nav.root = some r) (a : Addr) :
    IsCursorAt fixed nav fuel [a] := fixed_at a ⟨r, hr⟩

example := C06_fixed (Nary.nav Samples.deepHeap (some 0)) 7 0 rfl 5

/-! ## C07 reverse iteration -/

theorem C07_reverse_nary {h : NHeap α} {t : Tree (Addr × α)} (H : Nary.Rep h t) {fuel : Nat} (hf : t.size < fuel) :
    (forward preOrder (Nary.nav h (some t.addr)) fuel = Res.ok t.addrTree.pre ∧
      backward preOrder (Nary.nav h (some t.addr)) fuel = Res.ok t.addrTree.pre.reverse) ∧
    (forward postOrder (Nary.nav h (some t.addr)) fuel = Res.ok t.addrTree.post ∧
      backward postOrder (Nary.nav h (some t.addr)) fuel = Res.ok t.addrTree.post.reverse) ∧
    (forward breadthFirst (Nary.nav h (some t.addr)) fuel = Res.ok t.addrTree.bfs ∧
      backward breadthFirst (Nary.nav h (some t.addr)) fuel = Res.ok t.addrTree.bfs.reverse) ∧
    (forward siblings (Nary.nav h (some t.addr)) fuel = Res.ok (t.addrTree.children.map label) ∧
      backward siblings (Nary.nav h (some t.addr)) fuel = Res.ok (t.addrTree.children.map label).reverse) := by
  have N := Nary.nav_spec (gs := []) H
  exact loops N (by rwa [addrTree_size])

example : backward breadthFirst (Nary.nav Samples.deepHeap (some 0)) 8 = Res.ok [6, 5, 4, 3, 2, 1, 0] :=
  (C07_reverse_nary Samples.deep_rep (by decide)).2.2.1.2

theorem C07_reverse_binary {h : BHeap α} {b : BTree (Addr × α)} {T : Tree (Addr × α)} (H : Binary.Rep h b)
    (hT : b.toRose = [T]) {fuel : Nat} (hf : b.size < fuel) :
    ((forward preOrder (Binary.nav h (some T.addr)) fuel = Res.ok T.addrTree.pre ∧
      backward preOrder (Binary.nav h (some T.addr)) fuel = Res.ok T.addrTree.pre.reverse) ∧
    (forward postOrder (Binary.nav h (some T.addr)) fuel = Res.ok T.addrTree.post ∧
      backward postOrder (Binary.nav h (some T.addr)) fuel = Res.ok T.addrTree.post.reverse) ∧
    (forward breadthFirst (Binary.nav h (some T.addr)) fuel = Res.ok T.addrTree.bfs ∧
      backward breadthFirst (Binary.nav h (some T.addr)) fuel = Res.ok T.addrTree.bfs.reverse) ∧
    (forward siblings (Binary.nav h (some T.addr)) fuel = Res.ok (T.addrTree.children.map label) ∧
      backward siblings (Binary.nav h (some T.addr)) fuel = Res.ok (T.addrTree.children.map label).reverse)) ∧
    (forward inOrder (Binary.nav h (some T.addr)) fuel = Res.ok b.addrTree.inorder ∧
      backward inOrder (Binary.nav h (some T.addr)) fuel = Res.ok b.addrTree.inorder.reverse) := by
  have hs : b.addrTree.size = b.size := by rw [BTree.addrTree, BTree.size_map]
  refine ⟨loops (Binary.navSpec_of (gs := []) H hT) (by rwa [addrTree_size, Binary.size_of_toRose hT]), ?_⟩
  have hr := Binary.addr?_of_toRose hT
  have B := Binary.bnav_spec (gs := []) H hr
  have I := inOrder_inv (fuel := fuel) B (by cases b <;> simp_all [BTree.addrTree, BTree.map]) (by omega)
  have hl : b.addrTree.inorder.length < fuel := by rw [BTree.length_inorder]; omega
  exact ⟨I.forward_spec hl, I.backward_spec (inorder_nodup B) hl⟩

example : backward inOrder (Binary.nav Samples.binHeap (some 0)) 6 = Res.ok [3, 4, 0, 2, 1] :=
  (C07_reverse_binary Samples.bin_rep Samples.bin_toRose (by decide)).2.2

/-- `rbegin()`, `rend()` and every in-range sequence of `++` and `--` on reverse iterators (Spec/Reverse.lean), on a tree or on the view of any node `s` of it. -/
theorem C07_reverse_cursor_nary {h : NHeap α} {gs : List (Frame (Addr × α))} {s : Tree (Addr × α)} (H : Nary.Rep h (plug gs s))
    {fuel : Nat} (hf : s.size ≤ fuel) :
    IsReverse preOrder (Nary.nav h (some s.addr)) fuel s.addrTree.pre ∧
    IsReverse postOrder (Nary.nav h (some s.addr)) fuel s.addrTree.post ∧
    IsReverse breadthFirst (Nary.nav h (some s.addr)) fuel s.addrTree.bfs ∧
    IsReverse siblings (Nary.nav h (some s.addr)) fuel (s.addrTree.children.map label) :=
  reverse_laws (Nary.nav_spec H) (by rwa [addrTree_size])

theorem C07_reverse_cursor_binary {h : BHeap α} {gs : List (BTree.Frame (Addr × α))} {s : BTree (Addr × α)} {T : Tree (Addr × α)}
    (H : Binary.Rep h (BTree.plug gs s)) (hT : s.toRose = [T]) {fuel : Nat} (hf : s.size ≤ fuel) :
    (IsReverse preOrder (Binary.nav h (some T.addr)) fuel T.addrTree.pre ∧
     IsReverse postOrder (Binary.nav h (some T.addr)) fuel T.addrTree.post ∧
     IsReverse breadthFirst (Binary.nav h (some T.addr)) fuel T.addrTree.bfs ∧
     IsReverse siblings (Binary.nav h (some T.addr)) fuel (T.addrTree.children.map label)) ∧
    IsReverse inOrder (Binary.nav h (some T.addr)) fuel s.addrTree.inorder := by
  have hr := Binary.addr?_of_toRose hT
  have hne : s.addrTree ≠ .nil := by cases s <;> simp_all [BTree.addrTree, BTree.map]
  have hs : s.addrTree.size = s.size := by rw [BTree.addrTree, BTree.size_map]
  exact ⟨reverse_laws (Binary.navSpec_of H hT) (by rwa [addrTree_size, Binary.size_of_toRose hT]),
    (inOrder_inv (Binary.bnav_spec H hr) hne (by omega)).isCursor.reverse (inorder_nodup (Binary.bnav_spec H hr))⟩

/-- In the view of node 2 of `1(2(5,6(7)),3,4)`, whose post-order is 5, 7, 6, 2: `++ ++ -- ++ ++` from `rbegin()` is at 5. -/
example : ∃ b r, Reverse.rbegin postOrder (Nary.nav Samples.deepHeap (some 1)) 4 = Res.ok b ∧
    Reverse.moves postOrder (Nary.nav Samples.deepHeap (some 1)) 4 [.inc, .inc, .dec, .inc, .inc] b = Res.ok r ∧
    Reverse.deref postOrder (Nary.nav Samples.deepHeap (some 1)) 4 r = Res.ok 4 := by
  obtain ⟨b, r, h1, h2, h3, _⟩ := (C07_reverse_cursor_nary (gs := [⟨(0, 1), [], [node (2, 3) [], node (3, 4) []]⟩])
    (s := node (1, 2) [node (4, 5) [], node (5, 6) [node (6, 7) []]]) Samples.deep_rep (fuel := 4) (by decide)).2.1.1
    [.inc, .inc, .dec, .inc, .inc] 3 rfl
  exact ⟨b, r, h1, h2, h3 4 rfl⟩

example := C07_reverse_cursor_binary (gs := []) Samples.bin_rep Samples.bin_toRose (fuel := 5) (by decide)

/-! ## C08, C57 changing the policy in the middle

`IsCursorAt`: an iterator made at the `k`-th element of the order. -/

theorem C08_other_policy_nary {h : NHeap α} {t : Tree (Addr × α)} (H : Nary.Rep h t) {fuel : Nat}
    (hf : t.size ≤ fuel) :
    IsCursorAt preOrder (Nary.nav h (some t.addr)) fuel t.addrTree.pre ∧
    IsCursorAt postOrder (Nary.nav h (some t.addr)) fuel t.addrTree.post ∧
    IsCursorAt breadthFirst (Nary.nav h (some t.addr)) fuel t.addrTree.bfs ∧
    IsCursorAt siblings (Nary.nav h (some t.addr)) fuel (t.addrTree.children.map label) := by
  have N := Nary.nav_spec (gs := []) H
  have hf' : t.addrTree.size ≤ fuel := by rwa [addrTree_size]
  exact ⟨preOrder_at N hf', postOrder_at N hf', bfs_at' N hf', siblings_at N⟩

example : IsCursorAt breadthFirst (Nary.nav Samples.deepHeap (some 0)) 7 [0, 1, 2, 3, 4, 5, 6] :=
  (C08_other_policy_nary Samples.deep_rep (by decide)).2.2.1

theorem C08_other_policy_binary {h : BHeap α} {b : BTree (Addr × α)} {T : Tree (Addr × α)} (H : Binary.Rep h b)
    (hT : b.toRose = [T]) {fuel : Nat} (hf : b.size ≤ fuel) :
    IsCursorAt preOrder (Binary.nav h (some T.addr)) fuel T.addrTree.pre ∧
    IsCursorAt postOrder (Binary.nav h (some T.addr)) fuel T.addrTree.post ∧
    IsCursorAt breadthFirst (Binary.nav h (some T.addr)) fuel T.addrTree.bfs ∧
    IsCursorAt siblings (Binary.nav h (some T.addr)) fuel (T.addrTree.children.map label) ∧
    IsCursorAt inOrder (Binary.nav h (some T.addr)) fuel b.addrTree.inorder := by
  have N := Binary.navSpec_of (gs := []) H hT
  have hf' : T.addrTree.size ≤ fuel := by rwa [addrTree_size, Binary.size_of_toRose hT]
  exact ⟨preOrder_at N hf', postOrder_at N hf', bfs_at' N hf', siblings_at N,
    inOrder_at (Binary.bnav_spec (gs := []) H (Binary.addr?_of_toRose hT))
      (by cases b <;> simp_all [BTree.addrTree, BTree.map]) (by rwa [BTree.addrTree, BTree.size_map])⟩

example : IsCursorAt inOrder (Binary.nav Samples.binHeap (some 0)) 5 [1, 2, 0, 4, 3] :=
  (C08_other_policy_binary Samples.bin_rep Samples.bin_toRose (by decide)).2.2.2.2

/-- `other_policy` itself: the iterator it returns, and its being a cursor of the new policy from there on. -/
theorem C08_switch {h : NHeap α} {t : Tree (Addr × α)} (H : Nary.Rep h t) {fuel : Nat} (hf : t.size ≤ fuel)
    (s : ItState) (k : Nat) (hk : t.addrTree.bfs[k]? = s.cur) (hne : s.cur ≠ none) (ms : List Move) (i : Nat)
    (hw : Cursor.walk t.addrTree.bfs.length ms k = some i) :
    ∃ s1 s2, otherPolicy breadthFirst (Nary.nav h (some t.addr)) fuel s = Res.ok s1 ∧ s1.cur = s.cur ∧
      moves breadthFirst (Nary.nav h (some t.addr)) fuel ms s1 = Res.ok s2 ∧ s2.cur = t.addrTree.bfs[i]? := by
  obtain ⟨a, ha⟩ := Option.ne_none_iff_exists'.mp hne
  obtain ⟨b, s2, h1, h2, h3, h4⟩ := (C08_other_policy_nary H hf).2.2.1 k a (by rw [hk, ha]) ms i hw
  exact ⟨b, s2, by simp [otherPolicy, ha, h1], by rw [h2, ha], h3, h4⟩

example := C08_switch Samples.deep_rep (fuel := 7) (by decide) ⟨some 3, []⟩ 3 rfl (by simp) [.inc, .inc, .dec, .inc] 5 rfl

/-- Leaves, backwards: an iterator made at the `k`-th leaf goes back through the leaves before it. -/
theorem C57_made_backward_nary_partial {h : NHeap α} {t : Tree (Addr × α)} (H : Nary.Rep h t) {fuel : Nat}
    (hf : t.size ≤ fuel) {a : Addr} {k j : Nat} (hk : t.addrTree.leaves[k]? = some a) (hj : j ≤ k) :
    ∃ b s, Policy.leaves.make (Nary.nav h (some t.addr)) fuel (some a) = Res.ok b ∧ b.cur = some a ∧
      moves Policy.leaves (Nary.nav h (some t.addr)) fuel (List.replicate j .dec) b = Res.ok s ∧
      s.cur = t.addrTree.leaves[k - j]? := by
  obtain ⟨s, h1, h2⟩ := leaves_decs (Nary.nav_spec (gs := []) H) (by rwa [addrTree_size]) j ⟨some a, []⟩ k
    (Nat.le_of_lt (List.getElem?_eq_some_iff.mp hk).1) hj hk.symm
  exact ⟨_, s, rfl, rfl, h1, h2⟩

theorem C57_made_backward_binary_partial {h : BHeap α} {b : BTree (Addr × α)} {T : Tree (Addr × α)} (H : Binary.Rep h b)
    (hT : b.toRose = [T]) {fuel : Nat} (hf : b.size ≤ fuel) {a : Addr} {k j : Nat}
    (hk : T.addrTree.leaves[k]? = some a) (hj : j ≤ k) :
    ∃ b s, Policy.leaves.make (Binary.nav h (some T.addr)) fuel (some a) = Res.ok b ∧ b.cur = some a ∧
      moves Policy.leaves (Binary.nav h (some T.addr)) fuel (List.replicate j .dec) b = Res.ok s ∧
      s.cur = T.addrTree.leaves[k - j]? := by
  obtain ⟨s, h1, h2⟩ := leaves_decs (Binary.navSpec_of (gs := []) H hT)
    (by rwa [addrTree_size, Binary.size_of_toRose hT]) j ⟨some a, []⟩ k
    (Nat.le_of_lt (List.getElem?_eq_some_iff.mp hk).1) hj hk.symm
  exact ⟨_, s, rfl, rfl, h1, h2⟩

example := C57_made_backward_nary_partial Samples.deep_rep (fuel := 7) (by decide) (k := 3) (a := 3) rfl (show 2 ≤ 3 by decide)
example := C57_made_backward_binary_partial Samples.bin_rep Samples.bin_toRose (fuel := 5) (by decide) (k := 1) (a := 4) rfl
  (show 1 ≤ 1 by decide)

/-- Leaves, forwards: an iterator made at any node (`other_policy(policy::leaves())`, conversion of a leaves iterator to a
const_iterator, `go_first_child()` and the like) is at `end()` after one `++`, whatever leaves there are. -/
theorem C57_made_forward_defect (nav : Nav) (fuel : Nat) (a : Addr) :
    ∃ b s, Policy.leaves.make nav fuel (some a) = Res.ok b ∧ b.cur = some a ∧
      Iter.inc Policy.leaves nav fuel b = Res.ok s ∧ s.cur = none := ⟨_, _, rfl, rfl, rfl, rfl⟩

/-- An iterator made at the first leaf of `1(2,3,4)` does not know that there are
more leaves: the next `++` goes to `end()`. -/
theorem C57_made_defect (fuel : Nat) (hf : 10 ≤ fuel) :
    Nary.Rep Samples.flatHeap Samples.flat ∧
    ¬ IsCursorAt Policy.leaves (Nary.nav Samples.flatHeap (some Samples.flat.addr)) fuel Samples.flat.addrTree.leaves := by
  refine ⟨Samples.flat_rep, fun h => ?_⟩
  obtain ⟨n, rfl⟩ : ∃ n, fuel = n + 10 := ⟨fuel - 10, by omega⟩
  obtain ⟨b, s, h1, _, h2, h3⟩ := h 0 1 (by decide) [.inc] 1 (by decide)
  have e : Policy.leaves.make (Nary.nav Samples.flatHeap (some Samples.flat.addr)) (n + 10) (some 1) = Res.ok ⟨some 1, []⟩ := rfl
  rw [e] at h1
  cases h1
  have e2 : moves Policy.leaves (Nary.nav Samples.flatHeap (some Samples.flat.addr)) (n + 10) [.inc]
    ⟨some 1, []⟩ = Res.ok ⟨none, []⟩ := rfl
  rw [e2] at h2
  cases h2
  revert h3
  decide

/-! ## C09, C58 boundaries -/

/-- On an empty tree `begin() == end()`, and `++` and `--` change nothing. -/
theorem C09_empty (nav : Nav) (hr : nav.root = none) (fuel : Nat) (P : Policy) (hP : P ∈ libraryPolicies) :
    ∃ e, end_ P nav fuel = Res.ok e ∧ begin_ P nav fuel = Res.ok e ∧ e.cur = none ∧
      Iter.inc P nav fuel e = Res.ok e ∧ Iter.dec P nav fuel e = Res.ok e := by
  simp only [libraryPolicies, List.mem_cons, List.not_mem_nil, or_false] at hP
  have key : ∀ P : Policy, P.make nav fuel none = Res.ok ⟨none, []⟩ →
      ∃ e, end_ P nav fuel = Res.ok e ∧ begin_ P nav fuel = Res.ok e ∧ e.cur = none ∧
        Iter.inc P nav fuel e = Res.ok e ∧ Iter.dec P nav fuel e = Res.ok e := by
    intro P hP
    refine ⟨⟨none, []⟩, by simp [end_, hP], ?_, rfl, ?_, ?_⟩ <;> simp [begin_, end_, hP, Iter.inc, Iter.dec, hr]
  rcases hP with rfl | rfl | rfl | rfl | rfl | rfl | rfl <;> exact key _ rfl

example := C09_empty (Nary.nav (Heap.empty : NHeap Nat) none) rfl 3 breadthFirst (by simp [libraryPolicies])

/-- `++` on `end()` rewinds to the first element and `--` on `end()` goes to the last, for every policy with the cursor
property (C01-C04, C06). -/
theorem C09_end {P : Policy} {nav : Nav} {fuel : Nat} {L : List Addr} (h : IsCursor P nav fuel L) (hne : L ≠ []) :
    ∃ e f l, end_ P nav fuel = Res.ok e ∧ e.cur = none ∧ Iter.inc P nav fuel e = Res.ok f ∧ f.cur = L.head? ∧
      Iter.dec P nav fuel e = Res.ok l ∧ l.cur = L.getLast? := by
  have hl : L.length ≠ 0 := by simpa using hne
  obtain ⟨e, s0, h1, h2, h3⟩ := h.2 [] L.length (by simp [Cursor.walk])
  obtain ⟨e1, f, h4, h5, h6⟩ := h.2 [.inc] 0 (by simp [Cursor.walk, Cursor.step])
  obtain ⟨e2, l, h7, h8, h9⟩ := h.2 [.dec] (L.length - 1) (by simp [Cursor.walk, Cursor.step, hl])
  rw [h1] at h4 h7
  cases h4; cases h7
  simp [moves] at h2
  subst h2
  refine ⟨e, f, l, h1, by simpa using h3, ?_, by rw [h6, List.head?_eq_getElem?], ?_, by rw [h9, List.getLast?_eq_getElem?]⟩
  · simp only [moves, move] at h5
    cases hh : Iter.inc P nav fuel e <;> simp_all
  · simp only [moves, move] at h8
    cases hh : Iter.dec P nav fuel e <;> simp_all

example := C09_end (C04_breadth_first_nary Samples.deep_rep (fuel := 7) (by decide)) (by decide)

/-- C58, `--begin()`, holds for pre_order and siblings. -/
theorem C58_dec_begin_partial {nav : Nav} {t : Tree Addr} {fuel : Nat} (N : NavSpec nav t) (hf : t.size ≤ fuel) :
    (∃ b s, begin_ preOrder nav fuel = Res.ok b ∧ Iter.dec preOrder nav fuel b = Res.ok s ∧ s.cur = none) ∧
    (∃ b s, begin_ siblings nav fuel = Res.ok b ∧ (t.children ≠ [] → Iter.dec siblings nav fuel b = Res.ok s ∧ s.cur = none)) := by
  constructor
  · have hd : preDec nav fuel t.label = Res.ok none := by
      have := preDec_list N hf (l1 := []) (a := t.label) (l2 := preL t.children) (by simp [pre_eq_cons])
      simpa using this
    refine ⟨⟨some t.label, []⟩, ⟨none, []⟩, ?_, ?_, rfl⟩
    · simp [begin_, end_, preOrder, stateless, Iter.inc, N.root]
    · simp [Iter.dec, preOrder, stateless, hd]
  · refine ⟨⟨t.children.head?.map label, []⟩, ⟨none, []⟩, ?_, fun hne => ⟨?_, rfl⟩⟩
    · have := N.first [] t rfl
      simp [begin_, end_, siblings, stateless, Iter.inc, N.root, this]
    · obtain ⟨r, cs⟩ := t
      cases cs with
      | nil => simp at hne
      | cons c cs =>
        have := N.prev [⟨r, [], cs⟩] c (by simp)
        simp at this
        simp [Iter.dec, siblings, stateless, this]

example := C58_dec_begin_partial (Nary.nav_spec (gs := []) Samples.deep_rep) (fuel := 7) (by decide)

/-- C58 is false of the code for the other policies, on every tree. `--begin()` goes to the root
(the last element) for post_order, … -/
theorem C58_post_order_defect {nav : Nav} {t : Tree Addr} {fuel : Nat} (N : NavSpec nav t) (hf : t.size ≤ fuel) :
    ∃ b s, begin_ postOrder nav fuel = Res.ok b ∧ Iter.dec postOrder nav fuel b = Res.ok s ∧ s.cur = some t.label := by
  obtain ⟨a, l2, h⟩ : ∃ a l2, t.post = a :: l2 := List.exists_cons_of_ne_nil (by rw [post_eq]; simp)
  have hd := postDec_list N hf (l1 := []) (a := a) (l2 := l2) (by simpa using h)
  have hg := postFirst_spec N fuel hf
  refine ⟨⟨some a, []⟩, ⟨some t.label, []⟩, ?_, ?_, rfl⟩
  · simp [begin_, end_, postOrder, stateless, Iter.inc, N.root, hg, h]
  · simp at hd
    simp [Iter.dec, postOrder, stateless, hd]

example := C58_post_order_defect (Nary.nav_spec (gs := []) Samples.deep_rep) (fuel := 7) (by decide)

/-- … to the last leaf for leaves, … -/
theorem C58_leaves_defect {nav : Nav} {t : Tree Addr} {fuel : Nat} (N : NavSpec nav t) (hf : t.size ≤ fuel) :
    ∃ b s, begin_ Policy.leaves nav fuel = Res.ok b ∧ Iter.dec Policy.leaves nav fuel b = Res.ok s ∧
      s.cur = t.leaves.getLast? := by
  obtain ⟨b, s, h1, h2, h3⟩ := leaves_walk N hf 0 (by omega)
  simp [moves] at h2
  subst h2
  obtain ⟨a, l2, h⟩ : ∃ a l2, t.leaves = a :: l2 := List.exists_cons_of_ne_nil (leaves_ne_nil t)
  obtain ⟨s, hs, hc⟩ := leavesDec_list N hf (l1 := []) (a := a) (l2 := l2) b.aux (by simpa using h)
  refine ⟨b, s, h1, ?_, by simpa using hc⟩
  simp [h] at h3
  simp only [Iter.dec, h3]
  exact hs

example := C58_leaves_defect (Nary.nav_spec (gs := []) Samples.deep_rep) (fuel := 7) (by decide)

/-- … to the root for in_order (unless the root is the only node reached), … -/
theorem C58_in_order_defect {nav : Nav} {b : BTree Addr} {fuel : Nat} (N : BNavSpec nav b) (hne : b ≠ .nil)
    (hf : b.size ≤ fuel) :
    ∃ s0 s, begin_ inOrder nav fuel = Res.ok s0 ∧ Iter.dec inOrder nav fuel s0 = Res.ok s ∧ s.cur = b.label? := by
  obtain ⟨s0, h1, h2⟩ := (inOrder_inv N hne hf).beginQ
  have hl : b.inorder ≠ [] := by cases b <;> simp_all
  obtain ⟨a, l2, h⟩ := List.exists_cons_of_ne_nil hl
  obtain ⟨rt, hrt, hd⟩ := inDec_list N hf (l1 := []) (a := a) (l2 := l2) (by simpa using h)
  refine ⟨s0, ⟨some rt, []⟩, h1, ?_, by simp [hrt]⟩
  simp [h] at h2
  simp at hd
  simp [Iter.dec, h2, inOrder, stateless, hd]

example := C58_in_order_defect (Binary.bnav_spec (gs := []) Samples.bin_rep rfl) (by decide) (fuel := 5) (by decide)

/-- … and is undefined behaviour (a null dereference or a failed assertion) for breadth_first, the default policy. -/
theorem C58_breadth_first_defect {nav : Nav} {t : Tree Addr} {fuel : Nat} (N : NavSpec nav t) (hf : t.size ≤ fuel) :
    ∃ b, begin_ breadthFirst nav fuel = Res.ok b ∧ Iter.dec breadthFirst nav fuel b = Res.ub := by
  have hn := N.next [] t rfl
  have hfi := N.first [] t rfl
  have hp := N.parent [] t rfl
  have hob := getOtherBranch_left N hf (fs := []) (s := t) rfl
  simp at hn hfi hp hob
  obtain ⟨r, cs⟩ := t
  have hb : begin_ breadthFirst nav fuel = Res.ok ⟨some r, (cs.head?.map label).toList⟩ := by
    cases cs <;> simp_all [begin_, end_, breadthFirst, bfsMake, Iter.inc, N.root, bfsInc]
  refine ⟨_, hb, ?_⟩
  cases cs with
  | nil => simp_all [Iter.dec, breadthFirst, bfsDec]
  | cons c cs =>
    have hpc := N.parent [⟨r, [], cs⟩] c (by simp)
    simp at hpc
    simp_all [Iter.dec, breadthFirst, bfsDec]

example := C58_breadth_first_defect (Nary.nav_spec (gs := []) Samples.deep_rep) (fuel := 7) (by decide)

/-! ## C10 views -/

theorem C10_view_nary {h : NHeap α} {gs : List (Frame (Addr × α))} {s : Tree (Addr × α)} (H : Nary.Rep h (plug gs s))
    {fuel : Nat} (hf : s.size ≤ fuel) :
    IterationLaws (Nary.nav h (some s.addr)) fuel s.addrTree :=
  laws_of (Nary.nav_spec H) (by rwa [addrTree_size])

/-- A view of the node 6 of `1(2(5,6(7)),3,4)`: it has a sibling, a parent, and nodes to the right of the parent. -/
example : IterationLaws (Nary.nav Samples.deepHeap (some 1)) 4
    (node 1 [node 4 [], node 5 [node 6 []]]) :=
  C10_view_nary (gs := [⟨(0, 1), [], [node (2, 3) [], node (3, 4) []]⟩])
    (s := node (1, 2) [node (4, 5) [], node (5, 6) [node (6, 7) []]]) Samples.deep_rep (by decide)

theorem C10_view_binary {h : BHeap α} {gs : List (BTree.Frame (Addr × α))} {s : BTree (Addr × α)} {T : Tree (Addr × α)}
    (H : Binary.Rep h (BTree.plug gs s)) (hT : s.toRose = [T]) {fuel : Nat} (hf : s.size ≤ fuel) :
    IterationLaws (Binary.nav h (some T.addr)) fuel T.addrTree ∧
    IsCursor inOrder (Binary.nav h (some T.addr)) fuel s.addrTree.inorder ∧
    IsCursorAt inOrder (Binary.nav h (some T.addr)) fuel s.addrTree.inorder := by
  have hr := Binary.addr?_of_toRose hT
  have hne : s.addrTree ≠ .nil := by cases s <;> simp_all [BTree.addrTree, BTree.map]
  have hs : s.addrTree.size = s.size := by rw [BTree.addrTree, BTree.size_map]
  refine ⟨laws_of (Binary.navSpec_of H hT) (by rwa [addrTree_size, Binary.size_of_toRose hT]), ?_, ?_⟩
  · exact (inOrder_inv (Binary.bnav_spec H hr) hne (by omega)).isCursor
  · exact inOrder_at (Binary.bnav_spec H hr) hne (by omega)

example := C10_view_binary (gs := [⟨(0, 1), true, .node (3, 3) (.node (4, 5) .nil .nil) .nil⟩])
  (s := .node (1, 2) .nil (.node (2, 4) .nil .nil)) (T := node (1, 2) [node (2, 4) []]) Samples.bin_rep rfl (fuel := 2) (by decide)
