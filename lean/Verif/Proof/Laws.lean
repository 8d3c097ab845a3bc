import Verif.Spec.Laws
import Verif.Proof.PrePost
import Verif.Proof.Bfs
import Verif.Proof.InOrder
import Verif.Proof.Leaves
import Verif.Proof.NaryNav
import Verif.Proof.NaryBuild
import Verif.Proof.BinQuery
/-! Laws of the policies over any navigator that agrees with a tree. -/
open Tree Policy Iter

variable {nav : Nav} {t : Tree Addr} {fuel : Nat}

theorem preOrder_cursor (H : NavSpec nav t) (hf : t.size ≤ fuel) : IsCursor preOrder nav fuel t.pre :=
  (preOrder_inv H hf).isCursor
theorem postOrder_cursor (H : NavSpec nav t) (hf : t.size ≤ fuel) : IsCursor postOrder nav fuel t.post :=
  (postOrder_inv H hf).isCursor
theorem bfs_cursor (H : NavSpec nav t) (hf : t.size ≤ fuel) : IsCursor breadthFirst nav fuel t.bfs :=
  (bfs_inv H hf).isCursor
theorem siblings_cursor (H : NavSpec nav t) : IsCursor siblings nav fuel (t.children.map label) :=
  (siblings_inv H).isCursor

theorem preOrder_at (H : NavSpec nav t) (hf : t.size ≤ fuel) : IsCursorAt preOrder nav fuel t.pre :=
  (preOrder_inv H hf).isCursorAt (fun k a h => ⟨_, rfl, h.symm⟩)
theorem postOrder_at (H : NavSpec nav t) (hf : t.size ≤ fuel) : IsCursorAt postOrder nav fuel t.post :=
  (postOrder_inv H hf).isCursorAt (fun k a h => ⟨_, rfl, h.symm⟩)
theorem bfs_at' (H : NavSpec nav t) (hf : t.size ≤ fuel) : IsCursorAt breadthFirst nav fuel t.bfs :=
  (bfs_inv H hf).isCursorAt (bfs_make_inv H hf)
theorem siblings_at (H : NavSpec nav t) : IsCursorAt siblings nav fuel (t.children.map label) :=
  (siblings_inv H).isCursorAt (fun k a h => ⟨_, rfl, h.symm⟩)
theorem inOrder_at {b : BTree Addr} (H : BNavSpec nav b) (hne : b ≠ .nil) (hf : b.size ≤ fuel) :
    IsCursorAt inOrder nav fuel b.inorder :=
  (inOrder_inv H hne hf).isCursorAt (fun k a h => ⟨_, rfl, h.symm⟩)

theorem fixed_at (a : Addr) (hr : ∃ r, nav.root = some r) : IsCursorAt fixed nav fuel [a] := by
  intro k b hk ms i hw
  have hk0 : k = 0 := by
    cases k with
    | zero => rfl
    | succ k => simp at hk
  subst hk0
  simp at hk; subst hk
  refine ⟨⟨some a, [a]⟩, ?_⟩
  have : ∀ (ms : List Move) (k i : Nat), k ≤ 1 → Cursor.walk 1 ms k = some i →
      ∃ s, moves fixed nav fuel ms ⟨[a][k]?, [a]⟩ = Res.ok s ∧ s.cur = [a][i]? := by
    intro ms
    induction ms with
    | nil => intro k i _ h; simp [Cursor.walk] at h; subst h; exact ⟨_, rfl, rfl⟩
    | cons m ms ih =>
      intro k i hk h
      obtain ⟨r, hr⟩ := hr
      have hk' : k = 0 ∨ k = 1 := by omega
      rcases hk' with rfl | rfl <;> cases m <;> simp [Cursor.walk, Cursor.step] at h
      · simpa [moves, move, Iter.inc, fixed] using ih 1 i (by omega) h
      · simpa [moves, move, Iter.inc, fixed, hr] using ih 0 i (by omega) h
      · simpa [moves, move, Iter.dec, fixed, hr] using ih 0 i (by omega) h
  obtain ⟨s, h1, h2⟩ := this ms 0 i (by omega) hw
  exact ⟨s, rfl, rfl, h1, h2⟩

theorem moves_append (P : Policy) (ms ms' : List Move) (s : ItState) :
    moves P nav fuel (ms ++ ms') s = (moves P nav fuel ms s >>= fun s' => moves P nav fuel ms' s') := by
  induction ms generalizing s with
  | nil => simp [moves]
  | cons m ms ih =>
    simp only [List.cons_append, moves]
    cases h : move P nav fuel m s <;> simp [ih]

theorem leaves_last (H : NavSpec nav t) (hf : t.size ≤ fuel) (st : List Addr) :
    ∃ s, leaves.goLast nav fuel st = Res.ok s ∧ s.cur = t.leaves.getLast? := by
  obtain ⟨b, q1, q2⟩ := keepCalling_first H.mirror fuel [] t.mirror rfl (by rw [size_mirror]; omega)
  have q1' : keepCalling nav.last fuel t.label = Res.ok b := by simpa [Nav.mirror] using q1
  rw [← leaves_head_post, leaves_mirror] at q2
  exact ⟨⟨some b, []⟩, by simp [Policy.leaves, H.root, q1'], by simpa using q2.symm⟩

/-- Going back through the leaves works from any position, whatever the stack. -/
theorem leaves_decs (H : NavSpec nav t) (hf : t.size ≤ fuel) : ∀ j s k, k ≤ t.leaves.length → j ≤ k → s.cur = t.leaves[k]? →
      ∃ s', moves leaves nav fuel (List.replicate j .dec) s = Res.ok s' ∧ s'.cur = t.leaves[k - j]? := by
  intro j
  induction j with
  | zero => intro s k _ _ h; exact ⟨s, rfl, by simpa using h⟩
  | succ j ih =>
    intro s k hk hjk h
    have key : ∃ s', Iter.dec leaves nav fuel s = Res.ok s' ∧ s'.cur = t.leaves[k - 1]? := by
      by_cases hlt : k < t.leaves.length
      · have he : t.leaves[k]? = some t.leaves[k] := by simp [hlt]
        obtain ⟨s', h1, h2⟩ := leavesDec_list H hf s.aux (list_split he)
        refine ⟨s', by simp [Iter.dec, h, hlt, Policy.leaves]; exact h1, ?_⟩
        have hne : t.leaves.take k ≠ [] := by
          intro h0
          have := congrArg List.length h0
          simp only [List.length_take, List.length_nil] at this
          omega
        rw [h2, if_neg hne]
        rw [List.getLast?_take]
        rw [if_neg (by omega)]
        have : k - 1 < t.leaves.length := by omega
        simp [this]
      · have hk' : k = t.leaves.length := by omega
        subst hk'
        obtain ⟨s', q1, q2⟩ := leaves_last H hf s.aux
        refine ⟨s', by simp [Iter.dec, h, H.root, q1], ?_⟩
        rw [q2, List.getLast?_eq_getElem?]
    obtain ⟨s', h1, h2⟩ := key
    obtain ⟨s'', h3, h4⟩ := ih s' (k - 1) (by omega) (by omega) h2
    refine ⟨s'', by simp [List.replicate_succ, moves, move, h1, h3], ?_⟩
    rw [h4]; congr 1; omega

/-- Any number of `++` from the first leaf followed by any number of `--`. -/
theorem leaves_inc_dec (H : NavSpec nav t) (hf : t.size ≤ fuel) (i j : Nat) (hi : i ≤ t.leaves.length) (hj : j ≤ i) :
    ∃ b s, begin_ leaves nav fuel = Res.ok b ∧
      moves leaves nav fuel (List.replicate i .inc ++ List.replicate j .dec) b = Res.ok s ∧ s.cur = t.leaves[i - j]? := by
  obtain ⟨b, s, hb, hs, hc⟩ := leaves_walk H hf i hi
  obtain ⟨s', h1, h2⟩ := leaves_decs H hf j s i hi hj hc
  exact ⟨b, s', hb, by rw [moves_append, hs]; simpa using h1, h2⟩

/-- The loops of all policies. -/
theorem loops (N : NavSpec nav t) (hf : t.size < fuel) :
    (forward preOrder nav fuel = Res.ok t.pre ∧ backward preOrder nav fuel = Res.ok t.pre.reverse) ∧
    (forward postOrder nav fuel = Res.ok t.post ∧ backward postOrder nav fuel = Res.ok t.post.reverse) ∧
    (forward breadthFirst nav fuel = Res.ok t.bfs ∧ backward breadthFirst nav fuel = Res.ok t.bfs.reverse) ∧
    (forward siblings nav fuel = Res.ok (t.children.map label) ∧
      backward siblings nav fuel = Res.ok (t.children.map label).reverse) := by
  have h1 : t.pre.length < fuel := by rwa [length_pre]
  have h2 : t.post.length < fuel := by rwa [(post_perm_pre t).length_eq, length_pre]
  have h3 : t.bfs.length < fuel := by rwa [(bfs_perm t).length_eq, length_pre]
  have h4 : (t.children.map label).length < fuel := by
    have := length_row_le 1 [t]
    simp [row_succ] at this ⊢
    omega
  have n4 : (t.children.map label).Nodup := by
    have := row_nodup N 1
    simpa [row_succ] using this
  have I1 := preOrder_inv N (Nat.le_of_lt hf)
  have I2 := postOrder_inv N (Nat.le_of_lt hf)
  have I3 := bfs_inv N (Nat.le_of_lt hf)
  have I4 := siblings_inv (fuel := fuel) N
  exact ⟨⟨I1.forward_spec h1, I1.backward_spec N.nodup h1⟩, ⟨I2.forward_spec h2, I2.backward_spec (nodup_post.mpr N.nodup) h2⟩,
    ⟨I3.forward_spec h3, I3.backward_spec (bfs_nodup N) h3⟩, ⟨I4.forward_spec h4, I4.backward_spec n4 h4⟩⟩

theorem laws_of (N : NavSpec nav t) (hf : t.size ≤ fuel) : IterationLaws nav fuel t where
  pre := preOrder_cursor N hf
  post := postOrder_cursor N hf
  bfs := bfs_cursor N hf
  siblings := siblings_cursor N
  preAt := preOrder_at N hf
  postAt := postOrder_at N hf
  bfsAt := bfs_at' N hf
  siblingsAt := siblings_at N
  leavesForward := leaves_forward N (by omega)
  leavesBackward := leaves_backward N (by omega)

/-! ### Heaps -/

namespace Nary
variable {α : Type} {h : NHeap α}

/-- Every tree of values is represented in some heap. -/
theorem exists_rep (u : Tree α) : ∃ (h : NHeap α) (t : Tree (Addr × α)), h.WF ∧ Rep h t ∧ t.vals = u := by
  have hw : (Heap.empty : NHeap α).WF := fun _ _ => rfl
  obtain ⟨h', t', _, h2, h3, h4⟩ := ofLit_spec hw u
  exact ⟨h', t', h4.wf, h2, h3⟩

end Nary

namespace Binary
variable {α : Type} {h : BHeap α}

/-- The literal of a binary tree. -/
def litOf : BTree α → Lit α
  | .nil => .node none []
  | .node v l r => .node (some v) [litOf l, litOf r]

theorem toB_litOf (u : BTree α) : Lit.toB (litOf u) = u := by
  induction u with
  | nil => simp [litOf, Lit.toB]
  | node v l r ihl ihr => simp [litOf, Lit.toB, ihl, ihr]

/-- Every binary tree of values is represented in some heap. -/
theorem exists_rep (u : BTree α) : ∃ (h : BHeap α) (t : BTree (Addr × α)), h.WF ∧ Rep h t ∧ t.vals = u := by
  have hw : (Heap.empty : BHeap α).WF := fun _ _ => rfl
  cases u with
  | nil => exact ⟨Heap.empty, .nil, hw, by simp [Rep], rfl⟩
  | node v l r =>
    obtain ⟨h', a, t', _, _, h2, h3, h4⟩ := ofLit_spec hw (litOf (.node v l r)) (by simp [litOf])
    exact ⟨h', t', h4.wf, h2, by rw [h3, toB_litOf]⟩

theorem addr?_of_toRose {t : BTree (Addr × α)} {T : Tree (Addr × α)} (hT : t.toRose = [T]) : t.addr? = some T.addr := by
  cases t with
  | nil => simp [BTree.toRose] at hT
  | node p l r =>
    simp [BTree.toRose] at hT
    subst hT
    obtain ⟨a, v⟩ := p
    simp

theorem navSpec_of {gs} {s : BTree (Addr × α)} {T : Tree (Addr × α)} (H : Rep h (BTree.plug gs s)) (hT : s.toRose = [T]) :
    NavSpec (Binary.nav h (some T.addr)) T.addrTree := by
  refine nav_spec H (addr?_of_toRose hT) ?_
  rw [BTree.addrTree, BTree.toRose_map, hT]
  simp [addrTree]

theorem size_toRose {β : Type} (t : BTree β) : sizeL t.toRose = t.size := by
  induction t with
  | nil => simp [BTree.toRose, BTree.size]
  | node a l r ihl ihr => simp [BTree.toRose, BTree.size, ihl, ihr]

theorem size_of_toRose {β : Type} {t : BTree β} {T : Tree β} (hT : t.toRose = [T]) : T.size = t.size := by
  rw [← size_toRose, hT]; simp

end Binary
