import Verif.Proof.NodeQuery
import Verif.Props.Navigation
/-!
# C49: queries of node objects
-/
open Tree

variable {α : Type}

/-- What the queries of the node at the root of `s`, which hangs in the context `fs` of the tree `t`, must answer. -/
structure NodeAnswers (t : Tree Addr) (fs : List (Frame Addr)) (s : Tree Addr) (root : Res Addr) (isRoot hasChildren unique : Res Bool)
    (index : Res Nat) : Prop where
  root : root = Res.ok t.label
  isRoot : isRoot = Res.ok fs.isEmpty
  hasChildren : hasChildren = Res.ok (!s.children.isEmpty)
  unique : unique = Res.ok (fs.head?.any (fun f => f.lefts.isEmpty && f.rights.isEmpty))
  index : ∃ k, index = Res.ok k ∧ t.bfs[k]? = some s.label

theorem bfs_idxOf {t : Tree Addr} {fs : List (Frame Addr)} {s : Tree Addr} (hs : plug fs s = t) :
    t.bfs[t.bfs.idxOf s.label]? = some s.label := by
  have hm : s.label ∈ t.bfs := (bfs_perm t).mem_iff.mpr (label_mem_pre_plug hs)
  rw [List.getElem?_eq_getElem (List.idxOf_lt_length_of_mem hm)]
  simp

theorem C49_nary {h : NHeap α} {t : Tree (Addr × α)} (H : Nary.Rep h t) {fuel : Nat} (hf : t.size < fuel)
    {fs : List (Frame Addr)} {s : Tree Addr} (hs : plug fs s = t.addrTree) :
    NodeAnswers t.addrTree fs s (NodeQuery.getRoot (Nary.nav h) fuel s.label) (NodeQuery.isRoot (Nary.nav h) s.label)
      (NodeQuery.hasChildren (Nary.nav h) s.label) (Nary.isUniqueChild h s.label)
      (NodeQuery.breadthFirstIndex (Nary.nav h) fuel s.label) := by
  have N := C11_navigator_nary (gs := []) H
  rw [← addrTree_label] at N
  have Q := NodeQuery.queries_spec (navAt := Nary.nav h) (fuel := fuel) N (fun fs s hs => Nary.parent_none H hs) (fun _ => rfl)
    (by simpa [addrTree, size_map] using hf) hs
  exact ⟨Q.1, Q.2.1, Q.2.2.1, Nary.isUniqueChild_spec H hs, _, Q.2.2.2, bfs_idxOf hs⟩

theorem C49_binary {h : BHeap α} {b : BTree (Addr × α)} {T : Tree (Addr × α)} (H : Binary.Rep h b) (hT : b.toRose = [T])
    {fuel : Nat} (hf : b.size < fuel) {fs : List (Frame Addr)} {s : Tree Addr} (hs : plug fs s = T.addrTree) :
    NodeAnswers T.addrTree fs s (NodeQuery.getRoot (Binary.nav h) fuel s.label) (NodeQuery.isRoot (Binary.nav h) s.label)
      (NodeQuery.hasChildren (Binary.nav h) s.label) (Binary.isUniqueChild h s.label)
      (NodeQuery.breadthFirstIndex (Binary.nav h) fuel s.label) := by
  have N := (C11_navigator_binary (gs := []) H hT).1
  have hx := Binary.addr?_of_toRose hT
  have hT' : b.addrTree.toRose = [T.addrTree] := by simp [BTree.addrTree, BTree.toRose_map, hT, addrTree]
  rw [← addrTree_label] at N
  have hsz : T.addrTree.size = b.size := by
    have := congrArg List.length (BTree.preL_toRose b)
    rw [hT] at this
    rw [← BTree.length_addrs]
    simpa [addrTree, size_map, BTree.addrs] using this
  have Q := NodeQuery.queries_spec (navAt := Binary.nav h) (fuel := fuel) N (fun fs s hs => Binary.parent_none H hx hT' hs)
    (fun _ => rfl) (by omega) hs
  exact ⟨Q.1, Q.2.1, Q.2.2.1, Binary.isUniqueChild_spec H hx hT' hs, _, Q.2.2.2, bfs_idxOf hs⟩

/-- The position found is the only one (`C11_navigator_nary` and `C11_navigator_binary` give the hypothesis). -/
theorem C49_index_unique {nav : Nav} {t : Tree Addr} (N : NavSpec nav t) {i j : Nat} {a : Addr}
    (hi : t.bfs[i]? = some a) (hj : t.bfs[j]? = some a) : i = j := by
  have hnd : t.bfs.Nodup := (bfs_perm _).nodup_iff.mpr N.nodup
  obtain ⟨hi, ei⟩ := List.getElem?_eq_some_iff.mp hi
  obtain ⟨hj, ej⟩ := List.getElem?_eq_some_iff.mp hj
  rw [List.nodup_iff_pairwise_ne, List.pairwise_iff_getElem] at hnd
  rcases Nat.lt_trichotomy i j with h | h | h
  · exact absurd (ei.trans ej.symm) (hnd i j hi hj h)
  · exact h
  · exact absurd (ej.trans ei.symm) (hnd j i hj hi h)

/-! Instances: node 6 of `1(2(5,6(7)),3,4)` is the only child of node 5 and last in breadth-first order; node 2 (value 3) is
neither. -/
example := C49_nary Samples.deep_rep (fuel := 8) (by decide)
  (fs := [⟨5, [], []⟩, ⟨1, [node 4 []], []⟩, ⟨0, [], [node 2 [], node 3 []]⟩]) (s := node 6 []) rfl
example : NodeQuery.breadthFirstIndex (Nary.nav Samples.deepHeap) 8 6 = Res.ok 6 := by decide +kernel
example : Nary.isUniqueChild Samples.deepHeap 6 = Res.ok true ∧ Nary.isUniqueChild Samples.deepHeap 2 = Res.ok false := by
  decide +kernel
example := C49_binary Samples.bin_rep Samples.bin_toRose (fuel := 20) (by decide) (fs := []) rfl
example := C49_index_unique (C11_navigator_nary (gs := []) Samples.deep_rep) (i := 6) (j := 6) (a := 6) rfl rfl
