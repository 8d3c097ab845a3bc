import Verif.Spec.ConstIter
import Verif.Proof.ConstIter
import Verif.Proof.Laws
import Verif.Props.Samples
/-!
# C99: converting iterators to const iterators

`gs = []` is the whole tree, other `gs` are views. (The leaves policy loses its place: `C57_made_forward_defect`.)
-/
open Tree Policy Iter

variable {α : Type}

theorem C99_nary {h : NHeap α} {gs : List (Frame (Addr × α))} {s : Tree (Addr × α)} (H : Nary.Rep h (plug gs s)) {fuel : Nat}
    (hf : s.size ≤ fuel) :
    Converts preOrder (Nary.nav h (some s.addr)) fuel s.addrTree.pre ∧
    Converts postOrder (Nary.nav h (some s.addr)) fuel s.addrTree.post ∧
    Converts breadthFirst (Nary.nav h (some s.addr)) fuel s.addrTree.bfs ∧
    Converts siblings (Nary.nav h (some s.addr)) fuel (s.addrTree.children.map label) := by
  have hf' : s.addrTree.size ≤ fuel := by rwa [addrTree_size]
  have N := Nary.nav_spec H
  exact ⟨(stateless_made (preOrder_inv N hf')).1, (stateless_made (postOrder_inv N hf')).1, (bfs_made N hf').1, (stateless_made (siblings_inv N)).1⟩

example : ∃ e s, end_ breadthFirst (Nary.nav Samples.deepHeap (some 0)) 7 = Res.ok e ∧
    moves breadthFirst (Nary.nav Samples.deepHeap (some 0)) 7 [.inc, .inc, .inc] e = Res.ok s ∧ s.cur = some 2 ∧
    toConst breadthFirst (Nary.nav Samples.deepHeap (some 0)) 7 s = Res.ok s :=
  (C99_nary (gs := []) Samples.deep_rep (by decide)).2.2.1 [.inc, .inc, .inc] 2 rfl

theorem C99_binary {h : BHeap α} {gs : List (BTree.Frame (Addr × α))} {b : BTree (Addr × α)} {T : Tree (Addr × α)}
    (H : Binary.Rep h (BTree.plug gs b)) (hT : b.toRose = [T]) {fuel : Nat} (hf : b.size ≤ fuel) :
    Converts preOrder (Binary.nav h (some T.addr)) fuel T.addrTree.pre ∧
    Converts postOrder (Binary.nav h (some T.addr)) fuel T.addrTree.post ∧
    Converts inOrder (Binary.nav h (some T.addr)) fuel b.addrTree.inorder ∧
    Converts breadthFirst (Binary.nav h (some T.addr)) fuel T.addrTree.bfs ∧
    Converts siblings (Binary.nav h (some T.addr)) fuel (T.addrTree.children.map label) := by
  have hf' : T.addrTree.size ≤ fuel := by rwa [addrTree_size, Binary.size_of_toRose hT]
  have N := Binary.navSpec_of H hT
  have hr := Binary.addr?_of_toRose hT
  have B := Binary.bnav_spec H hr
  have hb := inOrder_inv (fuel := fuel) B (by cases b <;> simp_all [BTree.addrTree, BTree.map]) (by rwa [BTree.addrTree, BTree.size_map])
  exact ⟨(stateless_made (preOrder_inv N hf')).1, (stateless_made (postOrder_inv N hf')).1, (stateless_made hb).1, (bfs_made N hf').1,
    (stateless_made (siblings_inv N)).1⟩

example : ∃ e s, end_ inOrder (Binary.nav Samples.binHeap (some 0)) 5 = Res.ok e ∧
    moves inOrder (Binary.nav Samples.binHeap (some 0)) 5 [.dec, .dec] e = Res.ok s ∧ s.cur = some 4 ∧
    toConst inOrder (Binary.nav Samples.binHeap (some 0)) 5 s = Res.ok s :=
  (C99_binary (gs := []) Samples.bin_rep Samples.bin_toRose (by decide)).2.2.1 [.dec, .dec] 3 rfl

/-- `fixed`, made at a node. (At its end it forgets the node: `C99` does not speak of it.) -/
theorem C99_fixed (nav : Nav) (fuel : Nat) (a : Addr) :
    ∃ s, Policy.fixed.make nav fuel (some a) = Res.ok s ∧ s.cur = some a ∧ toConst fixed nav fuel s = Res.ok s := ⟨_, rfl, rfl, rfl⟩

/-- The empty tree: `begin()` and `end()` convert to themselves, for all policies. -/
theorem C99_empty (nav : Nav) (hr : nav.root = none) (fuel : Nat) (P : Policy) (hP : P ∈ libraryPolicies) :
    ∃ e, end_ P nav fuel = Res.ok e ∧ begin_ P nav fuel = Res.ok e ∧ toConst P nav fuel e = Res.ok e := by
  simp only [libraryPolicies, List.mem_cons, List.not_mem_nil, or_false] at hP
  rcases hP with rfl | rfl | rfl | rfl | rfl | rfl | rfl <;>
    exact ⟨⟨none, []⟩, rfl, by simp [begin_, end_, Iter.inc, hr, preOrder, postOrder, inOrder, breadthFirst, bfsMake, siblings, fixed, Policy.leaves, stateless], rfl⟩

/-- `other_node`: the iterator made at another node is the one that moving there makes. -/
theorem C99_other_node_nary {h : NHeap α} {gs : List (Frame (Addr × α))} {s : Tree (Addr × α)} (H : Nary.Rep h (plug gs s)) {fuel : Nat}
    (hf : s.size ≤ fuel) :
    OtherNodeIs preOrder (Nary.nav h (some s.addr)) fuel s.addrTree.pre ∧
    OtherNodeIs postOrder (Nary.nav h (some s.addr)) fuel s.addrTree.post ∧
    OtherNodeIs breadthFirst (Nary.nav h (some s.addr)) fuel s.addrTree.bfs ∧
    OtherNodeIs siblings (Nary.nav h (some s.addr)) fuel (s.addrTree.children.map label) := by
  have hf' : s.addrTree.size ≤ fuel := by rwa [addrTree_size]
  have N := Nary.nav_spec H
  exact ⟨(stateless_made (preOrder_inv N hf')).2, (stateless_made (postOrder_inv N hf')).2, (bfs_made N hf').2, (stateless_made (siblings_inv N)).2⟩

example := (C99_other_node_nary (gs := []) Samples.deep_rep (fuel := 7) (by decide)).2.2.1 [.inc, .inc, .inc] 2 rfl

theorem C99_other_node_binary {h : BHeap α} {gs : List (BTree.Frame (Addr × α))} {b : BTree (Addr × α)} {T : Tree (Addr × α)}
    (H : Binary.Rep h (BTree.plug gs b)) (hT : b.toRose = [T]) {fuel : Nat} (hf : b.size ≤ fuel) :
    OtherNodeIs preOrder (Binary.nav h (some T.addr)) fuel T.addrTree.pre ∧
    OtherNodeIs postOrder (Binary.nav h (some T.addr)) fuel T.addrTree.post ∧
    OtherNodeIs inOrder (Binary.nav h (some T.addr)) fuel b.addrTree.inorder ∧
    OtherNodeIs breadthFirst (Binary.nav h (some T.addr)) fuel T.addrTree.bfs ∧
    OtherNodeIs siblings (Binary.nav h (some T.addr)) fuel (T.addrTree.children.map label) := by
  have hf' : T.addrTree.size ≤ fuel := by rwa [addrTree_size, Binary.size_of_toRose hT]
  have N := Binary.navSpec_of H hT
  have hr := Binary.addr?_of_toRose hT
  have B := Binary.bnav_spec H hr
  have hb := inOrder_inv (fuel := fuel) B (by cases b <;> simp_all [BTree.addrTree, BTree.map]) (by rwa [BTree.addrTree, BTree.size_map])
  exact ⟨(stateless_made (preOrder_inv N hf')).2, (stateless_made (postOrder_inv N hf')).2, (stateless_made hb).2, (bfs_made N hf').2,
    (stateless_made (siblings_inv N)).2⟩

example := (C99_other_node_binary (gs := []) Samples.bin_rep Samples.bin_toRose (fuel := 5) (by decide)).2.2.1 [.dec, .dec] 3 rfl
