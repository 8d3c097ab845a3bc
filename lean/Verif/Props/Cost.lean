import Verif.Spec.Cost
import Verif.Proof.CostIn
import Verif.Proof.CostQueue
import Verif.Proof.Laws
import Verif.Props.Samples
import Verif.Props.Filter
/-!
# C98: what a walk over a tree costs

A tree or a view of it (the part `s` of the tree `plug gs s` the heap holds; `gs = []` is the whole tree), walked from `begin()` to `end()` with
`++`, or from `end()` to `begin()` with `--`: how many rounds the loops inside of all these calls make, and how many inside of one call
(`ForwardTakes`, `BackwardTakes`: Spec/Cost.lean). A round follows one or two links; what a call does outside of its loops is a fixed number of steps.
-/
open Tree Policy Iter

variable {α : Type}

namespace Tree
theorem height_mapL {β γ : Type} (f : β → γ) : ∀ ts : List (Tree β), heightL (mapL f ts) = heightL ts
  | [] => by simp [mapL]
  | node p cs :: ts => by
    have h1 := height_mapL f cs
    have h2 := height_mapL f ts
    simp only [mapL, map, heightL, height, h1, h2]
termination_by ts => sizeL ts
decreasing_by all_goals (simp only [sizeL, size]; omega)

theorem addrTree_height (t : Tree (Addr × α)) : t.addrTree.height = t.height := by
  cases t; simp [addrTree, map, height, height_mapL]

theorem addrTree_leaves_length (t : Tree (Addr × α)) : t.addrTree.leaves.length = t.leaves.length := by
  rw [addrTree, leaves_map, List.length_map]
end Tree

namespace BTree
theorem toRose_height {β : Type} : ∀ t : BTree β, heightL t.toRose = t.height
  | nil => by simp [toRose, height]
  | node a l r => by
    have h1 := toRose_height l
    have h2 := toRose_height r
    simp [toRose, height, h1, h2]

theorem height_of_toRose {β : Type} {t : BTree β} {T : Tree β} (hT : t.toRose = [T]) : T.height = t.height := by
  rw [← toRose_height, hT]; simp

theorem addrTree_height (t : BTree (Addr × α)) : t.addrTree.height = t.height := by
  induction t <;> simp_all [addrTree, map, height]

theorem addrTree_size (t : BTree (Addr × α)) : t.addrTree.size = t.size := by rw [addrTree, size_map]
end BTree

/-! ## Pre-order -/

theorem C98_pre_order_nary {h : NHeap α} {gs : List (Frame (Addr × α))} {s : Tree (Addr × α)} (H : Nary.Rep h (plug gs s)) :
    ForwardTakes preOrder (Nary.nav h (some s.addr)) s.size s.size s.height ∧
    BackwardTakes preOrder (Nary.nav h (some s.addr)) s.size s.size s.height := by
  have h1 := preOrder_forward (Nary.nav_spec H)
  have h2 := preOrder_backward (Nary.nav_spec H)
  rw [addrTree_size, addrTree_height] at h1 h2
  exact ⟨h1, h2⟩

example : ForwardTakes preOrder (Nary.nav Samples.deepHeap (some 0)) 7 7 4 := (C98_pre_order_nary (gs := []) Samples.deep_rep).1

theorem C98_pre_order_binary {h : BHeap α} {gs : List (BTree.Frame (Addr × α))} {b : BTree (Addr × α)} {T : Tree (Addr × α)}
    (H : Binary.Rep h (BTree.plug gs b)) (hT : b.toRose = [T]) :
    ForwardTakes preOrder (Binary.nav h (some T.addr)) b.size b.size b.height ∧
    BackwardTakes preOrder (Binary.nav h (some T.addr)) b.size b.size b.height := by
  have h1 := preOrder_forward (Binary.navSpec_of H hT)
  have h2 := preOrder_backward (Binary.navSpec_of H hT)
  rw [addrTree_size, addrTree_height, Binary.size_of_toRose hT, BTree.height_of_toRose hT] at h1 h2
  exact ⟨h1, h2⟩

example : BackwardTakes preOrder (Binary.nav Samples.binHeap (some 0)) 5 5 3 := (C98_pre_order_binary (gs := []) Samples.bin_rep Samples.bin_toRose).2

/-! ## Post-order -/

theorem C98_post_order_nary {h : NHeap α} {gs : List (Frame (Addr × α))} {s : Tree (Addr × α)} (H : Nary.Rep h (plug gs s)) :
    ForwardTakes postOrder (Nary.nav h (some s.addr)) s.size s.size s.height ∧
    ∃ total, total ≤ s.size ∧ BackwardTakes postOrder (Nary.nav h (some s.addr)) s.size total s.height := by
  have h1 := postOrder_forward (Nary.nav_spec H)
  have h2 := postOrder_backward (Nary.nav_spec H)
  rw [addrTree_size, addrTree_height] at h1 h2
  exact ⟨h1, h2⟩

example : ForwardTakes postOrder (Nary.nav Samples.deepHeap (some 0)) 7 7 4 := (C98_post_order_nary (gs := []) Samples.deep_rep).1

theorem C98_post_order_binary {h : BHeap α} {gs : List (BTree.Frame (Addr × α))} {b : BTree (Addr × α)} {T : Tree (Addr × α)}
    (H : Binary.Rep h (BTree.plug gs b)) (hT : b.toRose = [T]) :
    ForwardTakes postOrder (Binary.nav h (some T.addr)) b.size b.size b.height ∧
    ∃ total, total ≤ b.size ∧ BackwardTakes postOrder (Binary.nav h (some T.addr)) b.size total b.height := by
  have h1 := postOrder_forward (Binary.navSpec_of H hT)
  have h2 := postOrder_backward (Binary.navSpec_of H hT)
  rw [addrTree_size, addrTree_height, Binary.size_of_toRose hT, BTree.height_of_toRose hT] at h1 h2
  exact ⟨h1, h2⟩

example : ForwardTakes postOrder (Binary.nav Samples.binHeap (some 0)) 5 5 3 := (C98_post_order_binary (gs := []) Samples.bin_rep Samples.bin_toRose).1

/-! ## In-order -/

theorem C98_in_order {h : BHeap α} {gs : List (BTree.Frame (Addr × α))} {b : BTree (Addr × α)} (H : Binary.Rep h (BTree.plug gs b)) {r : Addr}
    (hr : b.addr? = some r) :
    ForwardTakes inOrder (Binary.nav h (some r)) b.size (2 * b.size) b.height ∧
    ∃ total, total ≤ 2 * b.size ∧ BackwardTakes inOrder (Binary.nav h (some r)) b.size total b.height := by
  have hne : b.addrTree ≠ .nil := by cases b <;> simp_all [BTree.addrTree, BTree.map]
  have h1 := inOrder_forward (Binary.bnav_spec H hr) hne
  have h2 := inOrder_backward (Binary.bnav_spec H hr) hne
  rw [BTree.addrTree_size, BTree.addrTree_height] at h1 h2
  exact ⟨h1, h2⟩

example : ForwardTakes inOrder (Binary.nav Samples.binHeap (some 0)) 5 10 3 := (C98_in_order (gs := []) Samples.bin_rep rfl).1

/-! ## Breadth-first, forwards: no loop at all -/

theorem C98_breadth_first_nary {h : NHeap α} {gs : List (Frame (Addr × α))} {s : Tree (Addr × α)} (H : Nary.Rep h (plug gs s)) :
    ForwardTakes breadthFirst (Nary.nav h (some s.addr)) s.size 0 0 := by
  have h1 := breadthFirst_forward (Nary.nav_spec H)
  rwa [addrTree_size] at h1

example : ForwardTakes breadthFirst (Nary.nav Samples.deepHeap (some 0)) 7 0 0 := C98_breadth_first_nary (gs := []) Samples.deep_rep

theorem C98_breadth_first_binary {h : BHeap α} {gs : List (BTree.Frame (Addr × α))} {b : BTree (Addr × α)} {T : Tree (Addr × α)}
    (H : Binary.Rep h (BTree.plug gs b)) (hT : b.toRose = [T]) :
    ForwardTakes breadthFirst (Binary.nav h (some T.addr)) b.size 0 0 := by
  have h1 := breadthFirst_forward (Binary.navSpec_of H hT)
  rwa [addrTree_size, Binary.size_of_toRose hT] at h1

example : ForwardTakes breadthFirst (Binary.nav Samples.binHeap (some 0)) 5 0 0 := C98_breadth_first_binary (gs := []) Samples.bin_rep Samples.bin_toRose

/-! ## Leaves, forwards -/

theorem C98_leaves_nary {h : NHeap α} {gs : List (Frame (Addr × α))} {s : Tree (Addr × α)} (H : Nary.Rep h (plug gs s)) :
    ForwardTakes Policy.leaves (Nary.nav h (some s.addr)) s.leaves.length s.size s.height := by
  have h1 := leaves_forwardTakes (Nary.nav_spec H)
  rwa [addrTree_size, addrTree_height, addrTree_leaves_length] at h1

example : ForwardTakes Policy.leaves (Nary.nav Samples.deepHeap (some 0)) 4 7 4 := C98_leaves_nary (gs := []) Samples.deep_rep

theorem C98_leaves_binary {h : BHeap α} {gs : List (BTree.Frame (Addr × α))} {b : BTree (Addr × α)} {T : Tree (Addr × α)}
    (H : Binary.Rep h (BTree.plug gs b)) (hT : b.toRose = [T]) :
    ForwardTakes Policy.leaves (Binary.nav h (some T.addr)) T.leaves.length b.size b.height := by
  have h1 := leaves_forwardTakes (Binary.navSpec_of H hT)
  rwa [addrTree_size, addrTree_height, addrTree_leaves_length, Binary.size_of_toRose hT, BTree.height_of_toRose hT] at h1

example : ForwardTakes Policy.leaves (Binary.nav Samples.binHeap (some 0)) 2 5 3 := C98_leaves_binary (gs := []) Samples.bin_rep Samples.bin_toRose
