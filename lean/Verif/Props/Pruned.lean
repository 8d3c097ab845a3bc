import Verif.Proof.Pruned
import Verif.Proof.PreStop
import Verif.Proof.PatternWorld
import Verif.Props.Samples
/-!
# C38, C69: iterating with a node_pred_navigator

`keep q t` (Spec/Prune.lean) is the tree `t` without the subtrees, below its root, whose root fails `q`.
-/
open Tree Policy Iter
variable {α : Type}

namespace Tree
variable {β γ : Type}
mutual
theorem keep_map (g : β → γ) (q : γ → Bool) : (t : Tree β) → keep q (t.map g) = (keep (fun x => q (g x)) t).map g
  | .node a cs => by simp only [map_node, keep_node, keepL_map g q cs]
theorem keepL_map (g : β → γ) (q : γ → Bool) : (ts : List (Tree β)) → keepL q (mapL g ts) = mapL g (keepL (fun x => q (g x)) ts)
  | [] => by simp [mapL, keepL]
  | t :: ts => by
    simp only [mapL, keepL, label_map, keepL_map g q ts, keep_map g q t]
    split <;> simp [mapL]
end
mutual
theorem keep_congr {q q' : β → Bool} : (t : Tree β) → (∀ a ∈ t.pre, q a = q' a) → keep q t = keep q' t
  | .node a cs, h => by
    simp only [keep_node, Tree.node.injEq, true_and]
    exact keepL_congr cs (fun x hx => h x (by simp [hx]))
theorem keepL_congr {q q' : β → Bool} : (ts : List (Tree β)) → (∀ a ∈ preL ts, q a = q' a) → keepL q ts = keepL q' ts
  | [], _ => by simp [keepL]
  | t :: ts, h => by
    have h1 := keep_congr t (fun x hx => h x (by simp [hx]))
    have h2 := keepL_congr ts (fun x hx => h x (by simp [hx]))
    simp only [keepL, h1, h2, h t.label (by simp [label_mem_pre])]
end
end Tree

/-- What the navigator asks: the predicate of the value stored at a node. -/
def Nary.asks (h : NHeap α) (f : α → Bool) (a : Addr) : Res Bool := do pure (f (← h.read a).value)
def Binary.asks (h : BHeap α) (f : α → Bool) (a : Addr) : Res Bool := do pure (f (← h.read a).value)

/-- The answer as a function. -/
def Heap.answer {ν : Type} (h : Heap ν) (f : ν → Bool) (a : Addr) : Bool := ((h.cells a).map f).getD false

theorem Nary.asks_spec {h : NHeap α} {t : Tree (Addr × α)} (H : Nary.Rep h t) (f : α → Bool) :
    (∀ a ∈ t.addrTree.pre, Nary.asks h f a = Res.ok (h.answer (fun n => f n.value) a)) ∧
    keep (h.answer (fun n => f n.value)) t.addrTree = (keep (fun x => f x.2) t).addrTree := by
  have R := Nary.readable H
  constructor
  · intro a ha
    rw [addrTree, pre_map, List.mem_map] at ha
    obtain ⟨x, hx, rfl⟩ := ha
    obtain ⟨fs, s, hs, rfl⟩ := exists_plug_of_mem hx
    obtain ⟨n, h1, h2⟩ := R fs s hs
    rw [Tree.addr] at h1
    simp [Nary.asks, Heap.read, h1, Heap.answer]
  · rw [addrTree, keep_map, addrTree]
    congr 1
    apply keep_congr
    intro x hx
    obtain ⟨fs, s, hs, rfl⟩ := exists_plug_of_mem hx
    obtain ⟨n, h1, h2⟩ := R fs s hs
    rw [Tree.addr] at h1
    simp [Heap.answer, h1, h2]

theorem Binary.asks_spec {h : BHeap α} {b : BTree (Addr × α)} {T : Tree (Addr × α)} (H : Binary.Rep h b) (hT : b.toRose = [T])
    (f : α → Bool) :
    (∀ a ∈ T.addrTree.pre, Binary.asks h f a = Res.ok (h.answer (fun n => f n.value) a)) ∧
    keep (h.answer (fun n => f n.value)) T.addrTree = (keep (fun x => f x.2) T).addrTree := by
  have R : ∀ x ∈ T.pre, ∃ n, h.cells x.1 = some n ∧ n.value = x.2 := by
    intro x hx
    obtain ⟨fs, s, hs, rfl⟩ := exists_plug_of_mem hx
    obtain ⟨bs, a, l, r, hb, _, rfl⟩ := BTree.plug_toRose hT hs
    subst hb
    exact ⟨_, H.cell, rfl⟩
  constructor
  · intro a ha
    rw [addrTree, pre_map, List.mem_map] at ha
    obtain ⟨x, hx, rfl⟩ := ha
    obtain ⟨n, h1, h2⟩ := R x hx
    simp [Binary.asks, Heap.read, h1, Heap.answer]
  · rw [addrTree, keep_map, addrTree]
    congr 1
    apply keep_congr
    intro x hx
    obtain ⟨n, h1, h2⟩ := R x hx
    simp [Heap.answer, h1, h2]

/-- Forward loops over an n-ary tree with a predicate navigator visit the kept nodes in the order of the policy.
Not so pre_order (`C69_pre_order_nary_partial`, `C69_pre_order_defect`) and going backwards (C68). -/
theorem C38_forward_nary {h : NHeap α} {t : Tree (Addr × α)} (H : Nary.Rep h t) (f : α → Bool) {fuel : Nat} (hf : t.size < fuel) :
    forward postOrder (PredNav.nav (Nary.nav h (some t.addr)) (Nary.asks h f) fuel) fuel =
      Res.ok (keep (fun x => f x.2) t).addrTree.post ∧
    forward breadthFirst (PredNav.nav (Nary.nav h (some t.addr)) (Nary.asks h f) fuel) fuel =
      Res.ok (keep (fun x => f x.2) t).addrTree.bfs ∧
    forward Policy.leaves (PredNav.nav (Nary.nav h (some t.addr)) (Nary.asks h f) fuel) fuel =
      Res.ok (keep (fun x => f x.2) t).addrTree.leaves ∧
    forward siblings (PredNav.nav (Nary.nav h (some t.addr)) (Nary.asks h f) fuel) fuel =
      Res.ok ((t.children.filter (fun c => f c.label.2)).map addr) := by
  have N := Nary.nav_spec (gs := []) H
  obtain ⟨h1, h2⟩ := Nary.asks_spec H f
  have hf' : t.addrTree.size < fuel := by rwa [addrTree_size]
  rw [← h2]
  refine ⟨PredNav.forward_post N h1 hf', PredNav.forward_bfs N h1 hf', PredNav.forward_leaves N h1 hf', ?_⟩
  have := PredNav.forward_siblings N h1 hf'
  refine this.trans ?_
  have e : t.addrTree.children.map label = t.children.map addr := by simp [addrTree, Tree.addr]
  rw [e, List.filter_map]
  have : List.filter (h.answer (fun n => f n.value) ∘ addr) t.children = List.filter (fun c => f c.label.2) t.children := by
    apply List.filter_congr
    intro c hc
    obtain ⟨l, r, hlr⟩ := List.append_of_mem hc
    have R := Nary.readable H [⟨t.label, l, r⟩] c (by cases t; simp at hlr ⊢; simp [hlr])
    obtain ⟨n, h1, h2⟩ := R
    simp [Heap.answer, h1, h2]
  rw [this]

example := C38_forward_nary Samples.deep_rep (· != 6) (fuel := 8) (by decide)
example : (keep (fun x => x.2 != 6) Samples.deep).addrTree.post = [4, 1, 2, 3, 0] := rfl

theorem C38_forward_binary {h : BHeap α} {b : BTree (Addr × α)} {T : Tree (Addr × α)} (H : Binary.Rep h b) (hT : b.toRose = [T])
    (f : α → Bool) {fuel : Nat} (hf : b.size < fuel) :
    forward postOrder (PredNav.nav (Binary.nav h (some T.addr)) (Binary.asks h f) fuel) fuel =
      Res.ok (keep (fun x => f x.2) T).addrTree.post ∧
    forward breadthFirst (PredNav.nav (Binary.nav h (some T.addr)) (Binary.asks h f) fuel) fuel =
      Res.ok (keep (fun x => f x.2) T).addrTree.bfs ∧
    forward Policy.leaves (PredNav.nav (Binary.nav h (some T.addr)) (Binary.asks h f) fuel) fuel =
      Res.ok (keep (fun x => f x.2) T).addrTree.leaves := by
  have N := Binary.navSpec_of (gs := []) H hT
  obtain ⟨h1, h2⟩ := Binary.asks_spec H hT f
  have hf' : T.addrTree.size < fuel := by rwa [addrTree_size, Binary.size_of_toRose hT]
  rw [← h2]
  exact ⟨PredNav.forward_post N h1 hf', PredNav.forward_bfs N h1 hf', PredNav.forward_leaves N h1 hf'⟩

example := C38_forward_binary Samples.bin_rep Samples.bin_toRose (· != 2) (fuel := 8) (by decide)

/-- in_order with a predicate navigator is a full bidirectional cursor: `++` and `--` in any order. -/
theorem C38_in_order {h : BHeap α} {b : BTree (Addr × α)} (H : Binary.Rep h b) {r : Addr} (hr : b.addr? = some r)
    {p : Addr → Res Bool} {q : Addr → Bool} (hp : ∀ a ∈ b.addrs, p a = Res.ok (q a)) {fuel : Nat} (hf : b.size ≤ fuel) :
    IsCursor inOrder (PredNav.nav (Binary.nav h (some r)) p fuel) fuel (BTree.keep q b.addrTree).inorder := by
  have N := PredNav.bnav (fuel := fuel) (Binary.bnav_spec (gs := []) H hr) (p := p) (q := q)
    (by rw [BTree.addrTree, BTree.pre_map]; exact hp)
  refine (inOrder_inv N ?_ ?_).isCursor
  · cases b <;> simp_all [BTree.addrTree, BTree.map, BTree.keep]
  · have := BTree.keep_size q b.addrTree
    rw [BTree.addrTree, BTree.size_map] at this
    rw [BTree.addrTree]; omega

example : IsCursor inOrder (PredNav.nav (Binary.nav Samples.binHeap (some 0)) (fun a => Res.ok (a != 4)) 5) 5 [1, 2, 0, 3] :=
  C38_in_order Samples.bin_rep rfl (q := (· != 4)) (by simp) (by decide)

/-- pre_order when, at every node with a child that satisfies the predicate, the last child does. -/
theorem C69_pre_order_nary_partial {h : NHeap α} {t : Tree (Addr × α)} (H : Nary.Rep h t) {p : Addr → Res Bool} {q : Addr → Bool}
    (hp : ∀ a ∈ t.addrs, p a = Res.ok (q a)) (hl : LastKept q t.addrTree) {fuel : Nat} (hf : t.size < fuel) :
    forward preOrder (PredNav.nav (Nary.nav h (some t.addr)) p fuel) fuel = Res.ok (keep q t.addrTree).pre :=
  PredNav.forward_pre (Nary.nav_spec (gs := []) H) (by rw [addrTree, pre_map]; exact hp) (by rwa [addrTree_size]) hl

theorem C69_pre_order_binary_partial {h : BHeap α} {b : BTree (Addr × α)} {T : Tree (Addr × α)} (H : Binary.Rep h b) (hT : b.toRose = [T])
    {p : Addr → Res Bool} {q : Addr → Bool} (hp : ∀ a ∈ T.addrs, p a = Res.ok (q a)) (hl : LastKept q T.addrTree) {fuel : Nat}
    (hf : b.size < fuel) :
    forward preOrder (PredNav.nav (Binary.nav h (some T.addr)) p fuel) fuel = Res.ok (keep q T.addrTree).pre :=
  PredNav.forward_pre (Binary.navSpec_of (gs := []) H hT) (by rw [addrTree, pre_map]; exact hp)
    (by rw [addrTree_size, Binary.size_of_toRose hT]; exact hf) hl

/-- pre_order for every predicate. The loop ends and visits exactly `walk q` (Spec/Prune.lean), which is a beginning of what it should
visit: it visits no other node, none twice and none in the wrong place. Missing for the full property: the rest. -/
theorem C69_pre_order_exact_nary_partial {h : NHeap α} {t : Tree (Addr × α)} (H : Nary.Rep h t) {p : Addr → Res Bool} {q : Addr → Bool}
    (hp : ∀ a ∈ t.addrs, p a = Res.ok (q a)) {fuel : Nat} (hf : t.size < fuel) :
    forward preOrder (PredNav.nav (Nary.nav h (some t.addr)) p fuel) fuel = Res.ok (walk q t.addrTree).1 ∧
    (walk q t.addrTree).1 <+: (keep q t.addrTree).pre := by
  refine ⟨PredNav.forward_walk (Nary.nav_spec (gs := []) H) (by rw [addrTree, pre_map]; exact hp) (by rwa [addrTree_size]), ?_⟩
  obtain ⟨l, h1, _⟩ := walk_prefix q t.addrTree
  exact ⟨l, h1.symm⟩

theorem C69_pre_order_exact_binary_partial {h : BHeap α} {b : BTree (Addr × α)} {T : Tree (Addr × α)} (H : Binary.Rep h b)
    (hT : b.toRose = [T]) {p : Addr → Res Bool} {q : Addr → Bool} (hp : ∀ a ∈ T.addrs, p a = Res.ok (q a)) {fuel : Nat}
    (hf : b.size < fuel) :
    forward preOrder (PredNav.nav (Binary.nav h (some T.addr)) p fuel) fuel = Res.ok (walk q T.addrTree).1 ∧
    (walk q T.addrTree).1 <+: (keep q T.addrTree).pre := by
  refine ⟨PredNav.forward_walk (Binary.navSpec_of (gs := []) H hT) (by rw [addrTree, pre_map]; exact hp)
    (by rw [addrTree_size, Binary.size_of_toRose hT]; exact hf), ?_⟩
  obtain ⟨l, h1, _⟩ := walk_prefix q T.addrTree
  exact ⟨l, h1.symm⟩

example : forward preOrder (PredNav.nav (Nary.nav Samples.deepHeap (some 0)) (fun a => Res.ok (a != 5)) 8) 8 = Res.ok [0, 1, 4] :=
  (C69_pre_order_exact_nary_partial Samples.deep_rep (q := (· != 5)) (by simp) (by decide)).1

/-- The binary tree 1(2(-,4),3(5,-)) without 3: the loop ends after 4, because 2 is not the last child. -/
example : forward preOrder (PredNav.nav (Binary.nav Samples.binHeap (some 0)) (fun a => Res.ok (a != 3)) 8) 8 = Res.ok [0, 1, 2] :=
  (C69_pre_order_exact_binary_partial Samples.bin_rep Samples.bin_toRose (q := (· != 3)) (by simp) (by decide)).1

/-- In `1(2(5,6(7)),3,4)` without `6` the pre-order loop stops after `5`: it asks whether `5` is the last child, which it is not,
and then for its next sibling, of which there is none. -/
theorem C69_pre_order_defect (fuel : Nat) (hf : 10 ≤ fuel) :
    forward preOrder (PredNav.nav (Nary.nav Samples.deepHeap (some 0)) (Nary.asks Samples.deepHeap (· != 6)) fuel) fuel = Res.ok [0, 1, 4] ∧
    (keep (fun x => x.2 != 6) Samples.deep).addrTree.pre = [0, 1, 4, 2, 3] := by
  obtain ⟨n, rfl⟩ : ∃ n, fuel = n + 10 := ⟨fuel - 10, by omega⟩
  exact ⟨rfl, rfl⟩

namespace Samples
mutual
def lastKept (q : Addr → Bool) : Tree Addr → Bool
  | .node _ cs => (!(cs.any (fun d => q d.label)) || ((cs.getLast?.map (fun c => q c.label)).getD true)) && lastKeptL q cs
def lastKeptL (q : Addr → Bool) : List (Tree Addr) → Bool
  | [] => true
  | t :: ts => lastKept q t && lastKeptL q ts
end
theorem lastKeptL_append (q : Addr → Bool) (l : List (Tree Addr)) (c r) (h : lastKeptL q (l ++ c :: r) = true) : lastKept q c = true := by
  induction l with
  | nil => simp [lastKeptL] at h; exact h.1
  | cons d l ih => simp [lastKeptL] at h; exact ih h.2
theorem lastKept_plug (q : Addr → Bool) (fs : List (Frame Addr)) : ∀ s, lastKept q (plug fs s) = true → lastKept q s = true := by
  induction fs with
  | nil => intro s h; exact h
  | cons f fs ih =>
    intro s h
    have := ih _ h
    simp only [lastKept, Bool.and_eq_true] at this
    exact lastKeptL_append q _ _ _ this.2
theorem lastKept_spec {q : Addr → Bool} {t : Tree Addr} (h : lastKept q t = true) : LastKept q t := by
  intro fs a cs c hs ⟨d, hd, hq⟩
  subst hs
  have := lastKept_plug q fs _ h
  simp only [lastKept, Bool.and_eq_true, Bool.or_eq_true] at this
  rcases this.1 with h1 | h1
  · simp only [Bool.not_eq_true', List.any_eq_false] at h1
    exact absurd hq (h1 d (by simp [hd]))
  · simpa using h1
end Samples

example : forward preOrder (PredNav.nav (Nary.nav Samples.deepHeap (some 0)) (fun a => Res.ok (a != 4)) 8) 8 = Res.ok [0, 1, 5, 6, 2, 3] :=
  C69_pre_order_nary_partial Samples.deep_rep (q := (· != 4)) (by simp) (Samples.lastKept_spec (by decide)) (by decide)

example : forward preOrder (PredNav.nav (Binary.nav Samples.binHeap (some 0)) (fun a => Res.ok (a != 1)) 8) 8 = Res.ok [0, 3, 4] :=
  C69_pre_order_binary_partial Samples.bin_rep Samples.bin_toRose (q := (· != 1)) (by simp) (Samples.lastKept_spec (by decide)) (by decide)
