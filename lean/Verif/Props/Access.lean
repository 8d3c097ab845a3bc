import Verif.Proof.Access
import Verif.Proof.PatternWorld
import Verif.Props.Iteration
import Verif.Props.SampleWorlds
/-!
# C81-C83: values read and written through iterators
-/
open Tree World Policy Iter

variable {α : Type}

namespace Generic
variable {ν lit T V C : Type} {K : Kind ν α lit} {S : Shape K T V C} {W : World ν} {ts : Nat → Option T} {x : Nat} {t s : T} {c : C} {pos : It}

theorem write_keeps (L : Lawful S) (hnav : ∀ (h : Heap ν) a n v r, h.cells a = some n → K.nav (h.set a (K.setValue n v)) r = K.nav h r)
    (O : Owned S W ts) (hx : ts x = some t) (A : Points S t pos c s) (v : α) :
    ∃ W' a n, pos.st.cur = some a ∧ W.heap.cells a = some n ∧ W'.heap.cells a = some (K.setValue n v) ∧ W.write K pos v = Res.ok W' ∧
      Owned S W' (upd ts x (some (S.plug c (S.revalue s v)))) ∧
      W'.vars = W.vars ∧ (∀ b, some b ≠ pos.st.cur → W'.heap.cells b = W.heap.cells b) ∧
      (∀ r, K.nav W'.heap r = K.nav W.heap r) ∧ W'.heap.fuel = W.heap.fuel ∧
      ∀ y, (ts y).isSome → (∃ W1 W2 k, W.size K y = Res.ok (W1, k) ∧ W'.size K y = Res.ok (W2, k)) ∧
        ∃ W1 W2 k, W.arity K y = Res.ok (W1, k) ∧ W'.arity K y = Res.ok (W2, k) := by
  obtain ⟨a, n, h1, h2, h3, h4, h5⟩ := write_spec L O hx A v
  refine ⟨_, a, n, h1, h3, by simp [Heap.set], h4, h5, rfl, ?_, fun r => hnav _ _ _ _ _ h3, rfl, ?_⟩
  · intro b hb
    rw [h1] at hb
    simp only [Heap.set]
    exact if_neg fun e => hb (by rw [e])
  · intro y hy
    obtain ⟨u, hy⟩ := Option.isSome_iff_exists.mp hy
    obtain ⟨r, hr, _⟩ := O.get L hy
    obtain ⟨u', hu', hR⟩ : ∃ u', upd ts x (some (S.plug c (S.revalue s v))) y = some u' ∧ S.rose u' = S.rose u := by
      unfold upd
      split
      · subst y; rw [hx] at hy; cases hy
        exact ⟨_, rfl, by rw [rose_write L, A.1]⟩
      · exact ⟨u, hy, rfl⟩
    have e1 : sizeAns S r u' = sizeAns S r u := by simp only [sizeAns, Shape.size, hR]
    have e2 : arityAns S r u' = arityAns S r u := by simp only [arityAns, Shape.arity, hR]
    have k1 := (size_spec L h5 hu' hr).1
    have k2 := (arity_spec L h5 hu' hr).1
    rw [e1] at k1; rw [e2] at k2
    exact ⟨⟨_, _, _, (size_spec L O hy hr).1, k1⟩, ⟨_, _, _, (arity_spec L O hy hr).1, k2⟩⟩
end Generic

/-! ## C81 reading and writing -/

/-- `*pos` is the value of the node. -/
theorem C81_read_nary {W : World (NNode α)} {ts : Nat → Option (Option (Tree (Addr × α)))} {x : Nat} {fs : List (Tree.Frame (Addr × α))}
    {u : Tree (Addr × α)} {pos : It} (O : Owned (Nary.shape α) W ts) (hx : ts x = some (some (Tree.plug fs u))) (hp : pos.st.cur = some u.addr) :
    W.deref NNode.value pos = Res.ok u.label.2 := by
  have h1 := (((Nary.shape_rep _ _).mp (O.rep x _ hx))).cell
  simp only [World.deref, hp, Heap.read_of h1]
  cases u; rfl

theorem C81_read_binary {W : World (BNode α)} {ts : Nat → Option (BTree (Addr × α))} {x : Nat} {fs : List (BTree.Frame (Addr × α))}
    {p : Addr × α} {l r : BTree (Addr × α)} {pos : It} (O : Owned (Binary.shape α) W ts) (hx : ts x = some (BTree.plug fs (.node p l r)))
    (hp : pos.st.cur = some p.1) : W.deref BNode.value pos = Res.ok p.2 := by
  have h1 := (show Binary.Rep _ _ from O.rep x _ hx).cell
  simp [World.deref, hp, Heap.read_of h1]

/-- `*pos = v`: the node has the value `v`, also when read back; its children, the rest of the tree, the other trees and every other node are the same; no
object remembers anything else; the navigators are the same functions, so every iterator of every policy goes on as if nothing had happened; `size()` and
`arity()` of every object answer as before. -/
theorem C81_write_nary {W : World (NNode α)} {ts : Nat → Option (Option (Tree (Addr × α)))} {x : Nat} {fs : List (Tree.Frame (Addr × α))}
    {u : Tree (Addr × α)} {pos : It} (O : Owned (Nary.shape α) W ts) (hx : ts x = some (some (Tree.plug fs u))) (hp : pos.st.cur = some u.addr) (v : α) :
    ∃ W', W.write (Nary.kind α) pos v = Res.ok W' ∧
      Owned (Nary.shape α) W' (upd ts x (some (some (Tree.plug fs (node (u.addr, v) u.children))))) ∧ W'.deref NNode.value pos = Res.ok v ∧
      W'.vars = W.vars ∧ (∀ b, b ≠ u.addr → W'.heap.cells b = W.heap.cells b) ∧
      (∀ r, Nary.nav W'.heap r = Nary.nav W.heap r) ∧ W'.heap.fuel = W.heap.fuel ∧
      ∀ y, (ts y).isSome → (∃ W1 W2 k, W.size (Nary.kind α) y = Res.ok (W1, k) ∧ W'.size (Nary.kind α) y = Res.ok (W2, k)) ∧
        ∃ W1 W2 k, W.arity (Nary.kind α) y = Res.ok (W1, k) ∧ W'.arity (Nary.kind α) y = Res.ok (W2, k) := by
  have A : Points (Nary.shape α) (some (Tree.plug fs u)) pos fs (some u) := 
    ⟨by rw [Nary.shape_plug, Nary.fill_some], (by intro h; cases h), by rw [hp]; cases u; rfl⟩
  obtain ⟨W', a, n, h1, h2, h3, h4, h5, h6, h7, h8, h9, h10⟩ :=
    Generic.write_keeps (Nary.lawful α) (fun h a n v r hn => Nary.nav_setValue hn v r) O hx A v
  rw [Nary.shape_plug, show (Nary.shape α).revalue (some u) v = some (node (u.addr, v) u.children) from rfl, Nary.fill_some] at h5
  refine ⟨W', h4, h5, ?_, h6, fun b hb => h7 b (by rw [hp]; simpa using hb), h8, h9, h10⟩
  simp only [World.deref, h1, Heap.read_of h3]; rfl

theorem C81_write_binary {W : World (BNode α)} {ts : Nat → Option (BTree (Addr × α))} {x : Nat} {fs : List (BTree.Frame (Addr × α))}
    {p : Addr × α} {l r : BTree (Addr × α)} {pos : It} (O : Owned (Binary.shape α) W ts) (hx : ts x = some (BTree.plug fs (.node p l r)))
    (hp : pos.st.cur = some p.1) (v : α) :
    ∃ W', W.write (Binary.kind α) pos v = Res.ok W' ∧
      Owned (Binary.shape α) W' (upd ts x (some (BTree.plug fs (.node (p.1, v) l r)))) ∧ W'.deref BNode.value pos = Res.ok v ∧
      W'.vars = W.vars ∧ (∀ b, b ≠ p.1 → W'.heap.cells b = W.heap.cells b) ∧
      (∀ r, Binary.nav W'.heap r = Binary.nav W.heap r) ∧ W'.heap.fuel = W.heap.fuel ∧
      ∀ y, (ts y).isSome → (∃ W1 W2 k, W.size (Binary.kind α) y = Res.ok (W1, k) ∧ W'.size (Binary.kind α) y = Res.ok (W2, k)) ∧
        ∃ W1 W2 k, W.arity (Binary.kind α) y = Res.ok (W1, k) ∧ W'.arity (Binary.kind α) y = Res.ok (W2, k) := by
  have A : Points (Binary.shape α) (BTree.plug fs (.node p l r)) pos fs (.node p l r) := ⟨rfl, (by intro h; cases h), by rw [hp]; rfl⟩
  obtain ⟨W', a, n, h1, h2, h3, h4, h5, h6, h7, h8, h9, h10⟩ :=
    Generic.write_keeps (Binary.lawful α) (fun h a n v r hn => Binary.nav_setValue hn v r) O hx A v
  refine ⟨W', h4, h5, ?_, h6, fun b hb => h7 b (by rw [hp]; simpa using hb), h8, h9, h10⟩
  simp only [World.deref, h1, Heap.read_of h3]; rfl

/-- At the end there is nothing to read or write. -/
theorem C81_end {ν lit : Type} (K : Kind ν α lit) (value : ν → α) (W : World ν) (pos : It) (v : α) (h : AtEnd pos) :
    W.deref value pos = Res.ub ∧ W.write K pos v = Res.ub := by
  unfold AtEnd at h
  simp [World.deref, World.write, h]

namespace Samples

/-- `*it = 9` at the node 6 of `1(2(5,6(7)),3,4)`. -/
example : ∃ W', nworld.write (Nary.kind Nat) ⟨⟨some 5, []⟩, some 0⟩ 9 = Res.ok W' ∧ W'.deref NNode.value ⟨⟨some 5, []⟩, some 0⟩ = Res.ok 9 := by
  obtain ⟨ts, O, h0, _, _⟩ := nstate
  obtain ⟨W', h1, _, h2, _⟩ := C81_write_nary (pos := ⟨⟨some 5, []⟩, some 0⟩) (u := node (5, 6) [node (6, 7) []])
    (fs := [⟨(1, 2), [node (4, 5) []], []⟩, ⟨(0, 1), [], [node (2, 3) [], node (3, 4) []]⟩]) O h0 rfl 9
  exact ⟨W', h1, h2⟩

/-- `*it` and `*it = 9` at the node 2 of `1(2(-,4),3(5,-))`. -/
example : bworld.deref BNode.value ⟨⟨some 1, []⟩, some 0⟩ = Res.ok 2 ∧
    ∃ W', bworld.write (Binary.kind Nat) ⟨⟨some 1, []⟩, some 0⟩ 9 = Res.ok W' ∧ W'.deref BNode.value ⟨⟨some 1, []⟩, some 0⟩ = Res.ok 9 := by
  obtain ⟨ts, O, h0, _, _⟩ := bstate
  obtain ⟨W', h1, _, h2, _⟩ := C81_write_binary (pos := ⟨⟨some 1, []⟩, some 0⟩) (p := (1, 2)) (l := .nil) (r := .node (2, 4) .nil .nil)
    (fs := [⟨(0, 1), true, .node (3, 3) (.node (4, 5) .nil .nil) .nil⟩]) O h0 rfl 9
  exact ⟨C81_read_binary (p := (1, 2)) (l := .nil) (r := .node (2, 4) .nil .nil)
    (fs := [⟨(0, 1), true, .node (3, 3) (.node (4, 5) .nil .nil) .nil⟩]) O h0 rfl, W', h1, h2⟩
end Samples

/-! ## C82 loops that write -/

section
variable {W : World (NNode α)} {ts : Nat → Option (Option (Tree (Addr × α)))} {x : Nat} {t : Tree (Addr × α)}

theorem Nary.transform_at (O : Owned (Nary.shape α) W ts) (hx : ts x = some (some t)) {P : Policy} {l : List Addr} (f : α → α)
    (hl : forward P (Nary.nav W.heap (some t.addr)) W.heap.fuel = Res.ok l) (hn : l.Nodup) (hm : ∀ a ∈ l, a ∈ t.addrs) :
    ∃ W', W.transform (Nary.kind α) NNode.value P f x = Res.ok W' ∧ Owned (Nary.shape α) W' (upd ts x (some (some (t.map (onValueAt l f))))) ∧
      W'.vars = W.vars ∧ ∀ b, b ∉ l → W'.heap.cells b = W.heap.cells b := by
  have hp : (Nary.shape α).ptr (some t) = some t.addr := by cases t; rfl
  refine transform_spec (Nary.lawful α) NNode.value f (fun h a n v r hn => Nary.nav_setValue hn v r) O hx (by rw [hp]; exact hl) hn ?_ ?_ ?_
  · intro a ha
    have := hm a ha
    rw [← addrTree_pre] at this
    simpa [Shape.addrs, Nary.shape] using this
  · simp [Nary.shape, Nary.addrTree_onValueAt]
  · intro h' hc
    exact (Nary.shape_rep _ _).mpr (Nary.rep_onValueAt l f ((Nary.shape_rep _ _).mp (O.rep x _ hx)) hc)
end

theorem Tree.map_onValueAt_all {l : List Addr} (f : α → α) : (t : Tree (Addr × α)) → (∀ a ∈ t.addrs, a ∈ l) → t.map (onValueAt l f) = t.map (onValue f) := by
  intro t
  induction t using Tree.ind with
  | h p cs ih =>
    intro hl
    simp only [Tree.map, mapL_eq]
    congr 1
    · simp [onValueAt, onValue, hl p.1 (by simp)]
    · refine List.map_congr_left fun c hc => ih c hc fun a ha => hl a ?_
      simp only [addrs_node, List.mem_cons]
      right
      simp only [addrsL, preL_eq, List.map_flatMap, List.mem_flatMap]
      exact ⟨c, hc, ha⟩

/-- `for (auto& v : x) v = f(v);` in pre_order, post_order or breadth_first: every value is replaced by `f` of it, exactly once; nothing else changes. -/
theorem C82_all_nary {W : World (NNode α)} {ts : Nat → Option (Option (Tree (Addr × α)))} {x : Nat} {t : Option (Tree (Addr × α))}
    (O : Owned (Nary.shape α) W ts) (hx : ts x = some t) {P : Policy} (hP : P ∈ [preOrder, postOrder, breadthFirst]) (f : α → α) :
    ∃ W', W.transform (Nary.kind α) NNode.value P f x = Res.ok W' ∧
      Owned (Nary.shape α) W' (upd ts x (some (t.map (Tree.map (onValue f))))) ∧ W'.vars = W.vars := by
  cases t with
  | none =>
    obtain ⟨r, hr, hg, _, h2⟩ := O.get (Nary.lawful α) hx
    have e2 : r.navRoot = none := h2
    obtain ⟨e, _, h3, h4, _⟩ := C09_empty (Nary.nav W.heap none) rfl W.heap.fuel P (by
      simp only [List.mem_cons, List.not_mem_nil, or_false] at hP; simp only [libraryPolicies, List.mem_cons]; grind)
    have hs : upd ts x (some none) = ts := by rw [← hx]; exact upd_self ..
    refine ⟨W, ?_, by simpa [hs] using O, rfl⟩
    have : begin_ P ((Nary.kind α).nav W.heap none) W.heap.fuel = Res.ok e := h3
    simp only [World.transform, hg, Res.ok_bind, e2, this]
    show transformFrom _ _ _ _ _ (2 * W.heap.next + 1 + 1) W e = _
    simp [World.transformFrom, h4]
  | some t =>
    have H := (Nary.shape_rep _ _).mp (O.rep x _ hx)
    have hf : t.size < W.heap.fuel := by have := Nary.size_le O.wf H; unfold Heap.fuel; omega
    have hl := C07_reverse_nary H hf
    have key : ∀ l : List Addr, forward P (Nary.nav W.heap (some t.addr)) W.heap.fuel = Res.ok l → l.Perm t.addrTree.pre →
        ∃ W', W.transform (Nary.kind α) NNode.value P f x = Res.ok W' ∧
          Owned (Nary.shape α) W' (upd ts x (some ((some t).map (Tree.map (onValue f))))) ∧ W'.vars = W.vars := by
      intro l h1 h2
      rw [addrTree_pre] at h2
      obtain ⟨W', k1, k2, k3, _⟩ := Nary.transform_at O hx f h1 (h2.nodup_iff.mpr H.2) fun a ha => h2.mem_iff.mp ha
      rw [Tree.map_onValueAt_all f t fun a ha => h2.mem_iff.mpr ha] at k2
      exact ⟨W', k1, k2, k3⟩
    simp only [List.mem_cons, List.not_mem_nil, or_false] at hP
    rcases hP with rfl | rfl | rfl
    · exact key _ hl.1.1 (List.Perm.refl _)
    · exact key _ hl.2.1.1 (post_perm_pre _)
    · exact key _ hl.2.2.1.1 (bfs_perm _)

/-- What the user sees then. -/
theorem C82_seen_nary (t : Tree (Addr × α)) (f : α → α) : (t.map (onValue f)).vals = t.vals.map f := by
  induction t using Tree.ind with
  | h p cs ih =>
    simp only [Tree.vals, Tree.map, mapL_eq, List.map_map] at *
    exact congrArg _ (List.map_congr_left fun c hc => ih c hc)

theorem Tree.kids_sublist (t : Tree (Addr × α)) : (t.children.map addr).Sublist t.addrs := by
  cases t with
  | node p cs =>
    simp only [children, addrs_node]
    refine List.Sublist.cons _ ?_
    induction cs with
    | nil => simp
    | cons c cs ih =>
      simp only [List.map_cons, addrsL_cons]
      exact List.Sublist.append (l₁ := [c.addr]) (by rw [List.singleton_sublist]; exact addr_mem_addrs c) ih

/-- In the order `leaves` only the leaves are changed, in the order `siblings` only the children of the root. -/
theorem C82_some_nary {W : World (NNode α)} {ts : Nat → Option (Option (Tree (Addr × α)))} {x : Nat} {t : Tree (Addr × α)}
    (O : Owned (Nary.shape α) W ts) (hx : ts x = some (some t)) (f : α → α) :
    (∃ W', W.transform (Nary.kind α) NNode.value leaves f x = Res.ok W' ∧
      Owned (Nary.shape α) W' (upd ts x (some (some (t.map (onValueAt t.addrTree.leaves f))))) ∧ W'.vars = W.vars) ∧
    ∃ W', W.transform (Nary.kind α) NNode.value siblings f x = Res.ok W' ∧
      Owned (Nary.shape α) W' (upd ts x (some (some (t.map (onValueAt (t.children.map addr) f))))) ∧ W'.vars = W.vars := by
  have H := (Nary.shape_rep _ _).mp (O.rep x _ hx)
  have hf : t.size < W.heap.fuel := by have := Nary.size_le O.wf H; unfold Heap.fuel; omega
  have hs := leaves_sublist_pre t.addrTree
  rw [addrTree_pre] at hs
  have e : t.addrTree.children.map label = t.children.map addr := by cases t; simp [addrTree, Tree.map, mapL_eq, children, Tree.addr]
  have hc := Tree.kids_sublist t
  obtain ⟨W1, k1, k2, k3, _⟩ := Nary.transform_at O hx f (C05_leaves_loops_nary H hf).1 (hs.nodup H.2) fun a ha => hs.subset ha
  have h4 := (C07_reverse_nary H hf).2.2.2.1
  rw [e] at h4
  obtain ⟨W2, m1, m2, m3, _⟩ := Nary.transform_at O hx f h4 (hc.nodup H.2) fun a ha => hc.subset ha
  exact ⟨⟨W1, k1, k2, k3⟩, ⟨W2, m1, m2, m3⟩⟩

section
variable {W : World (BNode α)} {ts : Nat → Option (BTree (Addr × α))} {x : Nat} {t : BTree (Addr × α)}

theorem Binary.transform_at (O : Owned (Binary.shape α) W ts) (hx : ts x = some t) {P : Policy} {l : List Addr} (f : α → α)
    (hl : forward P (Binary.nav W.heap t.addr?) W.heap.fuel = Res.ok l) (hn : l.Nodup) (hm : ∀ a ∈ l, a ∈ t.addrs) :
    ∃ W', W.transform (Binary.kind α) BNode.value P f x = Res.ok W' ∧ Owned (Binary.shape α) W' (upd ts x (some (t.map (onValueAt l f)))) ∧
      W'.vars = W.vars ∧ ∀ b, b ∉ l → W'.heap.cells b = W.heap.cells b := by
  refine transform_spec (Binary.lawful α) BNode.value f (fun h a n v r hn => Binary.nav_setValue hn v r) O hx (by rw [Binary.shape_ptr]; exact hl) hn ?_ ?_ ?_
  · intro a ha
    rw [Binary.shape_addrs]; exact hm a ha
  · show (t.map (onValueAt l f)).addrTree.toRose = t.addrTree.toRose
    rw [Binary.addrTree_onValueAt]
  · intro h' hc
    exact Binary.rep_onValueAt l f (O.rep x _ hx) hc
end

theorem BTree.map_onValueAt_all {l : List Addr} (f : α → α) (t : BTree (Addr × α)) (h : ∀ a ∈ t.addrs, a ∈ l) :
    t.map (onValueAt l f) = t.map (onValue f) := by
  induction t with
  | nil => rfl
  | node p a b ha hb =>
    simp only [BTree.map]
    rw [ha fun c hc => h c (by simp only [BTree.addrs, BTree.pre, List.map_cons, List.map_append, List.mem_cons, List.mem_append] at *; exact Or.inr (Or.inl hc)),
      hb fun c hc => h c (by simp only [BTree.addrs, BTree.pre, List.map_cons, List.map_append, List.mem_cons, List.mem_append] at *; exact Or.inr (Or.inr hc))]
    simp [onValueAt, onValue, h p.1 (by simp [BTree.addrs, BTree.pre])]

theorem C82_all_binary {W : World (BNode α)} {ts : Nat → Option (BTree (Addr × α))} {x : Nat} {t : BTree (Addr × α)}
    (O : Owned (Binary.shape α) W ts) (hx : ts x = some t) {P : Policy} (hP : P ∈ [preOrder, postOrder, breadthFirst, inOrder]) (f : α → α) :
    ∃ W', W.transform (Binary.kind α) BNode.value P f x = Res.ok W' ∧
      Owned (Binary.shape α) W' (upd ts x (some (t.map (onValue f)))) ∧ W'.vars = W.vars := by
  cases hb : t.toRose with
  | nil =>
    have ht : t = .nil := by cases t <;> simp_all [BTree.toRose]
    subst ht
    obtain ⟨r, hr, hg, _, h2⟩ := O.get (Binary.lawful α) hx
    have e2 : r.navRoot = none := h2
    obtain ⟨e, _, h3, h4, _⟩ := C09_empty (Binary.nav W.heap none) rfl W.heap.fuel P (by
      simp only [List.mem_cons, List.not_mem_nil, or_false] at hP; simp only [libraryPolicies, List.mem_cons]; grind)
    have hs : upd ts x (some .nil) = ts := by rw [← hx]; exact upd_self ..
    refine ⟨W, ?_, by simpa [hs, BTree.map] using O, rfl⟩
    have : begin_ P ((Binary.kind α).nav W.heap none) W.heap.fuel = Res.ok e := h3
    simp only [World.transform, hg, Res.ok_bind, e2, this]
    show transformFrom _ _ _ _ _ (2 * W.heap.next + 1 + 1) W e = _
    simp [World.transformFrom, h4]
  | cons T l =>
    have hT : t.toRose = [T] := by cases t <;> simp_all [BTree.toRose]
    have H : Binary.Rep W.heap t := O.rep x _ hx
    have hf : t.size < W.heap.fuel := by have := Binary.size_le O.wf H; unfold Heap.fuel; omega
    have hl := C07_reverse_binary H hT hf
    have hpre : T.addrTree.pre = t.addrs := by
      have := BTree.preL_toRose t
      rw [hT] at this
      simp only [preL, List.append_nil] at this
      rw [addrTree_pre, Tree.addrs, this]; rfl
    have key : ∀ l : List Addr, forward P (Binary.nav W.heap (some T.addr)) W.heap.fuel = Res.ok l → l.Perm t.addrs →
        ∃ W', W.transform (Binary.kind α) BNode.value P f x = Res.ok W' ∧
          Owned (Binary.shape α) W' (upd ts x (some (t.map (onValue f)))) ∧ W'.vars = W.vars := by
      intro l h1 h2
      obtain ⟨W', k1, k2, k3, _⟩ := Binary.transform_at O hx f (by rw [Binary.addr?_of_toRose hT]; exact h1) (h2.nodup_iff.mpr H.2)
        fun a ha => h2.mem_iff.mp ha
      rw [BTree.map_onValueAt_all f t fun a ha => h2.mem_iff.mpr ha] at k2
      exact ⟨W', k1, k2, k3⟩
    simp only [List.mem_cons, List.not_mem_nil, or_false] at hP
    rcases hP with rfl | rfl | rfl | rfl
    · exact key _ hl.1.1.1 (by rw [hpre])
    · exact key _ hl.1.2.1.1 (by rw [← hpre]; exact post_perm_pre _)
    · exact key _ hl.1.2.2.1.1 (by rw [← hpre]; exact bfs_perm _)
    · exact key _ hl.2.1 ((BTree.inorder_perm_pre _).trans (by rw [BTree.addrTree, BTree.pre_map]; exact List.Perm.refl _))

theorem C82_seen_binary (t : BTree (Addr × α)) (f : α → α) : (t.map (onValue f)).vals = t.vals.map f := by
  induction t with
  | nil => rfl
  | node p a b ha hb => simp only [BTree.vals, BTree.map] at *; rw [ha, hb]; rfl

theorem C82_some_binary {W : World (BNode α)} {ts : Nat → Option (BTree (Addr × α))} {x : Nat} {t : BTree (Addr × α)} {T : Tree (Addr × α)}
    (O : Owned (Binary.shape α) W ts) (hx : ts x = some t) (hT : t.toRose = [T]) (f : α → α) :
    (∃ W', W.transform (Binary.kind α) BNode.value leaves f x = Res.ok W' ∧
      Owned (Binary.shape α) W' (upd ts x (some (t.map (onValueAt T.addrTree.leaves f)))) ∧ W'.vars = W.vars) ∧
    ∃ W', W.transform (Binary.kind α) BNode.value siblings f x = Res.ok W' ∧
      Owned (Binary.shape α) W' (upd ts x (some (t.map (onValueAt (T.children.map addr) f)))) ∧ W'.vars = W.vars := by
  have H : Binary.Rep W.heap t := O.rep x _ hx
  have hf : t.size < W.heap.fuel := by have := Binary.size_le O.wf H; unfold Heap.fuel; omega
  have hpre : T.addrs = t.addrs := by
    have := BTree.preL_toRose t
    rw [hT] at this
    simp only [preL, List.append_nil] at this
    rw [Tree.addrs, this]; rfl
  have hs := leaves_sublist_pre T.addrTree
  rw [addrTree_pre, hpre] at hs
  have e : T.addrTree.children.map label = T.children.map addr := by cases T; simp [addrTree, Tree.map, mapL_eq, children, Tree.addr]
  have hc := Tree.kids_sublist T
  rw [hpre] at hc
  have hr := Binary.addr?_of_toRose hT
  obtain ⟨W1, k1, k2, k3, _⟩ := Binary.transform_at O hx f (by rw [hr]; exact (C05_leaves_loops_binary H hT hf).1) (hs.nodup H.2) fun a ha => hs.subset ha
  have h4 := (C07_reverse_binary H hT hf).1.2.2.2.1
  rw [e] at h4
  obtain ⟨W2, m1, m2, m3, _⟩ := Binary.transform_at O hx f (by rw [hr]; exact h4) (hc.nodup H.2) fun a ha => hc.subset ha
  exact ⟨⟨W1, k1, k2, k3⟩, ⟨W2, m1, m2, m3⟩⟩

namespace Samples

/-- `for (auto& v : x0) v = 10 * v;` over `1(2(5,6(7)),3,4)`, in breadth-first order. -/
example : ∃ W' ts', nworld.transform (Nary.kind Nat) NNode.value breadthFirst (10 * ·) 0 = Res.ok W' ∧ Owned (Nary.shape Nat) W' ts' ∧
    ts' 0 = some (some (deep.map (onValue (10 * ·)))) ∧
    deep.vals.map (10 * ·) = node 10 [node 20 [node 50 [], node 60 [node 70 []]], node 30 [], node 40 []] := by
  obtain ⟨ts, O, h0, _, _⟩ := nstate
  obtain ⟨W', h1, h2, _⟩ := C82_all_nary O h0 (P := breadthFirst) (by simp) (10 * ·)
  exact ⟨W', _, h1, h2, by simp [upd], rfl⟩

/-- The leaves only, and the children of the root only. -/
example : (deep.map (onValueAt deep.addrTree.leaves (10 * ·))).vals = node 1 [node 2 [node 50 [], node 6 [node 70 []]], node 30 [], node 40 []] ∧
    (deep.map (onValueAt (deep.children.map addr) (10 * ·))).vals = node 1 [node 20 [node 5 [], node 6 [node 7 []]], node 30 [], node 40 []] :=
  ⟨rfl, rfl⟩
example : ∃ W', nworld.transform (Nary.kind Nat) NNode.value leaves (10 * ·) 0 = Res.ok W' := by
  obtain ⟨ts, O, h0, _, _⟩ := nstate
  obtain ⟨⟨W', h1, _⟩, _⟩ := C82_some_nary O h0 (10 * ·)
  exact ⟨W', h1⟩

example : ∃ W' ts', bworld.transform (Binary.kind Nat) BNode.value inOrder (10 * ·) 0 = Res.ok W' ∧ Owned (Binary.shape Nat) W' ts' ∧
    ts' 0 = some (bin.map (onValue (10 * ·))) := by
  obtain ⟨ts, O, h0, _, _⟩ := bstate
  obtain ⟨W', h1, h2, _⟩ := C82_all_binary O h0 (P := inOrder) (by simp) (10 * ·)
  exact ⟨W', _, h1, h2, by simp [upd]⟩
example : ∃ W', bworld.transform (Binary.kind Nat) BNode.value siblings (10 * ·) 0 = Res.ok W' := by
  obtain ⟨ts, O, h0, _, _⟩ := bstate
  obtain ⟨_, W', h1, _⟩ := C82_some_binary O h0 Samples.bin_toRose (10 * ·)
  exact ⟨W', h1⟩
end Samples

/-! ## C83 `it++`, `it--`, `if (it)` -/

/-- Wherever an iterator got to by moves in range, `it++` gives an iterator at the node where it was (in the same state) and moves on as `++it` does, `it--`
likewise, and `if (it)` tells whether it is before the end. -/
theorem C83_cursor {P : Policy} {nav : Nav} {fuel : Nat} {L : List Addr} (h : IsCursor P nav fuel L) {ms : List Move} {i : Nat}
    (hi : Cursor.walk L.length ms 0 = some i) :
    ∃ b s, begin_ P nav fuel = Res.ok b ∧ moves P nav fuel ms b = Res.ok s ∧ s.cur = L[i]? ∧ (Iter.toBool s = true ↔ i < L.length) ∧
      (∃ s', Iter.postInc P nav fuel s = Res.ok (s, s') ∧ s'.cur = L[if i < L.length then i + 1 else 0]?) ∧
      (0 < i → ∃ s', Iter.postDec P nav fuel s = Res.ok (s, s') ∧ s'.cur = L[i - 1]?) := by
  obtain ⟨b, s, h1, h2, h3⟩ := h.1 ms i hi
  refine ⟨b, s, h1, h2, h3, ?_, ?_, ?_⟩
  · rw [Iter.toBool, h3]
    simp
  · obtain ⟨b', s', k1, k2, k3⟩ := h.1 (ms ++ [.inc]) (if i < L.length then i + 1 else 0) (by rw [Cursor.walk_append, hi]; simp only [Option.bind_some, Cursor.walk, Cursor.step]; split <;> rfl)
    rw [h1] at k1; cases k1
    rw [moves_append, h2] at k2
    have k2 : Iter.inc P nav fuel s = Res.ok s' := by
      cases hm : Iter.inc P nav fuel s <;> simp_all [moves, move]
    exact ⟨s', by simp [Iter.postInc, k2], k3⟩
  · intro h0
    obtain ⟨b', s', k1, k2, k3⟩ := h.1 (ms ++ [.dec]) (i - 1) (by rw [Cursor.walk_append, hi]; simp [Cursor.walk, Cursor.step]; omega)
    rw [h1] at k1; cases k1
    rw [moves_append, h2] at k2
    have k2 : Iter.dec P nav fuel s = Res.ok s' := by
      cases hm : Iter.dec P nav fuel s <;> simp_all [moves, move]
    exact ⟨s', by simp [Iter.postDec, k2], k3⟩

theorem Iter.whileFrom_eq (P : Policy) (nav : Nav) (fuel : Nat) : ∀ (n : Nat) (s : ItState), whileFrom P nav fuel n s = forwardFrom P nav fuel n s := by
  intro n
  induction n with
  | zero => intro s; rfl
  | succ n ih =>
    intro s
    obtain ⟨cur, aux⟩ := s
    cases cur with
    | none => rfl
    | some a =>
      simp only [whileFrom, forwardFrom, Iter.toBool, Iter.postInc]
      cases Iter.inc P nav fuel ⟨some a, aux⟩ with
      | ok s' => simp [ih, _root_.deref]
      | ub => rfl
      | diverge => rfl

/-- The loop `auto it = x.begin(); while (it) visit(*it++);` visits what `for (auto& v : x)` visits: every node once, in the order of the policy. -/
theorem C83_while_nary {h : NHeap α} {t : Tree (Addr × α)} (H : Nary.Rep h t) {fuel : Nat} (hf : t.size < fuel) :
    (begin_ preOrder (Nary.nav h (some t.addr)) fuel >>= whileFrom preOrder (Nary.nav h (some t.addr)) fuel fuel) = Res.ok t.addrTree.pre ∧
    (begin_ postOrder (Nary.nav h (some t.addr)) fuel >>= whileFrom postOrder (Nary.nav h (some t.addr)) fuel fuel) = Res.ok t.addrTree.post ∧
    (begin_ breadthFirst (Nary.nav h (some t.addr)) fuel >>= whileFrom breadthFirst (Nary.nav h (some t.addr)) fuel fuel) = Res.ok t.addrTree.bfs ∧
    (begin_ leaves (Nary.nav h (some t.addr)) fuel >>= whileFrom leaves (Nary.nav h (some t.addr)) fuel fuel) = Res.ok t.addrTree.leaves ∧
    (begin_ siblings (Nary.nav h (some t.addr)) fuel >>= whileFrom siblings (Nary.nav h (some t.addr)) fuel fuel) = Res.ok (t.children.map addr) := by
  have e : ∀ P, whileFrom P (Nary.nav h (some t.addr)) fuel fuel = forwardFrom P (Nary.nav h (some t.addr)) fuel fuel := fun P => funext (whileFrom_eq _ _ _ _)
  have hl := C07_reverse_nary H hf
  have hc : t.addrTree.children.map label = t.children.map addr := by cases t; simp [addrTree, Tree.map, mapL_eq, children, Tree.addr]
  simp only [e]
  exact ⟨hl.1.1, hl.2.1.1, hl.2.2.1.1, (C05_leaves_loops_nary H hf).1, hc ▸ hl.2.2.2.1⟩

theorem C83_while_binary {h : BHeap α} {b : BTree (Addr × α)} {T : Tree (Addr × α)} (H : Binary.Rep h b) (hT : b.toRose = [T]) {fuel : Nat} (hf : b.size < fuel) :
    (begin_ preOrder (Binary.nav h (some T.addr)) fuel >>= whileFrom preOrder (Binary.nav h (some T.addr)) fuel fuel) = Res.ok T.addrTree.pre ∧
    (begin_ postOrder (Binary.nav h (some T.addr)) fuel >>= whileFrom postOrder (Binary.nav h (some T.addr)) fuel fuel) = Res.ok T.addrTree.post ∧
    (begin_ breadthFirst (Binary.nav h (some T.addr)) fuel >>= whileFrom breadthFirst (Binary.nav h (some T.addr)) fuel fuel) = Res.ok T.addrTree.bfs ∧
    (begin_ leaves (Binary.nav h (some T.addr)) fuel >>= whileFrom leaves (Binary.nav h (some T.addr)) fuel fuel) = Res.ok T.addrTree.leaves ∧
    (begin_ siblings (Binary.nav h (some T.addr)) fuel >>= whileFrom siblings (Binary.nav h (some T.addr)) fuel fuel) = Res.ok (T.children.map addr) ∧
    (begin_ inOrder (Binary.nav h (some T.addr)) fuel >>= whileFrom inOrder (Binary.nav h (some T.addr)) fuel fuel) = Res.ok b.addrTree.inorder := by
  have e : ∀ P, whileFrom P (Binary.nav h (some T.addr)) fuel fuel = forwardFrom P (Binary.nav h (some T.addr)) fuel fuel := fun P => funext (whileFrom_eq _ _ _ _)
  have hl := C07_reverse_binary H hT hf
  have hc : T.addrTree.children.map label = T.children.map addr := by cases T; simp [addrTree, Tree.map, mapL_eq, children, Tree.addr]
  simp only [e]
  exact ⟨hl.1.1.1, hl.1.2.1.1, hl.1.2.2.1.1, (C05_leaves_loops_binary H hT hf).1, hc ▸ hl.1.2.2.2.1, hl.2.1⟩

example := C83_cursor (C01_pre_order_nary Samples.deep_rep (fuel := 7) (by decide)) (ms := [.inc, .inc, .dec]) (i := 1) (by decide)
example := C83_while_nary Samples.deep_rep (fuel := 8) (by decide)
example := C83_while_binary Samples.bin_rep Samples.bin_toRose (fuel := 6) (by decide)
