import Verif.Model.NodeQuery
import Verif.Proof.FilterObj
import Verif.Proof.Laws
/-! Queries of node objects, from the navigator over the whole tree. -/
open Tree Iter

namespace NodeQuery
variable {navAt : Ptr → Nav} {t : Tree Addr} {fuel : Nat}

theorem depth_size {β : Type} : ∀ (fs : List (Frame β)) (u : Tree β), fs.length + u.size ≤ (plug fs u).size := by
  intro fs
  induction fs with
  | nil => intro u; simp
  | cons f fs ih =>
    intro u
    have := ih (node f.label (f.lefts ++ u :: f.rights))
    simp only [plug, List.length_cons]
    have h2 : u.size + 1 ≤ (node f.label (f.lefts ++ u :: f.rights)).size := by
      simp [size_node, sizeL_append]
      omega
    omega

theorem getRoot_spec (hpar : ∀ fs s, plug fs s = t → (navAt none).parent s.label = Res.ok (fs.head?.map Frame.label)) :
    ∀ (n : Nat) (fs : List (Frame Addr)) (s : Tree Addr), plug fs s = t → fs.length < n →
      getRoot navAt n s.label = Res.ok t.label := by
  intro n
  induction n with
  | zero => intro fs s _ h; omega
  | succ n ih =>
    intro fs s h hn
    have hp := hpar fs s h
    cases fs with
    | nil => simp at h hp; subst h; simp [getRoot, keepCalling, hp]
    | cons f fs =>
      have := ih fs (node f.label (f.lefts ++ s :: f.rights)) h (by simpa using hn)
      simp [getRoot] at this
      simp [getRoot, keepCalling, hp]
      simpa using this

theorem indexLoop_spec {nav : Nav} {a : Addr} (l : List Addr) (n m : Nat) (s : ItState) (index : Nat)
    (h : forwardFrom Policy.breadthFirst nav fuel n s = Res.ok l) (hm : l.length < m) :
    indexLoop nav fuel a m s index = Res.ok (index + l.idxOf a) := by
  induction l generalizing n m s index with
  | nil =>
    obtain ⟨m, rfl⟩ : ∃ m', m = m' + 1 := ⟨m - 1, by simp at hm; omega⟩
    cases n with
    | zero => simp [forwardFrom] at h
    | succ n =>
      rw [forwardFrom] at h
      cases hc : s.cur with
      | none => simp [indexLoop, hc]
      | some b =>
        simp only [hc, Res.bind_eq_ok] at h
        obtain ⟨_, _, _, _, h⟩ := h
        simp at h
  | cons b l ih =>
    obtain ⟨m, rfl⟩ : ∃ m', m = m' + 1 := ⟨m - 1, by simp at hm; omega⟩
    cases n with
    | zero => simp [forwardFrom] at h
    | succ n =>
      rw [forwardFrom] at h
      cases hc : s.cur with
      | none => simp [hc] at h
      | some c =>
        simp only [hc, Res.bind_eq_ok] at h
        obtain ⟨s1, h1, l', h2, h3⟩ := h
        simp at h3
        obtain ⟨rfl, rfl⟩ := h3
        have h1' : Policy.breadthFirst.inc nav fuel c s.aux = Res.ok s1 := by simpa [Iter.inc, hc] using h1
        by_cases e : c = a
        · subst e; simp [indexLoop, hc]
        · rw [show (c :: l').idxOf a = l'.idxOf a + 1 from by simp [List.idxOf_cons, show (c == a) = false from by simpa using e]]
          simp [indexLoop, hc, e, h1', ih n m s1 (index + 1) h2 (by simpa using hm)]
          omega

/-- All queries but the last, from the neighbours. -/
theorem queries_spec (N : NavSpec (navAt (some t.label)) t)
    (hpar : ∀ fs s, plug fs s = t → (navAt none).parent s.label = Res.ok (fs.head?.map Frame.label))
    (hfirst : ∀ a, (navAt none).first a = (navAt (some t.label)).first a) (hf : t.size < fuel) {fs : List (Frame Addr)}
    {s : Tree Addr} (hs : plug fs s = t) :
    getRoot navAt fuel s.label = Res.ok t.label ∧ isRoot navAt s.label = Res.ok fs.isEmpty ∧
    hasChildren navAt s.label = Res.ok (!s.children.isEmpty) ∧
    breadthFirstIndex navAt fuel s.label = Res.ok (t.bfs.idxOf s.label) := by
  have hd := depth_size fs s
  rw [hs] at hd
  have hr := getRoot_spec hpar fuel fs s hs (by have := size_pos s; omega)
  refine ⟨hr, ?_, ?_, ?_⟩
  · simp only [isRoot, hpar fs s hs, Res.ok_bind, Res.pure_eq]
    cases fs <;> simp
  · simp only [hasChildren, hfirst, N.first fs s hs, Res.ok_bind, Res.pure_eq]
    cases s.children <;> simp
  · have hl : t.bfs.length < fuel := by rw [(bfs_perm t).length_eq, length_pre]; exact hf
    have h0 : t.bfs[0]? = some t.label := by
      cases t with
      | node a cs => simp [bfs, height_node, List.range_succ_eq_map, row]
    obtain ⟨b, h1, _, h2⟩ := (bfs_at' N (Nat.le_of_lt hf)).loop h0 hl
    simp only [breadthFirstIndex, hr, Res.ok_bind, h1]
    rw [indexLoop_spec _ _ _ _ _ h2 (by simpa using hl)]
    simp


end NodeQuery

namespace Nary
variable {α : Type} {h : NHeap α} {t : Tree (Addr × α)}

theorem parent_none (H : Rep h t) {fs : List (Frame Addr)} {s : Tree Addr} (hs : plug fs s = t.addrTree) :
    (nav h none).parent s.label = Res.ok (fs.head?.map Frame.label) := by
  have N := nav_spec (gs := []) H
  have hp := N.parent fs s hs
  cases fs with
  | nil =>
    have := H.cell (fs := [])
    simp at hs
    subst hs
    simp [nav, addrTree_label, Heap.read_of this, rec_, fpar]
  | cons f fs =>
    by_cases e : s.label = t.addr
    · simp [nav, e] at hp
    · simpa [nav, e] using hp

theorem isFirstChild_spec (H : Rep h t) {fs : List (Frame Addr)} {s : Tree Addr} (hs : plug fs s = t.addrTree) :
    isFirstChild h s.label = Res.ok (fs.head?.any (fun f => f.lefts.isEmpty)) := by
  have hp := parent_none H hs
  have hi := (nav_spec (gs := []) H).isFirst fs s hs
  have hq := (nav_spec (gs := []) H).parent fs s hs
  simp only [nav, Option.beq_none, Option.isNone_some, Bool.false_eq_true, if_false, Res.bind_eq_ok] at hp
  obtain ⟨n, hn, hp⟩ := hp
  simp at hp
  cases fs with
  | nil => simp at hp; simp [isFirstChild, hn, hp]
  | cons f fs =>
    by_cases e : s.label = t.addr
    · simp [nav, e] at hq
    · simp [nav, e, hn, hp, deref] at hi
      simp [isFirstChild, hn, hp]
      rw [← hi]
      congr 1
      funext x
      rw [BEq.comm]

theorem isLastChild_spec (H : Rep h t) {fs : List (Frame Addr)} {s : Tree Addr} (hs : plug fs s = t.addrTree) :
    isLastChild h s.label = Res.ok (fs.head?.any (fun f => f.rights.isEmpty)) := by
  have hp := parent_none H hs
  have hi := (nav_spec (gs := []) H).isLast fs s hs
  have hq := (nav_spec (gs := []) H).parent fs s hs
  simp only [nav, Option.beq_none, Option.isNone_some, Bool.false_eq_true, if_false, Res.bind_eq_ok] at hp
  obtain ⟨n, hn, hp⟩ := hp
  simp at hp
  cases fs with
  | nil => simp at hp; simp [isLastChild, hn, hp]
  | cons f fs =>
    by_cases e : s.label = t.addr
    · simp [nav, e] at hq
    · simp [nav, e, hn, hp, deref] at hi
      simp [isLastChild, hn, hp]
      rw [← hi]
      congr 1
      funext x
      rw [BEq.comm]

theorem isUniqueChild_spec (H : Rep h t) {fs : List (Frame Addr)} {s : Tree Addr} (hs : plug fs s = t.addrTree) :
    isUniqueChild h s.label = Res.ok (fs.head?.any (fun f => f.lefts.isEmpty && f.rights.isEmpty)) := by
  simp only [isUniqueChild, isFirstChild_spec H hs, isLastChild_spec H hs, Res.ok_bind]
  cases fs with
  | nil => simp
  | cons f fs => cases e : f.lefts <;> simp [e]

end Nary

namespace Binary
variable {α : Type} {h : BHeap α} {t : BTree (Addr × α)} {T : Tree Addr} {x : Addr}

theorem parent_none (H : Rep h t) (hx : t.addr? = some x) (hT : t.addrTree.toRose = [T])
    {fs : List (Tree.Frame Addr)} {s : Tree Addr} (hs : Tree.plug fs s = T) :
    (nav h none).parent s.label = Res.ok (fs.head?.map Tree.Frame.label) := by
  have N := nav_spec (gs := []) H hx hT
  have hp := N.parent fs s hs
  cases fs with
  | nil =>
    cases t with
    | nil => simp at hx
    | node p l r =>
      have := Rep.cell (fs := []) H
      simp at hs
      subst hs
      simp [BTree.addrTree] at hT
      subst hT
      simp [nav, Heap.read_of this, fpar]
  | cons f fs =>
    by_cases e : s.label = x
    · simp [nav, e] at hp
    · simpa [nav, e] using hp

theorem isFirstChild_spec (H : Rep h t) (hx : t.addr? = some x) (hT : t.addrTree.toRose = [T])
    {fs : List (Tree.Frame Addr)} {s : Tree Addr} (hs : Tree.plug fs s = T) :
    isFirstChild h s.label = Res.ok (fs.head?.any (fun f => f.lefts.isEmpty)) := by
  have hp := parent_none H hx hT hs
  have hi := (nav_spec (gs := []) H hx hT).isFirst fs s hs
  have hq := (nav_spec (gs := []) H hx hT).parent fs s hs
  simp only [nav, Option.beq_none, Option.isNone_some, Bool.false_eq_true, if_false, Res.bind_eq_ok] at hp
  obtain ⟨n, hn, hp⟩ := hp
  simp at hp
  cases fs with
  | nil => simp at hp; simp [isFirstChild, hn, hp]
  | cons f fs =>
    by_cases e : s.label = x
    · simp [nav, e] at hq
    · simp [nav, e, hn, hp, deref] at hi
      simp [isFirstChild, hn, hp]
      rw [← hi]
      congr 1
      funext y
      rw [BEq.comm]

theorem isLastChild_spec (H : Rep h t) (hx : t.addr? = some x) (hT : t.addrTree.toRose = [T])
    {fs : List (Tree.Frame Addr)} {s : Tree Addr} (hs : Tree.plug fs s = T) :
    isLastChild h s.label = Res.ok (fs.head?.any (fun f => f.rights.isEmpty)) := by
  have hp := parent_none H hx hT hs
  have hi := (nav_spec (gs := []) H hx hT).isLast fs s hs
  have hq := (nav_spec (gs := []) H hx hT).parent fs s hs
  simp only [nav, Option.beq_none, Option.isNone_some, Bool.false_eq_true, if_false, Res.bind_eq_ok] at hp
  obtain ⟨n, hn, hp⟩ := hp
  simp at hp
  cases fs with
  | nil => simp at hp; simp [isLastChild, hn, hp]
  | cons f fs =>
    by_cases e : s.label = x
    · simp [nav, e] at hq
    · simp [nav, e, hn, hp, deref] at hi
      simp [isLastChild, hn, hp]
      rw [← hi]
      congr 1
      funext y
      rw [BEq.comm]

theorem isUniqueChild_spec (H : Rep h t) (hx : t.addr? = some x) (hT : t.addrTree.toRose = [T])
    {fs : List (Tree.Frame Addr)} {s : Tree Addr} (hs : Tree.plug fs s = T) :
    isUniqueChild h s.label = Res.ok (fs.head?.any (fun f => f.lefts.isEmpty && f.rights.isEmpty)) := by
  simp only [isUniqueChild, isFirstChild_spec H hx hT hs, isLastChild_spec H hx hT hs, Res.ok_bind]
  cases fs with
  | nil => simp
  | cons f fs => cases e : f.lefts <;> simp [e]

end Binary
