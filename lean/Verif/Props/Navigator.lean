import Verif.Props.Iteration
import Verif.Props.Filter
import Verif.Spec.Navigator
import Verif.Proof.MakesBin
import Verif.Proof.LawfulBin
import Verif.Proof.NodeQuery
/-!
# C108: giving an iterator another navigator

`it.other_navigator(nav)` with the navigator of a subtree that contains the node, or with a default constructed navigator (which takes
the node itself as root, and its parent for the policy siblings). The iterator walks over that subtree and never leaves it.
-/
open Tree Policy Iter

variable {α : Type}

/-- What `make` answers does not depend on the moves made later. -/
theorem IsCursorAt.resumes {P : Policy} {nav : Nav} {fuel : Nat} {L : List Addr} (H : IsCursorAt P nav fuel L) {k : Nat} {a : Addr}
    (hk : L[k]? = some a) : ∃ b, P.make nav fuel (some a) = Res.ok b ∧ b.cur = some a ∧ CursorFrom P nav fuel L k b := by
  obtain ⟨b, s, e, hb, _, _⟩ := H k a hk [] k rfl
  refine ⟨b, e, hb, by rw [hb, hk], fun ms i hw => ?_⟩
  obtain ⟨b', s', e', _, h1, h2⟩ := H k a hk ms i hw
  rw [e] at e'
  cases e'
  exact ⟨s', h1, h2⟩

/-- With the root `r` given, or found by `fix`. -/
theorem renavigated {P : Policy} {fix : (Ptr → Nav) → Ptr → Ptr → Res Ptr} {nav : Ptr → Nav} {fuel : Nat} {root : Ptr} {r : Addr}
    {L : List Addr} {ok : Addr → Prop} (hfix : ∀ a, a ∈ L → ok a → fix nav root (some a) = Res.ok (some r))
    (H : IsCursorAt P (nav (some r)) fuel L) : Renavigated P fix nav fuel root r L ok := by
  intro st k a hst hk ho
  obtain ⟨b, e, hb, hc⟩ := H.resumes hk
  exact ⟨b, by simp [otherNavigator, hst, hfix a (List.mem_of_getElem? hk) ho, e], hb, hc⟩

/-- A subtree `s` of an nary tree. `root` is the root of the navigator given: `s`'s root and the iterator at any node of `s`, or null and
the iterator at the root of `s` (for siblings: at a child of it). -/
theorem C108_subtree_nary {h : NHeap α} {gs : List (Frame (Addr × α))} {s : Tree (Addr × α)} (H : Nary.Rep h (plug gs s))
    {fuel : Nat} (hf : s.size ≤ fuel) {root : Ptr} {ok : Addr → Prop}
    (hr : root = some s.addr ∨ root = none ∧ ∀ a, ok a → a = s.addr) :
    Renavigated preOrder fixRoot (Nary.nav h) fuel root s.addr s.addrTree.pre ok ∧
    Renavigated postOrder fixRoot (Nary.nav h) fuel root s.addr s.addrTree.post ok ∧
    Renavigated breadthFirst fixRoot (Nary.nav h) fuel root s.addr s.addrTree.bfs ok := by
  have N := C10_view_nary H hf
  have k : ∀ a, ok a → fixRoot (Nary.nav h) root (some a) = Res.ok (some s.addr) := by
    intro a ho
    rcases hr with rfl | ⟨rfl, hr⟩
    · rfl
    · rw [hr a ho]; rfl
  exact ⟨renavigated (fun a _ => k a) N.preAt, renavigated (fun a _ => k a) N.postAt, renavigated (fun a _ => k a) N.bfsAt⟩

theorem C108_subtree_binary {h : BHeap α} {gs : List (BTree.Frame (Addr × α))} {s : BTree (Addr × α)} {T : Tree (Addr × α)}
    (H : Binary.Rep h (BTree.plug gs s)) (hT : s.toRose = [T]) {fuel : Nat} (hf : s.size ≤ fuel) {root : Ptr} {ok : Addr → Prop}
    (hr : root = some T.addr ∨ root = none ∧ ∀ a, ok a → a = T.addr) :
    Renavigated preOrder fixRoot (Binary.nav h) fuel root T.addr T.addrTree.pre ok ∧
    Renavigated postOrder fixRoot (Binary.nav h) fuel root T.addr T.addrTree.post ok ∧
    Renavigated breadthFirst fixRoot (Binary.nav h) fuel root T.addr T.addrTree.bfs ok ∧
    Renavigated inOrder fixRoot (Binary.nav h) fuel root T.addr s.addrTree.inorder ok := by
  obtain ⟨N, _, hi⟩ := C10_view_binary H hT hf
  have k : ∀ a, ok a → fixRoot (Binary.nav h) root (some a) = Res.ok (some T.addr) := by
    intro a ho
    rcases hr with rfl | ⟨rfl, hr⟩
    · rfl
    · rw [hr a ho]; rfl
  exact ⟨renavigated (fun a _ => k a) N.preAt, renavigated (fun a _ => k a) N.postAt, renavigated (fun a _ => k a) N.bfsAt,
    renavigated (fun a _ => k a) hi⟩

/-- Siblings: at any child of a node, whether the navigator given has that node as root or none. -/
theorem C108_siblings_nary {h : NHeap α} {gs : List (Frame (Addr × α))} {s : Tree (Addr × α)} (H : Nary.Rep h (plug gs s))
    {fuel : Nat} (hf : s.size ≤ fuel) {root : Ptr} (hr : root = some s.addr ∨ root = none) :
    Renavigated Policy.siblings siblingsFixRoot (Nary.nav h) fuel root s.addr (s.addrTree.children.map label) (fun _ => True) := by
  refine renavigated (fun a ha _ => ?_) (C10_view_nary H hf).siblingsAt
  rcases hr with rfl | rfl
  · rfl
  cases s with
  | node p cs =>
  simp only [addrTree, Tree.map_node, mapL_eq, Tree.children_node, List.map_map, List.mem_map] at ha
  obtain ⟨c, hc, rfl⟩ := ha
  obtain ⟨l, r, rfl⟩ := List.append_of_mem hc
  have := (Nary.rawNav H).parent ⟨p, l, r⟩ gs c rfl
  have e : ((label ∘ fun x => x.map Prod.fst) c) = c.addr := by cases c; rfl
  rw [e]
  show (do match ← (Nary.nav h none).parent c.addr with | some p => pure (some p) | none => pure (some c.addr)) = _
  have this' : (Nary.nav h none).parent c.addr = Res.ok (some p.1) := this
  rw [this']
  rfl

theorem C108_siblings_binary {h : BHeap α} {gs : List (BTree.Frame (Addr × α))} {s : BTree (Addr × α)} {T : Tree (Addr × α)}
    (H : Binary.Rep h (BTree.plug gs s)) (hT : s.toRose = [T]) {fuel : Nat} (hf : s.size ≤ fuel) {root : Ptr}
    (hr : root = some T.addr ∨ root = none) :
    Renavigated Policy.siblings siblingsFixRoot (Binary.nav h) fuel root T.addr (T.addrTree.children.map label) (fun _ => True) := by
  refine renavigated (fun a ha _ => ?_) (C10_view_binary H hT hf).1.siblingsAt
  rcases hr with rfl | rfl
  · rfl
  have R := Binary.rawNav H (Binary.toRose_plug gs s T hT)
  cases T with
  | node p cs =>
  simp only [addrTree, Tree.map_node, mapL_eq, Tree.children_node, List.map_map, List.mem_map] at ha
  obtain ⟨c, hc, rfl⟩ := ha
  obtain ⟨l, r, rfl⟩ := List.append_of_mem hc
  have := R.parent ⟨p, l, r⟩ (gs.map BTree.Frame.toRose) c rfl
  have e : ((label ∘ fun x => x.map Prod.fst) c) = c.addr := by cases c; rfl
  rw [e]
  show (do match ← (Binary.nav h none).parent c.addr with | some p => pure (some p) | none => pure (some c.addr)) = _
  have this' : (Binary.nav h none).parent c.addr = Res.ok (some p.1) := this
  rw [this']
  rfl

/-- Siblings at a root that has no parent, given a navigator without root: the iterator stays there, `++` and `--` lead to `end()`. -/
theorem C108_siblings_of_root_nary {h : NHeap α} {t : Tree (Addr × α)} (H : Nary.Rep h t) (fuel : Nat) {st : ItState}
    (hst : st.cur = some t.addr) :
    ∃ b, otherNavigator Policy.siblings siblingsFixRoot (Nary.nav h) none fuel st = Res.ok (some t.addr, b) ∧ b.cur = some t.addr ∧
      Iter.inc Policy.siblings (Nary.nav h (some t.addr)) fuel b = Res.ok ⟨none, []⟩ ∧
      Iter.dec Policy.siblings (Nary.nav h (some t.addr)) fuel b = Res.ok ⟨none, []⟩ := by
  have p := Nary.parent_none H (fs := []) (s := t.addrTree) rfl
  rw [show t.addrTree.label = t.addr by cases t; rfl] at p
  refine ⟨⟨some t.addr, []⟩, ?_, rfl, ?_, ?_⟩
  · simp [otherNavigator, hst, siblingsFixRoot, p, Policy.siblings, stateless]
  · simp [Iter.inc, Policy.siblings, stateless, Nary.nav]
  · simp [Iter.dec, Policy.siblings, stateless, Nary.nav]

theorem C108_siblings_of_root_binary {h : BHeap α} {t : BTree (Addr × α)} {T : Tree (Addr × α)} (H : Binary.Rep h t)
    (hT : t.toRose = [T]) (fuel : Nat) {st : ItState} (hst : st.cur = some T.addr) :
    ∃ b, otherNavigator Policy.siblings siblingsFixRoot (Binary.nav h) none fuel st = Res.ok (some T.addr, b) ∧ b.cur = some T.addr ∧
      Iter.inc Policy.siblings (Binary.nav h (some T.addr)) fuel b = Res.ok ⟨none, []⟩ ∧
      Iter.dec Policy.siblings (Binary.nav h (some T.addr)) fuel b = Res.ok ⟨none, []⟩ := by
  have p := Binary.parent_none H (Binary.addr?_of_toRose hT) (T := T.addrTree)
    (by rw [BTree.addrTree, BTree.toRose_map, hT]; simp [addrTree]) (fs := []) (s := T.addrTree) rfl
  rw [show T.addrTree.label = T.addr by cases T; rfl] at p
  refine ⟨⟨some T.addr, []⟩, ?_, rfl, ?_, ?_⟩
  · simp [otherNavigator, hst, siblingsFixRoot, p, Policy.siblings, stateless]
  · simp [Iter.inc, Policy.siblings, stateless, Binary.nav]
  · simp [Iter.dec, Policy.siblings, stateless, Binary.nav]

/-- `end()` given a navigator without root: it points nowhere, and `++` and `--` leave it there. -/
theorem C108_end (nav : Ptr → Nav) (hnav : ∀ r, (nav r).root = r) (fuel : Nat) {st : ItState} (hst : st.cur = none) :
    (∀ P, P = preOrder ∨ P = postOrder ∨ P = inOrder ∨ P = breadthFirst →
      ∃ b, otherNavigator P fixRoot nav none fuel st = Res.ok (none, b) ∧ b.cur = none ∧
        Iter.inc P (nav none) fuel b = Res.ok b ∧ Iter.dec P (nav none) fuel b = Res.ok b) ∧
    ∃ b, otherNavigator Policy.siblings siblingsFixRoot nav none fuel st = Res.ok (none, b) ∧ b.cur = none ∧
      Iter.inc Policy.siblings (nav none) fuel b = Res.ok b ∧ Iter.dec Policy.siblings (nav none) fuel b = Res.ok b := by
  constructor
  · rintro P (rfl | rfl | rfl | rfl) <;> refine ⟨⟨none, []⟩, ?_, rfl, ?_, ?_⟩ <;>
      simp [otherNavigator, hst, fixRoot, preOrder, postOrder, inOrder, breadthFirst, stateless, bfsMake, Iter.inc, Iter.dec, hnav]
  · refine ⟨⟨none, []⟩, ?_, rfl, ?_, ?_⟩ <;>
      simp [otherNavigator, hst, siblingsFixRoot, Policy.siblings, stateless, Iter.inc, Iter.dec, hnav]

/-! ### filtered iterators -/

open FilterIter

theorem other_navigator_of {P : Policy} {fix : (Ptr → Nav) → Ptr → Ptr → Res Ptr} {nav : Ptr → Nav} {fuel : Nat} {root : Ptr} {r : Addr}
    {o : Obj} {p : Addr → Res Bool} {q : α → Bool} {l m : List (Addr × α)} {k : Nat} {x : Addr × α}
    (hfix : fix nav root (some x.1) = Res.ok (some r)) (hP : IsCursorAt P (nav (some r)) fuel (l.map Prod.fst)) (ho : o.predicate = some p)
    (hl : ∀ x ∈ l, x ∈ m) (hp : ∀ x ∈ m, p x.1 = Res.ok (q x.2)) (hf : l.length < fuel) (hk : l[k]? = some x)
    (hc : o.st.cur = some x.1) (hx : q x.2 = true) :
    ∃ o', o.otherNavigator P fix nav root fuel = Res.ok o' ∧ o'.st.cur = some x.1 ∧
      Obj.rest P fuel fuel o' = Res.ok (satisfying q (l.drop k)) := by
  obtain ⟨o', e, h⟩ := other_policy_of (o := ⟨nav (some r), o.st, o.predicate⟩) hP ho hl hp hf hk hc hx
  refine ⟨o', ?_, h⟩
  simp only [Obj.otherPolicy, Iter.otherPolicy, ho, hc] at e
  simp [Obj.otherNavigator, Iter.otherNavigator, ho, hc, hfix]
  rw [Res.bind_eq_ok] at e
  obtain ⟨b, h1, h2⟩ := e
  simp [h1, h2]

/-- `other_navigator` of a filtered iterator at an element of the subtree `s` that satisfies the predicate: it stays there and visits the
elements of `s` that satisfy the predicate from there on, in the order of the policy. `root` as in `C108_subtree_nary`. -/
theorem C108_filtered_nary {h : NHeap α} {gs : List (Frame (Addr × α))} {s : Tree (Addr × α)} (H : Nary.Rep h (plug gs s))
    {fuel : Nat} (hf : s.size < fuel) (q : α → Bool) {o : Obj} (ho : o.predicate = some (valueTest h q)) {P : Policy}
    {l : List (Addr × α)} (hP : (P, l) ∈ [(preOrder, s.pre), (postOrder, s.post), (breadthFirst, s.bfs)])
    {k : Nat} {x : Addr × α} (hk : l[k]? = some x) (hc : o.st.cur = some x.1) (hx : q x.2 = true) {root : Ptr}
    (hr : root = some s.addr ∨ root = none ∧ x.1 = s.addr) :
    ∃ o', o.otherNavigator P fixRoot (Nary.nav h) root fuel = Res.ok o' ∧ o'.st.cur = some x.1 ∧
      Obj.rest P fuel fuel o' = Res.ok (satisfying q (l.drop k)) := by
  have hv : ∀ x ∈ s.pre, valueTest h q x.1 = Res.ok (q x.2) := fun _ hx => valueTest_view H q hx
  have hl : s.pre.length < fuel := by simpa using hf
  have N := C10_view_nary H (Nat.le_of_lt hf)
  have c1 := N.preAt
  have c2 := N.postAt
  have c3 := N.bfsAt
  rw [show s.addrTree.pre = s.pre.map Prod.fst from pre_map _ _] at c1
  rw [show s.addrTree.post = s.post.map Prod.fst from post_map _ _] at c2
  rw [show s.addrTree.bfs = s.bfs.map Prod.fst from bfs_map _ _] at c3
  have hfix : fixRoot (Nary.nav h) root (some x.1) = Res.ok (some s.addr) := by
    rcases hr with rfl | ⟨rfl, hr⟩
    · rfl
    · rw [hr]; rfl
  simp only [List.mem_cons, Prod.mk.injEq, List.not_mem_nil, or_false] at hP
  rcases hP with ⟨rfl, rfl⟩ | ⟨rfl, rfl⟩ | ⟨rfl, rfl⟩
  · exact other_navigator_of hfix c1 ho (fun _ h => h) hv hl hk hc hx
  · exact other_navigator_of hfix c2 ho (fun x hx => mem_post.mp hx) hv (by rw [(post_perm_pre s).length_eq]; exact hl) hk hc hx
  · exact other_navigator_of hfix c3 ho (fun x hx => (bfs_perm s).mem_iff.mp hx) hv (by rw [(bfs_perm s).length_eq]; exact hl) hk hc hx

theorem C108_filtered_binary {h : BHeap α} {gs : List (BTree.Frame (Addr × α))} {b : BTree (Addr × α)} {T : Tree (Addr × α)}
    (H : Binary.Rep h (BTree.plug gs b)) (hT : b.toRose = [T]) {fuel : Nat} (hf : b.size < fuel) (q : α → Bool) {o : Obj}
    (ho : o.predicate = some (valueTestB h q)) {P : Policy} {l : List (Addr × α)}
    (hP : (P, l) ∈ [(preOrder, T.pre), (postOrder, T.post), (breadthFirst, T.bfs)])
    {k : Nat} {x : Addr × α} (hk : l[k]? = some x) (hc : o.st.cur = some x.1) (hx : q x.2 = true) {root : Ptr}
    (hr : root = some T.addr ∨ root = none ∧ x.1 = T.addr) :
    ∃ o', o.otherNavigator P fixRoot (Binary.nav h) root fuel = Res.ok o' ∧ o'.st.cur = some x.1 ∧
      Obj.rest P fuel fuel o' = Res.ok (satisfying q (l.drop k)) := by
  have ht : T.pre = b.pre := by
    have := BTree.preL_toRose b
    rw [hT] at this
    simpa using this
  have hv : ∀ x ∈ T.pre, valueTestB h q x.1 = Res.ok (q x.2) := by rw [ht]; exact fun _ hx => valueTestB_view H q hx
  have hl : T.pre.length < fuel := by
    have := Binary.size_of_toRose hT
    simp only [length_pre]
    omega
  obtain ⟨N, _⟩ := C10_view_binary H hT (Nat.le_of_lt hf)
  have c1 := N.preAt
  have c2 := N.postAt
  have c3 := N.bfsAt
  rw [show T.addrTree.pre = T.pre.map Prod.fst from pre_map _ _] at c1
  rw [show T.addrTree.post = T.post.map Prod.fst from post_map _ _] at c2
  rw [show T.addrTree.bfs = T.bfs.map Prod.fst from bfs_map _ _] at c3
  have hfix : fixRoot (Binary.nav h) root (some x.1) = Res.ok (some T.addr) := by
    rcases hr with rfl | ⟨rfl, hr⟩
    · rfl
    · rw [hr]; rfl
  simp only [List.mem_cons, Prod.mk.injEq, List.not_mem_nil, or_false] at hP
  rcases hP with ⟨rfl, rfl⟩ | ⟨rfl, rfl⟩ | ⟨rfl, rfl⟩
  · exact other_navigator_of hfix c1 ho (fun _ h => h) hv hl hk hc hx
  · exact other_navigator_of hfix c2 ho (fun x hx => mem_post.mp hx) hv (by rw [(post_perm_pre T).length_eq]; exact hl) hk hc hx
  · exact other_navigator_of hfix c3 ho (fun x hx => (bfs_perm T).mem_iff.mp hx) hv (by rw [(bfs_perm T).length_eq]; exact hl) hk hc hx

/-! ## the hypotheses are met -/

/-- The tree `1(2(5, 6(7)), 3, 4)` at the addresses `0(1(4, 5(6)), 2, 3)`: a breadth_first iterator at 5 (address 4), which has addresses
2 and 3 behind it, is given the navigator of the subtree at address 1; it goes on to address 5, 6 and the end. -/
example : ∃ b c, otherNavigator breadthFirst fixRoot (Nary.nav Samples.deepHeap) (some 1) 4 ⟨some 4, [3]⟩ = Res.ok (some 1, b) ∧
    Iter.moves breadthFirst (Nary.nav Samples.deepHeap (some 1)) 4 [.inc, .inc, .inc] b = Res.ok c ∧ c.cur = none := by
  obtain ⟨_, _, H⟩ := C108_subtree_nary (gs := [⟨(0, 1), [], [node (2, 3) [], node (3, 4) []]⟩])
    (s := node (1, 2) [node (4, 5) [], node (5, 6) [node (6, 7) []]]) Samples.deep_rep (fuel := 4) (by decide) (ok := fun _ => True)
    (Or.inl rfl)
  obtain ⟨b, e, _, _, hc⟩ := H ⟨some 4, [3]⟩ 1 4 rfl rfl trivial
  obtain ⟨c, h1, h2⟩ := hc [.inc, .inc, .inc] 4 rfl
  exact ⟨b, c, e, h1, by rw [h2]; rfl⟩
/-- The same tree: a pre_order iterator at address 1 is given a default constructed navigator. -/
example : ∃ b c, otherNavigator preOrder fixRoot (Nary.nav Samples.deepHeap) none 4 ⟨some 1, []⟩ = Res.ok (some 1, b) ∧
    Iter.moves preOrder (Nary.nav Samples.deepHeap (some 1)) 4 [.inc, .inc, .inc, .inc] b = Res.ok c ∧ c.cur = none := by
  obtain ⟨H, _, _⟩ := C108_subtree_nary (gs := [⟨(0, 1), [], [node (2, 3) [], node (3, 4) []]⟩])
    (s := node (1, 2) [node (4, 5) [], node (5, 6) [node (6, 7) []]]) Samples.deep_rep (fuel := 4) (by decide) (ok := (· = 1))
    (Or.inr ⟨rfl, fun _ h => h⟩)
  obtain ⟨b, e, _, _, hc⟩ := H ⟨some 1, []⟩ 0 1 rfl rfl rfl
  obtain ⟨c, h1, h2⟩ := hc [.inc, .inc, .inc, .inc] 4 rfl
  exact ⟨b, c, e, h1, by rw [h2]; rfl⟩
/-- A siblings iterator at address 5: the parent is found; `--` leads to address 4. -/
example : ∃ b c, otherNavigator Policy.siblings siblingsFixRoot (Nary.nav Samples.deepHeap) none 4 ⟨some 5, []⟩ = Res.ok (some 1, b) ∧
    Iter.moves Policy.siblings (Nary.nav Samples.deepHeap (some 1)) 4 [.dec] b = Res.ok c ∧ c.cur = some 4 := by
  obtain ⟨b, e, _, _, hc⟩ := C108_siblings_nary (gs := [⟨(0, 1), [], [node (2, 3) [], node (3, 4) []]⟩])
    (s := node (1, 2) [node (4, 5) [], node (5, 6) [node (6, 7) []]]) Samples.deep_rep (fuel := 4) (by decide) (Or.inr rfl)
    ⟨some 5, []⟩ 1 5 rfl rfl trivial
  obtain ⟨c, h1, h2⟩ := hc [.dec] 0 rfl
  exact ⟨b, c, e, h1, by rw [h2]; rfl⟩
/-- The binary tree `1(2(-, 4), 3(5, -))`: in_order at the node with value 2, given a default constructed navigator. -/
example : ∃ b c, otherNavigator inOrder fixRoot (Binary.nav Samples.binHeap) none 2 ⟨some 1, []⟩ = Res.ok (some 1, b) ∧
    Iter.moves inOrder (Binary.nav Samples.binHeap (some 1)) 2 [.inc, .inc] b = Res.ok c ∧ c.cur = none := by
  obtain ⟨_, _, _, H⟩ := C108_subtree_binary (gs := [⟨(0, 1), true, .node (3, 3) (.node (4, 5) .nil .nil) .nil⟩])
    (s := .node (1, 2) .nil (.node (2, 4) .nil .nil)) (T := node (1, 2) [node (2, 4) []]) Samples.bin_rep rfl (fuel := 2) (by decide)
    (ok := (· = 1)) (Or.inr ⟨rfl, fun _ h => h⟩)
  obtain ⟨b, e, _, _, hc⟩ := H ⟨some 1, []⟩ 0 1 rfl rfl rfl
  obtain ⟨c, h1, h2⟩ := hc [.inc, .inc] 2 rfl
  exact ⟨b, c, e, h1, by rw [h2]; rfl⟩
example : ∃ b c, otherNavigator Policy.siblings siblingsFixRoot (Binary.nav Samples.binHeap) none 5 ⟨some 3, []⟩ = Res.ok (some 0, b) ∧
    Iter.moves Policy.siblings (Binary.nav Samples.binHeap (some 0)) 5 [.dec] b = Res.ok c ∧ c.cur = some 1 := by
  obtain ⟨b, e, _, _, hc⟩ := C108_siblings_binary (gs := []) Samples.bin_rep Samples.bin_toRose (fuel := 5) (by decide) (Or.inr rfl)
    ⟨some 3, []⟩ 1 3 rfl rfl trivial
  obtain ⟨c, h1, h2⟩ := hc [.dec] 0 rfl
  exact ⟨b, c, e, h1, by rw [h2]; rfl⟩
example := C108_siblings_of_root_nary Samples.deep_rep 7 (st := ⟨some 0, []⟩) rfl
example := C108_siblings_of_root_binary Samples.bin_rep Samples.bin_toRose 5 (st := ⟨some 0, []⟩) rfl
example := (C108_end (Nary.nav Samples.deepHeap) (fun _ => rfl) 7 (st := ⟨none, [3]⟩) rfl).1 breadthFirst (by simp)
/-- The odd values below the node with value 2 (address 1), from 5 (address 4) on: 5 and 7. -/
example : ∃ o', (Obj.otherNavigator preOrder fixRoot (Nary.nav Samples.deepHeap) (some 1) 5
      ⟨Nary.nav Samples.deepHeap (some 0), ⟨some 4, []⟩, some (valueTest Samples.deepHeap (fun v => v % 2 == 1))⟩) = Res.ok o' ∧
    Obj.rest preOrder 5 5 o' = Res.ok [4, 6] := by
  obtain ⟨o', e, _, h⟩ := C108_filtered_nary (gs := [⟨(0, 1), [], [node (2, 3) [], node (3, 4) []]⟩])
    (s := node (1, 2) [node (4, 5) [], node (5, 6) [node (6, 7) []]]) Samples.deep_rep (fuel := 5) (by decide) (fun v => v % 2 == 1)
    (o := ⟨Nary.nav Samples.deepHeap (some 0), ⟨some 4, []⟩, some (valueTest Samples.deepHeap (fun v => v % 2 == 1))⟩) rfl
    (P := preOrder) (l := [(1, 2), (4, 5), (5, 6), (6, 7)]) (List.mem_cons_self ..) (k := 1) (x := (4, 5)) rfl rfl rfl (Or.inl rfl)
  exact ⟨o', e, h⟩
/-- The values of the binary subtree `2(-, 4)` that are even, in post_order from 4 on. -/
example : ∃ o', (Obj.otherNavigator postOrder fixRoot (Binary.nav Samples.binHeap) (some 1) 3
      ⟨Binary.nav Samples.binHeap (some 0), ⟨some 2, []⟩, some (valueTestB Samples.binHeap (fun v => v % 2 == 0))⟩) = Res.ok o' ∧
    Obj.rest postOrder 3 3 o' = Res.ok [2, 1] := by
  obtain ⟨o', e, _, h⟩ := C108_filtered_binary (gs := [⟨(0, 1), true, .node (3, 3) (.node (4, 5) .nil .nil) .nil⟩])
    (b := .node (1, 2) .nil (.node (2, 4) .nil .nil)) (T := node (1, 2) [node (2, 4) []]) Samples.bin_rep rfl (fuel := 3) (by decide)
    (fun v => v % 2 == 0)
    (o := ⟨Binary.nav Samples.binHeap (some 0), ⟨some 2, []⟩, some (valueTestB Samples.binHeap (fun v => v % 2 == 0))⟩) rfl
    (P := postOrder) (l := [(2, 4), (1, 2)]) (List.mem_cons_of_mem _ (List.mem_cons_self ..)) (k := 0) (x := (2, 4)) rfl rfl rfl (Or.inl rfl)
  exact ⟨o', e, h⟩
