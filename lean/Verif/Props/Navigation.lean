import Verif.Proof.Pruned
import Verif.Spec.FilterCursor
import Verif.Proof.Filter
import Verif.Proof.PredNav
import Verif.Proof.BinQuery
import Verif.Props.Iteration
/-!
# C11, C12, C31-C33, C68: navigation, filters, iterator equality
-/
open Tree Policy Iter

variable {α : Type}

/-! ## C11 structural navigation -/

/-- The navigator of a tree or of a view (`t` hangs somewhere in the context `gs`) answers every query about every node
with the structural neighbour inside `t`: see `NavSpec`. -/
theorem C11_navigator_nary {h : NHeap α} {gs : List (Frame (Addr × α))} {t : Tree (Addr × α)} (H : Nary.Rep h (plug gs t)) :
    NavSpec (Nary.nav h (some t.addr)) t.addrTree := Nary.nav_spec H

example : NavSpec (Nary.nav Samples.deepHeap (some 1)) (node 1 [node 4 [], node 5 [node 6 []]]) :=
  C11_navigator_nary (gs := [⟨(0, 1), [], [node (2, 3) [], node (3, 4) []]⟩])
    (t := node (1, 2) [node (4, 5) [], node (5, 6) [node (6, 7) []]]) Samples.deep_rep

theorem C11_navigator_binary {h : BHeap α} {gs : List (BTree.Frame (Addr × α))} {b : BTree (Addr × α)} {T : Tree (Addr × α)}
    (H : Binary.Rep h (BTree.plug gs b)) (hT : b.toRose = [T]) :
    NavSpec (Binary.nav h (some T.addr)) T.addrTree ∧ BNavSpec (Binary.nav h (some T.addr)) b.addrTree :=
  ⟨Binary.navSpec_of H hT, Binary.bnav_spec H (Binary.addr?_of_toRose hT)⟩

example := C11_navigator_binary (gs := []) Samples.bin_rep Samples.bin_toRose

theorem C11_counts_nary {h : NHeap α} {fs : List (Frame (Addr × α))} {s : Tree (Addr × α)} (H : Nary.Rep h (plug fs s)) :
    Nary.children h s.addr = Res.ok s.children.length ∧
    Nary.followingSiblings h s.addr = Res.ok (fs.head?.elim 0 (fun f => f.rights.length)) ∧
    ∀ i, Nary.getChild h s.addr i = Res.ok (s.children[i]?.map addr) := by
  refine ⟨Nary.childrenCount H, ?_, Nary.getChild_spec H⟩
  have := Nary.following_spec H
  cases fs <;> simpa [Nary.ffol] using this

example : Nary.getChild Samples.deepHeap 0 1 = Res.ok (some 2) := (C11_counts_nary (fs := []) Samples.deep_rep).2.2 1

theorem C11_counts_binary {h : BHeap α} {b : BTree (Addr × α)} {T : Tree (Addr × α)} (H : Binary.Rep h b)
    (hT : b.toRose = [T]) {fs : List (Frame (Addr × α))} {s : Tree (Addr × α)} (hs : plug fs s = T) :
    Binary.children h s.addr = Res.ok s.children.length ∧
    Binary.followingSiblings h s.addr = Res.ok (fs.head?.elim 0 (fun f => f.rights.length)) ∧
    ∀ i, Binary.getChild h s.addr i = Res.ok (s.children[i]?.map addr) := by
  have := Binary.rose_focus H hT hs
  exact ⟨this.2.2.2.2.2.2.1, this.2.2.2.2.2.1, this.2.2.2.2.2.2.2⟩

example : Binary.getChild Samples.binHeap 0 1 = Res.ok (some 3) :=
  (C11_counts_binary Samples.bin_rep Samples.bin_toRose (fs := []) rfl).2.2 1

/-- Every policy can be set on any node of the tree, and on `end()`. -/
theorem make_at {nav : Nav} {t : Tree Addr} {fuel : Nat} (N : NavSpec nav t) (hf : t.size ≤ fuel) {P : Policy}
    (hP : P ∈ libraryPolicies) (p : Ptr) (hp : ∀ a, p = some a → a ∈ t.pre) :
    ∃ s, P.make nav fuel p = Res.ok s ∧ s.cur = p := by
  have key : ∀ a, p = some a → ∃ s, bfsMake nav fuel (some a) = Res.ok s ∧ s.cur = some a := by
    intro a ha
    obtain ⟨k, hk⟩ := List.getElem?_of_mem ((bfs_perm t).mem_iff.mpr (hp a ha))
    obtain ⟨gs, x, hx, rfl⟩ := bfs_get_mem hk
    exact ⟨_, bfsMake_spec N hf hx, rfl⟩
  simp only [libraryPolicies, List.mem_cons, List.not_mem_nil, or_false] at hP
  rcases hP with rfl | rfl | rfl | rfl | rfl | rfl | rfl
  case inr.inr.inr.inl =>
    cases p with
    | none => exact ⟨_, rfl, rfl⟩
    | some a => exact key a rfl
  all_goals exact ⟨_, rfl, rfl⟩

theorem label_mem_pre_plug {t : Tree Addr} {fs : List (Frame Addr)} {s : Tree Addr} (h : plug fs s = t) : s.label ∈ t.pre :=
  h ▸ mem_pre_plug fs s

/-- The `go_*` functions: from an iterator on a node to an iterator of the same policy on exactly the neighbour, or on
`end()` when there is none. -/
theorem C11_go {nav : Nav} {t : Tree Addr} {fuel : Nat} (N : NavSpec nav t) (hf : t.size ≤ fuel) {P : Policy}
    (hP : P ∈ libraryPolicies) {fs : List (Frame Addr)} {s : Tree Addr} (hs : plug fs s = t) (it : ItState)
    (hit : it.cur = some s.label) :
    (∃ r, go P nav fuel nav.parent it = Res.ok r ∧ r.cur = fs.head?.map Frame.label) ∧
    (∃ r, go P nav fuel nav.prev it = Res.ok r ∧ r.cur = fs.head?.bind (fun f => f.lefts.getLast?.map label)) ∧
    (∃ r, go P nav fuel nav.next it = Res.ok r ∧ r.cur = fs.head?.bind (fun f => f.rights.head?.map label)) ∧
    (∃ r, go P nav fuel nav.first it = Res.ok r ∧ r.cur = s.children.head?.map label) ∧
    (∃ r, go P nav fuel nav.last it = Res.ok r ∧ r.cur = s.children.getLast?.map label) := by
  have key : ∀ (f : Addr → Res Ptr) (p : Ptr), f s.label = Res.ok p → (∀ a, p = some a → a ∈ t.pre) →
      ∃ r, go P nav fuel f it = Res.ok r ∧ r.cur = p := by
    intro f p h1 h2
    obtain ⟨r, h3, h4⟩ := make_at N hf hP p h2
    exact ⟨r, by simp [go, hit, h1, h3], h4⟩
  refine ⟨key _ _ (N.parent _ _ hs) ?_, key _ _ (N.prev _ _ hs) ?_, key _ _ (N.next _ _ hs) ?_,
    key _ _ (N.first _ _ hs) ?_, key _ _ (N.last _ _ hs) ?_⟩
  · intro a ha
    cases fs with
    | nil => simp at ha
    | cons f fs =>
      simp at ha; subst ha
      exact label_mem_pre_plug (s := node f.label (f.lefts ++ s :: f.rights)) (fs := fs) hs
  · intro a ha
    cases fs with
    | nil => simp at ha
    | cons f fs =>
      simp at ha
      obtain ⟨x, hx, rfl⟩ := ha
      obtain ⟨ls, hl⟩ := List.getLast?_eq_some_iff.mp hx
      refine label_mem_pre_plug (s := x) (fs := ⟨f.label, ls, s :: f.rights⟩ :: fs) ?_
      rw [← hs]; simp [plug, hl]
  · intro a ha
    cases fs with
    | nil => simp at ha
    | cons f fs =>
      simp at ha
      obtain ⟨x, hx, rfl⟩ := ha
      obtain ⟨rs, hl⟩ := List.head?_eq_some_iff.mp hx
      refine label_mem_pre_plug (s := x) (fs := ⟨f.label, f.lefts ++ [s], rs⟩ :: fs) ?_
      rw [← hs]; simp [plug, hl]
  · intro a ha
    simp at ha
    obtain ⟨x, hx, rfl⟩ := ha
    obtain ⟨rs, hl⟩ := List.head?_eq_some_iff.mp hx
    refine label_mem_pre_plug (s := x) (fs := ⟨s.label, [], rs⟩ :: fs) ?_
    rw [← hs]; cases s; simp [plug] at hl ⊢; simp [hl]
  · intro a ha
    simp at ha
    obtain ⟨x, hx, rfl⟩ := ha
    obtain ⟨ls, hl⟩ := List.getLast?_eq_some_iff.mp hx
    refine label_mem_pre_plug (s := x) (fs := ⟨s.label, ls, []⟩ :: fs) ?_
    rw [← hs]; cases s; simp [plug] at hl ⊢; simp [hl]

example := C11_go (Nary.nav_spec (gs := []) Samples.deep_rep) (fuel := 7) (by decide) (P := breadthFirst)
  (by simp [libraryPolicies]) (fs := [⟨0, [], [node 2 [], node 3 []]⟩]) (s := node 1 [node 4 [], node 5 [node 6 []]]) rfl
  ⟨some 1, []⟩ rfl

/-- `go_child(i)`: the `i`-th child, or `end()` when there is no such child. -/
theorem C11_go_child_nary {h : NHeap α} {t : Tree (Addr × α)} {fuel : Nat} (H : Nary.Rep h t) (hf : t.size ≤ fuel) {P : Policy}
    (hP : P ∈ libraryPolicies) {fs : List (Frame (Addr × α))} {s : Tree (Addr × α)} (hs : plug fs s = t) (it : ItState)
    (hit : it.cur = some s.addr) (i : Nat) :
    ∃ r, go P (Nary.nav h (some t.addr)) fuel (fun a => Nary.getChild h a i) it = Res.ok r ∧
      r.cur = s.children[i]?.map addr := by
  subst hs
  have N := Nary.nav_spec (gs := []) H
  obtain ⟨r, h3, h4⟩ := make_at N (by rwa [addrTree_size]) hP (s.children[i]?.map addr) (by
    intro a ha
    rw [addrTree_pre]
    simp at ha
    obtain ⟨x, hx, rfl⟩ := ha
    apply addrs_sub_plug
    rw [Nary.addrs_eq]
    exact List.mem_cons_of_mem _ (addr_mem_addrsL (List.mem_of_getElem? hx)))
  have := Nary.getChild_spec H i
  exact ⟨r, by simp only [go, hit, deref_some, Res.ok_bind, this]; exact h3, h4⟩

example := C11_go_child_nary Samples.deep_rep (fuel := 7) (by decide) (P := breadthFirst) (by simp [libraryPolicies])
  (fs := []) rfl ⟨some 0, []⟩ rfl 2

/-- Every `go_*` function on an `end()` iterator dereferences a null pointer: C11 needs an iterator on a node. -/
theorem C11_go_end_ub (P : Policy) (nav : Nav) (fuel : Nat) (f : Addr → Res Ptr) (it : ItState) (hit : it.cur = none) :
    go P nav fuel f it = Res.ub := by simp [go, hit]

/-! ## C12 row navigation -/

theorem C12_rows {nav : Nav} {t : Tree Addr} {fuel : Nat} (N : NavSpec nav t) (hf : t.size ≤ fuel) {d : Nat}
    {l1 l2 : List (Tree Addr)} {s : Tree Addr} (hd : row d [t] = l1 ++ s :: l2) :
    nav.getOtherBranch false fuel s.label = Res.ok (l2.head?.map label) ∧
    nav.getOtherBranch true fuel s.label = Res.ok (l1.getLast?.map label) ∧
    nav.getRowExtremum true fuel s.label = Res.ok ((row d [t]).head?.map label) ∧
    nav.getRowExtremum false fuel s.label = Res.ok ((row d [t]).getLast?.map label) := by
  obtain ⟨fs, h1, h2, h3, h4⟩ := exists_plug_of_row hd
  subst h2 h3 h4
  exact ⟨getOtherBranch_right N hf h1, getOtherBranch_left N hf h1, getRowExtremum_left N hf h1, getRowExtremum_right N hf h1⟩

/-- Row 1 of `1(2(5,6(7)),3,4)`, at the node 3. -/
example := C12_rows (Nary.nav_spec (gs := []) Samples.deep_rep) (fuel := 7) (by decide) (d := 1)
  (l1 := [node 1 [node 4 [], node 5 [node 6 []]]]) (s := node 2 []) (l2 := [node 3 []]) rfl

/-- The deepest row is row `height - 1`. -/
theorem C12_deepest {nav : Nav} {t : Tree Addr} {fuel : Nat} (N : NavSpec nav t) (hf : t.size ≤ fuel) :
    nav.getDeepestExtremumChild true fuel = Res.ok ((row (t.height - 1) [t]).head?.map label) ∧
    nav.getDeepestExtremumChild false fuel = Res.ok ((row (t.height - 1) [t]).getLast?.map label) ∧
    row (t.height - 1) [t] ≠ [] ∧ row t.height [t] = [] := by
  refine ⟨getDeepest_left N hf, getDeepest_right N hf, ?_, ?_⟩
  · exact row_ne_nil_of_lt (by cases t; simp [height])
  · rw [row_eq_nil_iff]; simp [heightL]

example : (Nary.nav Samples.deepHeap (some 0)).getDeepestExtremumChild false 7 = Res.ok (some 6) :=
  (C12_deepest (Nary.nav_spec (gs := []) Samples.deep_rep) (by decide)).2.1

/-- The ends of the chains of first and of last children. -/
theorem C12_highest {nav : Nav} {t : Tree Addr} {fuel : Nat} (N : NavSpec nav t) (hf : t.size ≤ fuel) :
    nav.getHighestLeaf true fuel = Res.ok t.leaves.head? ∧ nav.getHighestLeaf false fuel = Res.ok t.leaves.getLast? := by
  refine ⟨by rw [postFirst_spec N fuel hf, leaves_head_post], ?_⟩
  have := leaves_head_post t.mirror
  rw [leaves_mirror, post_mirror] at this
  simp only [List.head?_reverse] at this
  rw [preLast_spec N fuel hf, this]

example : (Nary.nav Samples.deepHeap (some 0)).getHighestLeaf false 7 = Res.ok (some 3) :=
  (C12_highest (Nary.nav_spec (gs := []) Samples.deep_rep) (by decide)).2

/-! ## C31, C68 filtered sibling navigation

`p` is what the navigator's predicate answers about a node (`q`, without error, for the nodes of the tree). -/

/-- First child and next sibling: the first one satisfying the predicate. -/
theorem C31_next {nav : Nav} {t : Tree Addr} {fuel : Nat} {p : Addr → Res Bool} {q : Addr → Bool} (N : NavSpec nav t)
    (hp : ∀ a ∈ t.pre, p a = Res.ok (q a)) (hf : t.size ≤ fuel) {fs : List (Frame Addr)} {s : Tree Addr} (hs : plug fs s = t) :
    (PredNav.nav nav p fuel).first s.label = Res.ok ((s.children.map label).find? q) ∧
    (PredNav.nav nav p fuel).next s.label =
      Res.ok (fs.head?.bind (fun f => (f.rights.map label).find? q)) := by
  refine ⟨PredNav.first_spec N hp hf hs, ?_⟩
  cases fs with
  | nil => subst hs; exact PredNav.next_root N (Nat.lt_of_lt_of_le (size_pos _) hf)
  | cons f fs => exact PredNav.next_spec N hp hf hs

example := C31_next (Nary.nav_spec (gs := []) Samples.deep_rep) (p := fun a => Res.ok (a != 2)) (q := (· != 2)) (by simp)
  (fuel := 7) (by decide) (fs := [⟨0, [], [node 2 [], node 3 []]⟩]) (s := node 1 [node 4 [], node 5 [node 6 []]]) rfl

/-- Previous sibling and last child. Missing from C68: the case in which the nearest sibling to the left fails the
predicate; see `C68_prev_never_ends_defect`. -/
theorem C68_prev_partial {nav : Nav} {t : Tree Addr} {fuel : Nat} {p : Addr → Res Bool} {q : Addr → Bool} (N : NavSpec nav t)
    (hp : ∀ a ∈ t.pre, p a = Res.ok (q a)) (hf : t.size ≤ fuel) {f : Frame Addr} {fs : List (Frame Addr)} {s : Tree Addr}
    (hs : plug (f :: fs) s = t) (hq : ∀ x, f.lefts.getLast? = some x → q x.label = true) :
    (PredNav.nav nav p fuel).prev s.label = Res.ok ((f.lefts.map label).reverse.find? q) := by
  have h := PredNav.prev_spec N hp (Nat.lt_of_lt_of_le (size_pos _) hf) hs hq
  refine h.trans ?_
  cases hl : f.lefts.getLast? with
  | none => simp at hl; simp [hl]
  | some x =>
    obtain ⟨ls, hls⟩ := List.getLast?_eq_some_iff.mp hl
    simp [hls, hq x hl]

example := C68_prev_partial (Nary.nav_spec (gs := []) Samples.deep_rep) (p := fun a => Res.ok (a != 1)) (q := (· != 1)) (by simp)
  (fuel := 7) (by decide) (f := ⟨0, [node 1 [node 4 [], node 5 [node 6 []]], node 2 []], []⟩) (fs := []) (s := node 3 []) rfl
  (by simp [label])

theorem C68_last_partial {nav : Nav} {t : Tree Addr} {fuel : Nat} {p : Addr → Res Bool} {q : Addr → Bool} (N : NavSpec nav t)
    (hp : ∀ a ∈ t.pre, p a = Res.ok (q a)) (hf : t.size ≤ fuel) {fs : List (Frame Addr)} {s : Tree Addr}
    (hs : plug fs s = t)
    (hq : ∀ ls x, s.children = ls ++ [x] → q x.label = false → ∀ y, ls.getLast? = some y → q y.label = true) :
    (PredNav.nav nav p fuel).last s.label = Res.ok ((s.children.map label).reverse.find? q) :=
  PredNav.last_spec N hp (Nat.lt_of_lt_of_le (size_pos _) hf) hs hq

example := C68_last_partial (Nary.nav_spec (gs := []) Samples.deep_rep) (p := fun a => Res.ok (a != 1)) (q := (· != 1)) (by simp)
  (fuel := 7) (by decide) (fs := []) (s := Samples.deep.addrTree) rfl
  (by
    intro ls x h hx
    have : x = node 3 [] := by
      have := congrArg List.getLast? h
      have e : Samples.deep.addrTree.children.getLast? = some (node 3 []) := rfl
      simpa [e] using this.symm
    subst this
    simp at hx)

/-- C68 is false of the code: whenever the nearest sibling to the left fails the predicate the loop never ends,
whatever the bound on the number of rounds. -/
theorem C68_prev_never_ends_defect {nav : Nav} {t : Tree Addr} {p : Addr → Res Bool} {q : Addr → Bool} (N : NavSpec nav t)
    (hp : ∀ a ∈ t.pre, p a = Res.ok (q a)) {f : Frame Addr} {fs : List (Frame Addr)} {s x : Tree Addr}
    (hs : plug (f :: fs) s = t) (hl : f.lefts.getLast? = some x) (hq : q x.label = false) (fuel : Nat) :
    (PredNav.nav nav p fuel).prev s.label = Res.diverge :=
  PredNav.prev_diverges N hp fuel hs hl hq

example := C68_prev_never_ends_defect (Nary.nav_spec (gs := []) Samples.deep_rep) (p := fun a => Res.ok (a != 2)) (q := (· != 2))
  (by simp) (f := ⟨0, [node 1 [node 4 [], node 5 [node 6 []]], node 2 []], []⟩) (fs := []) (s := node 3 []) rfl rfl rfl

/-- Left and right child of a binary node: the child if it satisfies the predicate. -/
theorem C31_left_right {nav : Nav} {b : BTree Addr} {fuel : Nat} {p : Addr → Res Bool} {q : Addr → Bool} (N : BNavSpec nav b)
    (hp : ∀ a ∈ b.pre, p a = Res.ok (q a)) {fs : List (BTree.Frame Addr)} {a : Addr} {l r : BTree Addr}
    (hs : BTree.plug fs (.node a l r) = b) :
    (PredNav.nav nav p fuel).left a = Res.ok (l.label?.filter q) ∧ (PredNav.nav nav p fuel).right a = Res.ok (r.label?.filter q) :=
  ⟨PredNav.left_spec N hp hs, PredNav.right_spec N hp hs⟩

example : (PredNav.nav (Binary.nav Samples.binHeap (some 0)) (fun a => Res.ok (a != 1)) 5).left 0 = Res.ok none ∧
    (PredNav.nav (Binary.nav Samples.binHeap (some 0)) (fun a => Res.ok (a != 1)) 5).right 0 = Res.ok (some 3) :=
  C31_left_right (Binary.bnav_spec (gs := []) Samples.bin_rep rfl) (q := (· != 1)) (by simp) (fs := []) rfl

/-! ## C32 filtered iteration -/

/-- A predicate on values, asked about the node at an address. -/
def valueTest (h : NHeap α) (q : α → Bool) (a : Addr) : Res Bool := do pure (q (← h.read a).value)

theorem valueTest_of {h : NHeap α} {t : Tree (Addr × α)} (H : Nary.Rep h t) (q : α → Bool) {x : Addr × α} (hx : x ∈ t.pre) :
    valueTest h q x.1 = Res.ok (q x.2) := by
  obtain ⟨fs, s, hs, rfl⟩ := exists_plug_of_mem hx
  subst hs
  have hc := Nary.Rep.cell H
  simp only [Tree.addr] at hc
  simp [valueTest, Heap.read_of hc, Nary.rec_]

theorem filter_addrs {h : NHeap α} {t : Tree (Addr × α)} (H : Nary.Rep h t) (q : α → Bool) :
    ∃ q' : Addr → Bool, (∀ x ∈ t.pre, q' x.1 = q x.2) ∧ ∀ a ∈ t.addrTree.pre, valueTest h q a = Res.ok (q' a) := by
  refine ⟨fun a => match valueTest h q a with | .ok b => b | _ => false, fun x hx => by simp [valueTest_of H q hx], ?_⟩
  intro a ha
  rw [addrTree_pre, addrs, List.mem_map] at ha
  obtain ⟨x, hx, rfl⟩ := ha
  simp [valueTest_of H q hx]

/-- The elements of a listing of nodes whose value satisfies `q`. -/
def satisfying (q : α → Bool) (l : List (Addr × α)) : List Addr := (l.filter (fun x => q x.2)).map Prod.fst

theorem filter_map_fst {q : α → Bool} {q' : Addr → Bool} {l m : List (Addr × α)} (hl : ∀ x ∈ l, x ∈ m)
    (hq : ∀ x ∈ m, q' x.1 = q x.2) : (l.map Prod.fst).filter q' = satisfying q l := by
  rw [satisfying, List.filter_map]
  congr 1
  exact List.filter_congr (fun x hx => by simp [hq x (hl x hx)])

theorem Tree.post_map {β γ : Type} (f : β → γ) (t : Tree β) : (t.map f).post = t.post.map f := by
  induction t using Tree.ind with
  | h a cs ih =>
    simp only [map_node, post_node, postL_eq, mapL_eq, List.map_append, List.map_flatMap, List.flatMap_map, List.map_cons,
      List.map_nil, List.append_cancel_right_eq]
    induction cs with
    | nil => rfl
    | cons c cs ihc =>
      simp only [List.flatMap_cons]
      rw [ih c (by simp), ihc (fun d hd => ih d (by simp [hd]))]

theorem Tree.row_map {β γ : Type} (f : β → γ) (n : Nat) (ts : List (Tree β)) : row n (ts.map (Tree.map f)) = (row n ts).map (Tree.map f) := by
  induction n generalizing ts with
  | zero => rfl
  | succ n ih =>
    rw [row_succ, row_succ, ← ih]
    congr 1
    simp [List.flatMap_map, List.map_flatMap]

theorem Tree.height_map {β γ : Type} (f : β → γ) (t : Tree β) : (t.map f).height = t.height := by
  induction t using Tree.ind with
  | h a cs ih =>
    simp only [map_node, height_node, mapL_eq]
    congr 1
    induction cs with
    | nil => rfl
    | cons c cs ihc =>
      simp only [List.map_cons, heightL_cons]
      rw [ih c (by simp), ihc (fun d hd => ih d (by simp [hd]))]

theorem Tree.bfs_map {β γ : Type} (f : β → γ) (t : Tree β) : (t.map f).bfs = t.bfs.map f := by
  simp only [bfs, height_map, List.map_flatMap]
  congr 1
  funext n
  have := row_map f n [t]
  simp at this
  simp [this]

/-- In both directions, when some element satisfies the predicate. Without one, `--` from `end()` is not right: see
`C32_dec_end_post_order` and `C32_dec_end_breadth_first`. -/
theorem C32_bidirectional {h : NHeap α} {t : Tree (Addr × α)} (H : Nary.Rep h t) {fuel : Nat} (hf : t.size < fuel)
    (q : α → Bool) :
    (satisfying q t.pre ≠ [] →
      IsFilterCursor preOrder (Nary.nav h (some t.addr)) fuel (valueTest h q) (satisfying q t.pre) ∧
      IsFilterCursor postOrder (Nary.nav h (some t.addr)) fuel (valueTest h q) (satisfying q t.post) ∧
      IsFilterCursor breadthFirst (Nary.nav h (some t.addr)) fuel (valueTest h q) (satisfying q t.bfs)) ∧
    (satisfying q (t.children.map label) ≠ [] →
      IsFilterCursor siblings (Nary.nav h (some t.addr)) fuel (valueTest h q) (satisfying q (t.children.map label))) := by
  obtain ⟨q', hq', hv⟩ := filter_addrs H q
  have N := Nary.nav_spec (gs := []) H
  have hs : t.addrTree.size ≤ fuel := by rw [addrTree_size]; omega
  have hlen : t.pre.length < fuel := by simpa using hf
  have hperm : ∀ l : List (Addr × α), l.Perm t.pre → satisfying q t.pre ≠ [] → satisfying q l ≠ [] := by
    intro l hl hne h0
    apply hne
    have := ((hl.filter (fun x => q x.2)).map Prod.fst).symm
    rw [satisfying] at h0
    rw [h0] at this
    exact this.eq_nil
  have key : ∀ (P : Policy) (l : List (Addr × α)) (L : List Addr) (Q : Nat → ItState → Prop), L = l.map Prod.fst →
      (∀ x ∈ l, x ∈ t.pre) → l.length ≤ t.pre.length →
      CursorInv P (Nary.nav h (some t.addr)) fuel L Q → satisfying q l ≠ [] →
      IsFilterCursor P (Nary.nav h (some t.addr)) fuel (valueTest h q) (satisfying q l) := by
    intro P l L Q hL hsub hle I hne
    subst hL
    have e := filter_map_fst hsub hq'
    rw [← e] at hne ⊢
    refine FilterIter.isFilterCursor I ?_ (by simp; omega) hne
    intro a ha
    apply hv
    rw [addrTree_pre, addrs]
    obtain ⟨x, hx, rfl⟩ := List.mem_map.mp ha
    exact List.mem_map_of_mem (hsub x hx)
  refine ⟨fun hne => ⟨?_, ?_, ?_⟩, fun hne => ?_⟩
  · exact key _ t.pre _ _ (pre_map _ _) (fun x hx => hx) (Nat.le_refl _) (preOrder_inv N hs) hne
  · exact key _ t.post _ _ (post_map _ _) (fun x hx => mem_post.mp hx) (Nat.le_of_eq (post_perm_pre t).length_eq)
      (postOrder_inv N hs) (hperm _ (post_perm_pre t) hne)
  · exact key _ t.bfs _ _ (bfs_map _ _) (fun x hx => (bfs_perm t).mem_iff.mp hx) (Nat.le_of_eq (bfs_perm t).length_eq)
      (bfs_inv N hs) (hperm _ (bfs_perm t) hne)
  · refine key _ (t.children.map label) _ _ ?_ ?_ ?_ (siblings_inv N) hne
    · simp [addrTree]
    · intro x hx
      obtain ⟨c, hc, rfl⟩ := List.mem_map.mp hx
      rw [pre_eq_cons, preL_eq]
      exact List.mem_cons_of_mem _ (List.mem_flatMap.mpr ⟨c, hc, label_mem_pre c⟩)
    · cases t with
      | node a cs =>
        have : ∀ cs : List (Tree (Addr × α)), cs.length ≤ sizeL cs := by
          intro cs
          induction cs with
          | nil => simp
          | cons c cs ih => have := size_pos c; simp; omega
        have := this cs
        simp only [children_node, List.length_map, length_pre, size_node]
        omega

example := (C32_bidirectional Samples.deep_rep (fuel := 8) (by decide) (fun v => v % 2 == 1)).1 (by decide)
example : satisfying (fun v => v % 2 == 1) Samples.deep.bfs = [0, 2, 4, 6] := rfl

/-- The forward loop is right whether or not anything satisfies the predicate. -/
theorem C32_forward {h : NHeap α} {t : Tree (Addr × α)} (H : Nary.Rep h t) {fuel : Nat} (hf : t.size < fuel)
    (q : α → Bool) (i : Nat) (hi : i ≤ (satisfying q t.bfs).length) :
    ∃ b w s, begin_ breadthFirst (Nary.nav h (some t.addr)) fuel = Res.ok b ∧
      FilterIter.wrap breadthFirst (Nary.nav h (some t.addr)) fuel (valueTest h q) b = Res.ok w ∧
      FilterIter.moves breadthFirst (Nary.nav h (some t.addr)) fuel (valueTest h q) (List.replicate i .inc) w = Res.ok s ∧
      s.cur = (satisfying q t.bfs)[i]? := by
  obtain ⟨q', hq', hv⟩ := filter_addrs H q
  have N := Nary.nav_spec (gs := []) H
  have hs : t.addrTree.size ≤ fuel := by rw [addrTree_size]; omega
  have e := filter_map_fst (fun x hx => (bfs_perm t).mem_iff.mp hx) hq'
  have e2 : t.addrTree.bfs = t.bfs.map Prod.fst := bfs_map _ _
  have I := bfs_inv N hs
  rw [← e, ← e2] at hi ⊢
  refine FilterIter.forward_moves I (fun a ha => hv a ((bfs_perm _).mem_iff.mp ha)) ?_ i hi
  rw [(bfs_perm t.addrTree).length_eq, length_pre, addrTree_size]
  exact hf

example := C32_forward Samples.deep_rep (fuel := 8) (by decide) (fun v => v % 2 == 1) 4 (by decide)

/-- Nothing satisfies the predicate on `1(2,3,4)`: `--end()` with breadth_first is undefined behaviour … -/
theorem C32_dec_end_breadth_first (fuel : Nat) (hf : 20 ≤ fuel) :
    ∃ e, end_ breadthFirst (Nary.nav Samples.flatHeap (some Samples.flat.addr)) fuel = Res.ok e ∧
      FilterIter.move breadthFirst (Nary.nav Samples.flatHeap (some Samples.flat.addr)) fuel
        (valueTest Samples.flatHeap (fun _ => false)) .dec e = Res.ub := by
  obtain ⟨n, rfl⟩ : ∃ n, fuel = n + 20 := ⟨fuel - 20, by omega⟩
  exact ⟨⟨none, []⟩, rfl, rfl⟩

/-- … and with post_order it never ends. -/
theorem C32_dec_end_post_order (fuel : Nat) (hf : 20 ≤ fuel) :
    ∃ e, end_ postOrder (Nary.nav Samples.flatHeap (some Samples.flat.addr)) fuel = Res.ok e ∧
      FilterIter.move postOrder (Nary.nav Samples.flatHeap (some Samples.flat.addr)) fuel
        (valueTest Samples.flatHeap (fun _ => false)) .dec e = Res.diverge := by
  obtain ⟨n, rfl⟩ : ∃ n, fuel = n + 20 := ⟨fuel - 20, by omega⟩
  refine ⟨⟨none, []⟩, rfl, ?_⟩
  have key : ∀ (m : Nat) (a : Ptr), a ∈ [none, some 0, some 1, some 2, some 3] →
      FilterIter.moveLoop postOrder (Nary.nav Samples.flatHeap (some Samples.flat.addr)) (n + 20)
        (valueTest Samples.flatHeap (fun _ => false)) .dec m ⟨a, []⟩ = Res.diverge := by
    intro m
    induction m with
    | zero => intros; rfl
    | succ m ih =>
      intro a ha
      simp only [List.mem_cons, List.not_mem_nil, or_false] at ha
      rcases ha with rfl | rfl | rfl | rfl | rfl
      · exact ih (some 0) (by simp)
      · exact ih (some 3) (by simp)
      · exact ih (some 0) (by simp)
      · exact ih (some 1) (by simp)
      · exact ih (some 2) (by simp)
  exact key _ none (by simp)

/-! ## C33 iterator equality -/

theorem walk_le {n : Nat} (ms : List Move) {i j : Nat} (hi : i ≤ n) (h : Cursor.walk n ms i = some j) : j ≤ n := by
  induction ms generalizing i with
  | nil => simp [Cursor.walk] at h; omega
  | cons m ms ih =>
    simp only [Cursor.walk] at h
    cases hs : Cursor.step n m i with
    | none => simp [hs] at h
    | some k =>
      rw [hs] at h
      exact ih (FilterIter.step_le hi hs) h

/-- Two iterators of one policy over one tree, moved in any in-range way from `begin()` to the indices `i` and `j` of the
order: they compare equal exactly when `i = j` (the index `L.length` is `end()`). -/
theorem C33_same_tree {P : Policy} {nav : Nav} {fuel : Nat} {L : List Addr} (hc : IsCursor P nav fuel L) (hn : L.Nodup)
    (ms ns : List Move) (i j : Nat) (hi : Cursor.walk L.length ms 0 = some i) (hj : Cursor.walk L.length ns 0 = some j) :
    ∃ b s r, begin_ P nav fuel = Res.ok b ∧ moves P nav fuel ms b = Res.ok s ∧ moves P nav fuel ns b = Res.ok r ∧
      Iter.eq nav nav s r = decide (i = j) := by
  obtain ⟨b, s, h1, h2, h3⟩ := hc.1 ms i hi
  obtain ⟨b', r, h4, h5, h6⟩ := hc.1 ns j hj
  rw [h1] at h4; cases h4
  have hil := walk_le ms (Nat.zero_le _) hi
  have hjl := walk_le ns (Nat.zero_le _) hj
  refine ⟨b, s, r, h1, h2, h5, ?_⟩
  simp only [Iter.eq, h3, h6, beq_self_eq_true, Bool.and_true]
  rw [Bool.eq_iff_iff]
  simp only [beq_iff_eq, decide_eq_true_eq]
  constructor
  · intro h
    rcases Nat.lt_or_ge i L.length with h7 | h7
    · exact (List.getElem?_inj h7 hn).mp h
    · rw [List.getElem?_eq_none h7] at h
      have := List.getElem?_eq_none_iff.mp h.symm
      omega
  · rintro rfl; rfl

example := C33_same_tree (C04_breadth_first_nary Samples.deep_rep (fuel := 7) (by decide)) (by decide)
  [.inc, .inc, .dec] [.inc] 1 1 rfl rfl

/-- The listings of C01-C06 have no repetitions, so `C33_same_tree` applies to them. -/
theorem C33_orders_nodup {nav : Nav} {t : Tree Addr} (N : NavSpec nav t) :
    t.pre.Nodup ∧ t.post.Nodup ∧ t.bfs.Nodup ∧ (t.children.map label).Nodup := by
  refine ⟨N.nodup, nodup_post.mpr N.nodup, bfs_nodup N, ?_⟩
  have := row_nodup N 1
  simpa [row] using this

example := C33_orders_nodup (Nary.nav_spec (gs := []) Samples.deep_rep)

/-- Iterators over different non-empty trees are never equal, … -/
theorem C33_other_tree {h : NHeap α} {t t' : Tree (Addr × α)} (H : Nary.Rep h t) (H' : Nary.Rep h t')
    (hd : ∀ a ∈ t.addrs, a ∉ t'.addrs) (s s' : ItState) :
    Iter.eq (Nary.nav h (some t.addr)) (Nary.nav h (some t'.addr)) s s' = false := by
  have : t.addr ≠ t'.addr := fun e => hd _ (addr_mem_addrs t) (e ▸ addr_mem_addrs t')
  simp [Iter.eq, Nary.nav, this]

/-- … nor iterators over views of two different nodes. -/
theorem C33_other_view {h : NHeap α} {a b : Addr} (hne : a ≠ b) (it it' : ItState) :
    Iter.eq (Nary.nav h (some a)) (Nary.nav h (some b)) it it' = false := by
  simp [Iter.eq, Nary.nav, hne]

example := C33_other_view (h := Samples.deepHeap) (a := 1) (b := 2) (by decide) ⟨some 5, []⟩ ⟨some 5, []⟩
