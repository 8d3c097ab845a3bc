import Verif.Proof.FilterObj
import Verif.Props.Navigation
/-!
# C32, C47, C76: filtered iterators

`FilterLoop` (Spec/FilterCursor.lean): the loop over the wrapped `begin()`. `satisfying q l`: the addresses of the elements
of `l` whose value satisfies `q`.
-/
open Tree Policy Iter

variable {α : Type}

theorem Tree.leaves_map {β γ : Type} (f : β → γ) (t : Tree β) : (t.map f).leaves = t.leaves.map f := by
  have hL : ∀ cs : List (Tree β), (∀ c ∈ cs, (c.map f).leaves = c.leaves.map f) →
      leavesL (cs.map (Tree.map f)) = (leavesL cs).map f := by
    intro cs
    induction cs with
    | nil => intro _; simp [leavesL]
    | cons c cs ih =>
      intro h
      simp only [List.map_cons, leavesL, List.map_append]
      rw [h c (by simp), ih (fun d hd => h d (by simp [hd]))]
  induction t using Tree.ind with
  | h a cs ih =>
    cases cs with
    | nil => simp [leaves]
    | cons c cs =>
      have := hL (c :: cs) ih
      simpa [leaves, leavesL, mapL_eq] using this

namespace FilterIter.Obj

/-- From the plain loop to the filtered one. -/
theorem loop_of {P : Policy} {nav : Nav} {fuel : Nat} {p : Addr → Res Bool} {L : List Addr} (q : Addr → Bool)
    (h : forward P nav fuel = Res.ok L) (hp : ∀ a ∈ L, p a = Res.ok (q a)) (hf : L.length < fuel) :
    FilterLoop P nav fuel p (L.filter q) := by
  simp only [forward, Res.bind_eq_ok] at h
  obtain ⟨b, h1, h2⟩ := h
  obtain ⟨o, h3, _, _, _, h4⟩ := make_rest h2 hp hf
  exact ⟨b, o, h1, h3, h4⟩

/-- The same, with the values. -/
theorem loop_values {P : Policy} {nav : Nav} {fuel : Nat} {p : Addr → Res Bool} {l m : List (Addr × α)} (q : α → Bool)
    (h : forward P nav fuel = Res.ok (l.map Prod.fst)) (hl : ∀ x ∈ l, x ∈ m) (hp : ∀ x ∈ m, p x.1 = Res.ok (q x.2))
    (hf : l.length < fuel) : FilterLoop P nav fuel p (satisfying q l) := by
  have hq : ∀ x ∈ m, (fun a => match p a with | .ok b => b | _ => false) x.1 = q x.2 := fun x hx => by simp [hp x hx]
  have := loop_of (p := p) (fun a => match p a with | .ok b => b | _ => false) h (fun a ha => by
    obtain ⟨x, hx, rfl⟩ := List.mem_map.mp ha
    simp [hp x (hl x hx)]) (by simpa using hf)
  rwa [filter_map_fst hl hq] at this

end FilterIter.Obj

/-- A predicate on values, asked about a node of a binary tree. -/
def valueTestB (h : BHeap α) (q : α → Bool) (a : Addr) : Res Bool := do pure (q (← h.read a).value)

theorem valueTest_view {h : NHeap α} {gs : List (Frame (Addr × α))} {t : Tree (Addr × α)} (H : Nary.Rep h (plug gs t))
    (q : α → Bool) {x : Addr × α} (hx : x ∈ t.pre) : valueTest h q x.1 = Res.ok (q x.2) := by
  obtain ⟨fs, s, hs, rfl⟩ := exists_plug_of_mem hx
  subst hs
  rw [← plug_append] at H
  have hc := Nary.Rep.cell H
  simp only [Tree.addr] at hc
  simp [valueTest, Heap.read_of hc, Nary.rec_]

theorem valueTestB_view {h : BHeap α} {gs : List (BTree.Frame (Addr × α))} {b : BTree (Addr × α)}
    (H : Binary.Rep h (BTree.plug gs b)) (q : α → Bool) {x : Addr × α} (hx : x ∈ b.pre) : valueTestB h q x.1 = Res.ok (q x.2) := by
  obtain ⟨fs, l, r, hs⟩ := BTree.exists_plug_of_mem ((BTree.inorder_perm_pre b).mem_iff.mpr hx)
  subst hs
  rw [← BTree.plug_append] at H
  simp [valueTestB, Heap.read_of (Binary.Rep.cell H)]

/-- The labels of the children are among the nodes, and not more. -/
theorem Tree.child_labels (t : Tree (Addr × α)) : (∀ x ∈ t.children.map label, x ∈ t.pre) ∧ (t.children.map label).length ≤ t.size := by
  constructor
  · intro x hx
    obtain ⟨c, hc, rfl⟩ := List.mem_map.mp hx
    rw [pre_eq_cons, preL_eq]
    exact List.mem_cons_of_mem _ (List.mem_flatMap.mpr ⟨c, hc, label_mem_pre c⟩)
  · cases t with
    | node a cs =>
      have : ∀ cs : List (Tree (Addr × α)), cs.length ≤ sizeL cs := by
        intro cs
        induction cs with
        | nil => simp
        | cons c cs ih => have := size_pos c; simp; omega
      have := this cs
      simp only [children_node, List.length_map, size_node]
      omega

theorem filter_loops {nav : Nav} {t : Tree (Addr × α)} {fuel : Nat} {p : Addr → Res Bool} (N : NavSpec nav t.addrTree)
    (hf : t.size < fuel) {q : α → Bool} (hp : ∀ x ∈ t.pre, p x.1 = Res.ok (q x.2)) :
    FilterLoop preOrder nav fuel p (satisfying q t.pre) ∧ FilterLoop postOrder nav fuel p (satisfying q t.post) ∧
    FilterLoop breadthFirst nav fuel p (satisfying q t.bfs) ∧
    FilterLoop siblings nav fuel p (satisfying q (t.children.map label)) ∧
    FilterLoop Policy.leaves nav fuel p (satisfying q t.leaves) := by
  have hs : t.addrTree.size < fuel := by rwa [addrTree_size]
  have hl : t.pre.length < fuel := by simpa using hf
  obtain ⟨h1, h2, h3, h4⟩ := loops N hs
  have h5 := leaves_forward N hs
  have e1 : t.addrTree.pre = t.pre.map Prod.fst := pre_map _ _
  have e2 : t.addrTree.post = t.post.map Prod.fst := post_map _ _
  have e3 : t.addrTree.bfs = t.bfs.map Prod.fst := bfs_map _ _
  have e4 : t.addrTree.children.map label = (t.children.map label).map Prod.fst := by simp [addrTree]
  have e5 : t.addrTree.leaves = t.leaves.map Prod.fst := leaves_map _ _
  rw [e1] at h1
  rw [e2] at h2
  rw [e3] at h3
  rw [e4] at h4
  rw [e5] at h5
  have hc := child_labels t
  exact ⟨FilterIter.Obj.loop_values q h1.1 (fun _ h => h) hp hl,
    FilterIter.Obj.loop_values q h2.1 (fun x hx => mem_post.mp hx) hp (by rw [(post_perm_pre t).length_eq]; exact hl),
    FilterIter.Obj.loop_values q h3.1 (fun x hx => (bfs_perm t).mem_iff.mp hx) hp (by rw [(bfs_perm t).length_eq]; exact hl),
    FilterIter.Obj.loop_values q h4.1 hc.1 hp (by omega),
    FilterIter.Obj.loop_values q h5 (fun x hx => (leaves_sublist_pre t).subset hx) hp
      (Nat.lt_of_le_of_lt (leaves_sublist_pre t).length_le hl)⟩

/-! ## C32 filtered iteration: the forward loop, for every policy, every tree and view, whether or not anything satisfies
the predicate -/

theorem C32_forward_nary {h : NHeap α} {gs : List (Frame (Addr × α))} {t : Tree (Addr × α)} (H : Nary.Rep h (plug gs t))
    {fuel : Nat} (hf : t.size < fuel) (q : α → Bool) :
    FilterLoop preOrder (Nary.nav h (some t.addr)) fuel (valueTest h q) (satisfying q t.pre) ∧
    FilterLoop postOrder (Nary.nav h (some t.addr)) fuel (valueTest h q) (satisfying q t.post) ∧
    FilterLoop breadthFirst (Nary.nav h (some t.addr)) fuel (valueTest h q) (satisfying q t.bfs) ∧
    FilterLoop siblings (Nary.nav h (some t.addr)) fuel (valueTest h q) (satisfying q (t.children.map label)) ∧
    FilterLoop Policy.leaves (Nary.nav h (some t.addr)) fuel (valueTest h q) (satisfying q t.leaves) :=
  filter_loops (Nary.nav_spec H) hf (fun _ hx => valueTest_view H q hx)

example := C32_forward_nary (gs := []) Samples.deep_rep (fuel := 8) (by decide) (fun v => v % 2 == 1)
example : satisfying (fun v => v % 2 == 1) Samples.deep.leaves = [4, 6, 2] := by decide +kernel

theorem C32_forward_binary {h : BHeap α} {gs : List (BTree.Frame (Addr × α))} {b : BTree (Addr × α)} {T : Tree (Addr × α)}
    (H : Binary.Rep h (BTree.plug gs b)) (hT : b.toRose = [T]) {fuel : Nat} (hf : b.size < fuel) (q : α → Bool) :
    (FilterLoop preOrder (Binary.nav h (some T.addr)) fuel (valueTestB h q) (satisfying q T.pre) ∧
    FilterLoop postOrder (Binary.nav h (some T.addr)) fuel (valueTestB h q) (satisfying q T.post) ∧
    FilterLoop breadthFirst (Binary.nav h (some T.addr)) fuel (valueTestB h q) (satisfying q T.bfs) ∧
    FilterLoop siblings (Binary.nav h (some T.addr)) fuel (valueTestB h q) (satisfying q (T.children.map label)) ∧
    FilterLoop Policy.leaves (Binary.nav h (some T.addr)) fuel (valueTestB h q) (satisfying q T.leaves)) ∧
    FilterLoop inOrder (Binary.nav h (some T.addr)) fuel (valueTestB h q) (satisfying q b.inorder) := by
  have ht : T.pre = b.pre := by
    have := BTree.preL_toRose b
    rw [hT] at this
    simpa using this
  have hv : ∀ x ∈ b.pre, valueTestB h q x.1 = Res.ok (q x.2) := fun x hx => valueTestB_view H q hx
  refine ⟨filter_loops (Binary.navSpec_of H hT) (by rwa [Binary.size_of_toRose hT]) (by rwa [ht]), ?_⟩
  have hs : b.addrTree.size = b.size := by rw [BTree.addrTree, BTree.size_map]
  have B := Binary.bnav_spec H (Binary.addr?_of_toRose hT)
  have I := inOrder_inv (fuel := fuel) B (by cases b <;> simp_all [BTree.addrTree, BTree.map]) (by omega)
  have hl : b.addrTree.inorder.length < fuel := by rw [BTree.length_inorder]; omega
  have hF := I.forward_spec hl
  have e : b.addrTree.inorder = b.inorder.map Prod.fst := by
    have : ∀ b : BTree (Addr × α), (b.map Prod.fst).inorder = b.inorder.map Prod.fst := by
      intro b
      induction b with
      | nil => rfl
      | node a l r ihl ihr => simp [BTree.map, BTree.inorder, ihl, ihr]
    exact this b
  rw [e] at hF hl
  exact FilterIter.Obj.loop_values q hF (fun x hx => (BTree.inorder_perm_pre b).mem_iff.mp hx) hv (by simpa using hl)

example := C32_forward_binary (gs := []) Samples.bin_rep Samples.bin_toRose (fuel := 6) (by decide) (fun v => v % 2 == 1)

/-! ## C47, C76 filtered iterators as objects

An object `o` is described by what the loop `for (; o; ++o)` still visits: `Obj.rest`. `C32_forward_nary` and
`C32_forward_binary` show the objects for which the lists are known. -/

open FilterIter

/-- The two iterators got from `c = o` (copy or move construction) and from `o++` go on as they should, whatever is done with
the other one: the copy visits what `o` would have visited, `o` itself the same without the first element. -/
theorem C47_copy {P : Policy} {fuel : Nat} {o : Obj} {a : Addr} {l : List Addr} (h : Obj.rest P fuel fuel o = Res.ok (a :: l)) :
    Obj.rest P fuel fuel o.copy = Res.ok (a :: l) ∧
    ∃ c o', Obj.post P fuel .inc o = Res.ok (c, o') ∧ c.st.cur = some a ∧ o'.st.cur = l.head? ∧
      Obj.rest P fuel fuel c = Res.ok (a :: l) ∧ Obj.rest P fuel fuel o' = Res.ok l := by
  obtain ⟨h1, m, o', h2, h3, h4⟩ := Obj.rest_cons h
  refine ⟨h, o, o', by simp [Obj.post, Obj.copy, h3], h1, ?_, h, Obj.rest_mono h4 (by omega)⟩
  cases l with
  | nil => exact Obj.rest_nil h4
  | cons b l => exact (Obj.rest_cons h4).1

/-- After `x = y` of two iterators with the same predicate, `x` visits what `y` would visit. Missing from C76: assignment
between iterators whose predicates differ, see `C76_assign_partial` and the defects below. -/
theorem C76_assign_same_partial {P : Policy} {fuel : Nat} {x y : Obj} {l : List Addr} (hp : x.predicate = y.predicate)
    (h : Obj.rest P fuel fuel y = Res.ok l) : Obj.rest P fuel fuel (x.assign y) = Res.ok l := by
  have e : x.assign y = y := by
    cases x
    cases y
    simp_all [Obj.assign]
  rw [e]
  exact h

/-- What an assigned iterator does in general: from the position of `y`, whose plain loop would visit `a :: l`, it goes on
with its own old predicate. -/
theorem C76_assign_partial {P : Policy} {fuel : Nat} {x y : Obj} {p : Addr → Res Bool} {q : Addr → Bool} {a : Addr}
    {l : List Addr} (hx : x.predicate = some p) (hy : forwardFrom P y.nav fuel fuel y.st = Res.ok (a :: l))
    (hp : ∀ b ∈ l, p b = Res.ok (q b)) (hf : l.length + 1 < fuel) :
    Obj.rest P fuel fuel (x.assign y) = Res.ok (a :: l.filter q) := by
  obtain ⟨f, rfl⟩ : ∃ f, fuel = f + 1 := ⟨fuel - 1, by omega⟩
  rw [forwardFrom] at hy
  cases hc : y.st.cur with
  | none => simp [hc] at hy
  | some b =>
    simp only [hc, Res.bind_eq_ok] at hy
    obtain ⟨s1, h1, l', h2, h3⟩ := hy
    simp at h3
    obtain ⟨rfl, rfl⟩ := h3
    obtain ⟨s', h4, h5, h6⟩ := Obj.settle_rest l' f s1 h2 hp (by omega) f f (by omega) (by omega)
    have e : ask (some p) = p := rfl
    simp [Obj.rest, Obj.assign, hc, Obj.move, FilterIter.move, hx, e, moveLoop_succ, Iter.move, h1, h4, h6]

/-- `1(2(5,6(7)),3,4)` in breadth-first order: `x` filters the odd values, `y` the even ones. After `x = y` the loop over `x`
visits the even value 2 and then the odd ones: neither what `y` would visit nor a list of odd values. -/
theorem C76_assign_defect (fuel : Nat) (hf : 20 ≤ fuel) :
    ∃ b x y, begin_ breadthFirst (Nary.nav Samples.deepHeap (some 0)) fuel = Res.ok b ∧
      Obj.make breadthFirst (Nary.nav Samples.deepHeap (some 0)) fuel (valueTest Samples.deepHeap (fun v => v % 2 == 1)) b = Res.ok x ∧
      Obj.make breadthFirst (Nary.nav Samples.deepHeap (some 0)) fuel (valueTest Samples.deepHeap (fun v => v % 2 == 0)) b = Res.ok y ∧
      Obj.rest breadthFirst fuel fuel y = Res.ok [1, 3, 5] ∧
      Obj.rest breadthFirst fuel fuel (x.assign y) = Res.ok [1, 2, 4, 6] := by
  obtain ⟨n, rfl⟩ : ∃ n, fuel = n + 20 := ⟨fuel - 20, by omega⟩
  exact ⟨_, _, _, rfl, rfl, rfl, rfl, rfl⟩

/-- A default constructed filter iterator that is then assigned has no predicate: as soon as `++` reaches another element,
that is undefined behaviour. -/
theorem C76_default_defect {P : Policy} {nav : Nav} {fuel : Nat} {y : Obj} {a b : Addr} {l : List Addr}
    (hy : forwardFrom P y.nav fuel fuel y.st = Res.ok (a :: b :: l)) :
    ((Obj.default nav).assign y).move P fuel .inc = Res.ub := by
  cases fuel with
  | zero => simp [forwardFrom] at hy
  | succ f =>
    rw [forwardFrom] at hy
    cases hc : y.st.cur with
    | none => simp [hc] at hy
    | some c =>
      simp only [hc, Res.bind_eq_ok] at hy
      obtain ⟨s1, h1, l', h2, h3⟩ := hy
      simp at h3
      obtain ⟨rfl, rfl⟩ := h3
      have h4 : s1.cur = some b := by
        cases f with
        | zero => simp [forwardFrom] at h2
        | succ f =>
          rw [forwardFrom] at h2
          cases hc : s1.cur with
          | none => simp [hc] at h2
          | some c =>
            simp only [hc, Res.bind_eq_ok] at h2
            obtain ⟨_, _, _, _, h⟩ := h2
            simp at h
            rw [h.1]
      simp [Obj.move, Obj.default, Obj.assign, FilterIter.move, moveLoop_succ, Iter.move, h1, settle, h4, ask]

theorem other_policy_of {Q : Policy} {fuel : Nat} {o : Obj} {p : Addr → Res Bool} {q : α → Bool} {l m : List (Addr × α)}
    {k : Nat} {x : Addr × α} (hQ : IsCursorAt Q o.nav fuel (l.map Prod.fst)) (ho : o.predicate = some p)
    (hl : ∀ x ∈ l, x ∈ m) (hp : ∀ x ∈ m, p x.1 = Res.ok (q x.2)) (hf : l.length < fuel) (hk : l[k]? = some x)
    (hc : o.st.cur = some x.1) (hx : q x.2 = true) :
    ∃ o', o.otherPolicy Q fuel = Res.ok o' ∧ o'.st.cur = some x.1 ∧
      Obj.rest Q fuel fuel o' = Res.ok (satisfying q (l.drop k)) := by
  obtain ⟨b, h1, h2, h3⟩ := hQ.loop (a := x.1) (k := k) (by simp [hk]) (n := fuel) (by simpa using hf)
  have hp' : ∀ a ∈ (l.map Prod.fst).drop k, p a = Res.ok ((fun a => match p a with | .ok b => b | _ => false) a) := by
    intro a ha
    obtain ⟨y, hy, rfl⟩ := List.mem_map.mp (List.mem_of_mem_drop ha)
    simp [hp y (hl y hy)]
  obtain ⟨o', h4, _, _, h5, h6⟩ := Obj.make_rest h3 hp' (by simp; omega)
  have e : ((l.map Prod.fst).drop k).filter (fun a => match p a with | .ok b => b | _ => false) = satisfying q (l.drop k) := by
    rw [← List.map_drop]
    exact filter_map_fst (fun y hy => hl y (List.mem_of_mem_drop hy)) (fun y hy => by simp [hp y hy])
  rw [e] at h5 h6
  refine ⟨o', by simp [Obj.otherPolicy, ho, Iter.otherPolicy, hc, h1, h4], ?_, h6⟩
  have hlt := (List.getElem?_eq_some_iff.mp hk).1
  have : l.drop k = x :: l.drop (k + 1) := by
    rw [List.drop_eq_getElem_cons hlt]
    congr 1
    exact (List.getElem?_eq_some_iff.mp hk).2
  simp [this, satisfying, hx] at h5
  exact h5

/-- `other_policy` of a filtered iterator: it stays on its element and visits the elements that satisfy the predicate from
there on, in the order of the new policy. The leaves policy is excluded (`C57_made_forward_defect`). -/
theorem C47_other_policy {h : NHeap α} {t : Tree (Addr × α)} (H : Nary.Rep h t) {fuel : Nat} (hf : t.size < fuel) (q : α → Bool)
    {o : Obj} (hn : o.nav = Nary.nav h (some t.addr)) (ho : o.predicate = some (valueTest h q)) {Q : Policy}
    {l : List (Addr × α)} (hQ : (Q, l) ∈ [(preOrder, t.pre), (postOrder, t.post), (breadthFirst, t.bfs),
      (siblings, t.children.map label)]) {k : Nat} {x : Addr × α} (hk : l[k]? = some x) (hc : o.st.cur = some x.1)
    (hx : q x.2 = true) :
    ∃ o', o.otherPolicy Q fuel = Res.ok o' ∧ o'.st.cur = some x.1 ∧
      Obj.rest Q fuel fuel o' = Res.ok (satisfying q (l.drop k)) := by
  have hv : ∀ x ∈ t.pre, valueTest h q x.1 = Res.ok (q x.2) := fun x hx => valueTest_of H q hx
  have hl : t.pre.length < fuel := by simpa using hf
  have hc' := child_labels t
  have e1 : t.addrTree.pre = t.pre.map Prod.fst := pre_map _ _
  have e2 : t.addrTree.post = t.post.map Prod.fst := post_map _ _
  have e3 : t.addrTree.bfs = t.bfs.map Prod.fst := bfs_map _ _
  have e4 : t.addrTree.children.map label = (t.children.map label).map Prod.fst := by simp [addrTree]
  obtain ⟨c1, c2, c3, c4⟩ := C08_other_policy_nary H (Nat.le_of_lt hf)
  rw [← hn] at c1 c2 c3 c4
  rw [e1] at c1
  rw [e2] at c2
  rw [e3] at c3
  rw [e4] at c4
  simp only [List.mem_cons, Prod.mk.injEq, List.not_mem_nil, or_false] at hQ
  rcases hQ with ⟨rfl, rfl⟩ | ⟨rfl, rfl⟩ | ⟨rfl, rfl⟩ | ⟨rfl, rfl⟩
  · exact other_policy_of c1 ho (fun _ h => h) hv hl hk hc hx
  · exact other_policy_of c2 ho (fun x hx => mem_post.mp hx) hv (by rw [(post_perm_pre t).length_eq]; exact hl) hk hc hx
  · exact other_policy_of c3 ho (fun x hx => (bfs_perm t).mem_iff.mp hx) hv (by rw [(bfs_perm t).length_eq]; exact hl) hk hc hx
  · exact other_policy_of c4 ho hc'.1 hv (by omega) hk hc hx

/-! Instances: the odd values of `1(2(5,6(7)),3,4)` in breadth-first order are at 0, 2, 4, 6; after two steps, the rest in
post-order. -/

example : ∃ o : Obj, Obj.rest breadthFirst 8 8 o.copy = Res.ok [0, 2, 4, 6] := by
  obtain ⟨b, o, h1, h2, h3⟩ := (C32_forward_nary (gs := []) Samples.deep_rep (fuel := 8) (by decide) (fun v => v % 2 == 1)).2.2.1
  exact ⟨o, (C47_copy (a := 0) (l := [2, 4, 6]) h3).1⟩

example := C76_assign_partial (P := preOrder) (fuel := 9)
  (x := ⟨Nary.nav Samples.deepHeap (some 0), ⟨none, []⟩, some (fun a => Res.ok (a == 2))⟩)
  (y := ⟨Nary.nav Samples.deepHeap (some 0), ⟨some 1, []⟩, some (fun a => Res.ok (a == 1))⟩) (q := (· == 2)) (a := 1)
  (l := [4, 5, 6, 2, 3]) rfl rfl (by simp) (by decide)

example := C76_default_defect (P := preOrder) (fuel := 9) (nav := Nary.nav Samples.deepHeap none)
  (y := ⟨Nary.nav Samples.deepHeap (some 0), ⟨some 1, []⟩, none⟩) (a := 1) (b := 4) (l := [5, 6, 2, 3]) rfl

example := C47_other_policy Samples.deep_rep (fuel := 8) (by decide) (fun v => v % 2 == 1)
  (o := ⟨Nary.nav Samples.deepHeap (some 0), ⟨some 4, []⟩, some (valueTest Samples.deepHeap (fun v => v % 2 == 1))⟩) rfl rfl
  (Q := postOrder) (l := Samples.deep.post) (by simp) (k := 0) (x := (4, 5)) rfl rfl rfl
