import Verif.Proof.View
import Verif.Props.Compare
/-!
# C39, C70, C71: views

A view of a tree or of a part of it. `Shows S v s` (Spec/View.lean): `v` refers to the subtree `s` and remembers no wrong number.
`Nary.shape α`, `Binary.shape α`: Spec/World.lean; `plug c s` is the tree with `s` at the place `c`.
-/
open Tree World

variable {α : Type}

namespace Generic
variable {ν lit T V C : Type} {K : Kind ν α lit} {S : Shape K T V C} {ts : Nat → Option T} {W : World ν} {t s u : T} {c d : C} {x : Nat}
  {r v w : TreeRec} {h : Heap ν}

theorem viewed (L : Lawful S) (O : Owned S W ts) (hC : Cached S W ts) (hr : W.vars x = some r) (hx : ts x = some t) :
    Shows S (View.ofTree r) t ∧ Shows S (View.at' r none) S.nil ∧
    (∀ c s, S.plug c s = t → s ≠ S.nil → Shows S (View.at' r (S.ptr s)) s ∧
      ∀ d u, S.plug d u = s → u ≠ S.nil → Shows S (View.at' (View.at' r (S.ptr s)) (S.ptr u)) u) := by
  have h0 := O.root x r t hr hx
  have Sh : Shows S r t := ⟨h0.1, h0.2, hC x r t hr hx⟩
  have hn : S.ptr S.nil = none := L.ptr_none_iff.mpr rfl
  refine ⟨Sh, ⟨hn.symm, hn.symm, Or.inl rfl, Or.inl rfl⟩, ?_⟩
  rintro c s rfl hs
  have hR := L.rep_nodup _ _ (O.rep x _ hx)
  have S1 := Sh.part L hR hs
  refine ⟨S1, ?_⟩
  rintro d u rfl hu
  exact S1.part L (List.nodup_append.mp ((L.addrs_plug c _).nodup_iff.mp hR)).2.1 hu

theorem viewCounts (L : Lawful S) (Lo : Local S) (hw : h.WF) (H : S.Rep h (S.plug c s)) (Sh : Shows S v s) :
    (∃ v', TreeOps.sizeQ K h v = Res.ok (S.size s, v') ∧ Shows S v' s) ∧
    (∃ v', TreeOps.arityQ K h v = Res.ok (S.arity s, v') ∧ Shows S v' s) :=
  ⟨Sh.sizeQ L Lo hw H, Sh.arityQ L Lo hw H⟩

theorem viewEq (L : Lawful S) (Lo : Local S) (hw : h.WF) (H : S.Rep h (S.plug c s)) (H' : S.Rep h (S.plug d u)) (Sv : Shows S v s)
    (Sw : Shows S w u) {eqv : α → α → Bool} {E : Bool}
    (hE : ∀ a b, S.ptr s = some a → S.ptr u = some b → K.eq eqv h.fuel h a h b = Res.ok E)
    (hn : S.ptr s = none → S.ptr u = none → E = true) (hs : E = true → S.size s = S.size u ∧ S.arity s = S.arity u) :
    ∃ v' w', View.eq K eqv h v w = Res.ok (v', w', E) ∧ Shows S v' s ∧ Shows S w' u := by
  obtain ⟨v', w', S1, S2, e⟩ := Shows.eq L Lo hw H H' Sv Sw eqv
  refine ⟨v', w', ?_, S1, S2⟩
  rw [e]
  by_cases hz : S.size s = S.size u ∧ S.arity s = S.arity u
  · rw [if_pos hz]
    have z : ∀ t : T, S.ptr t = none ↔ S.size t = 0 := by
      intro t
      rcases L.rose_cases t with rfl | ⟨R, hR⟩
      · simp [Shape.ptr, Shape.size, L.rose_nil]
      · have := size_pos R
        simp [Shape.ptr, Shape.size, hR, sizeL]; omega
    cases h1 : S.ptr s with
    | none =>
      have h2 : S.ptr u = none := (z u).mpr (hz.1 ▸ (z s).mp h1)
      rw [h2, hn h1 h2]
    | some a =>
      cases h2 : S.ptr u with
      | none =>
        rw [(z s).mpr (hz.1.trans ((z u).mp h2))] at h1; cases h1
      | some b => simp [hE a b h1 h2]
  · rw [if_neg hz]
    cases hb : E
    · rfl
    · exact absurd (hs hb) hz

end Generic

/-! ## construction -/

/-- In a state whose objects remember no wrong numbers: the view of the tree `x` shows its tree, the view at an iterator shows the
subtree there (the empty tree for `end()`), the view at an iterator of such a view the subtree of the subtree. -/
theorem C39_view_nary {W : World (NNode α)} {ts : Nat → Option (Option (Tree (Addr × α)))} (O : Owned (Nary.shape α) W ts)
    (hC : Cached (Nary.shape α) W ts) {x : Nat} {r : TreeRec} {t : Option (Tree (Addr × α))} (hr : W.vars x = some r) (hx : ts x = some t) :
    Shows (Nary.shape α) (View.ofTree r) t ∧ Shows (Nary.shape α) (View.at' r none) none ∧
    (∀ c s, t = some (plug c s) → Shows (Nary.shape α) (View.at' r (some s.addr)) (some s) ∧
      ∀ d u, plug d u = s → Shows (Nary.shape α) (View.at' (View.at' r (some s.addr)) (some u.addr)) (some u)) := by
  obtain ⟨h1, h2, h3⟩ := Generic.viewed (Nary.lawful α) O hC hr hx
  refine ⟨h1, h2, ?_⟩
  rintro c s rfl
  obtain ⟨h4, h5⟩ := h3 c (some s) (by rw [Nary.shape_plug, Nary.fill_some]) (by simp [Nary.shape])
  refine ⟨by simpa only [Nary.shape_ptr, Option.map_some] using h4, ?_⟩
  rintro d u rfl
  have := h5 d (some u) (by rw [Nary.shape_plug, Nary.fill_some]) (by simp [Nary.shape])
  simpa only [Nary.shape_ptr, Option.map_some] using this

theorem C39_view_binary {W : World (BNode α)} {ts : Nat → Option (BTree (Addr × α))} (O : Owned (Binary.shape α) W ts)
    (hC : Cached (Binary.shape α) W ts) {x : Nat} {r : TreeRec} {t : BTree (Addr × α)} (hr : W.vars x = some r) (hx : ts x = some t) :
    Shows (Binary.shape α) (View.ofTree r) t ∧ Shows (Binary.shape α) (View.at' r none) .nil ∧
    (∀ c s, t = BTree.plug c s → s ≠ .nil → Shows (Binary.shape α) (View.at' r s.addr?) s ∧
      ∀ d u, BTree.plug d u = s → u ≠ .nil → Shows (Binary.shape α) (View.at' (View.at' r s.addr?) u.addr?) u) := by
  obtain ⟨h1, h2, h3⟩ := Generic.viewed (Binary.lawful α) O hC hr hx
  refine ⟨h1, h2, ?_⟩
  rintro c s rfl hs
  obtain ⟨h4, h5⟩ := h3 c s rfl hs
  rw [Binary.shape_ptr] at h4
  refine ⟨h4, ?_⟩
  rintro d u rfl hu
  have := h5 d u rfl hu
  rwa [Binary.shape_ptr, Binary.shape_ptr] at this

/-! ## size, arity, iteration -/

/-- `size()` and `arity()` of a view are those of the subtree it shows. -/
theorem C39_counts_nary {h : NHeap α} (hw : h.WF) {c : List (Frame (Addr × α))} {s : Tree (Addr × α)} (H : Nary.Rep h (plug c s))
    {v : TreeRec} (Sh : Shows (Nary.shape α) v (some s)) :
    (∃ v', TreeOps.sizeQ (Nary.kind α) h v = Res.ok (s.size, v') ∧ Shows (Nary.shape α) v' (some s)) ∧
    (∃ v', TreeOps.arityQ (Nary.kind α) h v = Res.ok (s.arity, v') ∧ Shows (Nary.shape α) v' (some s)) := by
  have := Generic.viewCounts (Nary.lawful α) (Nary.local_ α) (c := c) hw
    (by rw [Nary.shape_plug, Nary.fill_some, Nary.shape_rep]; exact H) Sh
  simpa only [Nary.shape_size, Nary.shape_arity, Option.elim_some] using this

theorem C39_counts_binary {h : BHeap α} (hw : h.WF) {c : List (BTree.Frame (Addr × α))} {s : BTree (Addr × α)}
    (H : Binary.Rep h (BTree.plug c s)) {v : TreeRec} (Sh : Shows (Binary.shape α) v s) :
    (∃ v', TreeOps.sizeQ (Binary.kind α) h v = Res.ok (s.size, v') ∧ Shows (Binary.shape α) v' s) ∧
    (∃ v', TreeOps.arityQ (Binary.kind α) h v = Res.ok (arityL s.toRose, v') ∧ Shows (Binary.shape α) v' s) := by
  have := Generic.viewCounts (Binary.lawful α) (Binary.local_ α) (c := c) hw H Sh
  simpa only [Binary.shape_size, Binary.shape_arity] using this

/-- The iterators of a view visit exactly the nodes of the subtree, in the order of the policy, and no other node of the tree. -/
theorem C39_iterate_nary {h : NHeap α} (hw : h.WF) {c : List (Frame (Addr × α))} {s : Tree (Addr × α)} (H : Nary.Rep h (plug c s))
    {v : TreeRec} (Sh : Shows (Nary.shape α) v (some s)) {P : Policy} {ord : Tree Addr → List Addr} (ho : ordered P ord) :
    IsCursor P (Nary.nav h v.navRoot) h.fuel (ord s.addrTree) := by
  have hf : s.addrTree.size ≤ h.fuel := by
    have := Nary.size_le hw H
    have := Nary.size_le_plug c s
    rw [addrTree_size]; simp only [Heap.fuel]; omega
  have N := Nary.nav_spec H
  have e : v.navRoot = some s.addr := by rw [Sh.nav, Nary.shape_ptr]; rfl
  rw [e]
  rcases ho with ⟨rfl, rfl⟩ | ⟨rfl, rfl⟩ | ⟨rfl, rfl⟩
  · exact preOrder_cursor N hf
  · exact postOrder_cursor N hf
  · exact bfs_cursor N hf

theorem C39_iterate_binary {h : BHeap α} (hw : h.WF) {c : List (BTree.Frame (Addr × α))} {s : BTree (Addr × α)} {R : Tree (Addr × α)}
    (H : Binary.Rep h (BTree.plug c s)) (hR : s.toRose = [R]) {v : TreeRec} (Sh : Shows (Binary.shape α) v s) :
    (∀ {P : Policy} {ord : Tree Addr → List Addr}, ordered P ord → IsCursor P (Binary.nav h v.navRoot) h.fuel (ord R.addrTree)) ∧
    IsCursor Policy.inOrder (Binary.nav h v.navRoot) h.fuel s.addrTree.inorder := by
  have hs : s.size ≤ h.fuel := by
    have := Binary.size_le hw H
    have := Binary.size_le_plug c s
    simp only [Heap.fuel]; omega
  have e : v.navRoot = s.addr? := by rw [Sh.nav, Binary.shape_ptr]
  cases s with
  | nil => cases hR
  | node p l r =>
    have N := Binary.navSpec_of H hR
    have hf : R.addrTree.size ≤ h.fuel := by rw [addrTree_size, ← Binary.size_of_toRose hR] at *; exact hs
    have ea : v.navRoot = some R.addr := by rw [e]; cases hR; rfl
    refine ⟨?_, ?_⟩
    · rintro P ord (⟨rfl, rfl⟩ | ⟨rfl, rfl⟩ | ⟨rfl, rfl⟩) <;> rw [ea]
      · exact preOrder_cursor N hf
      · exact postOrder_cursor N hf
      · exact bfs_cursor N hf
    · rw [e]
      exact (inOrder_inv (Binary.bnav_spec H rfl) (by simp [BTree.addrTree, BTree.map])
        (by rw [BTree.addrTree, BTree.size_map]; exact hs)).isCursor

/-! ## comparison -/

/-- Two views of binary trees are equal iff the subtrees they show are. -/
theorem C39_eq_binary (eqv : α → α → Bool) {h : BHeap α} (hw : h.WF) {c d : List (BTree.Frame (Addr × α))} {s u : BTree (Addr × α)}
    (H : Binary.Rep h (BTree.plug c s)) (H' : Binary.Rep h (BTree.plug d u)) {v w : TreeRec} (Sv : Shows (Binary.shape α) v s)
    (Sw : Shows (Binary.shape α) w u) :
    ∃ v' w', View.eq (Binary.kind α) eqv h v w = Res.ok (v', w', BTree.eqBy eqv s.vals u.vals) ∧
      Shows (Binary.shape α) v' s ∧ Shows (Binary.shape α) w' u := by
  refine Generic.viewEq (Binary.lawful α) (Binary.local_ α) (c := c) (d := d) hw H H' Sv Sw ?_ ?_ (fun hq => ?_)
  · intro a b ha hb
    rw [Binary.shape_ptr] at ha hb
    have h1 := ((Binary.rep_plug c s).mp H).2.1
    have h2 := ((Binary.rep_plug d u).mp H').2.1
    exact Binary.eq_spec eqv h s u h.fuel (by
      have := Binary.size_le hw H
      have := Binary.size_le_plug c s
      simp only [Heap.fuel]; omega) h1 h2 ha hb
  · intro ha hb
    rw [Binary.shape_ptr] at ha hb
    cases s <;> cases u <;> simp_all [BTree.vals, BTree.map, BTree.eqBy]
  · have := Binary.eqBy_sizes s u hq
    exact ⟨this.1, this.2.1⟩

/-- Two views of nary trees, the first of a whole tree or of a last child (no sibling follows): equal iff the subtrees are. Missing:
a first operand with following siblings, for which the code is wrong (`C70_eq_nary_exact`, `C70_eq_nary_defect`). -/
theorem C70_eq_nary_partial (eqv : α → α → Bool) {h : NHeap α} (hw : h.WF) {c d : List (Frame (Addr × α))} {s u : Tree (Addr × α)}
    (H : Nary.Rep h (plug c s)) (H' : Nary.Rep h (plug d u)) {v w : TreeRec} (Sv : Shows (Nary.shape α) v (some s))
    (Sw : Shows (Nary.shape α) w (some u)) (hc : Nary.after c = []) :
    ∃ v' w', View.eq (Nary.kind α) eqv h v w = Res.ok (v', w', s.vals.eqBy eqv u.vals) ∧
      Shows (Nary.shape α) v' (some s) ∧ Shows (Nary.shape α) w' (some u) := by
  refine Generic.viewEq (Nary.lawful α) (Nary.local_ α) (c := c) (d := d) hw
    (by rw [Nary.shape_plug, Nary.fill_some, Nary.shape_rep]; exact H)
    (by rw [Nary.shape_plug, Nary.fill_some, Nary.shape_rep]; exact H') Sv Sw ?_ ?_ (fun hq => ?_)
  · intro a b ha hb
    simp only [Nary.shape_ptr, Option.map_some, Option.some.injEq] at ha hb
    subst ha hb
    have := Nary.eq_places eqv hw H H'
    rw [hc] at this
    exact this.trans (Nary.chain_nil_left _ _ _ _)
  · intro ha _; simp [Nary.shape_ptr] at ha
  · have := Nary.same_sizes (eqv := eqv) (some s) (some u) hq
    exact ⟨this.1, this.2.1⟩

/-- What `==` of two views of nary subtrees does: unless size or arity differ, it compares the subtrees and then the siblings that
follow the one with those that follow the other. -/
theorem C70_eq_nary_exact (eqv : α → α → Bool) {h : NHeap α} (hw : h.WF) {c d : List (Frame (Addr × α))} {s u : Tree (Addr × α)}
    (H : Nary.Rep h (plug c s)) (H' : Nary.Rep h (plug d u)) {v w : TreeRec} (Sv : Shows (Nary.shape α) v (some s))
    (Sw : Shows (Nary.shape α) w (some u)) :
    ∃ v' w', Shows (Nary.shape α) v' (some s) ∧ Shows (Nary.shape α) w' (some u) ∧
      View.eq (Nary.kind α) eqv h v w =
        if s.size = u.size ∧ s.arity = u.arity then
          (do let b ← Nary.chain eqv ((s :: Nary.after c).map Tree.vals) ((u :: Nary.after d).map Tree.vals); pure (v', w', b))
        else Res.ok (v', w', false) := by
  obtain ⟨v', w', S1, S2, e⟩ := Shows.eq (Nary.lawful α) (Nary.local_ α) (c := c) (d := d) hw
    (by rw [Nary.shape_plug, Nary.fill_some, Nary.shape_rep]; exact H)
    (by rw [Nary.shape_plug, Nary.fill_some, Nary.shape_rep]; exact H') Sv Sw eqv
  refine ⟨v', w', S1, S2, ?_⟩
  have e2 := Nary.eq_places eqv hw H H'
  rw [e]
  simp only [Nary.shape_size, Nary.shape_arity, Nary.shape_ptr, Option.map_some, Option.elim_some]
  have e3 : (Nary.kind α).eq = Nary.eq := rfl
  rw [e3, e2]
  rfl

/-- Equal subtrees, the first with a following sibling, the second without: `==` dereferences a null pointer, whereas with the
operands exchanged it answers `true`. -/
theorem C70_eq_nary_defect (eqv : α → α → Bool) (hsym : ∀ a b, eqv a b = eqv b a) {h : NHeap α} (hw : h.WF)
    {c d : List (Frame (Addr × α))} {s u : Tree (Addr × α)}
    (H : Nary.Rep h (plug c s)) (H' : Nary.Rep h (plug d u)) {v w : TreeRec} (Sv : Shows (Nary.shape α) v (some s))
    (Sw : Shows (Nary.shape α) w (some u)) (heq : s.vals.eqBy eqv u.vals = true) (hc : Nary.after c ≠ []) (hd : Nary.after d = []) :
    View.eq (Nary.kind α) eqv h v w = Res.ub ∧ ∃ v' w', View.eq (Nary.kind α) eqv h w v = Res.ok (w', v', true) := by
  have hz := Nary.same_sizes (eqv := eqv) (some s) (some u) heq
  simp only [Nary.shape_size, Nary.shape_arity, Option.elim_some] at hz
  constructor
  · obtain ⟨v', w', _, _, e⟩ := C70_eq_nary_exact eqv hw H H' Sv Sw
    rw [e, if_pos ⟨hz.1, hz.2.1⟩, hd]
    obtain ⟨x, l, hx⟩ := List.exists_cons_of_ne_nil hc
    simp [hx, Nary.chain, heq]
  · obtain ⟨w', v', e, _⟩ := C70_eq_nary_partial eqv hw H' H Sw Sv hd
    exact ⟨v', w', by rw [e, (Tree.eqBy_symm hsym).1, heq]⟩

/-- Equal subtrees whose next siblings differ compare as different. -/
theorem C70_eq_nary_sibling_defect (eqv : α → α → Bool) {h : NHeap α} (hw : h.WF) {c d : List (Frame (Addr × α))} {s u x y : Tree (Addr × α)}
    {xs ys : List (Tree (Addr × α))} (H : Nary.Rep h (plug c s)) (H' : Nary.Rep h (plug d u)) {v w : TreeRec}
    (Sv : Shows (Nary.shape α) v (some s)) (Sw : Shows (Nary.shape α) w (some u)) (heq : s.vals.eqBy eqv u.vals = true)
    (hc : Nary.after c = x :: xs) (hd : Nary.after d = y :: ys) (hne : x.vals.eqBy eqv y.vals = false) :
    ∃ v' w', View.eq (Nary.kind α) eqv h v w = Res.ok (v', w', false) := by
  obtain ⟨v', w', _, _, e⟩ := C70_eq_nary_exact eqv hw H H' Sv Sw
  have hz := Nary.same_sizes (eqv := eqv) (some s) (some u) heq
  simp only [Nary.shape_size, Nary.shape_arity, Option.elim_some] at hz
  exact ⟨v', w', by rw [e, if_pos ⟨hz.1, hz.2.1⟩]; simp [hc, hd, Nary.chain, heq, hne]⟩

/-! ## a view of nary nodes and a view of binary nodes -/

theorem Nary.eqBinary_places (eqv : α → α → Bool) {h : NHeap α} {hb : BHeap α} (hw : h.WF) {c : List (Frame (Addr × α))}
    {d : List (BTree.Frame (Addr × α))} {s : Tree (Addr × α)} {p : Addr × α} {l r : BTree (Addr × α)} (H : Nary.Rep h (plug c s))
    (H' : Binary.Rep hb (BTree.plug d (.node p l r))) :
    Nary.eqBinary eqv h.fuel h s.addr hb p.1 =
      Nary.chain eqv ((s :: Nary.after c).map Tree.vals) (((BTree.node p l r).toRose ++ (Binary.after d).toRose).map Tree.vals) := by
  obtain ⟨p1, p2, h1⟩ := Nary.rep_chain H
  have hle := Nary.size_le hw H
  have h2 := Nary.sizeL_after_le c s
  have := Nary.eqBinary_chain eqv H' (Binary.toRose_plug d _ _ rfl) (Nary.after c) s (Tree.node p (l.toRose ++ r.toRose)) h.fuel
    rfl (by simp only [Heap.fuel]; omega) h1
  refine this.trans ?_
  have e : Nary.sibs (d.map BTree.Frame.toRose) = (Binary.after d).toRose := by
    cases d with
    | nil => rfl
    | cons f d =>
      obtain ⟨q, b, o⟩ := f
      cases b <;> simp [Nary.sibs, Binary.after, BTree.Frame.toRose]
  rw [e]
  rfl

/-- What `==` does with a view of an nary and a view of a binary subtree: unless size or arity differ, it compares them (the binary
one read without the sides of the children) and then the siblings that follow. -/
theorem C70_eq_mixed_exact (eqv : α → α → Bool) {h : NHeap α} {hb : BHeap α} (hw : h.WF) (hwb : hb.WF) {c : List (Frame (Addr × α))}
    {d : List (BTree.Frame (Addr × α))} {s : Tree (Addr × α)} {u : BTree (Addr × α)} {U : Tree (Addr × α)}
    (H : Nary.Rep h (plug c s)) (H' : Binary.Rep hb (BTree.plug d u)) (hU : u.toNary = some U) {v w : TreeRec}
    (Sv : Shows (Nary.shape α) v (some s)) (Sw : Shows (Binary.shape α) w u) :
    ∃ v' w', Shows (Nary.shape α) v' (some s) ∧ Shows (Binary.shape α) w' u ∧
      View.eqBinary eqv h hb v w =
        if s.size = U.size ∧ s.arity = U.arity then
          (do let b ← Nary.chain eqv ((s :: Nary.after c).map Tree.vals) ((U :: (Binary.after d).toRose).map Tree.vals); pure (v', w', b))
        else Res.ok (v', w', false) := by
  cases u with
  | nil => cases hU
  | node p l r =>
  have hU' : (BTree.node p l r).toRose = [U] := by cases hU; rfl
  obtain ⟨v', w', S1, S2, e⟩ := Shows.eqBinary (c := c) (d := d) hw hwb
    (by rw [Nary.shape_plug, Nary.fill_some, Nary.shape_rep]; exact H) H' Sv Sw eqv
  refine ⟨v', w', S1, S2, ?_⟩
  have e2 := Nary.eqBinary_places eqv hw H H'
  rw [hU'] at e2
  rw [e]
  have e4 : (Binary.shape α).size (.node p l r) = U.size := by
    rw [Binary.shape_size, Binary.size_of_toRose hU']
  have e5 : (Binary.shape α).arity (.node p l r) = U.arity := by
    rw [Binary.shape_arity, hU']; simp [arityL]
  have e6 : (Binary.shape α).ptr (.node p l r) = some p.1 := by rw [Binary.shape_ptr]; rfl
  simp only [e4, e5, e6, Nary.shape_size, Nary.shape_arity, Nary.shape_ptr, Option.map_some, Option.elim_some]
  rw [e2]
  rfl

/-- The nary view being of a whole tree or of a last child: equal iff the subtrees are, the binary one read without the sides of its
children. Missing: see `C70_eq_mixed_exact`, `C70_eq_mixed_defect`. -/
theorem C70_eq_mixed_partial (eqv : α → α → Bool) {h : NHeap α} {hb : BHeap α} (hw : h.WF) (hwb : hb.WF) {c : List (Frame (Addr × α))}
    {d : List (BTree.Frame (Addr × α))} {s : Tree (Addr × α)} {u : BTree (Addr × α)} {U : Tree (Addr × α)}
    (H : Nary.Rep h (plug c s)) (H' : Binary.Rep hb (BTree.plug d u)) (hU : u.toNary = some U) {v w : TreeRec}
    (Sv : Shows (Nary.shape α) v (some s)) (Sw : Shows (Binary.shape α) w u) (hc : Nary.after c = []) :
    ∃ v' w', View.eqBinary eqv h hb v w = Res.ok (v', w', s.vals.eqBy eqv U.vals) := by
  obtain ⟨v', w', _, _, e⟩ := C70_eq_mixed_exact eqv hw hwb H H' hU Sv Sw
  refine ⟨v', w', ?_⟩
  rw [e, hc]
  have e2 := Nary.chain_nil_left eqv s.vals U.vals ((Binary.after d).toRose.map Tree.vals)
  by_cases hz : s.size = U.size ∧ s.arity = U.arity
  · rw [if_pos hz, List.map_cons, List.map_nil, List.map_cons, e2]; rfl
  · rw [if_neg hz]
    cases hb : s.vals.eqBy eqv U.vals
    · rfl
    · have := Nary.same_sizes (eqv := eqv) (some s) (some U) hb
      simp only [Nary.shape_size, Nary.shape_arity, Option.elim_some] at this
      exact absurd ⟨this.1, this.2.1⟩ hz

/-- Equal subtrees, only the nary one with a following sibling: undefined behaviour. -/
theorem C70_eq_mixed_defect (eqv : α → α → Bool) {h : NHeap α} {hb : BHeap α} (hw : h.WF) (hwb : hb.WF) {c : List (Frame (Addr × α))}
    {d : List (BTree.Frame (Addr × α))} {s : Tree (Addr × α)} {u : BTree (Addr × α)} {U : Tree (Addr × α)}
    (H : Nary.Rep h (plug c s)) (H' : Binary.Rep hb (BTree.plug d u)) (hU : u.toNary = some U) {v w : TreeRec}
    (Sv : Shows (Nary.shape α) v (some s)) (Sw : Shows (Binary.shape α) w u) (heq : s.vals.eqBy eqv U.vals = true)
    (hc : Nary.after c ≠ []) (hd : Binary.after d = .nil) : View.eqBinary eqv h hb v w = Res.ub := by
  obtain ⟨v', w', _, _, e⟩ := C70_eq_mixed_exact eqv hw hwb H H' hU Sv Sw
  have := Nary.same_sizes (eqv := eqv) (some s) (some U) heq
  simp only [Nary.shape_size, Nary.shape_arity, Option.elim_some] at this
  obtain ⟨x, l, hx⟩ := List.exists_cons_of_ne_nil hc
  rw [e, if_pos ⟨this.1, this.2.1⟩]
  simp [hx, hd, Nary.chain, heq]

/-! ## a view does not follow later changes of the counts -/

/-- Once `size()` has answered a number, the view answers the same number for ever, whatever happens to the tree. -/
theorem C71_stale_defect {ν lit : Type} (K : Kind ν α lit) {h : Heap ν} {v v' : TreeRec} {n : Nat}
    (e : TreeOps.sizeQ K h v = Res.ok (n, v')) (hn : n ≠ 0) (h' : Heap ν) : TreeOps.sizeQ K h' v' = Res.ok (n, v') := by
  unfold TreeOps.sizeQ at e
  cases hr : v.root with
  | none =>
    rw [hr] at e
    simp only [Res.pure_eq, Res.ok.injEq, Prod.mk.injEq] at e
    obtain ⟨rfl, rfl⟩ := e
    simp [TreeOps.sizeQ, hr]
  | some a =>
    rw [hr] at e
    simp only [Res.pure_eq] at e
    split at e
    · obtain ⟨m, _, e⟩ := Res.bind_eq_ok.mp e
      simp only [Res.ok.injEq, Prod.mk.injEq] at e
      obtain ⟨rfl, rfl⟩ := e
      simp [TreeOps.sizeQ, hr, hn]
    · rename_i h0
      simp only [Res.ok.injEq, Prod.mk.injEq] at e
      obtain ⟨rfl, rfl⟩ := e
      simp [TreeOps.sizeQ, hr, h0]

/-- The same for `arity()`. -/
theorem C71_stale_arity_defect {ν lit : Type} (K : Kind ν α lit) {h : Heap ν} {v v' : TreeRec} {n : Nat}
    (e : TreeOps.arityQ K h v = Res.ok (n, v')) (hn : n ≠ 0) (h' : Heap ν) : TreeOps.arityQ K h' v' = Res.ok (n, v') := by
  have : v'.arity = n := by
    unfold TreeOps.arityQ at e
    split at e
    · split at e
      · obtain ⟨f, _, e⟩ := Res.bind_eq_ok.mp e
        split at e
        · obtain ⟨m, _, e⟩ := Res.bind_eq_ok.mp e
          simp only [Res.pure_eq, Res.ok.injEq, Prod.mk.injEq] at e
          obtain ⟨rfl, rfl⟩ := e
          rfl
        · simp only [Res.pure_eq, Res.ok.injEq, Prod.mk.injEq] at e
          obtain ⟨rfl, rfl⟩ := e
          rfl
      · simp only [Res.pure_eq, Res.ok.injEq, Prod.mk.injEq] at e
        obtain ⟨rfl, rfl⟩ := e
        rfl
    · simp only [Res.pure_eq, Res.ok.injEq, Prod.mk.injEq] at e
      obtain ⟨rfl, rfl⟩ := e
      rfl
  unfold TreeOps.arityQ
  cases v'.root <;> simp [this, hn]

/-- Missing for the full property: views that remember numbers. After `update_size_arity()` a view answers for the subtree as it
now is, whatever it has answered and whatever has happened to the tree since, as long as the view's own root is still in it. -/
theorem C71_updated_nary_partial {h : NHeap α} (hw : h.WF) {c : List (Frame (Addr × α))} {s : Tree (Addr × α)} (H : Nary.Rep h (plug c s))
    {v : TreeRec} (h1 : v.root = some s.addr) (h2 : v.navRoot = some s.addr) :
    (∃ v', TreeOps.sizeQ (Nary.kind α) h (View.update v) = Res.ok (s.size, v') ∧ Shows (Nary.shape α) v' (some s)) ∧
    (∃ v', TreeOps.arityQ (Nary.kind α) h (View.update v) = Res.ok (s.arity, v') ∧ Shows (Nary.shape α) v' (some s)) :=
  C39_counts_nary hw H ⟨h1.trans (Nary.shape_ptr (some s)).symm, h2.trans (Nary.shape_ptr (some s)).symm, Or.inl rfl, Or.inl rfl⟩

theorem C71_updated_binary_partial {h : BHeap α} (hw : h.WF) {c : List (BTree.Frame (Addr × α))} {s : BTree (Addr × α)}
    (H : Binary.Rep h (BTree.plug c s)) {v : TreeRec} (h1 : v.root = s.addr?) (h2 : v.navRoot = s.addr?) :
    (∃ v', TreeOps.sizeQ (Binary.kind α) h (View.update v) = Res.ok (s.size, v') ∧ Shows (Binary.shape α) v' s) ∧
    (∃ v', TreeOps.arityQ (Binary.kind α) h (View.update v) = Res.ok (arityL s.toRose, v') ∧ Shows (Binary.shape α) v' s) :=
  C39_counts_binary hw H ⟨h1.trans (Binary.shape_ptr s).symm, h2.trans (Binary.shape_ptr s).symm, Or.inl rfl, Or.inl rfl⟩

/-! ## concrete cases -/

namespace Samples

/-- `n(1)(n(2)(n(3)), n(2)(n(3)))`. -/
def twinOps : List (Op Nat (Tree Nat)) := [.newLit 0 (node 1 [node 2 [node 3 []], node 2 [node 3 []]])]
def twins : World (NNode Nat) := after (Nary.kind Nat) twinOps
def twin : Tree (Addr × Nat) := node (0,1) [node (1,2) [node (4,3) []], node (2,2) [node (3,3) []]]
/-- `binary_tree<int> b = n(1)(n(2)(n(3)), n(2)(n(3)))`. -/
def btwinOps : List (Op Nat (Lit Nat)) :=
  [.newLit 0 (node (some 1) [node (some 2) [node (some 3) []], node (some 2) [node (some 3) []]])]
def btwins : World (BNode Nat) := after (Binary.kind Nat) btwinOps

theorem twin_wf : twins.heap.WF := by
  intro a ha
  match a, ha with
  | a + 5, _ => rfl
theorem twin_rep : Nary.Rep twins.heap twin := by decide
def btwin : BTree (Addr × Nat) := .node (0,1) (.node (1,2) (.node (2,3) .nil .nil) .nil) (.node (3,2) (.node (4,3) .nil .nil) .nil)
theorem btwin_wf : btwins.heap.WF := by
  intro a ha
  match a, ha with
  | a + 5, _ => rfl
theorem btwin_rep : Binary.Rep btwins.heap btwin := by decide

/-- The places of the two children. -/
def twinL : List (Frame (Addr × Nat)) := [⟨(0,1), [], [node (2,2) [node (3,3) []]]⟩]
def twinR : List (Frame (Addr × Nat)) := [⟨(0,1), [node (1,2) [node (4,3) []]], []⟩]
def btwinL : List (BTree.Frame (Addr × Nat)) := [⟨(0,1), true, .node (3,2) (.node (4,3) .nil .nil) .nil⟩]
def btwinR : List (BTree.Frame (Addr × Nat)) := [⟨(0,1), false, .node (1,2) (.node (2,3) .nil .nil) .nil⟩]

theorem shows_inner {a : Addr} {s : Tree (Addr × Nat)} (h : s.addr = a) : Shows (Nary.shape Nat) ⟨some a, 0, 0, some a⟩ (some s) :=
  ⟨by rw [Nary.shape_ptr, ← h]; rfl, by rw [Nary.shape_ptr, ← h]; rfl, Or.inl rfl, Or.inl rfl⟩
theorem bshows_inner {a : Addr} {s : BTree (Addr × Nat)} (h : s.addr? = some a) : Shows (Binary.shape Nat) ⟨some a, 0, 0, some a⟩ s :=
  ⟨by rw [Binary.shape_ptr, h], by rw [Binary.shape_ptr, h], Or.inl rfl, Or.inl rfl⟩

end Samples
open Samples

/-- The view at the node with value 2 of `1(2(5, 6(7)), 3, 4)` has four nodes and arity two. -/
example : ∃ v r v' v'', nworld.vars 0 = some r ∧ v = View.at' r (some 1) ∧
    TreeOps.sizeQ (Nary.kind Nat) nworld.heap v = Res.ok (4, v') ∧ TreeOps.arityQ (Nary.kind Nat) nworld.heap v = Res.ok (2, v'') ∧
    IsCursor Policy.preOrder (Nary.nav nworld.heap v.navRoot) nworld.heap.fuel [1, 4, 5, 6] := by
  obtain ⟨ts, O, hC, h0, _⟩ := ncached
  obtain ⟨_, _, h3⟩ := C39_view_nary O hC (r := ⟨some 0, 7, 3, some 0⟩) rfl h0
  have S := (h3 [⟨(0,1), [], [node (2,3) [], node (3,4) []]⟩] (node (1,2) [node (4,5) [], node (5,6) [node (6,7) []]]) rfl).1
  have H := (Nary.shape_rep _ _).mp (O.rep 0 _ h0)
  obtain ⟨⟨v', e1, _⟩, ⟨v'', e2, _⟩⟩ := C39_counts_nary O.wf (c := [⟨(0,1), [], [node (2,3) [], node (3,4) []]⟩]) H S
  exact ⟨_, _, v', v'', rfl, rfl, e1, e2, C39_iterate_nary O.wf (c := [⟨(0,1), [], [node (2,3) [], node (3,4) []]⟩]) H S (Or.inl ⟨rfl, rfl⟩)⟩

/-- The view at the node with value 2 of `1(2(-, 4), 3(5))`. -/
example : ∃ v r v' v'', bworld.vars 0 = some r ∧ v = View.at' r (some 1) ∧
    TreeOps.sizeQ (Binary.kind Nat) bworld.heap v = Res.ok (2, v') ∧ TreeOps.arityQ (Binary.kind Nat) bworld.heap v = Res.ok (1, v'') ∧
    IsCursor Policy.inOrder (Binary.nav bworld.heap v.navRoot) bworld.heap.fuel [1, 2] := by
  obtain ⟨ts, O, hC, h0, _⟩ := bcached
  obtain ⟨_, _, h3⟩ := C39_view_binary O hC (r := ⟨some 0, 5, 2, some 0⟩) rfl h0
  have S := (h3 [⟨(0,1), true, .node (3,3) (.node (4,5) .nil .nil) .nil⟩] (.node (1,2) .nil (.node (2,4) .nil .nil)) rfl (by simp)).1
  have H := O.rep 0 _ h0
  obtain ⟨⟨v', e1, _⟩, ⟨v'', e2, _⟩⟩ := C39_counts_binary O.wf (c := [⟨(0,1), true, .node (3,3) (.node (4,5) .nil .nil) .nil⟩]) H S
  exact ⟨_, _, v', v'', rfl, rfl, e1, e2, (C39_iterate_binary O.wf (c := [⟨(0,1), true, .node (3,3) (.node (4,5) .nil .nil) .nil⟩]) H rfl S).2⟩

/-- The two children of `n(1)(n(2)(n(3)), n(2)(n(3)))`: equal, yet `first == second` is undefined behaviour. -/
example : View.eq (Nary.kind Nat) (fun a b => a == b) twins.heap (View.at' ⟨some 0, 5, 2, some 0⟩ (some 1))
      (View.at' ⟨some 0, 5, 2, some 0⟩ (some 2)) = Res.ub ∧
    ∃ v' w', View.eq (Nary.kind Nat) (fun a b => a == b) twins.heap (View.at' ⟨some 0, 5, 2, some 0⟩ (some 2))
      (View.at' ⟨some 0, 5, 2, some 0⟩ (some 1)) = Res.ok (w', v', true) :=
  C70_eq_nary_defect _ (fun _ _ => BEq.comm) twin_wf (c := twinL) (d := twinR)
    (s := node (1,2) [node (4,3) []]) (u := node (2,2) [node (3,3) []]) twin_rep twin_rep (shows_inner rfl) (shows_inner rfl) rfl
    (by simp [twinL, Nary.after]) rfl

/-- The same for binary trees. -/
example : ∃ v' w', View.eq (Binary.kind Nat) (fun a b => a == b) btwins.heap ⟨some 1, 0, 0, some 1⟩ ⟨some 3, 0, 0, some 3⟩ =
    Res.ok (v', w', true) := by
  obtain ⟨v', w', e, _⟩ := C39_eq_binary (fun a b => a == b) btwin_wf (c := btwinL) (d := btwinR)
    (s := .node (1,2) (.node (2,3) .nil .nil) .nil) (u := .node (3,2) (.node (4,3) .nil .nil) .nil) btwin_rep btwin_rep
    (bshows_inner rfl) (bshows_inner rfl)
  exact ⟨v', w', e⟩

/-- The last child of the nary tree and the first of the binary tree; the first child of the nary tree and the second of the binary. -/
example : (∃ v' w', View.eqBinary (fun a b => a == b) twins.heap btwins.heap ⟨some 2, 0, 0, some 2⟩ ⟨some 1, 0, 0, some 1⟩ =
      Res.ok (v', w', true)) ∧
    View.eqBinary (fun a b => a == b) twins.heap btwins.heap ⟨some 1, 0, 0, some 1⟩ ⟨some 3, 0, 0, some 3⟩ = Res.ub :=
  ⟨C70_eq_mixed_partial (fun a b => a == b) twin_wf btwin_wf (c := twinR) (d := btwinL) (s := node (2,2) [node (3,3) []])
      (u := .node (1,2) (.node (2,3) .nil .nil) .nil) twin_rep btwin_rep rfl (shows_inner rfl) (bshows_inner rfl) rfl,
    C70_eq_mixed_defect (fun a b => a == b) twin_wf btwin_wf (c := twinL) (d := btwinR) (s := node (1,2) [node (4,3) []])
      (u := .node (3,2) (.node (4,3) .nil .nil) .nil) twin_rep btwin_rep rfl (shows_inner rfl) (bshows_inner rfl) rfl
      (by simp [twinL, Nary.after]) rfl⟩

/-- Three children `2, 2, 3`: the first two are equal leaves, their next siblings are not. -/
example : ∃ v' w', View.eq (Nary.kind Nat) (fun a b => a == b)
    (after (Nary.kind Nat) [.newLit 0 (node 1 [node 2 [], node 2 [], node 3 []])]).heap
    ⟨some 1, 0, 0, some 1⟩ ⟨some 2, 0, 0, some 2⟩ = Res.ok (v', w', false) :=
  C70_eq_nary_sibling_defect _ (by
      intro a ha
      match a, ha with
      | a + 4, _ => rfl) (c := [⟨(0,1), [], [node (2,2) [], node (3,3) []]⟩]) (d := [⟨(0,1), [node (1,2) []], [node (3,3) []]⟩])
    (s := node (1,2) []) (u := node (2,2) []) (by decide) (by decide) (shows_inner rfl) (shows_inner rfl) rfl rfl rfl rfl

/-- A view of the twins taken before a child is inserted answers 5, the tree then 6. -/
example : ∃ r r2, twins.vars 0 = some r ∧ TreeOps.sizeQ (Nary.kind Nat) twins.heap (View.ofTree r) = Res.ok (5, View.ofTree r) ∧
    (after (Nary.kind Nat) (twinOps ++ [.insertChild true Policy.preOrder 0 ⟨⟨some 0, []⟩, some 0⟩ (.value 9)])).vars 0 = some r2 ∧
    TreeOps.sizeQ (Nary.kind Nat) (after (Nary.kind Nat) (twinOps ++ [.insertChild true Policy.preOrder 0 ⟨⟨some 0, []⟩, some 0⟩
      (.value 9)])).heap (View.ofTree r) = Res.ok (5, View.ofTree r) ∧
    TreeOps.sizeQ (Nary.kind Nat) (after (Nary.kind Nat) (twinOps ++ [.insertChild true Policy.preOrder 0 ⟨⟨some 0, []⟩, some 0⟩
      (.value 9)])).heap r2 = Res.ok (6, r2) := by
  have e : TreeOps.sizeQ (Nary.kind Nat) twins.heap (View.ofTree ⟨some 0, 5, 2, some 0⟩) = Res.ok (5, View.ofTree ⟨some 0, 5, 2, some 0⟩) := rfl
  exact ⟨⟨some 0, 5, 2, some 0⟩, ⟨some 0, 6, 3, some 0⟩, rfl, e, by decide +kernel, C71_stale_defect _ e (by decide) _, rfl⟩

/-- A view of the first twin that remembers wrong numbers. -/
example : ∃ v', TreeOps.sizeQ (Nary.kind Nat) twins.heap (View.update ⟨some 1, 7, 7, some 1⟩) = Res.ok (2, v') :=
  (C71_updated_nary_partial twin_wf (c := twinL) (s := node (1,2) [node (4,3) []]) twin_rep rfl rfl).1.imp fun _ h => h.1

example : ∃ v', TreeOps.arityQ (Binary.kind Nat) btwins.heap (View.update ⟨some 1, 7, 7, some 1⟩) = Res.ok (1, v') :=
  (C71_updated_binary_partial btwin_wf (c := btwinL) (s := .node (1,2) (.node (2,3) .nil .nil) .nil) btwin_rep rfl rfl).2.imp fun _ h => h.1

example : TreeOps.arityQ (Nary.kind Nat) start.heap ⟨some 0, 5, 2, some 0⟩ = Res.ok (2, ⟨some 0, 5, 2, some 0⟩) :=
  C71_stale_arity_defect (Nary.kind Nat) (h := twins.heap) (v := ⟨some 0, 5, 0, some 0⟩) rfl (by decide) _
