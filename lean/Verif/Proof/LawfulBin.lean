import Verif.Proof.Lawful
import Verif.Proof.Laws
/-! The laws of Lawful.lean for binary nodes. -/
open Tree

namespace Binary
variable {α : Type}

theorem shape_ptr (t : BTree (Addr × α)) : (shape α).ptr t = t.addr? := by
  cases t <;> simp [Shape.ptr, shape, BTree.addrTree, BTree.addr?, BTree.toRose, BTree.label?]
theorem shape_addrs (t : BTree (Addr × α)) : (shape α).addrs t = t.addrs := by
  simp [Shape.addrs, shape, BTree.preL_toRose, BTree.addrTree, BTree.pre_map, BTree.addrs]
theorem shape_size (t : BTree (Addr × α)) : (shape α).size t = t.size := by
  simp [Shape.size, shape, size_toRose, BTree.addrTree]
theorem shape_rep (h : BHeap α) (t : BTree (Addr × α)) : (shape α).Rep h t ↔ Rep h t := Iff.rfl

theorem size_le {h : BHeap α} (hw : h.WF) {t : BTree (Addr × α)} (H : Rep h t) : t.size ≤ h.next := by
  rw [← BTree.length_addrs]
  refine list_length_le_of_lt H.2 fun a ha => ?_
  exact H.1.lt_next hw (by rw [keys_cells]; exact ha)

theorem toRose_plug {β : Type} (fs : List (BTree.Frame β)) (s : BTree β) (u : Tree β) (hu : s.toRose = [u]) :
    (BTree.plug fs s).toRose = [Tree.plug (fs.map BTree.Frame.toRose) u] := by
  induction fs generalizing s u with
  | nil => simpa [BTree.plug] using hu
  | cons f fs ih =>
    obtain ⟨p, b, o⟩ := f
    simp only [BTree.plug, List.map_cons, Tree.plug]
    apply ih
    cases b <;> simp [BTree.Frame.fill, BTree.Frame.toRose, BTree.toRose, hu]

theorem shape_arity (t : BTree (Addr × α)) : (shape α).arity t = arityL t.toRose := by
  simp only [Shape.arity, shape, BTree.addrTree, BTree.toRose_map, arityL_eq_foldr, List.map_map]
  congr 1
  exact List.map_congr_left (fun c _ => by simp [arity_map])

theorem or_toRose {β : Type} (l r : BTree β) (h : l = .nil ∨ r = .nil) : (r.or l).toRose = l.toRose ++ r.toRose := by
  rcases h with rfl | rfl
  · cases r <;> simp [BTree.or, BTree.toRose]
  · simp [BTree.or, BTree.toRose]

theorem or_toRose' {β : Type} (l r : BTree β) (h : l = .nil ∨ r = .nil) : (l.or r).toRose = l.toRose ++ r.toRose := by
  rcases h with rfl | rfl
  · simp [BTree.or, BTree.toRose]
  · cases l <;> simp [BTree.or, BTree.toRose]

theorem map_or {β γ : Type} (f : β → γ) (l r : BTree β) : (l.or r).map f = (l.map f).or (r.map f) := by
  cases l <;> rfl

theorem twoKids_false {p : Addr × α} {l r : BTree (Addr × α)} (h : twoKids (.node p l r) = false) : l = .nil ∨ r = .nil := by
  cases l <;> cases r <;> simp_all [twoKids]

theorem toB_rose (l : Lit α) (hv : l.valid) (h2 : l.atMostTwo) :
    (Lit.toB l).toRose.length = (if l.label.isSome then 1 else 0) ∧ sizeL (Lit.toB l).toRose = l.subtreeSize ∧
      arityL (Lit.toB l).toRose = l.subtreeArity := by
  induction l using Tree.ind with
  | h v cs ih =>
    simp only [Lit.atMostTwo] at h2
    cases v with
    | none =>
      simp only [Lit.valid] at hv
      subst hv
      simp [Lit.toB, Lit.subtreeSize, Lit.subtreeSizeL, Lit.subtreeArity, Lit.subtreeArityL]
    | some v =>
      simp only [Lit.valid] at hv
      match cs, h2, hv, ih with
      | [], _, _, _ => simp [Lit.toB, Lit.subtreeSize, Lit.subtreeSizeL, Lit.subtreeArity, Lit.subtreeArityL]
      | [a], ⟨_, h2⟩, hv, ih =>
        simp only [Lit.atMostTwoL, Lit.validL] at h2 hv
        obtain ⟨h3, h4, h5⟩ := ih a (by simp) hv.1 h2.1
        simp only [Lit.toB, BTree.toRose, Lit.subtreeSize, Lit.subtreeSizeL, Lit.subtreeArity, Lit.subtreeArityL,
          Lit.childCount, sizeL_cons, sizeL_nil, size_node, List.append_nil, h4, arityL_cons, arity_node, arityL_nil, h5, h3]
        cases hl : a.label <;> simp [hl]
      | [a, b], ⟨_, h2⟩, hv, ih =>
        simp only [Lit.atMostTwoL, Lit.validL] at h2 hv
        obtain ⟨h3, h4, h5⟩ := ih a (by simp) hv.1 h2.1
        obtain ⟨h3', h4', h5'⟩ := ih b (by simp) hv.2.1 h2.2.1
        simp only [Lit.toB, BTree.toRose, Lit.subtreeSize, Lit.subtreeSizeL, Lit.subtreeArity, Lit.subtreeArityL,
          Lit.childCount, sizeL_cons, sizeL_nil, size_node, sizeL_append, h4, h4', arityL_cons, arity_node, arityL_nil,
          List.length_append, h3, h3', arityL_append, h5, h5']
        cases hl : a.label <;> cases hl' : b.label <;> simp [hl, hl'] <;> omega
      | _ :: _ :: _ :: _, ⟨h, _⟩, _, _ => simp at h

theorem lawful (α : Type) : Lawful (shape α) where
  rose_nil := rfl
  rose_cases := by
    intro t
    cases t with
    | nil => exact Or.inl rfl
    | node p l r => exact Or.inr ⟨_, rfl⟩
  plug_top _ := rfl
  rose_plug := by
    intro c
    refine ⟨(c.map (BTree.Frame.map Prod.fst)).map BTree.Frame.toRose, ?_, ?_⟩
    · show c = [] ↔ _
      simp
    · intro s u hu
      simp only [shape, BTree.addrTree, BTree.plug_map] at hu ⊢
      exact toRose_plug _ _ _ hu
  rose_remove := by
    intro c hc
    cases c with
    | nil => exact absurd rfl hc
    | cons f fs =>
      refine ⟨(f.map Prod.fst).toRose, (fs.map (BTree.Frame.map Prod.fst)).map BTree.Frame.toRose, ?_, ?_⟩
      · intro s u hu
        simp only [shape, BTree.addrTree, BTree.plug_map] at hu ⊢
        exact toRose_plug _ _ _ hu
      · simp only [shape, BTree.addrTree, BTree.plug_map, BTree.plug, List.map_cons]
        refine toRose_plug _ _ _ ?_
        obtain ⟨p, b, o⟩ := f
        cases b <;> simp [BTree.Frame.fill, BTree.Frame.toRose, BTree.toRose, BTree.Frame.map]
  addrs_plug := by
    intro c s
    simp only [shape_addrs]
    refine (addrs_plug c s).trans (List.Perm.append_right _ ?_)
    have := addrs_plug c (.nil : BTree (Addr × α))
    simpa [shape] using this.symm
  ptr_plug := by
    intro c s s' hc
    simp only [shape_ptr]
    cases c with
    | nil => exact absurd rfl hc
    | cons f fs =>
      simp only [shape, BTree.plug]
      have : ∀ (fs : List (BTree.Frame (Addr × α))) x y, x.addr? = y.addr? →
          (BTree.plug fs x).addr? = (BTree.plug fs y).addr? := by
        intro fs
        induction fs with
        | nil => intro x y h; exact h
        | cons g fs ih => intro x y _; exact ih _ _ (by simp)
      exact this _ _ _ (by simp)
  ptr_plug_mem := by
    intro c hc
    rw [shape_ptr]
    cases c with
    | nil => exact absurd rfl hc
    | cons f fs =>
      simp only [shape, BTree.plug]
      have : ∀ (fs : List (BTree.Frame (Addr × α))) (x : BTree (Addr × α)), (∃ a, x.addr? = some a) →
          ∃ a, (BTree.plug fs x).addr? = some a := by
        intro fs
        induction fs with
        | nil => intro x h; exact h
        | cons g fs ih => intro x _; exact ih _ ⟨g.label.1, by simp⟩
      exact this _ _ ⟨f.label.1, by simp⟩
  find := by
    intro t fs u ht
    simp only [shape] at ht
    obtain ⟨bs, a, l, r, h1, h2, h3⟩ := BTree.plug_toRose ht rfl
    obtain ⟨fs', s', g1, g2, g3⟩ := BTree.plug_eq_map Prod.fst (t := t) h1
    refine ⟨fs', s', g1, ?_⟩
    simp [shape, BTree.addrTree, g3, h3, BTree.toRose]
  rose_single := by intro a v; simp [shape, BTree.addrTree, BTree.toRose]
  rose_front := by
    intro s u n hs hf
    cases s with
    | nil => simp [shape, BTree.addrTree, BTree.toRose] at hs
    | node p l r =>
      have := twoKids_false hf
      have e := or_toRose l.addrTree r.addrTree (by rcases this with rfl | rfl <;> simp [BTree.addrTree])
      cases n with
      | nil => simp [shape, addLeft, BTree.addrTree, BTree.toRose] at hs ⊢; simp [← hs]
      | node q nl nr =>
        simp only [BTree.addrTree] at e
        simp [shape, addLeft, BTree.addrTree, BTree.toRose] at hs ⊢
        rw [map_or, e]; simp [← hs]
  rose_back := by
    intro s u n hs hf
    cases s with
    | nil => simp [shape, BTree.addrTree, BTree.toRose] at hs
    | node p l r =>
      have := twoKids_false hf
      have e := or_toRose' l.addrTree r.addrTree (by rcases this with rfl | rfl <;> simp [BTree.addrTree])
      cases n with
      | nil => simp [shape, addRight, BTree.addrTree, BTree.toRose] at hs ⊢; simp [← hs]
      | node q nl nr =>
        simp only [BTree.addrTree] at e
        simp [shape, addRight, BTree.addrTree, BTree.toRose] at hs ⊢
        rw [map_or, e]; simp [← hs]
  front_nil := by intro s; cases s <;> rfl
  back_nil := by intro s; cases s <;> rfl
  rep_nil := by intro h; simp [shape, Rep]
  rep_congr := by
    intro h h' t H he
    rw [shape_addrs] at he
    refine ⟨H.1.congr ?_, H.2⟩
    rw [keys_cells]; exact he
  rep_alive := by
    intro h t H a ha
    rw [shape_addrs] at ha
    exact H.1.isSome (by rw [keys_cells]; exact ha)
  rep_nodup := by
    intro h t H
    rw [shape_addrs]; exact H.2
  leaf := by
    intro h v hw
    simp [shape, Rep, Heap.alloc, kind, leaf]
  ofLit := by
    intro h l hw hl
    obtain ⟨h', a, t', e, h0, h1, h2, h3⟩ := ofLit_spec hw l hl
    exact ⟨h', a, t', e, by rw [shape_ptr]; exact h0, h1, h2, by rw [shape_addrs]; exact h3⟩
  copy := by
    intro h t a hw H ha
    rw [shape_ptr] at ha
    have := size_le hw H
    obtain ⟨h', b, t', e, h0, h1, h2, h3⟩ := copy_root hw t H ha h.fuel (by simp [Heap.fuel]; omega)
    exact ⟨h', b, t', e, by rw [shape_ptr]; exact h0, h1, h2, by rw [shape_addrs]; exact h3⟩
  dealloc := by
    intro h t hw H
    rw [shape_ptr, shape_addrs]
    have := size_le hw H
    exact dealloc_spec t h.fuel (by simp [Heap.fuel]; omega) H.1 H.2
  detach := by
    intro h t a fuel H ha
    rw [shape_ptr] at ha
    cases t with
    | nil => simp at ha
    | node p l r =>
      simp at ha; subst ha
      have hc := (show Rep h (BTree.plug [] (.node p l r)) from H).cell
      simp [kind, replaceWith, Heap.read_of hc, fpar]
  replace := by
    intro h c s r a hw H ha hc R hd _
    rw [shape_ptr] at ha
    simp only [shape_addrs, shape_ptr] at hd ⊢
    cases c with
    | nil => exact absurd rfl hc
    | cons f fs => exact replaceWith_spec H R (fun b hb hr => hd b hr hb) ha
  prepend := by
    intro h c s n a hw H ha hf N hd
    rw [shape_ptr] at ha
    simp only [shape_addrs, shape_ptr] at hd ⊢
    cases s with
    | nil => simp at ha
    | node p l r =>
      simp at ha; subst ha
      cases n with
      | nil => exact ⟨h, rfl, H, rfl, fun _ _ _ => rfl⟩
      | node q nl nr =>
        obtain ⟨h', e, h1, h2, h3⟩ := prepend_spec H (twoKids_false hf) N (fun b hb hr => hd b hr hb) (y := q.1) (by simp)
        exact ⟨h', e, h1, h2, h3⟩
  append := by
    intro h c s n a hw H ha hf N hd
    rw [shape_ptr] at ha
    simp only [shape_addrs, shape_ptr] at hd ⊢
    cases s with
    | nil => simp at ha
    | node p l r =>
      simp at ha; subst ha
      cases n with
      | nil => exact ⟨h, rfl, H, rfl, fun _ _ _ => rfl⟩
      | node q nl nr =>
        obtain ⟨h', e, h1, h2, h3⟩ := append_spec H (twoKids_false hf) N (fun b hb hr => hd b hr hb) (y := q.1) (by simp)
        exact ⟨h', e, h1, h2, h3⟩
  full := by
    intro h c s a H ha
    rw [shape_ptr] at ha
    cases s with
    | nil => simp at ha
    | node p l r =>
      simp at ha; subst ha
      have hc := (show Rep h (BTree.plug c (.node p l r)) from H).cell
      cases l <;> cases r <;> simp [kind, children, Heap.read_of hc, shape, twoKids]
  following := by
    intro h t R fs u H hR hu
    obtain ⟨R', hR'⟩ : ∃ R', t.toRose = [R'] := by
      cases t with
      | nil => simp [shape, BTree.addrTree, BTree.toRose] at hR
      | node p l r => exact ⟨_, rfl⟩
    have hm : R = R'.map Prod.fst := by
      simp only [shape, BTree.addrTree, BTree.toRose_map, hR'] at hR
      simpa using hR.symm
    obtain ⟨fs', u', h1, h2, h3⟩ := plug_eq_map Prod.fst (t := R') (hu.trans hm)
    have := (rose_focus H hR' h1).2.2.2.2.2.1
    subst h2 h3
    simp only [label_map]
    refine Eq.trans this ?_
    cases fs' <;> simp [Frame.map]
  nav := by
    intro h t R H hR
    rw [shape_ptr]
    cases t with
    | nil => simp [shape, BTree.addrTree, BTree.toRose] at hR
    | node p l r => exact nav_spec (gs := []) H (by simp) hR
  nav_first := by intro h r a; rfl
  nav_root := by intro h r; rfl
  vals_inj := by
    intro t u htu
    have hs : t.size = u.size := by
      have := congrArg BTree.size htu
      simpa [shape, BTree.vals] using this
    refine ⟨?_, by rw [shape_size, shape_size, hs], ?_⟩
    · cases t <;> cases u <;> simp_all [shape, BTree.vals, BTree.map]
    · have ha : ∀ b : BTree (Addr × α), (shape α).arity b = arityL (b.vals).toRose := by
        intro b
        rw [shape_arity]
        simp only [BTree.vals, BTree.toRose_map, arityL_eq_foldr, List.map_map]
        congr 1
        exact List.map_congr_left (fun c _ => by simp [arity_map])
      rw [ha, ha]
      exact congrArg (fun b => arityL (BTree.toRose b)) htu
  litSize := by
    intro l t _ hf hv
    obtain ⟨_, h1, h2⟩ := toB_rose l hf.1 hf.2
    have ha : ∀ b : BTree (Addr × α), (shape α).arity b = arityL (b.vals).toRose := by
      intro b
      rw [shape_arity]
      simp only [BTree.vals, BTree.toRose_map, arityL_eq_foldr, List.map_map]
      congr 1
      exact List.map_congr_left (fun c _ => by simp [arity_map])
    have hv' : t.vals = Lit.toB l := hv
    have hsz : (shape α).size t = sizeL (t.vals).toRose := by
      rw [shape_size, size_toRose]; simp [BTree.vals]
    rw [ha, hsz, hv', h1, h2]
    exact ⟨rfl, rfl⟩
  calcSize := by
    intro h t a hw H ha
    rw [shape_ptr] at ha
    rw [shape_size]
    have := size_le hw H
    exact calcSize_spec t h.fuel (by simp [Heap.fuel]; omega) H.1 ha
  calcArity := by
    intro h t a hw H ha
    rw [shape_ptr] at ha
    rw [shape_arity]
    have := size_le hw H
    cases t with
    | nil => simp at ha
    | node p l r =>
      simp at ha; subst ha
      have hT : (BTree.node p l r).toRose = [Tree.node p (l.toRose ++ r.toRose)] := rfl
      rw [hT]
      have := calcArity_spec (fs := []) H hT rfl h.fuel (by rw [size_of_toRose hT]; simp only [Heap.fuel]; omega)
      simp only [arityL, Nat.max_zero]
      exact this
  rose_revalue := by
    intro s v
    cases s <;> rfl
  revalue := by
    intro h c s a v n H ha hn
    cases s with
    | nil => cases ha
    | node p l r =>
      have ha : p.1 = a := by simpa [Shape.ptr, shape, BTree.addrTree, BTree.map, BTree.toRose] using ha
      subst ha
      have H : Rep h (BTree.plug c (.node p l r)) := H
      have hc := H.cell
      obtain ⟨h1, h2, h3⟩ := (rep_plug _ _).mp H
      rw [hn] at hc; cases hc
      have h3 : (ctxAddrs c ++ (p.1 :: (l.addrs ++ r.addrs))).Nodup := by simpa using h3
      have hnd := List.nodup_append.mp h3
      refine (rep_plug c (revalue v (.node p l r))).mpr ⟨?_, ?_, by simpa [revalue] using h3⟩
      · refine (holds_set ?_).mpr h1
        rw [keys_ctxCells]
        exact fun hm => hnd.2.2 _ hm p.1 (by simp) rfl
      · simp only [revalue, cells_node, holds_cons] at h2 ⊢
        refine ⟨by simp [Heap.set, kind], (holds_set ?_).mpr h2.2⟩
        simp only [keys_append, keys_cells]
        exact (List.nodup_cons.mp hnd.2.1).1

end Binary
