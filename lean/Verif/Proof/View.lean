import Verif.Spec.View
import Verif.Proof.Compare
import Verif.Proof.Returned
/-! Views of trees. -/
open Tree

/-- What is needed about a kind of nodes at an inner node of a tree. -/
structure Local {ν α lit T V C : Type} {K : Kind ν α lit} (S : Shape K T V C) : Prop where
  nav : ∀ (h : Heap ν) c s R, S.Rep h (S.plug c s) → S.rose s = [R] → NavSpec (K.nav h (S.ptr s)) R
  size : ∀ (h : Heap ν) c s a, h.WF → S.Rep h (S.plug c s) → S.ptr s = some a → K.calcSize h.fuel h a = Res.ok (S.size s)
  arity : ∀ (h : Heap ν) c s a, h.WF → S.Rep h (S.plug c s) → S.ptr s = some a → K.calcArity h.fuel h a = Res.ok (S.arity s)

namespace Nary
variable {α : Type}

theorem size_le_plug (fs : List (Frame (Addr × α))) (s : Tree (Addr × α)) : s.size ≤ (plug fs s).size := by
  induction fs generalizing s with
  | nil => exact Nat.le_refl _
  | cons f fs ih =>
    refine Nat.le_trans ?_ (ih _)
    simp only [size, sizeL_append, sizeL_cons]; omega

theorem local_ (α : Type) : Local (shape α) where
  nav := by
    intro h c s R H hR
    cases s with
    | none => simp [shape] at hR
    | some s =>
      rw [shape_plug, fill_some, shape_rep] at H
      have := nav_spec H
      simp [shape] at hR
      rw [← hR]
      rw [shape_ptr]; exact this
  size := by
    intro h c s a hw H ha
    cases s with
    | none => simp [shape_ptr] at ha
    | some s =>
      rw [shape_plug, fill_some, shape_rep] at H
      simp only [shape_ptr, Option.map_some, Option.some.injEq] at ha
      subst ha
      have hle := size_le hw H
      have hs := size_le_plug c s
      have h1 := ((rep_plug c s).mp H).2.1
      rw [focusCells_eq] at h1
      simp only [holds_cons] at h1
      have e : (kind α).calcSize = calcSize := rfl
      have hst : s.size = sizeL s.children + 1 := by cases s; simp
      rw [e, shape_size, calcSize, Heap.read_of h1.1]
      simp only [Res.ok_bind, rec_, Option.elim_some]
      rw [sizeFrom_spec _ s.children _ _ _ h1.2 (by simp only [Heap.fuel]; omega)]
      simp only [Res.ok_bind, Res.pure_eq, hst]
      rw [Nat.add_comm]
  arity := by
    intro h c s a hw H ha
    cases s with
    | none => simp [shape_ptr] at ha
    | some s =>
      rw [shape_plug, fill_some, shape_rep] at H
      simp only [shape_ptr, Option.map_some, Option.some.injEq] at ha
      subst ha
      have hle := size_le hw H
      have hs := size_le_plug c s
      have h1 := ((rep_plug c s).mp H).2.1
      have e : (kind α).calcArity = calcArity := rfl
      rw [e, shape_arity]
      exact (arity_spec h.fuel).1 s _ _ _ _ h1 (by simp only [Heap.fuel]; omega)

end Nary

namespace Binary
variable {α : Type}

theorem size_le_plug (fs : List (BTree.Frame (Addr × α))) (s : BTree (Addr × α)) : s.size ≤ (BTree.plug fs s).size := by
  induction fs generalizing s with
  | nil => exact Nat.le_refl _
  | cons f fs ih =>
    refine Nat.le_trans ?_ (ih _)
    obtain ⟨p, b, o⟩ := f
    cases b <;> simp [BTree.Frame.fill, BTree.size] <;> omega

theorem local_ (α : Type) : Local (shape α) where
  nav := by
    intro h c s R H hR
    cases s with
    | nil => simp [shape, BTree.addrTree, BTree.toRose] at hR
    | node p l r =>
      have := nav_spec (x := p.1) H rfl hR
      rw [shape_ptr]
      exact this
  size := by
    intro h c s a hw H ha
    rw [shape_ptr] at ha
    have hle := size_le hw H
    have hs : s.size ≤ ((shape α).plug c s).size := size_le_plug c s
    have h1 := ((rep_plug c s).mp H).2.1
    rw [shape_size]
    exact calcSize_spec s h.fuel (by simp only [Heap.fuel]; omega) h1 ha
  arity := by
    intro h c s a hw H ha
    rw [shape_ptr] at ha
    cases s with
    | nil => simp at ha
    | node p l r =>
      have hle := size_le hw H
      have hs : (BTree.node p l r).size ≤ ((shape α).plug c (BTree.node p l r)).size := size_le_plug c _
      have hT : (BTree.node p l r).toRose = [Tree.node p (l.toRose ++ r.toRose)] := rfl
      have hP := toRose_plug c _ _ hT
      have := calcArity_spec (h := h) (t := BTree.plug c (BTree.node p l r)) H hP rfl h.fuel (by
        rw [size_of_toRose hT]; simp only [Heap.fuel]; omega)
      simp at ha; subst ha
      rw [shape_arity, hT]
      simp only [arityL, Nat.max_zero]
      exact this

end Binary

theorem Tree.label_ne_of_plug {β : Type} {f : Frame β} {fs : List (Frame β)} {s : Tree β} (hn : (plug (f :: fs) s).pre.Nodup) :
    (plug (f :: fs) s).label ≠ s.label := by
  have h1 : (plug (f :: fs) s).pre.head? = some (plug (f :: fs) s).label := by cases plug (f :: fs) s; simp
  have h2 : s.pre.head? = some s.label := by cases s; simp
  rw [pre_plug] at hn h1
  intro e
  have hb : preBefore (f :: fs) ≠ [] := by simp [preBefore]
  obtain ⟨x, l, hx⟩ := List.exists_cons_of_ne_nil hb
  rw [hx] at h1 hn
  simp only [List.cons_append, List.head?_cons, Option.some.injEq] at h1
  rw [List.append_assoc] at hn
  exact (List.nodup_append.mp hn).2.2 x (by simp) s.label (List.mem_append_left _ (List.mem_of_mem_head? h2)) (h1.trans e)

section
variable {ν α lit T V C : Type} {K : Kind ν α lit} {S : Shape K T V C} {h : Heap ν} {v w : TreeRec} {c d : C} {s t u : T}

namespace Shows

theorem sizeQ (L : Lawful S) (Lo : Local S) (hw : h.WF) (H : S.Rep h (S.plug c s)) (Sh : Shows S v s) :
    ∃ v', TreeOps.sizeQ K h v = Res.ok (S.size s, v') ∧ Shows S v' s := by
  unfold TreeOps.sizeQ
  cases hr : v.root with
  | none =>
    have hn : s = S.nil := (L.ptr_none_iff).mp (Sh.root.symm.trans hr)
    have hz : S.size s = 0 := by rw [hn]; simp [Shape.size, L.rose_nil, sizeL]
    have : v.size = 0 := by rcases Sh.counts.1 with h | h <;> omega
    exact ⟨v, by simp [this, hz], Sh⟩
  | some a =>
    by_cases h0 : v.size = 0
    · have e := Lo.size h c s a hw H (Sh.root.symm.trans hr)
      refine ⟨{ v with size := S.size s }, by simp [h0, e, hr], ⟨Sh.root, Sh.nav, Or.inr rfl, Sh.counts.2⟩⟩
    · refine ⟨v, ?_, Sh⟩
      rcases Sh.counts.1 with h | h
      · exact absurd h h0
      · have h0' : ¬ S.size s = 0 := h ▸ h0
        simp [h, h0']

theorem arityQ (L : Lawful S) (Lo : Local S) (hw : h.WF) (H : S.Rep h (S.plug c s)) (Sh : Shows S v s) :
    ∃ v', TreeOps.arityQ K h v = Res.ok (S.arity s, v') ∧ Shows S v' s := by
  unfold TreeOps.arityQ
  cases hr : v.root with
  | none =>
    have hn : s = S.nil := (L.ptr_none_iff).mp (Sh.root.symm.trans hr)
    have hz : S.arity s = 0 := by rw [hn]; simp [Shape.arity, L.rose_nil, arityL]
    have : v.arity = 0 := by rcases Sh.counts.2 with h | h <;> omega
    exact ⟨v, by simp [this, hz], Sh⟩
  | some a =>
    have hp : S.ptr s = some a := Sh.root.symm.trans hr
    by_cases h0 : v.arity = 0
    · have e := Lo.arity h c s a hw H hp
      rcases L.rose_cases s with hs | ⟨R, hR⟩
      · rw [(L.ptr_none_iff).mpr hs] at hp; cases hp
      have hl : R.label = a := by simpa [Shape.ptr, hR] using hp
      have f := (Lo.nav h c s R H hR).first [] R rfl
      rw [L.nav_first, hl] at f
      have ha : S.arity s = R.arity := by simp [Shape.arity, hR, arityL]
      cases hc : R.children with
      | nil =>
        refine ⟨v, ?_, Sh⟩
        have : R.arity = 0 := by cases R; simp at hc; subst hc; simp [arity, arityL]
        simp [h0, f, hc, ha, this]
      | cons x xs =>
        refine ⟨{ v with arity := S.arity s }, by simp [h0, f, hc, e, hr], ⟨Sh.root, Sh.nav, Sh.counts.1, Or.inr rfl⟩⟩
    · refine ⟨v, ?_, Sh⟩
      rcases Sh.counts.2 with h | h
      · exact absurd h h0
      · have h0' : ¬ S.arity s = 0 := h ▸ h0
        simp [h, h0']

/-- The answer of `==` is the answer of the comparison of the nodes, except that it is `false` without asking when the sizes or
the arities differ. -/
theorem eq (L : Lawful S) (Lo : Local S) (hw : h.WF) (H : S.Rep h (S.plug c s)) (H' : S.Rep h (S.plug d u)) (Sv : Shows S v s)
    (Sw : Shows S w u) (eqv : α → α → Bool) :
    ∃ v' w', Shows S v' s ∧ Shows S w' u ∧ View.eq K eqv h v w =
      if S.size s = S.size u ∧ S.arity s = S.arity u then
        (match S.ptr s, S.ptr u with
          | some n, some m => (do let b ← K.eq eqv h.fuel h n h m; pure (v', w', b))
          | _, _ => Res.ok (v', w', true))
      else Res.ok (v', w', false) := by
  have nz : ∀ t : T, S.ptr t = none → S.size t = 0 := by
    intro t ht; rw [(L.ptr_none_iff).mp ht]; simp [Shape.size, L.rose_nil, sizeL]
  have nz' : ∀ (t : T) a, S.ptr t = some a → S.size t ≠ 0 := by
    intro t a ht
    rcases L.rose_cases t with hs | ⟨R, hR⟩
    · rw [(L.ptr_none_iff).mpr hs] at ht; cases ht
    · have := size_pos R; simp [Shape.size, hR, sizeL]; omega
  unfold View.eq
  by_cases hne : v.root.isNone = w.root.isNone
  rotate_left
  · rw [if_pos (by simpa using hne)]
    rw [Sv.root, Sw.root] at hne
    refine ⟨v, w, Sv, Sw, ?_⟩
    rw [if_neg]; · rfl
    rintro ⟨h1, _⟩
    cases e1 : S.ptr s <;> cases e2 : S.ptr u <;> simp [e1, e2] at hne
    · exact nz' _ _ e2 (h1 ▸ nz _ e1)
    · exact nz' _ _ e1 (h1 ▸ nz _ e2)
  rw [if_neg (by simpa using hne)]
  rw [Sv.root, Sw.root] at hne
  obtain ⟨v1, e1, S1⟩ := sizeQ L Lo hw H Sv
  obtain ⟨w1, e2, S2⟩ := sizeQ L Lo hw H' Sw
  simp only [e1, e2, Res.ok_bind]
  by_cases hn : S.size s = S.size u
  rotate_left
  · rw [if_pos (by simpa using hn)]
    exact ⟨v1, w1, S1, S2, by rw [if_neg (fun h => hn h.1)]; rfl⟩
  rw [if_neg (by simpa using hn)]
  obtain ⟨v2, e3, S3⟩ := arityQ L Lo hw H S1
  obtain ⟨w2, e4, S4⟩ := arityQ L Lo hw H' S2
  simp only [e3, e4, Res.ok_bind]
  by_cases hm : S.arity s = S.arity u
  rotate_left
  · rw [if_pos (by simpa using hm)]
    exact ⟨v2, w2, S3, S4, by rw [if_neg (fun h => hm h.2)]; rfl⟩
  rw [if_neg (by simpa using hm)]
  refine ⟨v2, w2, S3, S4, ?_⟩
  rw [if_pos ⟨hn, hm⟩, S3.root, S4.root]
  cases h1 : S.ptr s <;> cases h2 : S.ptr u <;> simp [h1, h2] at hne <;> simp [deref]

end Shows

/-- A place is determined by the address of its node. -/
theorem top_of_ptr (L : Lawful S) (hn : (S.addrs (S.plug c s)).Nodup) (hs : s ≠ S.nil) (he : S.ptr s = S.ptr (S.plug c s)) : S.plug c s = s := by
  rcases L.rose_cases s with h0 | ⟨R, hR⟩
  · exact absurd h0 hs
  obtain ⟨fs, h1, h2⟩ := L.rose_plug c
  have e := h2 s R hR
  simp only [Shape.addrs, e, preL, List.append_nil] at hn
  simp only [Shape.ptr, hR, e, List.head?_cons, Option.map_some, Option.some.injEq] at he
  cases fs with
  | nil => rw [h1.mpr rfl, L.plug_top]
  | cons f fs => exact absurd he (by
    exact (Tree.label_ne_of_plug hn).symm)

theorem Shows.part (L : Lawful S) (H : (S.addrs (S.plug c s)).Nodup) (hs : s ≠ S.nil) (Sh : Shows S v (S.plug c s)) :
    Shows S (View.at' v (S.ptr s)) s := by
  refine ⟨rfl, rfl, ?_⟩
  cases hp : S.ptr s with
  | none => exact absurd ((L.ptr_none_iff).mp hp) hs
  | some a =>
    unfold View.at' CacheOk
    simp only [Sh.nav]
    by_cases he : some a = S.ptr (S.plug c s)
    · rw [← hp] at he
      have := top_of_ptr L H hs he
      have hc := Sh.counts
      rw [this] at hc ⊢
      simpa [hp, CacheOk] using hc
    · have he' : ¬ (some a == S.ptr (S.plug c s)) = true := by simpa using he
      simp only [if_neg he']
      exact ⟨Or.inl trivial, Or.inl trivial⟩

end

/-! ### comparison of nodes -/

namespace Nary
variable {α : Type} {h h2 : NHeap α}

/-- The comparison of two nodes also compares the siblings that follow them. -/
theorem eq_chain (eqv : α → α → Bool) (ts us : List (Tree (Addr × α))) (t u : Tree (Addr × α)) (fuel : Nat)
    (hf : sizeL (t :: ts) ≤ fuel) {par prev par' prev' : Ptr} {k k' : Nat}
    (H : Holds h (cellsL par prev none k (t :: ts))) (H' : Holds h2 (cellsL par' prev' none k' (u :: us))) :
    eq eqv fuel h t.addr h2 u.addr = chain eqv (valsL (t :: ts)) (valsL (u :: us)) := by
  induction ts generalizing t u us fuel par prev par' prev' with
  | nil =>
    cases fuel with
    | zero => cases t; simp [sizeL, size] at hf
    | succ fuel =>
    obtain ⟨⟨b, v⟩, cs⟩ := t
    obtain ⟨⟨b', v'⟩, cs'⟩ := u
    simp only [sizeL, size] at hf
    simp only [cellsL_cons, holds_append] at H H'
    have c1 := children_spec H.1
    have c2 := children_spec H'.1
    have H1 := H.1
    have K1 := H'.1
    rw [cells_eq, holds_cons] at H1 K1
    simp only [addr_node, children_node] at c1 c2 H1 K1
    simp only [addr_node, eq, c1, c2, Res.ok_bind, Heap.read_of H1.1, Heap.read_of K1.1, rec_, label_node, children_node]
    simp only [valsL_cons, vals_node, chain, eqBy, valsL_nil]
    by_cases hcl : cs.length = cs'.length
    · by_cases hv : eqv v v' = true
      · have e1 : ∀ c c' ds ds', cs = c :: ds → cs' = c' :: ds' →
            eq eqv fuel h c.addr h2 c'.addr = Res.ok (eqByL eqv (valsL cs) (valsL cs')) := by
          rintro c c' ds ds' rfl rfl
          exact eq_spec eqv h2 fuel c c' ds ds' (by simp only [sizeL] at hf ⊢; omega) (by simpa using hcl) H1.2 K1.2
        clear H H' H1 K1 c1 c2 hf
        rcases cs with _ | ⟨c, cs⟩ <;> rcases cs' with _ | ⟨c', cs'⟩ <;> simp at hcl <;>
          simp [hv, hcl, e1] <;>
          (try generalize eqByL eqv (c.vals :: valsL cs) (c'.vals :: valsL cs') = b; cases b) <;> (try simp [eqByL])
      · simp [hcl, hv]
    · have : eqByL eqv (valsL cs) (valsL cs') = false := eqByL_length _ (by simpa [valsL] using hcl)
      simp [hcl, this]
  | cons t2 ts ih =>
    cases fuel with
    | zero => cases t; simp [sizeL, size] at hf
    | succ fuel =>
    obtain ⟨⟨b, v⟩, cs⟩ := t
    obtain ⟨⟨b', v'⟩, cs'⟩ := u
    have hf0 := hf
    simp only [sizeL, size] at hf
    rw [cellsL_cons, holds_append] at H H'
    have c1 := children_spec H.1
    have c2 := children_spec H'.1
    have H1 := H.1
    have K1 := H'.1
    rw [cells_eq, holds_cons] at H1 K1
    simp only [addr_node, children_node] at c1 c2 H1 K1
    simp only [addr_node, eq, c1, c2, Res.ok_bind, Heap.read_of H1.1, Heap.read_of K1.1, rec_, label_node, children_node]
    simp only [valsL_cons, vals_node, chain, eqBy]
    by_cases hcl : cs.length = cs'.length
    · by_cases hv : eqv v v' = true
      · have e1 : ∀ c c' ds ds', cs = c :: ds → cs' = c' :: ds' →
            eq eqv fuel h c.addr h2 c'.addr = Res.ok (eqByL eqv (valsL cs) (valsL cs')) := by
          rintro c c' ds ds' rfl rfl
          exact eq_spec eqv h2 fuel c c' ds ds' (by simp only [sizeL] at hf ⊢; omega) (by simpa using hcl) H1.2 K1.2
        have e2 : ∀ u2 us', us = u2 :: us' →
            eq eqv fuel h t2.addr h2 u2.addr = chain eqv (valsL (t2 :: ts)) (valsL (u2 :: us')) := by
          rintro u2 us' rfl
          exact ih us' t2 u2 fuel (by simp only [sizeL] at hf ⊢; omega) H.2 H'.2
        clear H H' H1 K1 c1 c2 hf ih
        rcases cs with _ | ⟨c, cs⟩ <;> rcases cs' with _ | ⟨c', cs'⟩ <;> simp at hcl <;>
          rcases us with _ | ⟨u2, us⟩ <;>
          simp [hv, hcl, e1, e2, deref, chain] <;>
          (try generalize eqByL eqv (c.vals :: valsL cs) (c'.vals :: valsL cs') = b; cases b) <;> (try simp [eqByL, chain])
      · simp [hcl, hv]
    · have : eqByL eqv (valsL cs) (valsL cs') = false := eqByL_length _ (by simpa [valsL] using hcl)
      simp [hcl, this]

/-- The records from a place to the last of the siblings after it. -/
theorem rep_chain {c : List (Frame (Addr × α))} {s : Tree (Addr × α)} (H : Rep h (plug c s)) :
    ∃ par prev, Holds h (cellsL par prev none 0 (s :: after c)) := by
  cases c with
  | nil => exact ⟨none, none, by simpa [after, cellsL] using H.1⟩
  | cons f fs =>
    have h1 := ((rep_plug fs (node f.label (f.lefts ++ s :: f.rights))).mp (by simpa using H)).2.1
    rw [focusCells_eq, holds_cons, below, children_node, cellsL_append, holds_append] at h1
    exact ⟨_, _, by simpa [after] using h1.2.2⟩

theorem sizeL_after_le (c : List (Frame (Addr × α))) (s : Tree (Addr × α)) : sizeL (s :: after c) ≤ (plug c s).size := by
  cases c with
  | nil => simp [after, sizeL]
  | cons f fs =>
    have := size_le_plug fs (node f.label (f.lefts ++ s :: f.rights))
    simp only [size, sizeL_append, sizeL_cons] at this
    simp only [after, List.head?_cons, Option.elim_some, plug_cons, sizeL_cons]
    omega

theorem eq_places (eqv : α → α → Bool) (hw : h.WF) {c d : List (Frame (Addr × α))} {s u : Tree (Addr × α)} (H : Rep h (plug c s))
    (H' : Rep h2 (plug d u)) :
    eq eqv h.fuel h s.addr h2 u.addr = chain eqv (valsL (s :: after c)) (valsL (u :: after d)) := by
  obtain ⟨p, q, h1⟩ := rep_chain H
  obtain ⟨p', q', h3⟩ := rep_chain H'
  have hle := size_le hw H
  have := sizeL_after_le c s
  exact eq_chain eqv (after c) (after d) s u h.fuel (by simp only [Heap.fuel]; omega) h1 h3

theorem chain_nil_left (eqv : α → α → Bool) (t : Tree α) (u : Tree α) (us : List (Tree α)) :
    chain eqv [t] (u :: us) = Res.ok (t.eqBy eqv u) := by
  simp only [chain]; split <;> simp_all

theorem eqBinary_chain (eqv : α → α → Bool) {hb : BHeap α} {tb : BTree (Addr × α)} (HB : Binary.Rep hb tb)
    {T : Tree (Addr × α)} (hT : tb.toRose = [T]) (ts : List (Tree (Addr × α))) (t u : Tree (Addr × α)) (fuel : Nat)
    {fs : List (Frame (Addr × α))} (hu : plug fs u = T) (hf : sizeL (t :: ts) ≤ fuel) {par prev : Ptr} {k : Nat}
    (H : Holds h (cellsL par prev none k (t :: ts))) :
    eqBinary eqv fuel h t.addr hb u.addr = chain eqv (valsL (t :: ts)) (valsL (u :: sibs fs)) := by
  induction ts generalizing t u fs fuel par prev with
  | nil =>
    cases fuel with
    | zero => cases t; simp [sizeL, size] at hf
    | succ fuel =>
    obtain ⟨⟨m, hm, hmv⟩, k1, _, k3, _, _, k6, _⟩ := Binary.rose_focus HB hT hu
    obtain ⟨⟨b, v⟩, cs⟩ := t
    obtain ⟨⟨b', v'⟩, cs'⟩ := u
    simp only [sizeL, size] at hf
    simp only [cellsL_cons, holds_append] at H
    have c1 := children_spec H.1
    have H1 := H.1
    rw [cells_eq, holds_cons] at H1
    simp only [addr_node, children_node, label_node] at c1 H1 hm hmv k1 k3 k6
    simp only [addr_node, eqBinary, c1, k1, k6, Res.ok_bind, Heap.read_of H1.1, Heap.read_of hm, hmv, rec_, label_node, children_node]
    simp only [valsL_cons, vals_node, chain, eqBy, valsL_nil]
    by_cases hcl : cs.length = cs'.length
    · by_cases hv : eqv v v' = true
      · have e1 : ∀ c c' ds ds', cs = c :: ds → cs' = c' :: ds' →
            eqBinary eqv fuel h c.addr hb c'.addr = Res.ok (eqByL eqv (valsL cs) (valsL cs')) := by
          rintro c c' ds ds' rfl rfl
          have hu' : plug (⟨(b', v'), [], ds'⟩ :: fs) c' = T := by simpa using hu
          exact eqBinary_spec eqv HB hT fuel c c' ds hu' (by simp only [sizeL] at hf ⊢; omega) (by simpa [sibs] using hcl) H1.2
        clear H H1 c1 hf
        rcases cs with _ | ⟨c, cs⟩ <;> rcases cs' with _ | ⟨c', cs'⟩ <;> simp at hcl <;>
          simp [hv, hcl, e1] <;>
          (try generalize eqByL eqv (c.vals :: valsL cs) (c'.vals :: valsL cs') = b; cases b) <;> (try simp [eqByL])
      · simp [hcl, hv]
    · have : eqByL eqv (valsL cs) (valsL cs') = false := eqByL_length _ (by simpa [valsL] using hcl)
      simp [hcl, this]
  | cons t2 ts ih =>
    cases fuel with
    | zero => cases t; simp [sizeL, size] at hf
    | succ fuel =>
    obtain ⟨⟨m, hm, hmv⟩, k1, _, k3, _, _, k6, _⟩ := Binary.rose_focus HB hT hu
    have e3 : (fs.head?.bind (fun f => headAddr f.rights)) = headAddr (sibs fs) := by cases fs <;> rfl
    rw [e3] at k3
    obtain ⟨⟨b, v⟩, cs⟩ := t
    obtain ⟨⟨b', v'⟩, cs'⟩ := u
    simp only [sizeL, size] at hf
    rw [cellsL_cons, holds_append] at H
    have c1 := children_spec H.1
    have H1 := H.1
    rw [cells_eq, holds_cons] at H1
    simp only [addr_node, children_node, label_node] at c1 H1 hm hmv k1 k3 k6
    simp only [addr_node, eqBinary, c1, k1, k3, k6, Res.ok_bind, Heap.read_of H1.1, Heap.read_of hm, hmv, rec_, label_node, children_node]
    simp only [valsL_cons, vals_node, chain, eqBy]
    by_cases hcl : cs.length = cs'.length
    · by_cases hv : eqv v v' = true
      · have e1 : ∀ c c' ds ds', cs = c :: ds → cs' = c' :: ds' →
            eqBinary eqv fuel h c.addr hb c'.addr = Res.ok (eqByL eqv (valsL cs) (valsL cs')) := by
          rintro c c' ds ds' rfl rfl
          have hu' : plug (⟨(b', v'), [], ds'⟩ :: fs) c' = T := by simpa using hu
          exact eqBinary_spec eqv HB hT fuel c c' ds hu' (by simp only [sizeL] at hf ⊢; omega) (by simpa [sibs] using hcl) H1.2
        have e2 : ∀ c' ds', sibs fs = c' :: ds' →
            eqBinary eqv fuel h t2.addr hb c'.addr = chain eqv (valsL (t2 :: ts)) (valsL (sibs fs)) := by
          rintro c' ds' e
          cases fs with
          | nil => simp [sibs] at e
          | cons f fs =>
            obtain ⟨p, ls, rs⟩ := f
            simp [sibs] at e
            subst e
            have hu' : plug (⟨p, ls ++ [node (b', v') cs'], ds'⟩ :: fs) c' = T := by simpa using hu
            exact ih t2 c' fuel hu' (by simp only [sizeL] at hf ⊢; omega) H.2
        clear H H1 c1 hf ih
        generalize sibs fs = us at *
        rcases cs with _ | ⟨c, cs⟩ <;> rcases cs' with _ | ⟨c', cs'⟩ <;> simp at hcl <;>
          rcases us with _ | ⟨s', us⟩ <;>
          simp [hv, hcl, e1, e2, deref, chain] <;>
          (try generalize eqByL eqv (c.vals :: valsL cs) (c'.vals :: valsL cs') = b; cases b) <;> (try simp [eqByL, chain])
      · simp [hcl, hv]
    · have : eqByL eqv (valsL cs) (valsL cs') = false := eqByL_length _ (by simpa [valsL] using hcl)
      simp [hcl, this]

end Nary

theorem Shows.eqBinary {α : Type} {h : NHeap α} {hb : BHeap α} {v w : TreeRec} {c : List (Frame (Addr × α))}
    {d : List (BTree.Frame (Addr × α))} {s : Option (Tree (Addr × α))} {u : BTree (Addr × α)} (hw : h.WF) (hwb : hb.WF)
    (H : (Nary.shape α).Rep h ((Nary.shape α).plug c s)) (H' : (Binary.shape α).Rep hb ((Binary.shape α).plug d u))
    (Sv : Shows (Nary.shape α) v s) (Sw : Shows (Binary.shape α) w u) (eqv : α → α → Bool) :
    ∃ v' w', Shows (Nary.shape α) v' s ∧ Shows (Binary.shape α) w' u ∧ View.eqBinary eqv h hb v w =
      if (Nary.shape α).size s = (Binary.shape α).size u ∧ (Nary.shape α).arity s = (Binary.shape α).arity u then
        (match (Nary.shape α).ptr s, (Binary.shape α).ptr u with
          | some n, some m => (do let b ← Nary.eqBinary eqv h.fuel h n hb m; pure (v', w', b))
          | _, _ => Res.ok (v', w', true))
      else Res.ok (v', w', false) := by
  unfold View.eqBinary
  obtain ⟨v1, e1, S1⟩ := Sv.sizeQ (Nary.lawful α) (Nary.local_ α) hw H
  obtain ⟨w1, e2, S2⟩ := Sw.sizeQ (Binary.lawful α) (Binary.local_ α) hwb H'
  simp only [e1, e2, Res.ok_bind]
  by_cases hn : (Nary.shape α).size s = (Binary.shape α).size u
  rotate_left
  · rw [if_pos (by simpa using hn)]
    exact ⟨v1, w1, S1, S2, by rw [if_neg (fun h => hn h.1)]; rfl⟩
  rw [if_neg (by simpa using hn)]
  obtain ⟨v2, e3, S3⟩ := S1.arityQ (Nary.lawful α) (Nary.local_ α) hw H
  obtain ⟨w2, e4, S4⟩ := S2.arityQ (Binary.lawful α) (Binary.local_ α) hwb H'
  simp only [e3, e4, Res.ok_bind]
  by_cases hm : (Nary.shape α).arity s = (Binary.shape α).arity u
  rotate_left
  · rw [if_pos (by simpa using hm)]
    exact ⟨v2, w2, S3, S4, by rw [if_neg (fun h => hm h.2)]; rfl⟩
  rw [if_neg (by simpa using hm)]
  refine ⟨v2, w2, S3, S4, ?_⟩
  rw [if_pos ⟨hn, hm⟩, S3.root, S4.root]
  cases s with
  | none => simp [Nary.shape_ptr]
  | some s =>
    cases u with
    | nil => have := size_pos s; simp [Nary.shape_size, Binary.shape_size] at hn; omega
    | node p l r => simp [Nary.shape_ptr, Binary.shape_ptr, deref]

/-- The siblings after a place of a binary tree. -/
theorem Binary.sibs_toRose {β : Type} (c : List (BTree.Frame (Addr × β))) :
    Nary.sibs (c.map BTree.Frame.toRose) = (c.head?.elim [] fun f => f.toRose.rights) := by cases c <;> rfl
