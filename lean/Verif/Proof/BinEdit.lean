import Verif.Proof.BinOps
/-! Modifying binary nodes in place. -/
open BTree

set_option linter.unusedSimpArgs false

namespace Binary
variable {α : Type} {h : BHeap α}

theorem addr?_notMem {t : BTree (Addr × α)} {a : Addr} (ha : a ∉ t.addrs) : t.addr? ≠ some a :=
  fun e => ha (addr?_mem e)

/-- A context holds in a modified heap when its own cells did not change, except that the hole's pointer did. -/
theorem holds_ctx_refill {f} {fs : List (Frame (Addr × α))} {x y : Ptr} {h' : BHeap α}
    (H : Holds h (ctxCells (f :: fs) x)) (hp : h'.cells f.label.1 = some (frameRec f fs y))
    (hs : ∀ a ∈ ctxAddrs (f :: fs), a ≠ f.label.1 → h'.cells a = h.cells a) (hn : (ctxAddrs (f :: fs)).Nodup) :
    Holds h' (ctxCells (f :: fs) y) := by
  simp only [ctxCells, holds_cons, holds_append] at H ⊢
  simp only [ctxAddrs, List.nodup_cons, List.mem_append, not_or] at hn
  refine ⟨hp, H.2.1.congr ?_, H.2.2.congr ?_⟩
  · rw [keys_cells]; intro a ha
    exact hs a (by simp [ctxAddrs, ha]) (fun e => hn.1.1 (e ▸ ha))
  · rw [keys_ctxCells]; intro a ha
    exact hs a (by simp [ctxAddrs, ha]) (fun e => hn.1.2 (e ▸ ha))

/-- Replacing the subtree in the hole by a free-standing, possibly empty, tree. -/
theorem replaceWith_spec {f} {fs : List (Frame (Addr × α))} {s r : BTree (Addr × α)}
    (H : Rep h (plug (f :: fs) s)) (K : Rep h r)
    (hd : ∀ a ∈ (plug (f :: fs) s).addrs, a ∉ r.addrs) {x : Addr} (hx : s.addr? = some x) :
    ∃ h', replaceWith h x r.addr? = Res.ok h' ∧ Rep h' (plug (f :: fs) r) ∧ Rep h' s ∧ h'.next = h.next ∧
      (∀ a, a ∉ (plug (f :: fs) s).addrs → a ∉ r.addrs → h'.cells a = h.cells a) := by
  cases s with
  | nil => simp at hx
  | node p sl sr =>
    obtain ⟨b, v⟩ := p
    simp at hx; subst hx
    have hc := H.cell
    have hpc := H.parent_cell
    have hperm := addrs_plug (f :: fs) (node (b, v) sl sr)
    have H0 := (rep_plug (f :: fs) (node (b, v) sl sr)).mp H
    have hnd := H0.2.2
    have hdis : ∀ a, a ∈ ctxAddrs (f :: fs) ∨ a = b ∨ a ∈ sl.addrs ∨ a ∈ sr.addrs → a ∉ r.addrs := by
      intro a ha
      refine hd a (hperm.mem_iff.mpr ?_)
      simp only [List.mem_append, addrs_node, List.mem_cons]; grind
    have hmem : ∀ a, a ∉ (plug (f :: fs) (node (b, v) sl sr)).addrs → a ∉ ctxAddrs (f :: fs) ∧ a ≠ b := by
      intro a ha
      have : a ∉ ctxAddrs (f :: fs) ++ (node (b, v) sl sr).addrs := fun hm => ha (hperm.mem_iff.mpr hm)
      simp only [List.mem_append, addrs_node, List.mem_cons] at this; grind
    simp only [addr?_node] at hpc
    simp only [fpar_cons] at hc
    have hbp : b ≠ f.label.1 := by
      intro e; simp only [ctxAddrs, addrs_node] at hnd; rw [e] at hnd; simp at hnd
    have hother : f.other.addr? ≠ some b := by
      refine addr?_notMem fun hm => ?_
      have := (List.nodup_append.mp hnd).2.2 b (by simp [ctxAddrs, hm]) b (by simp)
      exact this rfl
    have hpr : f.label.1 ∉ r.addrs := hdis _ (Or.inl (by simp [ctxAddrs]))
    have hbr : b ∉ r.addrs := hdis _ (Or.inr (Or.inl rfl))
    have hcn : (ctxAddrs (f :: fs)).Nodup := (List.nodup_append.mp hnd).1
    have hsn : (node (b, v) sl sr).addrs.Nodup := (List.nodup_append.mp hnd).2.1
    have hbc : b ∉ ctxAddrs (f :: fs) := fun hm => (List.nodup_append.mp hnd).2.2 b hm b (by simp) rfl
    -- the pointer in the parent is overwritten on the right side
    have hset : (if f.holeLeft then h.modify f.label.1 (fun m => { m with left := r.addr? })
        else h.modify f.label.1 (fun m => { m with right := r.addr? })) =
        Res.ok (h.set f.label.1 (frameRec f fs r.addr?)) := by
      obtain ⟨q, hl, o⟩ := f
      cases hl <;> simp [Heap.modify_of hpc, frameRec]
    have hisl : isLeftChild h b = Res.ok f.holeLeft := by
      obtain ⟨q, hl, o⟩ := f
      have : some b ≠ o.addr? := fun e => hother e.symm
      cases hl <;> simp [isLeftChild, Heap.read_of hc, Heap.read_of hpc, frameRec, this]
    have hsl : f.label.1 ∉ sl.addrs ∧ f.label.1 ∉ sr.addrs := by
      have h3 := (List.nodup_append.mp hnd).2.2 f.label.1 (by simp [ctxAddrs])
      exact ⟨fun hm => h3 _ (by simp [hm]) rfl, fun hm => h3 _ (by simp [hm]) rfl⟩
    have hrs : ∀ {g : BHeap α}, (∀ a, a ∈ sl.addrs ∨ a ∈ sr.addrs → g.cells a = h.cells a) →
        g.cells b = some ⟨v, none, sl.addr?, sr.addr?⟩ → Rep g (node (b, v) sl sr) := by
      intro g hg hgb
      refine ⟨?_, hsn⟩
      have h2 := H0.2.1
      simp only [cells_node, holds_cons, holds_append] at h2 ⊢
      exact ⟨hgb, h2.2.1.congr (by rw [keys_cells]; intro a ha; exact hg a (Or.inl ha)),
        h2.2.2.congr (by rw [keys_cells]; intro a ha; exact hg a (Or.inr ha))⟩
    have hsb : b ∉ sl.addrs ∧ b ∉ sr.addrs := by simp at hsn; exact hsn.1
    cases r with
    | nil =>
      have hc1 : (h.set f.label.1 (frameRec f fs none)).cells b = some ⟨v, some f.label.1, sl.addr?, sr.addr?⟩ := by
        simp [hbp, hc]
      refine ⟨(h.set f.label.1 (frameRec f fs none)).set b ⟨v, none, sl.addr?, sr.addr?⟩, ?_, ?_, ?_, rfl, ?_⟩
      · simp only [addr?_nil] at hset
        simp only [replaceWith, addr?_nil, pure_bind, Res.pure_bind', Heap.read_of hc, Res.ok_bind, hisl]
        cases hl : f.holeLeft <;> simp only [hl, if_true, if_false, Bool.false_eq_true] at hset <;>
          simp [hset, Heap.modify_of hc1]
      · rw [rep_plug]
        refine ⟨holds_ctx_refill H0.1 (by simp [hbp.symm]) ?_ hcn, by simp, by simpa using hcn⟩
        intro a ha hne
        have : a ≠ b := fun e => hbc (e ▸ ha)
        simp [this, hne]
      · refine hrs ?_ (by simp)
        intro a ha
        have : a ≠ b := fun e => by subst e; grind
        have : a ≠ f.label.1 := fun e => by subst e; grind
        simp [*]
      · intro a ha _
        have := hmem a ha
        have : a ≠ f.label.1 := fun e => this.1 (by simp [ctxAddrs, e])
        simp [*]
    | node q rl rr =>
      obtain ⟨y, w⟩ := q
      have hry : h.cells y = some ⟨w, none, rl.addr?, rr.addr?⟩ := by
        have := K.1; simp at this; exact this.1
      have hyp : y ≠ f.label.1 := fun e => hpr (by simp [e])
      have hyb : y ≠ b := fun e => hbr (by simp [e])
      have hrn := K.2
      have hc0 : (h.set f.label.1 (frameRec f fs (some y))).cells y = some ⟨w, none, rl.addr?, rr.addr?⟩ := by
        simp [hyp, hry]
      have hc1 : ((h.set f.label.1 (frameRec f fs (some y))).set y ⟨w, some f.label.1, rl.addr?, rr.addr?⟩).cells b
          = some ⟨v, some f.label.1, sl.addr?, sr.addr?⟩ := by simp [hbp, hyb.symm, hc]
      refine ⟨((h.set f.label.1 (frameRec f fs (some y))).set y ⟨w, some f.label.1, rl.addr?, rr.addr?⟩).set b
          ⟨v, none, sl.addr?, sr.addr?⟩, ?_, ?_, ?_, rfl, ?_⟩
      · simp only [addr?_node] at hset
        simp only [replaceWith, addr?_node, Heap.read_of hry, Res.ok_bind, Option.isNone_none, Res.assert_true,
          Heap.read_of hc, hisl]
        cases hl : f.holeLeft <;> simp only [hl, if_true, if_false, Bool.false_eq_true] at hset <;>
          simp [hset, Heap.modify_of hc0, Heap.modify_of hc1]
      · rw [rep_plug]
        refine ⟨holds_ctx_refill H0.1 (by simp [hbp.symm, hyp.symm]) ?_ hcn, ?_, ?_⟩
        · intro a ha hne
          have h1 : a ≠ b := fun e => hbc (e ▸ ha)
          have h2 : a ≠ y := fun e => hdis a (Or.inl ha) (by simp [e])
          simp [h1, h2, hne]
        · have h2 := K.1
          simp only [addrs_node] at hrn hpr hbr
          simp only [cells_node, holds_cons, holds_append, fpar_cons] at h2 ⊢
          refine ⟨by simp [hyb], h2.2.1.congr ?_, h2.2.2.congr ?_⟩ <;> rw [keys_cells] <;> intro a ha
          · have h1 : a ≠ b := fun e => hbr (by simp [← e, ha])
            have h2 : a ≠ y := fun e => by subst e; simp [ha] at hrn
            have h3 : a ≠ f.label.1 := fun e => hpr (by simp [← e, ha])
            simp [h1, h2, h3]
          · have h1 : a ≠ b := fun e => hbr (by simp [← e, ha])
            have h2 : a ≠ y := fun e => by subst e; simp [ha] at hrn
            have h3 : a ≠ f.label.1 := fun e => hpr (by simp [← e, ha])
            simp [h1, h2, h3]
        · rw [List.nodup_append]
          exact ⟨hcn, hrn, fun a ha b' hb e => hdis a (Or.inl ha) (e ▸ hb)⟩
      · refine hrs ?_ (by simp)
        intro a ha
        have h0 : a ≠ y := fun e => hdis a (by grind) (by simp [e])
        have h1 : a ≠ b := fun e => by subst e; grind
        have h2 : a ≠ f.label.1 := fun e => by subst e; grind
        simp [h0, h1, h2]
      · intro a ha hr
        have := hmem a ha
        have h1 : a ≠ f.label.1 := fun e => this.1 (by simp [ctxAddrs, e])
        have h2 : a ≠ y := fun e => hr (by simp [e])
        simp [h1, h2, this.2]

/-! ### adding a child -/

/-- Common part of adding a child below the node at `b`: its record now points to `nl` and `nr`, which consist of its
former child subtrees and the new tree `t`. -/
theorem addChild_rep {fs : List (Frame (Addr × α))} {b : Addr} {v : α} {l r nl nr t : BTree (Addr × α)} {h' : BHeap α}
    (H : Rep h (plug fs (node (b, v) l r))) (K : Rep h t) (hd : ∀ a ∈ (plug fs (node (b, v) l r)).addrs, a ∉ t.addrs)
    {y : Addr} (hy : t.addr? = some y)
    (hh : (nl = t ∧ ((nr = l ∧ r = .nil) ∨ (nr = r ∧ l = .nil))) ∨ (nr = t ∧ ((nl = l ∧ r = .nil) ∨ (nl = r ∧ l = .nil))))
    (hb : h'.cells b = some ⟨v, fpar fs, nl.addr?, nr.addr?⟩)
    (hyc : h'.cells y = (h.cells y).map (fun m => { m with parent := some b }))
    (hs : ∀ a, a ≠ b → a ≠ y → h'.cells a = h.cells a) :
    Rep h' (plug fs (node (b, v) nl nr)) := by
  have H0 := (rep_plug fs (node (b, v) l r)).mp H
  have hperm := addrs_plug fs (node (b, v) l r)
  have hdis : ∀ a, a ∈ ctxAddrs fs ∨ a = b ∨ a ∈ l.addrs ∨ a ∈ r.addrs → a ∉ t.addrs := by
    intro a ha
    refine hd a (hperm.mem_iff.mpr ?_)
    simp only [List.mem_append, addrs_node, List.mem_cons]; grind
  have hyt := addr?_mem hy
  obtain ⟨h1, h2, h3⟩ := H0
  have hk : Holds h' (cells (some b) t) := by
    cases t with
    | nil => simp at hy
    | node q tl tr =>
      obtain ⟨y', w⟩ := q
      simp at hy; subst hy
      have hk := K.1
      have hkn := K.2
      simp only [cells_node, holds_cons, holds_append, addrs_node, List.nodup_cons, List.mem_append, not_or] at hk hkn ⊢
      have hbt := hdis b (by simp)
      simp only [addrs_node, List.mem_cons, List.mem_append, not_or] at hbt
      refine ⟨by rw [hyc, hk.1]; rfl, hk.2.1.congr ?_, hk.2.2.congr ?_⟩ <;> rw [keys_cells] <;> intro a ha
      · exact hs a (fun e => hbt.2.1 (e ▸ ha)) (fun e => hkn.1.1 (e ▸ ha))
      · exact hs a (fun e => hbt.2.2 (e ▸ ha)) (fun e => hkn.1.2 (e ▸ ha))
  simp only [addrs_node, List.nodup_append, List.nodup_cons, List.mem_cons, List.mem_append] at h3
  simp only [cells_node, holds_cons, holds_append] at h2
  have hl : Holds h' (cells (some b) l) := h2.2.1.congr (by
    rw [keys_cells]; intro a ha
    exact hs a (fun e => by subst e; grind) (fun e => hdis a (by simp [ha]) (e ▸ hyt)))
  have hr : Holds h' (cells (some b) r) := h2.2.2.congr (by
    rw [keys_cells]; intro a ha
    exact hs a (fun e => by subst e; grind) (fun e => hdis a (by simp [ha]) (e ▸ hyt)))
  have hc : Holds h' (ctxCells fs (some b)) := h1.congr (by
    rw [keys_ctxCells]; intro a ha
    exact hs a (fun e => by subst e; grind) (fun e => hdis a (by simp [ha]) (e ▸ hyt)))
  have htn := K.2
  rw [rep_plug]
  refine ⟨hc, ?_, ?_⟩
  · simp only [cells_node, holds_cons, holds_append]
    refine ⟨hb, ?_⟩
    rcases hh with ⟨rfl, ⟨rfl, rfl⟩ | ⟨rfl, rfl⟩⟩ | ⟨rfl, ⟨rfl, rfl⟩ | ⟨rfl, rfl⟩⟩ <;> exact ⟨by assumption, by assumption⟩
  · simp only [addrs_node, List.nodup_append, List.nodup_cons, List.mem_cons, List.mem_append]
    rcases hh with ⟨rfl, ⟨rfl, rfl⟩ | ⟨rfl, rfl⟩⟩ | ⟨rfl, ⟨rfl, rfl⟩ | ⟨rfl, rfl⟩⟩ <;>
      clear hs hb hyc hk hl hr hc h2 H K <;> grind

theorem prepend_spec {fs : List (Frame (Addr × α))} {p : Addr × α} {l r t : BTree (Addr × α)}
    (H : Rep h (plug fs (node p l r))) (hfull : l = .nil ∨ r = .nil) (K : Rep h t)
    (hd : ∀ a ∈ (plug fs (node p l r)).addrs, a ∉ t.addrs) {y : Addr} (hy : t.addr? = some y) :
    ∃ h', prepend h p.1 (some y) = Res.ok h' ∧ Rep h' (plug fs (node p t (r.or l))) ∧ h'.next = h.next ∧
      (∀ a, a ∉ (plug fs (node p l r)).addrs → a ∉ t.addrs → h'.cells a = h.cells a) := by
  obtain ⟨b, v⟩ := p
  have hc := H.cell
  have hbm : b ∈ (plug fs (node (b, v) l r)).addrs := (addrs_plug _ _).mem_iff.mpr (by simp)
  have hby : b ≠ y := fun e => hd b hbm (e ▸ addr?_mem hy)
  have hyc : ∃ n, h.cells y = some n := by
    have := K.1.isSome (a := y) (by rw [keys_cells]; exact addr?_mem hy)
    exact Option.isSome_iff_exists.mp this
  obtain ⟨n, hyc⟩ := hyc
  suffices hh : ∀ P : BHeap α → Prop,
      (∀ h', h'.next = h.next →
        h'.cells b = some ⟨v, fpar fs, some y, (r.or l).addr?⟩ →
        h'.cells y = some { n with parent := some b } →
        (∀ a, a ≠ b → a ≠ y → h'.cells a = h.cells a) → P h') →
      ∃ h', prepend h b (some y) = Res.ok h' ∧ P h' by
    refine hh _ ?_
    intro h' hn hb hyc' hs
    refine ⟨?_, hn, ?_⟩
    · refine addChild_rep H K hd hy ?_ (by rw [hb]; simp [hy]) (by simp [hyc', hyc]) hs
      rcases hfull with rfl | rfl <;> simp
    · intro a ha ht
      exact hs a (fun e => ha (e ▸ hbm)) (fun e => ht (e ▸ addr?_mem hy))
  intro P hP
  have hyb := hby.symm
  rcases hfull with rfl | rfl
  · cases r with
    | nil =>
      simp [prepend, Heap.read, Heap.modify, hc, hby, hyb, hyc, -Res.ok.injEq]
      refine ⟨_, rfl, ?_⟩
      apply hP <;> simp [hby, hyb] <;> grind
    | node q rl rr =>
      simp [prepend, Heap.read, Heap.modify, hc, hby, hyb, hyc, -Res.ok.injEq]
      refine ⟨_, rfl, ?_⟩
      apply hP <;> simp [hby, hyb] <;> grind
  · simp [prepend, Heap.read, Heap.modify, hc, hby, hyb, hyc, -Res.ok.injEq]
    refine ⟨_, rfl, ?_⟩
    apply hP <;> simp [hby, hyb] <;> grind

theorem append_spec {fs : List (Frame (Addr × α))} {p : Addr × α} {l r t : BTree (Addr × α)}
    (H : Rep h (plug fs (node p l r))) (hfull : l = .nil ∨ r = .nil) (K : Rep h t)
    (hd : ∀ a ∈ (plug fs (node p l r)).addrs, a ∉ t.addrs) {y : Addr} (hy : t.addr? = some y) :
    ∃ h', append h p.1 (some y) = Res.ok h' ∧ Rep h' (plug fs (node p (l.or r) t)) ∧ h'.next = h.next ∧
      (∀ a, a ∉ (plug fs (node p l r)).addrs → a ∉ t.addrs → h'.cells a = h.cells a) := by
  obtain ⟨b, v⟩ := p
  have hc := H.cell
  have hbm : b ∈ (plug fs (node (b, v) l r)).addrs := (addrs_plug _ _).mem_iff.mpr (by simp)
  have hby : b ≠ y := fun e => hd b hbm (e ▸ addr?_mem hy)
  have hyc : ∃ n, h.cells y = some n := by
    have := K.1.isSome (a := y) (by rw [keys_cells]; exact addr?_mem hy)
    exact Option.isSome_iff_exists.mp this
  obtain ⟨n, hyc⟩ := hyc
  suffices hh : ∀ P : BHeap α → Prop,
      (∀ h', h'.next = h.next →
        h'.cells b = some ⟨v, fpar fs, (l.or r).addr?, some y⟩ →
        h'.cells y = some { n with parent := some b } →
        (∀ a, a ≠ b → a ≠ y → h'.cells a = h.cells a) → P h') →
      ∃ h', append h b (some y) = Res.ok h' ∧ P h' by
    refine hh _ ?_
    intro h' hn hb hyc' hs
    refine ⟨?_, hn, ?_⟩
    · refine addChild_rep H K hd hy ?_ (by rw [hb]; simp [hy]) (by simp [hyc', hyc]) hs
      rcases hfull with rfl | rfl <;> simp
    · intro a ha ht
      exact hs a (fun e => ha (e ▸ hbm)) (fun e => ht (e ▸ addr?_mem hy))
  intro P hP
  have hyb := hby.symm
  rcases hfull with rfl | rfl
  · simp [append, Heap.read, Heap.modify, hc, hby, hyb, hyc, -Res.ok.injEq]
    refine ⟨_, rfl, ?_⟩
    apply hP <;> simp [hby, hyb] <;> grind
  · cases l with
    | nil =>
      simp [append, Heap.read, Heap.modify, hc, hby, hyb, hyc, -Res.ok.injEq]
      refine ⟨_, rfl, ?_⟩
      apply hP <;> simp [hby, hyb] <;> grind
    | node q rl rr =>
      simp [append, Heap.read, Heap.modify, hc, hby, hyb, hyc, -Res.ok.injEq]
      refine ⟨_, rfl, ?_⟩
      apply hP <;> simp [hby, hyb] <;> grind

end Binary
