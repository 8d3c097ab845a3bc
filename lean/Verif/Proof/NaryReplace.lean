import Verif.Proof.NaryDealloc
/-! replace_with, prepend_child, append_child on nary nodes. -/
open Tree

set_option linter.unusedSimpArgs false

namespace Nary
variable {α : Type} {h : NHeap α}

/-- Siblings before a hole: only the last of them knows what follows. -/
theorem cellsL_snoc (par prev nx : Ptr) (k : Nat) (l : List (Tree (Addr × α))) (t : Tree (Addr × α)) :
    cellsL par prev nx k (l ++ [t]) =
      cellsL par prev (some t.addr) (k + 1) l ++ (t.addr, rec_ par ((lastAddr l).or prev) nx k t) :: below t := by
  rw [cellsL_append]
  simp [cells_eq, Nat.add_comm]

theorem cellsL_cons' (par prev nx : Ptr) (k : Nat) (t : Tree (Addr × α)) (l : List (Tree (Addr × α))) :
    cellsL par prev nx k (t :: l) =
      (t.addr, rec_ par prev ((headAddr l).or nx) (l.length + k) t) :: (below t ++ cellsL par (some t.addr) nx k l) := by
  simp [cells_eq]

@[simp] theorem fpar_cons (f : Frame (Addr × α)) (fs) : fpar (f :: fs) = some f.label.1 := rfl
@[simp] theorem fprev_cons (f : Frame (Addr × α)) (fs) : fprev (f :: fs) = lastAddr f.lefts := rfl
@[simp] theorem fnext_cons (f : Frame (Addr × α)) (fs) : fnext (f :: fs) = headAddr f.rights := rfl
@[simp] theorem ffol_cons (f : Frame (Addr × α)) (fs) : ffol (f :: fs) = f.rights.length := rfl

theorem lastAddr_some {ts : List (Tree (Addr × α))} (hne : ts ≠ []) : ∃ z ∈ addrsL ts, lastAddr ts = some z := by
  rcases List.eq_nil_or_concat ts with rfl | ⟨l, t, rfl⟩
  · exact absurd rfl hne
  · exact ⟨t.addr, by simp [addr_mem_addrs], by simp⟩

set_option maxHeartbeats 1000000 in
/-- What the heap looks like after `replace_with`, up to the cells of the two subtrees. -/
theorem replaceWith_some {f} {fs : List (Frame (Addr × α))} {s r : Tree (Addr × α)} (fuel : Nat)
    (H : Rep h (plug (f :: fs) s)) (R : Rep h r) (hd : ∀ a ∈ r.addrs, a ∉ (plug (f :: fs) s).addrs) :
    ∃ h', replaceWith fuel h s.addr (some r.addr) = Res.ok h' ∧ Rep h' (plug (f :: fs) r) ∧ Rep h' s ∧
      h'.next = h.next ∧
      (∀ a, a ∉ (plug (f :: fs) s).addrs → a ∉ r.addrs → h'.cells a = h.cells a) := by
  have hmem : ∀ a, a ∈ (plug (f :: fs) s).addrs ↔ a ∈ ctxAddrs (f :: fs) ∨ a ∈ s.addrs := by
    intro a; rw [(addrs_plug (f :: fs) s).mem_iff]; simp
  rw [rep_plug] at H
  obtain ⟨h1, h2, h3⟩ := H
  obtain ⟨r1, r2⟩ := R
  rw [focusCells_eq, holds_cons] at h2
  rw [cells_eq, holds_cons] at r1
  obtain ⟨hs, hsb⟩ := h2
  obtain ⟨hr0, hrb⟩ := r1
  obtain ⟨p, lefts, rights⟩ := f
  obtain ⟨p, v⟩ := p
  simp only [ctxCells, holds_cons, holds_append, fpar_cons, fprev_cons, fnext_cons, ffol_cons, frameRec] at h1 hs hsb
  obtain ⟨hp, hl, hr, hfs⟩ := h1
  simp only at hp hs hr0 hl hr
  have goal_of : ∀ h' : NHeap α, h'.next = h.next →
      h'.cells p = some ⟨v, fpar fs, ffol fs, fprev fs, fnext fs, (headAddr lefts).or (some r.addr), (lastAddr rights).or (some r.addr)⟩ →
      h'.cells r.addr = some (rec_ (some p) (lastAddr lefts) (headAddr rights) rights.length r) →
      h'.cells s.addr = some (rec_ none none none 0 s) →
      Holds h' (cellsL (some p) none (some r.addr) (rights.length + 1) lefts) →
      Holds h' (cellsL (some p) (some r.addr) none 0 rights) →
      (∀ a, a ≠ p → a ≠ r.addr → a ≠ s.addr → a ∉ addrsL lefts → a ∉ addrsL rights → h'.cells a = h.cells a) →
      Rep h' (plug (⟨(p, v), lefts, rights⟩ :: fs) r) ∧ Rep h' s ∧ h'.next = h.next ∧
      (∀ a, a ∉ (plug (⟨(p, v), lefts, rights⟩ :: fs) s).addrs → a ∉ r.addrs → h'.cells a = h.cells a) := by
    intro h' e0 e1 e2 e3 e4 e5 e6
    have n1 : (ctxAddrs (⟨(p, v), lefts, rights⟩ :: fs) ++ r.addrs).Nodup := by
      rw [List.nodup_append] at h3 ⊢
      refine ⟨h3.1, r2, ?_⟩
      intro a ha b hb
      have := hd b hb
      rw [hmem] at this
      grind
    have n2 := h3
    rw [addrs_eq] at n1 n2 r2
    simp only [ctxAddrs] at n1 n2
    refine ⟨?_, ?_, e0, ?_⟩
    · rw [rep_plug, focusCells_eq, holds_cons]
      refine ⟨?_, ⟨e2, ?_⟩, ?_⟩
      · simp only [ctxCells, holds_cons, holds_append]
        refine ⟨e1, e4, e5, ?_⟩
        refine hfs.congr ?_
        intro a ha
        rw [keys_ctxCells] at ha
        apply e6 <;> grind
      · refine hrb.congr ?_
        intro a ha
        rw [keys_below] at ha
        have := hd a (by rw [addrs_eq]; simp [ha])
        rw [hmem] at this
        simp only [ctxAddrs] at this
        have := addr_mem_addrs s
        apply e6 <;> grind
      · rw [addrs_eq]; exact n1
    · refine ⟨?_, (List.nodup_append.mp h3).2.1⟩
      rw [cells_eq, holds_cons]
      refine ⟨e3, hsb.congr ?_⟩
      intro a ha
      rw [keys_below] at ha
      have := hd r.addr (addr_mem_addrs r)
      rw [hmem, addrs_eq] at this
      simp only [ctxAddrs] at this
      apply e6 <;> grind
    · intro a ha hb
      rw [hmem] at ha
      have := addr_mem_addrs s
      have := addr_mem_addrs r
      simp only [ctxAddrs] at ha
      apply e6 <;> grind
  have hd' := hd r.addr (addr_mem_addrs r)
  rw [hmem, addrs_eq] at hd'
  rw [addrs_eq] at h3
  simp only [ctxAddrs] at h3 hd'
  simp only [List.mem_append, List.mem_cons, not_or] at hd'
  have hd2 : p ≠ r.addr := Ne.symm hd'.1.1
  have hd3 : s.addr ≠ r.addr := Ne.symm hd'.2.1
  have hd4 : p ≠ s.addr := by grind
  obtain ⟨⟨hd5, hd6, hd7, hd8⟩, hd9, hd10⟩ := hd'
  suffices hh : ∀ P : NHeap α → Prop, (∀ h' : NHeap α, h'.next = h.next →
      h'.cells p = some ⟨v, fpar fs, ffol fs, fprev fs, fnext fs, (headAddr lefts).or (some r.addr), (lastAddr rights).or (some r.addr)⟩ →
      h'.cells r.addr = some (rec_ (some p) (lastAddr lefts) (headAddr rights) rights.length r) →
      h'.cells s.addr = some (rec_ none none none 0 s) →
      Holds h' (cellsL (some p) none (some r.addr) (rights.length + 1) lefts) →
      Holds h' (cellsL (some p) (some r.addr) none 0 rights) →
      (∀ a, a ≠ p → a ≠ r.addr → a ≠ s.addr → a ∉ addrsL lefts → a ∉ addrsL rights → h'.cells a = h.cells a) → P h') →
        ∃ h', replaceWith fuel h s.addr (some r.addr) = Res.ok h' ∧ P h' by
    exact hh _ goal_of
  clear goal_of hd hmem
  intro P hP
  have step1 : ∀ f : NNode α → NNode α, h.modify r.addr f = Res.ok (h.set r.addr (f (rec_ none none none 0 r))) :=
    fun f => Heap.modify_of hr0 f
  simp only [replaceWith, Heap.read_of hr0, Heap.read_of hs, Res.ok_bind, rec_, Option.isNone_none, Bool.and_self, Res.assert_true, step1]
  rcases List.eq_nil_or_concat lefts with rfl | ⟨l, pv, rfl⟩
  · cases rights with
    | nil =>
      simp [Heap.modify, hp, hs, hd2, hd3, hd4, relink, isLastChild, Heap.read, hd2.symm, hd3.symm, hd4.symm, rec_, -Res.ok.injEq]
      refine ⟨_, rfl, ?_⟩
      apply hP <;> simp [hp, hd2, hd3, hd4, hd2.symm, hd3.symm, hd4.symm, rec_]
      intro a h1 h2 h3; simp [h1, h2, h3]
    | cons nx rr =>
      rw [cellsL_cons', holds_cons, holds_append] at hr
      obtain ⟨hx, hxb, hxr⟩ := hr
      obtain ⟨z, hz, hz'⟩ := lastAddr_some (ts := nx :: rr) (by simp)
      simp only [addrsL_cons, addrs_eq nx] at *
      simp only [List.nodup_append, List.nodup_cons, List.mem_append, List.mem_cons] at h3 hz
      have q0 : nx.addr ≠ s.addr := by clear hP step1; grind
      have q1 : nx.addr ≠ p := by clear hP step1; grind
      have q2 : nx.addr ≠ r.addr := by simp at hd7; exact Ne.symm hd7.1
      have q3 : z ≠ s.addr := by clear hP step1; grind
      simp [Heap.modify, hp, hs, hx, hd2, hd3, hd4, relink, isLastChild, Heap.read, hd2.symm, hd3.symm, hd4.symm, q0, q1, q2, rec_, -Res.ok.injEq, q3, q3.symm, hz', q0.symm, q1.symm, q2.symm]
      refine ⟨_, rfl, ?_⟩
      apply hP <;> simp [hp, hd2, hd3, hd4, hd2.symm, hd3.symm, hd4.symm, rec_, q0, q1, q2, q0.symm, q1.symm, q2.symm, hz', cells_eq]
      · refine ⟨hxb.congr ?_, hxr.congr ?_⟩
        · intro a ha; rw [keys_below] at ha; simp; clear hP step1; grind
        · intro a ha; rw [keys_cellsL] at ha; simp; clear hP step1; grind
      · clear hP step1; grind
  · simp only [List.concat_eq_append] at *
    rw [cellsL_snoc, holds_append, holds_cons] at hl
    obtain ⟨hll, hv, hvb⟩ := hl
    simp only [addrsL_append, addrsL_cons, addrs_eq pv, addrsL_nil, List.append_nil] at *
    simp only [List.nodup_append, List.nodup_cons, List.mem_append, List.mem_cons] at h3
    have u0 : pv.addr ≠ s.addr := by clear hP step1; grind
    have u1 : pv.addr ≠ p := by clear hP step1; grind
    have u2 : pv.addr ≠ r.addr := by clear hP step1; grind
    cases rights with
    | nil =>
      simp [Heap.modify, hp, hs, hv, hd2, hd3, hd4, relink, isLastChild, Heap.read, hd2.symm, hd3.symm, hd4.symm, rec_, -Res.ok.injEq, u0, u1, u2, u0.symm, u1.symm, u2.symm]
      refine ⟨_, rfl, ?_⟩
      apply hP <;> simp [hp, hd2, hd3, hd4, hd2.symm, hd3.symm, hd4.symm, rec_, u0, u1, u2, u0.symm, u1.symm, u2.symm, cellsL_snoc]
      · refine ⟨hll.congr ?_, hvb.congr ?_⟩
        · intro a ha; rw [keys_cellsL] at ha; simp; clear hP step1; grind
        · intro a ha; rw [keys_below] at ha; simp; clear hP step1; grind
      · clear hP step1; grind
    | cons nx rr =>
      rw [cellsL_cons', holds_cons, holds_append] at hr
      obtain ⟨hx, hxb, hxr⟩ := hr
      obtain ⟨z, hz, hz'⟩ := lastAddr_some (ts := nx :: rr) (by simp)
      simp only [addrsL_cons, addrs_eq nx] at *
      simp only [List.nodup_append, List.nodup_cons, List.mem_append, List.mem_cons] at h3 hz
      have q0 : nx.addr ≠ s.addr := by clear hP step1; grind
      have q1 : nx.addr ≠ p := by clear hP step1; grind
      have q2 : nx.addr ≠ r.addr := by simp at hd7; exact Ne.symm hd7.1
      have q4 : nx.addr ≠ pv.addr := by clear hP step1; grind
      have q3 : z ≠ s.addr := by clear hP step1; grind
      simp [Heap.modify, hp, hs, hx, hv, hd2, hd3, hd4, relink, isLastChild, Heap.read, hd2.symm, hd3.symm, hd4.symm, q0, q1, q2, rec_, -Res.ok.injEq, q3, q3.symm, hz', q0.symm, q1.symm, q2.symm, u0, u1, u2, u0.symm, u1.symm, u2.symm, q4, q4.symm]
      refine ⟨_, rfl, ?_⟩
      apply hP <;> simp [hp, hd2, hd3, hd4, hd2.symm, hd3.symm, hd4.symm, rec_, q0, q1, q2, q0.symm, q1.symm, q2.symm, hz', cells_eq, u0, u1, u2, u0.symm, u1.symm, u2.symm, q4, q4.symm, cellsL_snoc]
      · refine ⟨hll.congr ?_, hvb.congr ?_⟩
        · intro a ha; rw [keys_cellsL] at ha; simp; clear hP step1; grind
        · intro a ha; rw [keys_below] at ha; simp; clear hP step1; grind
      · refine ⟨hxb.congr ?_, hxr.congr ?_⟩
        · intro a ha; rw [keys_below] at ha; simp; clear hP step1; grind
        · intro a ha; rw [keys_cellsL] at ha; simp; clear hP step1; grind
      · clear hP step1; grind

end Nary
