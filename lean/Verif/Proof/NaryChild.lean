import Verif.Proof.NaryEdit
/-! prepend_child and append_child on nary nodes. -/
open Tree

set_option linter.unusedSimpArgs false

namespace Nary
variable {α : Type} {h : NHeap α}

theorem prepend_spec {p : Addr × α} {cs} {fs : List (Frame (Addr × α))} {r : Tree (Addr × α)}
    (H : Rep h (plug fs (node p cs))) (R : Rep h r) (hd : ∀ a ∈ r.addrs, a ∉ (plug fs (node p cs)).addrs) :
    ∃ h', prepend h p.1 (some r.addr) = Res.ok h' ∧ Rep h' (plug fs (node p (r :: cs))) ∧ h'.next = h.next ∧
      (∀ a, a ∉ (plug fs (node p cs)).addrs → a ∉ r.addrs → h'.cells a = h.cells a) := by
  have hmem : ∀ a, a ∈ (plug fs (node p cs)).addrs ↔ a ∈ ctxAddrs fs ∨ a = p.1 ∨ a ∈ addrsL cs := by
    intro a; rw [(addrs_plug fs _).mem_iff]; simp
  simp only [hmem] at hd ⊢
  obtain ⟨h1, h2, h3⟩ := (rep_plug _ _).mp H
  rw [holds_focus] at h2
  obtain ⟨hp, hcs⟩ := h2
  obtain ⟨r1, r2⟩ := R
  rw [cells_eq, holds_cons] at r1
  obtain ⟨hr, hrb⟩ := r1
  have hdr := hd r.addr (addr_mem_addrs r)
  rw [addrs_eq r, List.nodup_cons] at r2
  simp only [addrs_eq r, List.mem_cons] at hd
  simp only [addrs_node, List.nodup_append, List.nodup_cons, List.mem_cons] at h3
  have q0 : r.addr ≠ p.1 := by grind
  suffices hh : ∀ P : NHeap α → Prop, (∀ h' : NHeap α, h'.next = h.next →
      h'.cells p.1 = some ⟨p.2, fpar fs, ffol fs, fprev fs, fnext fs, some r.addr, lastAddr (r :: cs)⟩ →
      h'.cells r.addr = some (rec_ (some p.1) none (headAddr cs) cs.length r) →
      Holds h' (cellsL (some p.1) (some r.addr) none 0 cs) →
      (∀ a, a ≠ r.addr → a ≠ p.1 → a ∉ addrsL cs → h'.cells a = h.cells a) → P h') →
        ∃ h', prepend h p.1 (some r.addr) = Res.ok h' ∧ P h' by
    apply hh
    intro h' f0 f1 f2 f3 f4
    refine ⟨?_, f0, ?_⟩
    · refine rep_refocus H rfl ?_ ?_ ?_
      · intro a ha
        exact f4 a (by grind) (by grind) (by grind)
      · rw [holds_focus]
        refine ⟨by simpa using f1, ?_⟩
        rw [cellsL_cons', holds_cons, holds_append]
        refine ⟨by simpa using f2, hrb.congr ?_, f3⟩
        intro a ha
        rw [keys_below] at ha
        exact f4 a (by grind) (by grind) (by grind)
      · simp only [addrs_node, addrsL_cons, addrs_eq r, List.nodup_append, List.nodup_cons, List.mem_cons, List.mem_append]
        grind
    · intro a ha hb
      rw [addrs_eq r, List.mem_cons] at hb
      exact f4 a (by grind) (by grind) (by grind)
  intro P hP
  simp only [rec_] at hr
  cases cs with
  | nil =>
    simp [prepend, Heap.read, Heap.modify, hr, hp, q0, q0.symm, -Res.ok.injEq]
    refine ⟨_, rfl, ?_⟩
    apply hP <;> simp [q0, q0.symm, rec_]
    intro a h1 h2; simp [h1, h2]
  | cons c cs =>
    have hc := hcs
    rw [cellsL_cons', holds_cons] at hc
    have hc1 := hc.1
    simp only [rec_] at hc1
    simp only [addrsL_cons, List.mem_append, addrs_eq c, List.mem_cons, List.nodup_append, List.nodup_cons] at h3 hd hdr
    have q1 : c.addr ≠ p.1 := by grind
    have q2 : c.addr ≠ r.addr := by grind
    simp [prepend, Heap.read, Heap.modify, hr, hp, hc1, q0, q0.symm, q1, q1.symm, q2, q2.symm, -Res.ok.injEq]
    refine ⟨_, rfl, ?_⟩
    apply hP <;> (try simp only [Heap.set_cells, Heap.set_next])
    · simp [q0, q0.symm, q1, q1.symm, q2, q2.symm, rec_, lastAddr_cons r, lastAddr_cons c]
    · simp [q0, q0.symm, q1, q1.symm, q2, q2.symm, rec_]
    · refine holds_cellsL_prev hcs ?_ ?_ ?_
      · simp only [addrsL_cons, List.mem_append, addrs_eq c, List.mem_cons, List.nodup_append, List.nodup_cons]
        grind
      · simp [q0, q0.symm, q1, q1.symm, q2, q2.symm, rec_]
      · simp only [addrsL_cons, List.mem_append, addrs_eq c, List.mem_cons, List.nodup_append, List.nodup_cons, Heap.set_cells]
        clear hP
        grind
    · simp only [addrsL_cons, List.mem_append, addrs_eq c, List.mem_cons]
      clear hP
      grind

theorem append_spec {p : Addr × α} {cs} {fs : List (Frame (Addr × α))} {r : Tree (Addr × α)} {fuel : Nat}
    (H : Rep h (plug fs (node p cs))) (R : Rep h r) (hd : ∀ a ∈ r.addrs, a ∉ (plug fs (node p cs)).addrs)
    (hf : cs.length < fuel) :
    ∃ h', append fuel h p.1 (some r.addr) = Res.ok h' ∧ Rep h' (plug fs (node p (cs ++ [r]))) ∧ h'.next = h.next ∧
      (∀ a, a ∉ (plug fs (node p cs)).addrs → a ∉ r.addrs → h'.cells a = h.cells a) := by
  have hmem : ∀ a, a ∈ (plug fs (node p cs)).addrs ↔ a ∈ ctxAddrs fs ∨ a = p.1 ∨ a ∈ addrsL cs := by
    intro a; rw [(addrs_plug fs _).mem_iff]; simp
  simp only [hmem] at hd ⊢
  obtain ⟨h1, h2, h3⟩ := (rep_plug _ _).mp H
  rw [holds_focus] at h2
  obtain ⟨hp, hcs⟩ := h2
  obtain ⟨r1, r2⟩ := R
  rw [cells_eq, holds_cons] at r1
  obtain ⟨hr, hrb⟩ := r1
  have hdr := hd r.addr (addr_mem_addrs r)
  rw [addrs_eq r, List.nodup_cons] at r2
  simp only [addrs_eq r, List.mem_cons] at hd
  simp only [addrs_node, List.nodup_append, List.nodup_cons, List.mem_cons] at h3
  have q0 : r.addr ≠ p.1 := by grind
  suffices hh : ∀ P : NHeap α → Prop, (∀ h' : NHeap α, h'.next = h.next →
      h'.cells p.1 = some ⟨p.2, fpar fs, ffol fs, fprev fs, fnext fs, headAddr (cs ++ [r]), some r.addr⟩ →
      h'.cells r.addr = some (rec_ (some p.1) (lastAddr cs) none 0 r) →
      Holds h' (cellsL (some p.1) none (some r.addr) 1 cs) →
      (∀ a, a ≠ r.addr → a ≠ p.1 → a ∉ addrsL cs → h'.cells a = h.cells a) → P h') →
        ∃ h', append fuel h p.1 (some r.addr) = Res.ok h' ∧ P h' by
    apply hh
    intro h' f0 f1 f2 f3 f4
    refine ⟨?_, f0, ?_⟩
    · refine rep_refocus H rfl ?_ ?_ ?_
      · intro a ha
        exact f4 a (by grind) (by grind) (by grind)
      · rw [holds_focus]
        refine ⟨by simpa using f1, ?_⟩
        rw [cellsL_snoc, holds_append, holds_cons]
        refine ⟨f3, by simpa using f2, hrb.congr ?_⟩
        intro a ha
        rw [keys_below] at ha
        exact f4 a (by grind) (by grind) (by grind)
      · simp only [addrs_node, addrsL_append, addrsL_cons, addrsL_nil, List.append_nil, addrs_eq r, List.nodup_append, List.nodup_cons, List.mem_cons, List.mem_append]
        grind
    · intro a ha hb
      rw [addrs_eq r, List.mem_cons] at hb
      exact f4 a (by grind) (by grind) (by grind)
  intro P hP
  simp only [rec_] at hr
  rcases List.eq_nil_or_concat cs with rfl | ⟨cs, c, rfl⟩
  · simp [append, Heap.read, Heap.modify, hr, hp, q0, q0.symm, -Res.ok.injEq]
    refine ⟨_, rfl, ?_⟩
    apply hP <;> simp [q0, q0.symm, rec_]
    intro a h1 h2; simp [h1, h2]
  · simp only [List.concat_eq_append] at *
    obtain ⟨g, e1, e2, e3, e4⟩ := bumpLoop_spec fuel (cs ++ [c]) h _ _ 0 hcs h3.2.1.2 hf
    have gp := e4 p.1 h3.2.1.1
    have gr := e4 r.addr (by grind)
    rw [hp] at gp
    rw [hr] at gr
    have hc := e2
    rw [cellsL_snoc, holds_append, holds_cons] at hc
    have hc1 := hc.2.1
    simp only [rec_] at hc1
    simp only [addrsL_append, addrsL_cons, addrsL_nil, List.append_nil, List.mem_append, addrs_eq c, List.mem_cons, List.nodup_append, List.nodup_cons] at h3 hd hdr e4
    have q1 : c.addr ≠ p.1 := by grind
    have q2 : c.addr ≠ r.addr := by grind
    obtain ⟨w, hw⟩ : ∃ w, headAddr (cs ++ [c]) = some w := by cases cs <;> simp
    rw [hw] at e1
    have hl : lastAddr (cs ++ [c]) = some c.addr := by simp
    rw [hw, hl] at hp
    rw [hw, hl] at gp
    simp [append, Heap.read, Heap.modify, hr, hp, e1, gp, gr, hc1, q0, q0.symm, q1, q1.symm, q2, q2.symm, -Res.ok.injEq, -headAddr_append]
    refine ⟨_, rfl, ?_⟩
    apply hP <;> (try simp only [Heap.set_cells, Heap.set_next])
    · exact e3
    · simp [q0, q0.symm, q1, q1.symm, q2, q2.symm, rec_, hw, -headAddr_append]
      rw [show cs ++ [c, r] = (cs ++ [c]) ++ [r] by simp, headAddr_append, hw]; rfl
    · simp [q0, q0.symm, q1, q1.symm, q2, q2.symm, rec_]
    · refine holds_cellsL_next e2 ?_ ?_ ?_
      · simp only [addrsL_append, addrsL_cons, addrsL_nil, List.append_nil, List.mem_append, addrs_eq c, List.mem_cons, List.nodup_append, List.nodup_cons]
        grind
      · simp [q0, q0.symm, q1, q1.symm, q2, q2.symm, rec_]
      · simp only [addrsL_append, addrsL_cons, addrsL_nil, List.append_nil, List.mem_append, addrs_eq c, List.mem_cons, List.nodup_append, List.nodup_cons, Heap.set_cells]
        clear hP
        grind
    · simp only [addrsL_append, addrsL_cons, addrsL_nil, List.append_nil, List.mem_append, addrs_eq c, List.mem_cons]
      clear hP
      grind

end Nary
