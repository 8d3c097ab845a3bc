import Verif.Proof.NaryReplace
/-! Erasing a middle child, prepend_child, append_child on nary nodes. -/
open Tree

set_option linter.unusedSimpArgs false

namespace Nary
variable {α : Type} {h : NHeap α}

theorem rep_refocus {h' : NHeap α} {fs} {s s' : Tree (Addr × α)} (H : Rep h (plug fs s)) (ha : s'.addr = s.addr)
    (hc : ∀ a ∈ ctxAddrs fs, h'.cells a = h.cells a) (hf : Holds h' (focusCells fs s'))
    (hn : (ctxAddrs fs ++ s'.addrs).Nodup) : Rep h' (plug fs s') := by
  rw [rep_plug] at H ⊢
  refine ⟨?_, hf, hn⟩
  rw [ha]
  refine H.1.congr ?_
  intro a ham; rw [keys_ctxCells] at ham; exact hc a ham

theorem unlinkLoop_spec (x : Addr) : ∀ (fuel : Nat) (ts : List (Tree (Addr × α))) (h : NHeap α) (par prev back : Ptr) (k : Nat),
    Holds h (cellsL par prev (some x) (k + 1) ts) → (addrsL ts).Nodup → x ∉ addrsL ts → ts.length < fuel →
      ∃ h', unlinkLoop x fuel h ((headAddr ts).or (some x)) back = Res.ok (h', (lastAddr ts).or back) ∧
        Holds h' (cellsL par prev (some x) k ts) ∧ h'.next = h.next ∧ (∀ a, a ∉ addrsL ts → h'.cells a = h.cells a) := by
  intro fuel
  induction fuel with
  | zero => intro ts h par prev back k _ _ _ hf; omega
  | succ fuel ih =>
    intro ts h par prev back k H hn hx hf
    cases ts with
    | nil => exact ⟨h, by simp [unlinkLoop], by simp, rfl, by simp⟩
    | cons t ts =>
      simp only [cellsL_cons, holds_append, cells_eq, holds_cons] at H
      obtain ⟨⟨hc, hb⟩, hr⟩ := H
      simp only [addrsL_cons, List.nodup_append, addrs_eq t, List.nodup_cons, List.mem_append, List.mem_cons, not_or] at hn hx
      have htx : t.addr ≠ x := Ne.symm hx.1.1
      simp only [headAddr_cons, Option.some_or, unlinkLoop, if_neg htx, Heap.modify_of hc, Res.ok_bind, rec_,
        Heap.read, Heap.set_cells, if_pos]
      have hr' : Holds (h.set t.addr { value := t.label.2, parent := par, following := ts.length + (k + 1) - 1, prev := prev, next := (headAddr ts).or (some x), first := headAddr t.children, last := lastAddr t.children : NNode α })
          (cellsL par (some t.addr) (some x) (k + 1) ts) := by
        refine (holds_set ?_).mpr hr
        rw [keys_cellsL]
        intro hm
        exact hn.2.2 _ (Or.inl rfl) _ hm rfl
      obtain ⟨h', e1, e2, e3, e4⟩ := ih ts _ par (some t.addr) (some t.addr) k hr' hn.2.1 hx.2 (by simp at hf; omega)
      refine ⟨h', ?_, ?_, e3, ?_⟩
      · rw [e1, lastAddr_cons]; simp [Option.or_assoc]
      · simp only [cellsL_cons, holds_append, cells_eq, holds_cons]
        refine ⟨⟨?_, hb.congr ?_⟩, e2⟩
        · rw [e4 t.addr (fun hm => hn.2.2 _ (Or.inl rfl) _ hm rfl)]
          simp [rec_]
        · intro a ha
          rw [keys_below] at ha
          rw [e4 a (fun hm => hn.2.2 _ (Or.inr ha) _ hm rfl)]
          simp
          rintro rfl
          exact absurd ha hn.1.1
      · intro a ha
        simp only [addrsL_cons, addrs_eq t, List.mem_append, List.mem_cons, not_or] at ha
        rw [e4 a ha.2]
        simp [ha.1.1]

theorem bumpLoop_spec : ∀ (fuel : Nat) (ts : List (Tree (Addr × α))) (h : NHeap α) (par prev : Ptr) (k : Nat),
    Holds h (cellsL par prev none k ts) → (addrsL ts).Nodup → ts.length < fuel →
      ∃ h', bumpLoop fuel h (headAddr ts) = Res.ok h' ∧
        Holds h' (cellsL par prev none (k + 1) ts) ∧ h'.next = h.next ∧ (∀ a, a ∉ addrsL ts → h'.cells a = h.cells a) := by
  intro fuel
  induction fuel with
  | zero => intro ts h par prev k _ _ hf; omega
  | succ fuel ih =>
    intro ts h par prev k H hn hf
    cases ts with
    | nil => exact ⟨h, by simp [bumpLoop], by simp, rfl, by simp⟩
    | cons t ts =>
      simp only [cellsL_cons, holds_append, cells_eq, holds_cons] at H
      obtain ⟨⟨hc, hb⟩, hr⟩ := H
      simp only [addrsL_cons, List.nodup_append, addrs_eq t, List.nodup_cons, List.mem_append, List.mem_cons, not_or] at hn
      simp only [headAddr_cons, Option.some_or, bumpLoop, Heap.modify_of hc, Res.ok_bind, rec_,
        Heap.read, Heap.set_cells, if_pos]
      have hr' : Holds (h.set t.addr { value := t.label.2, parent := par, following := ts.length + k + 1, prev := prev, next := (headAddr ts).or none, first := headAddr t.children, last := lastAddr t.children : NNode α })
          (cellsL par (some t.addr) none k ts) := by
        refine (holds_set ?_).mpr hr
        rw [keys_cellsL]
        intro hm
        exact hn.2.2 _ (Or.inl rfl) _ hm rfl
      obtain ⟨h', e1, e2, e3, e4⟩ := ih ts _ par (some t.addr) k hr' hn.2.1 (by simp at hf; omega)
      refine ⟨h', ?_, ?_, e3, ?_⟩
      · simpa using e1
      · simp only [cellsL_cons, holds_append, cells_eq, holds_cons]
        refine ⟨⟨?_, hb.congr ?_⟩, e2⟩
        · rw [e4 t.addr (fun hm => hn.2.2 _ (Or.inl rfl) _ hm rfl)]
          simp [rec_]; omega
        · intro a ha
          rw [keys_below] at ha
          rw [e4 a (fun hm => hn.2.2 _ (Or.inr ha) _ hm rfl)]
          simp
          rintro rfl
          exact absurd ha hn.1.1
      · intro a ha
        simp only [addrsL_cons, addrs_eq t, List.mem_append, List.mem_cons, not_or] at ha
        rw [e4 a ha.2]
        simp [ha.1.1]

/-- Siblings after a node: only the first of them knows what precedes. -/
theorem holds_cellsL_prev {h' : NHeap α} {par nx : Ptr} {k : Nat} {t : Tree (Addr × α)} {ts} {prev prev' : Ptr}
    (H : Holds h (cellsL par prev nx k (t :: ts))) (hn : (addrsL (t :: ts)).Nodup)
    (h1 : h'.cells t.addr = some (rec_ par prev' ((headAddr ts).or nx) (ts.length + k) t))
    (h2 : ∀ a ∈ addrsL (t :: ts), a ≠ t.addr → h'.cells a = h.cells a) :
    Holds h' (cellsL par prev' nx k (t :: ts)) := by
  rw [cellsL_cons', holds_cons, holds_append] at *
  simp only [addrsL_cons, List.nodup_append, addrs_eq t, List.nodup_cons, List.mem_append, List.mem_cons] at hn h2
  refine ⟨h1, H.2.1.congr ?_, H.2.2.congr ?_⟩
  · intro a ha; rw [keys_below] at ha
    exact h2 a (Or.inl (Or.inr ha)) (by rintro rfl; exact hn.1.1 ha)
  · intro a ha; rw [keys_cellsL] at ha
    exact h2 a (Or.inr ha) (fun e => hn.2.2 t.addr (Or.inl rfl) a ha e.symm)

/-- Siblings before a node: only the last of them knows what follows. -/
theorem holds_cellsL_next {h' : NHeap α} {par prev : Ptr} {k : Nat} {t : Tree (Addr × α)} {ts} {nx nx' : Ptr}
    (H : Holds h (cellsL par prev nx k (ts ++ [t]))) (hn : (addrsL (ts ++ [t])).Nodup)
    (h1 : h'.cells t.addr = some (rec_ par ((lastAddr ts).or prev) nx' k t))
    (h2 : ∀ a ∈ addrsL (ts ++ [t]), a ≠ t.addr → h'.cells a = h.cells a) :
    Holds h' (cellsL par prev nx' k (ts ++ [t])) := by
  rw [cellsL_snoc, holds_append, holds_cons] at *
  simp only [addrsL_append, addrsL_cons, addrsL_nil, List.append_nil, List.nodup_append, addrs_eq t, List.nodup_cons, List.mem_append, List.mem_cons] at hn h2
  refine ⟨H.1.congr ?_, h1, H.2.2.congr ?_⟩
  · intro a ha; rw [keys_cellsL] at ha
    exact h2 a (Or.inl ha) (fun e => hn.2.2 a ha t.addr (Or.inl rfl) e)
  · intro a ha; rw [keys_below] at ha
    exact h2 a (Or.inr (Or.inr ha)) (by rintro rfl; exact hn.2.1.1 ha)

/-- What is stored in a position whose children are `cs`. -/
theorem holds_focus {fs} {p : Addr × α} {cs : List (Tree (Addr × α))} :
    Holds h (focusCells fs (node p cs)) ↔
      h.cells p.1 = some ⟨p.2, fpar fs, ffol fs, fprev fs, fnext fs, headAddr cs, lastAddr cs⟩ ∧
      Holds h (cellsL (some p.1) none none 0 cs) := by
  rw [focusCells_eq]; simp [below, rec_, addr]

/-- Unlinking a child that has siblings on both sides. -/
theorem replaceWith_none {p : Addr × α} {fs : List (Frame (Addr × α))} {l rr} {pv s nx : Tree (Addr × α)} (fuel : Nat)
    (H : Rep h (plug (⟨p, l ++ [pv], nx :: rr⟩ :: fs) s)) (hfu : l.length + 1 < fuel) :
    ∃ h', replaceWith fuel h s.addr none = Res.ok h' ∧ Rep h' (plug fs (node p (l ++ [pv] ++ nx :: rr))) ∧ Rep h' s ∧
      h'.next = h.next ∧
      (∀ a, a ∉ (plug (⟨p, l ++ [pv], nx :: rr⟩ :: fs) s).addrs → h'.cells a = h.cells a) := by
  have H0 := H
  have hs := H.cell
  have hp := H.parent_cell
  rw [plug_cons] at H
  obtain ⟨h1, h2, h3⟩ := (rep_plug _ _).mp H
  rw [holds_focus] at h2
  simp only at h2
  rw [cellsL_append, cellsL_cons, holds_append, holds_append] at h2
  obtain ⟨hp', hl, hs', hr⟩ := h2
  simp only [addrs_node, addrsL_append, addrsL_cons, addrsL_nil, List.append_nil, List.nodup_append, List.nodup_cons,
    addrs_eq s, addrs_eq nx, addrs_eq pv, List.mem_append, List.mem_cons] at h3
  obtain ⟨z, hz, hz'⟩ := lastAddr_some (ts := nx :: rr) (by simp)
  simp only [addrsL_cons, addrs_eq nx, List.mem_append, List.mem_cons] at hz
  have q0 : nx.addr ≠ s.addr := by grind
  have q1 : nx.addr ≠ p.1 := by grind
  have q2 : pv.addr ≠ s.addr := by grind
  have q3 : z ≠ s.addr := by grind
  have q4 : pv.addr ≠ p.1 := by grind
  have q5 : nx.addr ≠ pv.addr := by grind
  have q6 : p.1 ≠ s.addr := by grind
  simp only [headAddr_cons, Option.some_or, List.length_cons, Nat.add_zero] at hl
  obtain ⟨g1, e1, e2, e3, e4⟩ := unlinkLoop_spec s.addr fuel (l ++ [pv]) h (some p.1) none none (nx :: rr).length hl
    (by simp only [addrsL_append, addrsL_cons, addrsL_nil, List.append_nil, List.nodup_append, List.nodup_cons,
         addrs_eq pv, List.mem_append, List.mem_cons]; grind)
    (by simp only [addrsL_append, addrsL_cons, addrsL_nil, List.append_nil, List.nodup_append, List.nodup_cons,
         addrs_eq pv, List.mem_append, List.mem_cons]; grind) (by simpa using hfu)
  simp only [addrsL_append, addrsL_cons, addrsL_nil, List.append_nil, addrs_eq pv, List.mem_append, List.mem_cons, not_or] at e4
  have gs : g1.cells s.addr = h.cells s.addr := e4 _ (by grind)
  have gp : g1.cells p.1 = h.cells p.1 := e4 _ (by grind)
  have gn : g1.cells nx.addr = h.cells nx.addr := e4 _ (by grind)
  have hx : h.cells nx.addr = some (rec_ (some p.1) (some s.addr) (headAddr rr) rr.length nx) := by
    rw [cellsL_cons', holds_cons] at hr; simpa using hr.1
  have gv := e2
  rw [cellsL_snoc, holds_append, holds_cons] at gv
  have gv1 := gv.2.1
  simp only [Option.or_none] at gv1
  simp only [frameRec, rec_, fpar_cons, fprev_cons, fnext_cons, ffol_cons] at hs hp gv1 hx
  suffices hh : ∀ P : NHeap α → Prop, (∀ h' : NHeap α, h'.next = h.next →
      h'.cells s.addr = some (rec_ none none none 0 s) →
      h'.cells pv.addr = some (rec_ (some p.1) (lastAddr l) (some nx.addr) (rr.length + 1) pv) →
      h'.cells nx.addr = some (rec_ (some p.1) (some pv.addr) (headAddr rr) rr.length nx) →
      (∀ a, a ≠ s.addr → a ≠ pv.addr → a ≠ nx.addr → h'.cells a = g1.cells a) → P h') →
        ∃ h', replaceWith fuel h s.addr none = Res.ok h' ∧ P h' by
    apply hh
    intro h' f0 f1 f2 f3 f4
    have f5 : ∀ a, a ∉ (plug (⟨p, l ++ [pv], nx :: rr⟩ :: fs) s).addrs → h'.cells a = h.cells a := by
      intro a ha
      rw [(addrs_plug _ _).mem_iff] at ha
      simp only [ctxAddrs, addrs_node, addrsL_append, addrsL_cons, addrsL_nil, List.append_nil, 
        addrs_eq s, addrs_eq nx, addrs_eq pv, List.mem_append, List.mem_cons, not_or] at ha
      rw [f4 a (by grind) (by grind) (by grind), e4 a (by grind)]
    refine ⟨?_, ?_, f0, f5⟩
    · refine rep_refocus H rfl ?_ ?_ ?_
      · intro a ha
        rw [f4 a (by grind) (by grind) (by grind), e4 a (by grind)]
      · rw [holds_focus]
        constructor
        · rw [f4 _ (by grind) (by grind) (by grind), gp, hp]
          have i1 : headAddr (l ++ [pv] ++ nx :: rr) = (headAddr (l ++ [pv])).or (some s.addr) := by cases l <;> simp
          have i2 : lastAddr (l ++ [pv] ++ nx :: rr) = (lastAddr (nx :: rr)).or (some s.addr) := by
            rw [lastAddr_append, hz']; rfl
          rw [i1, i2]
        · rw [cellsL_append, holds_append]
          constructor
          · refine holds_cellsL_next (h := g1) (nx := some s.addr) (by simpa using e2) ?_ (by simpa using f2) ?_
            · simp only [addrsL_append, addrsL_cons, addrsL_nil, List.append_nil, List.nodup_append, List.nodup_cons,
                addrs_eq pv, List.mem_append, List.mem_cons]; grind
            · simp only [addrsL_append, addrsL_cons, addrsL_nil, List.append_nil, List.nodup_append, List.nodup_cons,
                addrs_eq pv, List.mem_append, List.mem_cons]
              intro a ha hb
              exact f4 a (by grind) hb (by grind)
          · refine holds_cellsL_prev hr ?_ (by simpa using f3) ?_
            · simp only [addrsL_append, addrsL_cons, addrsL_nil, List.append_nil, List.nodup_append, List.nodup_cons,
                addrs_eq nx, List.mem_append, List.mem_cons]; grind
            · simp only [addrsL_append, addrsL_cons, addrsL_nil, List.append_nil, List.nodup_append, List.nodup_cons,
                addrs_eq nx, List.mem_append, List.mem_cons]
              intro a ha hb
              rw [f4 a (by grind) (by grind) hb, e4 a (by grind)]
      · simp only [addrs_node, addrsL_append, addrsL_cons, addrsL_nil, List.append_nil, List.nodup_append, List.nodup_cons,
          addrs_eq s, addrs_eq nx, addrs_eq pv, List.mem_append, List.mem_cons]
        grind
    · refine ⟨?_, ?_⟩
      · rw [holds_cells_node]
        refine ⟨f1, ?_⟩
        rw [holds_cells_node] at hs'
        refine hs'.2.congr ?_
        intro a ha
        rw [keys_cellsL] at ha
        rw [f4 a (by grind) (by grind) (by grind), e4 a (by grind)]
      · rw [addrs_eq, List.nodup_cons]; grind
  intro P hP
  have ef : (headAddr (l ++ [pv])).or (some s.addr) = headAddr (l ++ [pv]) := by cases l <;> simp
  rw [ef] at e1 hp
  simp only [replaceWith, Heap.read_of hs, Res.ok_bind, Heap.read_of hp, Res.pure_eq, e1]
  rw [hs] at gs
  rw [hp] at gp
  rw [hx] at gn
  simp [Heap.read, gs, gp, gn, Heap.modify, gv1, relink, isLastChild, hz', q0, q1, q2, q3, q4, q5, q6, q0.symm, q1.symm, q2.symm, q3.symm, q4.symm, q5.symm, q6.symm, -Res.ok.injEq]
  refine ⟨_, rfl, ?_⟩
  apply hP <;> simp [q0, q1, q2, q3, q4, q5, q6, q0.symm, q1.symm, q2.symm, q3.symm, q4.symm, q5.symm, q6.symm, rec_, e3]
  intro a h1 h2 h3; simp [h1, h2, h3]

end Nary
