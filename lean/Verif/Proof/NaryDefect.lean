import Verif.Proof.Edits
import Verif.Proof.NaryEdit
/-! What `replace_with(nullptr)` does to a first and to a last child. -/
open Tree World

namespace Nary
variable {α : Type} {h : NHeap α}

theorem replaceWith_first {p : Addr × α} {fs : List (Frame (Addr × α))} {rr} {s : Tree (Addr × α)} (fuel : Nat)
    (H : Rep h (plug (⟨p, [], rr⟩ :: fs) s)) (hfu : 0 < fuel) : replaceWith fuel h s.addr none = Res.ub := by
  have hs := H.cell
  have hp := H.parent_cell
  simp only [frameRec, rec_, fpar_cons, fprev_cons, fnext_cons, ffol_cons] at hs hp
  obtain ⟨fuel, rfl⟩ : ∃ k, fuel = k + 1 := ⟨fuel - 1, by omega⟩
  simp [replaceWith, Heap.read_of hs, Heap.read_of hp, unlinkLoop, deref]

theorem replaceWith_last {p : Addr × α} {fs : List (Frame (Addr × α))} {l} {pv s : Tree (Addr × α)} (fuel : Nat)
    (H : Rep h (plug (⟨p, l ++ [pv], []⟩ :: fs) s)) (hfu : l.length + 1 < fuel) :
    ∃ h', replaceWith fuel h s.addr none = Res.ok h' ∧ Rep h' s ∧ h'.next = h.next ∧
      (∃ n, h'.cells p.1 = some n ∧ n.first.isSome ∧ n.last = none) ∧
      (∀ a, a ∉ (plug (⟨p, l ++ [pv], []⟩ :: fs) s).addrs → h'.cells a = h.cells a) := by
  have H0 := H
  have hs := H.cell
  have hp := H.parent_cell
  rw [plug_cons] at H
  obtain ⟨h1, h2, h3⟩ := (rep_plug _ _).mp H
  rw [holds_focus] at h2
  simp only at h2
  rw [cellsL_append, cellsL_cons, holds_append, holds_append] at h2
  obtain ⟨hp', hl, hs', hr⟩ := h2
  simp only [addrs_node, addrsL_append, addrsL_cons, addrsL_nil, List.append_nil, List.nodup_append, List.nodup_cons,
    addrs_eq s, addrs_eq pv, List.mem_append, List.mem_cons] at h3
  have q2 : pv.addr ≠ s.addr := by grind
  have q4 : pv.addr ≠ p.1 := by grind
  have q6 : p.1 ≠ s.addr := by grind
  simp only [headAddr_cons, Option.some_or, List.length_cons, Nat.add_zero] at hl
  obtain ⟨g1, e1, e2, e3, e4⟩ := unlinkLoop_spec s.addr fuel (l ++ [pv]) h (some p.1) none none 0 hl
    (by simp only [addrsL_append, addrsL_cons, addrsL_nil, List.append_nil, List.nodup_append, List.nodup_cons,
         addrs_eq pv, List.mem_append, List.mem_cons]; grind)
    (by simp only [addrsL_append, addrsL_cons, addrsL_nil, List.append_nil, List.nodup_append, List.nodup_cons,
         addrs_eq pv, List.mem_append, List.mem_cons]; grind) (by simpa using hfu)
  simp only [addrsL_append, addrsL_cons, addrsL_nil, List.append_nil, addrs_eq pv, List.mem_append, List.mem_cons, not_or] at e4
  have gs : g1.cells s.addr = h.cells s.addr := e4 _ (by grind)
  have gp : g1.cells p.1 = h.cells p.1 := e4 _ (by grind)
  have gv := e2
  rw [cellsL_snoc, holds_append, holds_cons] at gv
  have gv1 := gv.2.1
  simp only [Option.or_none] at gv1
  simp only [frameRec, rec_, fpar_cons, fprev_cons, fnext_cons, ffol_cons] at hs hp gv1
  suffices hh : ∀ P : NHeap α → Prop, (∀ h' : NHeap α, h'.next = h.next →
      h'.cells s.addr = some (rec_ none none none 0 s) →
      (∃ n, h'.cells p.1 = some n ∧ n.first.isSome ∧ n.last = none) →
      (∀ a, a ≠ s.addr → a ≠ pv.addr → a ≠ p.1 → h'.cells a = g1.cells a) → P h') →
        ∃ h', replaceWith fuel h s.addr none = Res.ok h' ∧ P h' by
    apply hh
    intro h' f0 f1 f2 f4
    have f5 : ∀ a, a ∉ (plug (⟨p, l ++ [pv], []⟩ :: fs) s).addrs → h'.cells a = h.cells a := by
      intro a ha
      rw [(addrs_plug _ _).mem_iff] at ha
      simp only [ctxAddrs, addrs_node, addrsL_append, addrsL_cons, addrsL_nil, List.append_nil, 
        addrs_eq s, addrs_eq pv, List.mem_append, List.mem_cons, not_or] at ha
      rw [f4 a (by grind) (by grind) (by grind), e4 a (by grind)]
    refine ⟨⟨?_, ?_⟩, f0, f2, f5⟩
    · rw [holds_cells_node]
      refine ⟨f1, ?_⟩
      rw [holds_cells_node] at hs'
      refine hs'.2.congr ?_
      intro a ha
      rw [keys_cellsL] at ha
      rw [f4 a (by grind) (by grind) (by grind), e4 a (by grind)]
    · rw [addrs_eq, List.nodup_cons]; grind
  intro P hP
  have ef : (headAddr (l ++ [pv])).or (some s.addr) = headAddr (l ++ [pv]) := by cases l <;> simp
  rw [ef] at e1 hp
  simp only [replaceWith, Heap.read_of hs, Res.ok_bind, Heap.read_of hp, Res.pure_eq, e1]
  rw [hs] at gs
  rw [hp] at gp
  simp [Heap.read, gs, gp, Heap.modify, gv1, relink, isLastChild, q2, q4, q6, q2.symm, q4.symm, q6.symm, -Res.ok.injEq]
  refine ⟨_, rfl, ?_⟩
  apply hP
  · simp [e3]
  · simp [rec_]
  · exact ⟨_, by simp [q2, q4, q6, q2.symm, q4.symm, q6.symm]; rfl, rfl, rfl⟩
  · intro a h1 h2 h3; simp [h1, h2, h3]

variable {W : World (NNode α)} {ts : Nat → Option (Option (Tree (Addr × α)))} {x : Nat} {pos : It}
  {f : Frame (Addr × α)} {fs : List (Frame (Addr × α))} {s : Tree (Addr × α)}

/-- The steps of `erase` up to `replace_with`. -/
theorem erase_prepare (O : Owned (shape α) W ts) {t : Option (Tree (Addr × α))} (hx : ts x = some t)
    (A : At (shape α) Policy.postOrder W.heap t pos (f :: fs) (some s)) :
    Rep W.heap (plug (f :: fs) s) ∧ ∃ r st, W.vars x = some r ∧ r.root.isSome ∧ r.root ≠ some s.addr ∧ pos.st.cur = some s.addr ∧
      Iter.inc Policy.postOrder ((kind α).nav W.heap pos.root) W.heap.fuel pos.st = Res.ok st := by
  have L := lawful α
  obtain ⟨r, hr, _, hrt, hnt⟩ := O.get L hx
  obtain rfl := A.place
  have H := O.rep x _ hx
  have hptr : (shape α).ptr (some s) = some s.addr := by rw [shape_ptr]; rfl
  have hcur : pos.st.cur = some s.addr := by rw [A.cur, hptr]
  have hc : (f :: fs : List (Frame (Addr × α))) ≠ (shape α).top := by simp [shape]
  obtain ⟨l1, l2, hp1, _⟩ := L.post_split (s := some s) hc (by simp [shape])
  obtain ⟨l, hl⟩ := L.post_last hptr
  rw [hl] at hp1
  have hi := L.postInc O.wf H (l1 := l1 ++ l) (l2 := l2) (by simpa using hp1) hcur A.root
  refine ⟨H _ (by rw [shape_plug, fill_some]), r, _, hr, ?_, fun e => ?_, hcur, hi⟩
  · rw [hrt, shape_ptr]; rfl
  · rw [hrt] at e
    exact hc ((L.root_iff H hptr).mp e)

/-- `erase` of a first child writes through a null pointer. -/
theorem erase_first (O : Owned (shape α) W ts) {t : Option (Tree (Addr × α))} (hx : ts x = some t)
    (A : At (shape α) Policy.postOrder W.heap t pos (f :: fs) (some s)) (hf : f.lefts = []) : W.erase (kind α) x pos = Res.ub := by
  obtain ⟨H, r, st, hr, hs, hne, hcur, hi⟩ := erase_prepare O hx A
  obtain ⟨p, ls, rr⟩ := f
  simp only at hf
  subst hf
  have e := replaceWith_first W.heap.fuel H (by simp [Heap.fuel])
  have hne2 : (some s.addr == r.root) = false := by simpa using fun e => hne e.symm
  simp only [World.erase, World.get, hr, TreeOps.erase, hi, TreeOps.eraseSubtree, hcur, hs, Res.assert_true, Res.ok_bind]
  simp [Policy.postOrder, Policy.stateless, hne2, TreeOps.replaceNode, hs, kind, e]

/-- `erase` of a last child that is not the only one leaves a parent without last child. -/
theorem erase_last (O : Owned (shape α) W ts) {t : Option (Tree (Addr × α))} (hx : ts x = some t)
    (A : At (shape α) Policy.postOrder W.heap t pos (f :: fs) (some s)) (hl : f.lefts ≠ []) (hr : f.rights = []) :
    ∃ W' it n, W.erase (kind α) x pos = Res.ok (W', .ret it) ∧ W'.heap.cells f.label.1 = some n ∧ n.first.isSome ∧ n.last = none := by
  have L := lawful α
  obtain ⟨H, r, st, hv, hs, hne, hcur, hi⟩ := erase_prepare O hx A
  obtain ⟨p, ls, rr⟩ := f
  simp only at hl hr
  subst hr
  obtain ⟨l, pv, rfl⟩ : ∃ l pv, ls = l ++ [pv] := ⟨ls.dropLast, ls.getLast hl, (List.dropLast_concat_getLast hl).symm⟩
  have hfu : l.length + 1 < W.heap.fuel := by
    have h1 := size_le O.wf H
    have h2 := (addrs_plug (⟨p, l ++ [pv], []⟩ :: fs) s).length_eq
    rw [length_addrs] at h2
    simp only [ctxAddrs, addrsL_append, List.length_append, List.length_cons] at h2
    have h3 := length_le_addrsL l
    simp only [Heap.fuel]; omega
  obtain ⟨h', e, Hs, hnext, ⟨n, hn, hn1, hn2⟩, hrest⟩ := replaceWith_last W.heap.fuel H hfu
  have hne2 : (some s.addr == r.root) = false := by simpa using fun e => hne e.symm
  have hwf : h'.WF := by
    intro a ha
    have hna : W.heap.cells a = none := O.wf a (by rw [← hnext]; exact ha)
    rw [hrest a ?_, hna]
    intro hm
    have := L.rep_alive _ _ (O.rep x t hx) a (by rw [← A.place, shape_plug, fill_some, shape_addrs]; exact hm)
    rw [hna] at this; cases this
  have hd : dealloc h'.fuel h' (some s.addr) = Res.ok (h'.freeAll s.addrs) := by
    have := L.dealloc h' (some s) hwf (fun _ h => by cases h; exact Hs)
    rwa [shape_ptr, shape_addrs] at this
  have hps : p.1 ∉ s.addrs := fun hm => by
    have := ((rep_plug _ _).mp H).2.2
    exact (List.nodup_append.mp this).2.2 p.1 (by simp [ctxAddrs]) p.1 hm rfl
  have hcell := (show Rep h' (plug [] s) from Hs).cell
  have key : ∃ r2, TreeOps.eraseSubtree (kind α) W.heap r pos = Res.ok (h'.freeAll s.addrs, r2, .ret ()) ∧ r2.root = r.root := by
    simp only [TreeOps.eraseSubtree, hcur, hs, Res.assert_true, Res.ok_bind]
    cases hcs : s.children <;>
      simp [Policy.postOrder, Policy.stateless, hne2, TreeOps.replaceNode, hs, kind, e, Heap.read_of hcell, rec_, hd, hcs]
  obtain ⟨r2, hk, hroot⟩ := key
  obtain ⟨b, hb⟩ := Option.isSome_iff_exists.mp hs
  refine ⟨(W.setHeap (h'.freeAll s.addrs)).put x (some r2), ⟨st, pos.root⟩, n, ?_, ?_, hn1, hn2⟩
  · simp [World.erase, World.get, hv, TreeOps.erase, hi, hk, hroot, hb]
  · show (h'.freeAll s.addrs).cells p.1 = _
    simp [Heap.freeAll, hps, hn]

/-- In a state that consists of trees a node with a first child has a last child. -/
theorem not_owned {a : Addr} {n : NNode α} (hc : W.heap.cells a = some n) (h1 : n.first.isSome) (h2 : n.last = none) :
    ¬ Owned (shape α) W ts := by
  intro O
  have L := lawful α
  obtain ⟨z, t, hz, ha⟩ := O.noLeak a (by rw [hc]; rfl)
  obtain ⟨c, s, hp, hs⟩ := L.locate ha
  have H := O.rep z t hz
  rw [← hp, shape_plug] at H
  cases s with
  | none => rw [shape_ptr] at hs; cases hs
  | some s =>
    rw [fill_some] at H
    have hcell := Rep.cell ((shape_rep _ _).mp H)
    rw [shape_ptr] at hs
    simp at hs
    rw [hs, hc] at hcell
    cases hcell
    simp only [rec_] at h1 h2
    cases hcs : s.children with
    | nil => rw [hcs] at h1; cases h1
    | cons b l => rw [hcs] at h2; simp [lastAddr, List.getLast?_cons] at h2

end Nary
