import Verif.Proof.NodeMove
import Verif.Proof.NaryNav
import Verif.Proof.InOrder
import Verif.Props.Samples
/-!
# C50, C78: move constructors of node objects
-/
open Tree

variable {α : Type}

/-! ## Moving a root -/

/-- The new node (at the fresh address `h.next`) is the root of the whole tree, whose other nodes are the same objects; the old
one is left alone with its value, and nothing else changes. -/
theorem C50_nary {h : NHeap α} (hw : h.WF) {v : α} {o : Addr} {cs : List (Tree (Addr × α))}
    (H : Nary.Rep h (node (o, v) cs)) {fuel : Nat} (hf : cs.length < fuel) :
    ∃ h', Nary.moveNode fuel h o = Res.ok (h', h.next) ∧ Nary.Rep h' (node (h.next, v) cs) ∧ Nary.Rep h' (node (o, v) []) ∧
      h.next ∉ (node (o, v) cs).addrs ∧ h'.WF ∧
      ∀ a, a ∉ (node (o, v) cs).addrs → a ≠ h.next → h'.cells a = h.cells a := by
  obtain ⟨h', e1, e2, e3, e4, e5, e6⟩ := Nary.moveNode_spec hw (fs := []) H hf
  have hlt : h.next ∉ (node (o, v) cs).addrs := fun hm =>
    absurd (H.1.lt_next hw (by rw [Nary.keys_cells]; exact hm)) (Nat.lt_irrefl _)
  have hnd := H.2
  simp at hnd hlt
  refine ⟨h', e1, ⟨?_, ?_⟩, ⟨?_, ?_⟩, by simpa using hlt, ?_, ?_⟩
  · simp only [Nary.cells, holds_cons]
    exact ⟨e2, e3⟩
  · simp [hlt.2, hnd.2]
  · simpa [Nary.cells, Nary.leaf] using e4
  · simp
  · intro a ha
    rw [e5] at ha
    rw [e6 a, hw a (by grind)]
    · rintro rfl
      have := H.1.lt_next hw (a := a) (by rw [Nary.keys_cells]; simp)
      grind
    · rintro rfl; grind
    · intro hm
      have := H.1.lt_next hw (a := a) (by rw [Nary.keys_cells]; simp [hm])
      grind
  · intro a ha hx
    simp at ha
    exact e6 a ha.1 hx ha.2

theorem C50_binary {h : BHeap α} (hw : h.WF) {v : α} {o : Addr} {l r : BTree (Addr × α)}
    (H : Binary.Rep h (.node (o, v) l r)) :
    ∃ h', Binary.moveNode h o = Res.ok (h', h.next) ∧ Binary.Rep h' (.node (h.next, v) l r) ∧
      Binary.Rep h' (.node (o, v) .nil .nil) ∧ h.next ∉ (BTree.node (o, v) l r).addrs ∧ h'.WF ∧
      ∀ a, a ∉ (BTree.node (o, v) l r).addrs → a ≠ h.next → h'.cells a = h.cells a := by
  obtain ⟨h', e1, e2, e3, e3', e4, e5, e6⟩ := Binary.moveNode_spec hw (fs := []) H
  have hlt : h.next ∉ (BTree.node (o, v) l r).addrs := fun hm =>
    absurd (H.1.lt_next hw (by rw [Binary.keys_cells]; exact hm)) (Nat.lt_irrefl _)
  have hnd := H.2
  simp at hnd hlt
  refine ⟨h', e1, ⟨?_, ?_⟩, ⟨?_, ?_⟩, by simpa using hlt, ?_, ?_⟩
  · simp only [Binary.cells, holds_cons, holds_append]
    exact ⟨e2, e3, e3'⟩
  · simp [hlt.2, hnd.2]
  · simpa [Binary.cells, Binary.leaf] using e4
  · simp
  · intro a ha
    rw [e5] at ha
    rw [e6 a, hw a (by grind)]
    · rintro rfl
      have := H.1.lt_next hw (a := a) (by rw [Binary.keys_cells]; simp)
      grind
    · rintro rfl; grind
    · intro hm
      have := H.1.lt_next hw (a := a) (by rw [Binary.keys_cells]; simp [hm])
      grind
    · intro hm
      have := H.1.lt_next hw (a := a) (by rw [Binary.keys_cells]; simp [hm])
      grind
  · intro a ha hx
    simp at ha
    exact e6 a ha.1 hx ha.2.1 ha.2.2

/-! ## Moving a child

The constructors do not tell the parent and the siblings: they keep pointing to the old node, which no longer points to them. -/

theorem Nary.siblings_walk {h : NHeap α} {gs : List (Frame (Addr × α))} {p : Addr × α} {o : Addr} {par : Ptr} {k : Nat} :
    ∀ (ls us us0 : List (Tree (Addr × α))) (prev : Ptr), Rep h (plug gs (node p (us0 ++ us))) →
      Holds h (cellsL par prev (some o) k ls) → (headAddr ls).or (some o) = headAddr us → ∃ z ∈ us, z.addr = o := by
  intro ls
  induction ls with
  | nil =>
    intro us us0 prev _ _ e
    cases us with
    | nil => simp at e
    | cons u us => simp at e; exact ⟨u, by simp, e.symm⟩
  | cons l ls ih =>
    intro us us0 prev H K e
    cases us with
    | nil => simp at e
    | cons u us =>
      simp at e
      simp only [cellsL_cons, holds_append, cells_eq, holds_cons] at K
      have hc : h.cells u.addr = some (rec_ (some p.1) (lastAddr us0) (headAddr us) us.length u) :=
        Rep.cell (fs := ⟨p, us0, us⟩ :: gs) (s := u) H
      rw [← e, K.1.1] at hc
      have hx : (headAddr ls).or (some o) = headAddr us := by simpa [rec_] using congrArg NNode.next (Option.some.inj hc)
      obtain ⟨z, hz, ez⟩ := ih us (us0 ++ [u]) _ (by simpa using H) K.2 hx
      exact ⟨z, by simp [hz], ez⟩

/-- After moving a child, no tree contains its parent: the new node has no parent, and the old one, still a child of the parent
as far as the parent and the siblings are concerned, has no parent either. -/
theorem C78_nary_defect {h : NHeap α} (hw : h.WF) {f : Frame (Addr × α)} {fs : List (Frame (Addr × α))} {v : α} {o : Addr}
    {cs : List (Tree (Addr × α))} (H : Nary.Rep h (plug (f :: fs) (node (o, v) cs))) {fuel : Nat} (hf : cs.length < fuel) :
    ∃ h', Nary.moveNode fuel h o = Res.ok (h', h.next) ∧
      (∃ n, h'.cells h.next = some n ∧ n.parent = none) ∧ (∃ n, h'.cells o = some n ∧ n.parent = none ∧ n.first = none) ∧
      ∀ t, Nary.Rep h' t → f.label.1 ∉ t.addrs := by
  obtain ⟨h', e1, e2, e3, e4, e5, e6⟩ := Nary.moveNode_spec hw H hf
  refine ⟨h', e1, ⟨_, e2, rfl⟩, ⟨_, e4, rfl, rfl⟩, ?_⟩
  intro t T hm
  have hR := (Nary.rep_plug _ _).mp H
  have hnd := hR.2.2
  have hfree : h.cells h.next = none := hw _ (Nat.le_refl _)
  have hne : ∀ a, (h.cells a).isSome → a ≠ h.next := by rintro a ha rfl; simp [hfree] at ha
  have hkeep : ∀ a, (h.cells a).isSome → a ∉ (node (o, v) cs).addrs → h'.cells a = h.cells a := by
    intro a ha hx
    simp at hx
    exact e6 a hx.1 (hne a ha) hx.2
  have hdis : ∀ a ∈ Nary.ctxAddrs (f :: fs), a ∉ (node (o, v) cs).addrs := fun a ha hx => (List.nodup_append.mp hnd).2.2 a ha a hx rfl
  have hp := hR.1
  simp only [Nary.ctxCells, holds_cons, holds_append] at hp
  have hp' : h'.cells f.label.1 = some (Nary.frameRec f fs o) := by
    rw [hkeep _ (by rw [hp.1]; rfl) (hdis _ (by simp [Nary.ctxAddrs]))]; exact hp.1
  have hl' : Holds h' (Nary.cellsL (some f.label.1) none (some o) (f.rights.length + 1) f.lefts) := by
    refine hp.2.1.congr ?_
    intro a ha
    exact hkeep a (hp.2.1.isSome ha) (hdis a (by rw [Nary.keys_cellsL] at ha; simp [Nary.ctxAddrs, ha]))
  obtain ⟨⟨a, w⟩, hq, hqa⟩ := List.mem_map.mp hm
  obtain ⟨gs, u, hu, hul⟩ := exists_plug_of_mem hq
  subst hu
  cases u with
  | node q us =>
  simp only [label_node] at hul
  subst hul
  have hc : h'.cells f.label.1 = some (Nary.rec_ (Nary.fpar gs) (Nary.fprev gs) (Nary.fnext gs) (Nary.ffol gs) (node (a, w) us)) := by
    rw [← hqa]; exact Nary.Rep.cell T
  rw [hp'] at hc
  have hfirst : (headAddr f.lefts).or (some o) = headAddr us := by
    simpa [Nary.rec_, Nary.frameRec] using congrArg NNode.first (Option.some.inj hc)
  obtain ⟨z, hz, rfl⟩ := Nary.siblings_walk f.lefts us [] none (by simpa using T) hl' hfirst
  obtain ⟨l, r, rfl⟩ := List.append_of_mem hz
  have hzc : h'.cells z.addr = some (Nary.rec_ (some a) (lastAddr l) (headAddr r) r.length z) :=
    Nary.Rep.cell (fs := ⟨(a, w), l, r⟩ :: gs) (s := z) T
  rw [e4] at hzc
  simpa [Nary.rec_, Nary.leaf] using congrArg NNode.parent (Option.some.inj hzc)

theorem C78_binary_defect {h : BHeap α} (hw : h.WF) {f : BTree.Frame (Addr × α)} {fs : List (BTree.Frame (Addr × α))} {v : α}
    {o : Addr} {l r : BTree (Addr × α)} (H : Binary.Rep h (BTree.plug (f :: fs) (.node (o, v) l r))) :
    ∃ h', Binary.moveNode h o = Res.ok (h', h.next) ∧
      (∃ n, h'.cells h.next = some n ∧ n.parent = none) ∧
      (∃ n, h'.cells o = some n ∧ n.parent = none ∧ n.left = none ∧ n.right = none) ∧
      ∀ t, Binary.Rep h' t → f.label.1 ∉ t.addrs := by
  obtain ⟨h', e1, e2, e3, e3', e4, e5, e6⟩ := Binary.moveNode_spec hw H
  refine ⟨h', e1, ⟨_, e2, rfl⟩, ⟨_, e4, rfl, rfl, rfl⟩, ?_⟩
  intro t T hm
  have hR := (Binary.rep_plug _ _).mp H
  have hp := H.parent_cell
  have hnd := hR.2.2
  have hp' : h'.cells f.label.1 = some (Binary.frameRec f fs (some o)) := by
    have hd := (List.nodup_append.mp hnd).2.2 f.label.1 (by simp [Binary.ctxAddrs])
    rw [e6, hp]; rfl
    · intro e; exact hd o (by simp) e
    · intro e; rw [e, hw _ (Nat.le_refl _)] at hp; simp at hp
    · intro e; exact hd f.label.1 (by simp [e]) rfl
    · intro e; exact hd f.label.1 (by simp [e]) rfl
  obtain ⟨⟨a, w⟩, hq, hqa⟩ := List.mem_map.mp hm
  obtain ⟨gs, ul, ur, rfl⟩ := BTree.exists_plug_of_mem ((BTree.inorder_perm_pre t).mem_iff.mpr hq)
  have hc : h'.cells f.label.1 = some ⟨w, Binary.fpar gs, ul.addr?, ur.addr?⟩ := by rw [← hqa]; exact Binary.Rep.cell T
  rw [hp'] at hc
  have hc := Option.some.inj hc
  have hX := ((Binary.rep_plug _ _).mp T).2.1
  simp only [Binary.cells_node, holds_cons, holds_append] at hX
  have key : ul.addr? = some o ∨ ur.addr? = some o := by
    cases hb : f.holeLeft
    · right; simpa [Binary.frameRec, hb] using (congrArg BNode.right hc).symm
    · left; simpa [Binary.frameRec, hb] using (congrArg BNode.left hc).symm
  have done : ∀ u : BTree (Addr × α), u.addr? = some o → Holds h' (Binary.cells (some a) u) → False := by
    intro u hu hh
    cases u with
    | nil => simp at hu
    | node q x y =>
      simp at hu
      simp only [Binary.cells_node, holds_cons, hu, e4] at hh
      simpa [Binary.leaf] using congrArg BNode.parent (Option.some.inj hh.1)
  rcases key with e | e
  · exact done ul e hX.2.1
  · exact done ur e hX.2.2

/-! Instances: moving the root of `1(2(5,6(7)),3,4)` and its second child; moving the root of a binary tree. -/
example := C50_nary Samples.deep_wf Samples.deep_rep (fuel := 4) (by decide)
example := C78_nary_defect Samples.deep_wf (f := ⟨(0, 1), [node (1, 2) [node (4, 5) [], node (5, 6) [node (6, 7) []]]], [node (3, 4) []]⟩)
  (fs := []) (o := 2) (v := 3) (cs := []) Samples.deep_rep (fuel := 1) (by decide)
example := C50_binary Samples.bin_wf Samples.bin_rep
example := C78_binary_defect Samples.bin_wf (f := ⟨(0, 1), true, .node (3, 3) (.node (4, 5) .nil .nil) .nil⟩)
  (fs := []) (o := 1) (v := 2) (l := .nil) (r := .node (2, 4) .nil .nil) Samples.bin_rep
