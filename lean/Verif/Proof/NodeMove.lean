import Verif.Model.NodeMove
import Verif.Proof.NaryEdit
import Verif.Proof.BinOps
/-! Move constructors of node objects. -/
open Tree

namespace Nary
variable {α : Type}

theorem adoptLoop_spec (x : Addr) : ∀ (fuel : Nat) (ts : List (Tree (Addr × α))) (h : NHeap α) (par prev : Ptr) (k : Nat),
    Holds h (cellsL par prev none k ts) → (addrsL ts).Nodup → ts.length < fuel →
      ∃ h', adoptLoop x fuel h (headAddr ts) = Res.ok h' ∧
        Holds h' (cellsL (some x) prev none k ts) ∧ h'.next = h.next ∧ (∀ a, a ∉ addrsL ts → h'.cells a = h.cells a) := by
  intro fuel
  induction fuel with
  | zero => intro ts h par prev k _ _ hf; omega
  | succ fuel ih =>
    intro ts h par prev k H hn hf
    cases ts with
    | nil => exact ⟨h, by simp [adoptLoop], by simp, rfl, by simp⟩
    | cons t ts =>
      simp only [cellsL_cons, holds_append, cells_eq, holds_cons] at H
      obtain ⟨⟨hc, hb⟩, hr⟩ := H
      simp only [addrsL_cons, List.nodup_append, addrs_eq t, List.nodup_cons, List.mem_append, List.mem_cons, not_or] at hn
      simp only [headAddr_cons, Option.some_or, adoptLoop, Heap.modify_of hc, Res.ok_bind, rec_,
        Heap.read, Heap.set_cells, if_pos]
      have hr' : Holds (h.set t.addr { value := t.label.2, parent := some x, following := ts.length + k, prev := prev, next := (headAddr ts).or none, first := headAddr t.children, last := lastAddr t.children : NNode α })
          (cellsL par (some t.addr) none k ts) := by
        refine (holds_set ?_).mpr hr
        rw [keys_cellsL]
        intro hm
        exact hn.2.2 _ (Or.inl rfl) _ hm rfl
      obtain ⟨h', e1, e2, e3, e4⟩ := ih ts _ par (some t.addr) k hr' hn.2.1 (by simp at hf; omega)
      refine ⟨h', ?_, ?_, e3, ?_⟩
      · simpa using e1
      · simp only [cellsL_cons, holds_append, cells_eq, holds_cons]
        refine ⟨⟨?_, hb.congr ?_⟩, e2⟩
        · rw [e4 t.addr (fun hm => hn.2.2 _ (Or.inl rfl) _ hm rfl)]
          simp [rec_]
        · intro a ha
          rw [keys_below] at ha
          rw [e4 a (fun hm => hn.2.2 _ (Or.inr ha) _ hm rfl)]
          simp
          rintro rfl
          exact absurd ha hn.1.1
      · intro a ha
        simp only [addrsL_cons, addrs_eq t, List.mem_append, List.mem_cons, not_or] at ha
        rw [e4 a ha.2]
        simp [ha.1.1]

/-- Moving the node at a position: the new node has the children, and the siblings but not the parent of the old one. -/
theorem moveNode_spec {h : NHeap α} (hw : h.WF) {fs : List (Frame (Addr × α))} {v : α} {o : Addr} {cs : List (Tree (Addr × α))}
    (H : Rep h (plug fs (node (o, v) cs))) {fuel : Nat} (hf : cs.length < fuel) :
    ∃ h', moveNode fuel h o = Res.ok (h', h.next) ∧
      h'.cells h.next = some ⟨v, none, ffol fs, fprev fs, fnext fs, headAddr cs, lastAddr cs⟩ ∧
      Holds h' (cellsL (some h.next) none none 0 cs) ∧ h'.cells o = some (leaf v) ∧ h'.next = h.next + 1 ∧
      ∀ a, a ≠ o → a ≠ h.next → a ∉ addrsL cs → h'.cells a = h.cells a := by
  have hc := H.cell
  have hR := ((rep_plug _ _).mp H)
  have hb := (holds_focus.mp hR.2.1).2
  have hnd := (List.nodup_append.mp hR.2.2).2.1
  simp [rec_] at hc hnd
  have hlt : ∀ a ∈ addrsL cs, a ≠ h.next := by
    intro a ha e
    have := hb.isSome (a := a) (by rw [keys_cellsL]; exact ha)
    rw [e, hw _ (Nat.le_refl _)] at this
    simp at this
  have ho : o ≠ h.next := by
    intro e; rw [e, hw _ (Nat.le_refl _)] at hc; simp at hc
  obtain ⟨h1, e1, e2, e3, e4⟩ := adoptLoop_spec h.next fuel cs
    (h.alloc ⟨v, none, ffol fs, fprev fs, fnext fs, headAddr cs, lastAddr cs⟩).1 (some o) none 0
    (hb.congr (by intro a ha; rw [keys_cellsL] at ha; simp [Heap.alloc, hlt a ha])) hnd.2 hf
  have hx : h1.cells h.next = some ⟨v, none, ffol fs, fprev fs, fnext fs, headAddr cs, lastAddr cs⟩ := by
    rw [e4 _ (fun hm => hlt _ hm rfl)]; simp [Heap.alloc]
  have hm : ∃ h2, manageParentLast h1 h.next = Res.ok h2 ∧ h2.cells = h1.cells ∧ h2.next = h1.next := by
    cases cs with
    | nil =>
      refine ⟨h1.set h.next ⟨v, none, ffol fs, fprev fs, fnext fs, none, none⟩, by simp [manageParentLast, Heap.read_of hx, Heap.modify_of hx], ?_, rfl⟩
      funext a
      by_cases e : a = h.next
      · subst e; simp [hx]
      · simp [e]
    | cons c cs => exact ⟨h1, by simp [manageParentLast, Heap.read_of hx], rfl, rfl⟩
  obtain ⟨h2, m1, m2, m3⟩ := hm
  have ho2 : h2.cells o = some ⟨v, fpar fs, ffol fs, fprev fs, fnext fs, headAddr cs, lastAddr cs⟩ := by
    rw [m2, e4 _ hnd.1]; simp [Heap.alloc, ho, hc]
  refine ⟨h2.set o (leaf v), ?_, ?_, ?_, ?_, ?_, ?_⟩
  · have a1 : h.alloc ⟨v, none, ffol fs, fprev fs, fnext fs, headAddr cs, lastAddr cs⟩ =
        ((h.alloc ⟨v, none, ffol fs, fprev fs, fnext fs, headAddr cs, lastAddr cs⟩).1, h.next) := rfl
    have a2 : (h.alloc ⟨v, none, ffol fs, fprev fs, fnext fs, headAddr cs, lastAddr cs⟩).1.cells h.next =
        some ⟨v, none, ffol fs, fprev fs, fnext fs, headAddr cs, lastAddr cs⟩ := by simp [Heap.alloc]
    simp only [moveNode, Heap.read_of hc, Res.ok_bind]
    rw [a1]
    simp only [Heap.read_of a2, Res.ok_bind, e1, m1, Heap.modify_of ho2]
    rfl
  · rw [Heap.set_cells, if_neg (Ne.symm ho), m2, hx]
  · refine (holds_set (by rw [keys_cellsL]; exact hnd.1)).mpr (e2.congr (by intro a _; rw [m2]))
  · simp
  · simp [m3, e3, Heap.alloc]
  · intro a h1 h2 h3
    rw [Heap.set_cells, if_neg h1, m2, e4 a h3]
    simp [Heap.alloc, h2]

end Nary

namespace Binary
open BTree
variable {α : Type}

/-- Moving the node at a position: the new node has the children but not the parent of the old one. -/
theorem moveNode_spec {h : BHeap α} (hw : h.WF) {fs : List (BTree.Frame (Addr × α))} {v : α} {o : Addr} {l r : BTree (Addr × α)}
    (H : Rep h (BTree.plug fs (.node (o, v) l r))) :
    ∃ h', moveNode h o = Res.ok (h', h.next) ∧
      h'.cells h.next = some ⟨v, none, l.addr?, r.addr?⟩ ∧
      Holds h' (cells (some h.next) l) ∧ Holds h' (cells (some h.next) r) ∧ h'.cells o = some (leaf v) ∧ h'.next = h.next + 1 ∧
      ∀ a, a ≠ o → a ≠ h.next → a ∉ l.addrs → a ∉ r.addrs → h'.cells a = h.cells a := by
  have hc := H.cell
  have hR := ((rep_plug _ _).mp H)
  have hnd := (List.nodup_append.mp hR.2.2).2.1
  simp at hc hnd
  have hb := hR.2.1
  simp only [cells_node, holds_cons, holds_append] at hb
  obtain ⟨_, hl, hr⟩ := hb
  have hlt : ∀ a, a ∈ l.addrs ∨ a ∈ r.addrs → a ≠ h.next := by
    intro a ha e
    have : (h.cells a).isSome := by
      rcases ha with ha | ha
      · exact hl.isSome (by rw [keys_cells]; exact ha)
      · exact hr.isSome (by rw [keys_cells]; exact ha)
    rw [e, hw _ (Nat.le_refl _)] at this
    simp at this
  have ho : o ≠ h.next := by
    intro e; rw [e, hw _ (Nat.le_refl _)] at hc; simp at hc
  let g := (h.alloc ⟨v, none, l.addr?, r.addr?⟩).1
  have gl : Holds g (cells (some o) l) := hl.congr (by intro a ha; rw [keys_cells] at ha; simp [g, Heap.alloc, hlt a (Or.inl ha)])
  have gr : Holds g (cells (some o) r) := hr.congr (by intro a ha; rw [keys_cells] at ha; simp [g, Heap.alloc, hlt a (Or.inr ha)])
  have gx : g.cells h.next = some ⟨v, none, l.addr?, r.addr?⟩ := by simp [g, Heap.alloc]
  have st1 : ∃ g1 : BHeap α, (match l.addr? with
      | some b => g.modify b (fun m => { m with parent := some h.next })
      | none => pure g) = Res.ok g1 ∧ Holds g1 (cells (some h.next) l) ∧ g1.next = g.next ∧
      ∀ a, a ∉ l.addrs → g1.cells a = g.cells a := by
    cases l with
    | nil => exact ⟨g, rfl, by simp, rfl, fun _ _ => rfl⟩
    | node q a b =>
      obtain ⟨e, K⟩ := holds_reparent (par' := some h.next) gl (b := q.1) (v := q.2) rfl (List.nodup_append.mp hnd.2).1
      exact ⟨_, e, K, rfl, by intro x hx; simp at hx; simp [hx.1]⟩
  obtain ⟨g1, p1, p2, p3, p4⟩ := st1
  have dis : ∀ a ∈ r.addrs, a ∉ l.addrs := fun a ha hl => (List.nodup_append.mp hnd.2).2.2 a hl a ha rfl
  have gr1 : Holds g1 (cells (some o) r) := gr.congr (by intro a ha; rw [keys_cells] at ha; exact p4 a (dis a ha))
  have st2 : ∃ g2 : BHeap α, (match r.addr? with
      | some b => g1.modify b (fun m => { m with parent := some h.next })
      | none => pure g1) = Res.ok g2 ∧ Holds g2 (cells (some h.next) r) ∧ g2.next = g1.next ∧
      ∀ a, a ∉ r.addrs → g2.cells a = g1.cells a := by
    cases r with
    | nil => exact ⟨g1, rfl, by simp, rfl, fun _ _ => rfl⟩
    | node q a b =>
      obtain ⟨e, K⟩ := holds_reparent (par' := some h.next) gr1 (b := q.1) (v := q.2) rfl (List.nodup_append.mp hnd.2).2.1
      exact ⟨_, e, K, rfl, by intro x hx; simp at hx; simp [hx.1]⟩
  obtain ⟨g2, q1, q2, q3, q4⟩ := st2
  have x1 : g1.cells h.next = some ⟨v, none, l.addr?, r.addr?⟩ := by rw [p4 _ (fun hm => hlt _ (Or.inl hm) rfl), gx]
  have x2 : g2.cells h.next = some ⟨v, none, l.addr?, r.addr?⟩ := by rw [q4 _ (fun hm => hlt _ (Or.inr hm) rfl), x1]
  have o2 : g2.cells o = some ⟨v, fpar fs, l.addr?, r.addr?⟩ := by
    rw [q4 _ hnd.1.2, p4 _ hnd.1.1]; simp [g, Heap.alloc, ho, hc]
  refine ⟨g2.set o (leaf v), ?_, ?_, ?_, ?_, by simp, ?_, ?_⟩
  · have a1 : (h.alloc ⟨v, none, l.addr?, r.addr?⟩) = (g, h.next) := rfl
    simp only [moveNode, Heap.read_of hc, Res.ok_bind, a1, Heap.read_of gx]
    cases el : l.addr? <;> cases er : r.addr? <;> simp only [el, er, Res.pure_eq] at p1 q1 x1
    · simp only [Res.pure_eq, Res.ok_bind, Res.ok.inj p1, Heap.read_of x1]; simp only [Res.ok.inj q1, Res.ok_bind, Heap.modify_of o2]; rfl
    · simp only [Res.pure_eq, Res.ok_bind, Res.ok.inj p1, Heap.read_of x1, q1, Heap.modify_of o2]; rfl
    · simp only [Res.pure_eq, Res.ok_bind, p1, Heap.read_of x1]; simp only [Res.ok.inj q1, Res.ok_bind, Heap.modify_of o2]; rfl
    · simp only [Res.pure_eq, Res.ok_bind, p1, Heap.read_of x1, q1, Heap.modify_of o2]; rfl
  · rw [Heap.set_cells, if_neg (Ne.symm ho), x2]
  · refine (holds_set (by rw [keys_cells]; exact hnd.1.1)).mpr (p2.congr ?_)
    intro a ha; rw [keys_cells] at ha; exact q4 a (fun hr => dis a hr ha)
  · exact (holds_set (by rw [keys_cells]; exact hnd.1.2)).mpr q2
  · simp [q3, p3, g, Heap.alloc]
  · intro a h1 h2 h3 h4
    rw [Heap.set_cells, if_neg h1, q4 a h4, p4 a h3]
    simp [g, Heap.alloc, h2]

end Binary
