import Verif.Proof.BinRepr
import Verif.Proof.DepthTree
/-! Operations on binary nodes. -/
open BTree

set_option linter.unusedSimpArgs false

namespace Binary
variable {α : Type} {h : BHeap α}

theorem vals_node (p : Addr × α) (l r : BTree (Addr × α)) : vals (node p l r) = node p.2 l.vals r.vals := rfl

/-! ### deallocation -/

theorem dealloc_deep (t : BTree (Addr × α)) (fuel : Nat) (hf : t.height < fuel) {par : Ptr}
    (H : Holds h (cells par t)) (hn : t.addrs.Nodup) :
    dealloc fuel h t.addr? = Res.ok (h.freeAll t.addrs) := by
  induction t generalizing h fuel par with
  | nil =>
    cases fuel with
    | zero => simp [height] at hf
    | succ fuel => simp [dealloc]
  | node p l r ihl ihr =>
    cases fuel with
    | zero => simp [height] at hf
    | succ fuel =>
      simp [height] at hf H hn
      obtain ⟨hc, hl, hr⟩ := H
      have d := List.nodup_append.mp hn.2
      have hr' : Holds (h.freeAll l.addrs) (cells (some p.1) r) :=
        holds_freeAll (by rw [keys_cells]; intro x hx hl; exact d.2.2 x hl x hx rfl) hr
      have hc' : ((h.freeAll l.addrs).freeAll r.addrs).cells p.1 = some ⟨p.2, par, l.addr?, r.addr?⟩ := by
        simp [hn.1, hc]
      simp only [addr?_node, dealloc, Heap.read_of hc, Res.ok_bind, ihl fuel (by omega) hl d.1,
        ihr fuel (by omega) hr' d.2.1, Heap.free_of hc']
      rw [Heap.freeAll_freeAll, Heap.freeAll_freeAll]
      congr 1
      exact Heap.freeAll_congr (by intro x; simp; grind)

theorem dealloc_spec (t : BTree (Addr × α)) (fuel : Nat) (hf : t.size < fuel) {par : Ptr}
    (H : Holds h (cells par t)) (hn : t.addrs.Nodup) :
    dealloc fuel h t.addr? = Res.ok (h.freeAll t.addrs) :=
  dealloc_deep t fuel (Nat.lt_of_le_of_lt (height_le t) hf) H hn

/-! ### construction -/

/-- The node being constructed at `x`, with its left and right subtrees done so far. -/
structure Stage (h h' : BHeap α) (x : Addr) (v : α) (l r : BTree (Addr × α)) : Prop where
  cell : h'.cells x = some ⟨v, none, l.addr?, r.addr?⟩
  holdsL : Holds h' (cells none l)
  holdsR : Holds h' (cells none r)
  nodup : (x :: (l.addrs ++ r.addrs)).Nodup
  grown : Grown h h' (x :: (l.addrs ++ r.addrs))

/-- `h'` arose from `h` by allocating the free-standing tree `t`. -/
structure Built (h h' : BHeap α) (t : BTree (Addr × α)) : Prop where
  rep : Rep h' t
  grown : Grown h h' t.addrs

def buildSub {γ : Type} (h : BHeap α) (this : Addr) (on : Option γ) (F : BHeap α → γ → Res (BHeap α × Addr))
    (upd : Addr → BNode α → BNode α) : Res (BHeap α) :=
  match on with
  | some nx => do
    let (h, a) ← F h nx
    h.modify this (upd a)
  | none => pure h

def buildStep {γ : Type} (h : BHeap α) (v : α) (ol or_ : Option γ)
    (F : BHeap α → γ → Res (BHeap α × Addr)) : Res (BHeap α × Addr) := do
  let (h, this) := h.alloc ⟨v, none, none, none⟩
  let h ← buildSub h this ol F (fun a m => { m with left := some a })
  let h ← buildSub h this or_ F (fun a m => { m with right := some a })
  let h ← attach h this
  pure (h, this)

theorem stage_left {γ : Type} {g : BHeap α} {x : Addr} {v : α} {on : Option γ} {F : BHeap α → γ → Res (BHeap α × Addr)}
    {P : BTree (Addr × α) → Prop} (H : Stage h g x v .nil .nil) (h0 : on = none → P .nil)
    (h1 : ∀ nx, on = some nx → ∃ g' a t, F g nx = Res.ok (g', a) ∧ t.addr? = some a ∧ Built g g' t ∧ P t) :
    ∃ g' l, buildSub g x on F (fun a m => { m with left := some a }) = Res.ok g' ∧ Stage h g' x v l .nil ∧ P l := by
  cases on with
  | none => exact ⟨g, .nil, rfl, H, h0 rfl⟩
  | some nx =>
    obtain ⟨g', a, t, e1, e2, B, hP⟩ := h1 nx rfl
    have hx : x < g.next := by
      have := H.grown.fresh x (by simp); exact this.2
    have hc : g'.cells x = some ⟨v, none, none, none⟩ := by
      rw [B.grown.same x hx, H.cell]; rfl
    have hxt : x ∉ t.addrs := fun hm => by have := B.grown.fresh x hm; grind
    refine ⟨_, t, by simp only [buildSub, e1, Res.ok_bind]; exact Heap.modify_of hc _, ?_, hP⟩
    refine ⟨by simp [e2], ?_, by simp, ?_, ?_⟩
    · rw [holds_set (by rw [keys_cells]; exact hxt)]; exact B.rep.1
    · simp [hxt]; exact B.rep.2
    · exact (H.grown.trans B.grown).set _ (by simp) |>.congr (by simp)

theorem stage_right {γ : Type} {g : BHeap α} {x : Addr} {v : α} {l : BTree (Addr × α)} {on : Option γ}
    {F : BHeap α → γ → Res (BHeap α × Addr)}
    {P : BTree (Addr × α) → Prop} (H : Stage h g x v l .nil) (h0 : on = none → P .nil)
    (h1 : ∀ nx, on = some nx → ∃ g' a t, F g nx = Res.ok (g', a) ∧ t.addr? = some a ∧ Built g g' t ∧ P t) :
    ∃ g' r, buildSub g x on F (fun a m => { m with right := some a }) = Res.ok g' ∧ Stage h g' x v l r ∧ P r := by
  cases on with
  | none => exact ⟨g, .nil, rfl, H, h0 rfl⟩
  | some nx =>
    obtain ⟨g', a, t, e1, e2, B, hP⟩ := h1 nx rfl
    have hfr := H.grown.fresh
    have hx : x < g.next := (hfr x (by simp)).2
    have hc : g'.cells x = some ⟨v, none, l.addr?, none⟩ := by
      rw [B.grown.same x hx, H.cell]; rfl
    have hnew : ∀ b ∈ t.addrs, b ≠ x ∧ b ∉ l.addrs := fun b hm => by
      have := B.grown.fresh b hm
      refine ⟨by grind, fun hl => ?_⟩
      have := hfr b (by simp [hl]); grind
    have hd := H.nodup
    simp at hd
    refine ⟨_, t, by simp only [buildSub, e1, Res.ok_bind]; exact Heap.modify_of hc _, ?_, hP⟩
    refine ⟨by simp [e2], ?_, ?_, ?_, ?_⟩
    · rw [holds_set (by rw [keys_cells]; exact hd.1)]
      refine H.holdsL.congr ?_
      rw [keys_cells]
      intro b hb
      exact B.grown.same b (hfr b (by simp [hb])).2
    · rw [holds_set (by rw [keys_cells]; exact fun hm => (hnew x hm).1 rfl)]; exact B.rep.1
    · have := B.rep.2
      simp only [List.nodup_cons, List.nodup_append, List.mem_append]
      grind
    · exact (H.grown.trans B.grown).set _ (by simp) |>.congr (by simp)

theorem holds_reparent {t : BTree (Addr × α)} {par par' : Ptr} {g : BHeap α} (H : Holds g (cells par t)) {b v l r}
    (ht : t = node (b, v) l r) (hn : t.addrs.Nodup) :
    g.modify b (fun m => { m with parent := par' }) = Res.ok (g.set b ⟨v, par', l.addr?, r.addr?⟩) ∧
    Holds (g.set b ⟨v, par', l.addr?, r.addr?⟩) (cells par' t) := by
  subst ht
  simp at H hn
  refine ⟨by rw [Heap.modify_of H.1], ?_⟩
  simp
  exact ⟨(holds_set (by rw [keys_cells]; exact hn.1.1)).mpr H.2.1, (holds_set (by rw [keys_cells]; exact hn.1.2)).mpr H.2.2⟩

theorem stage_done {g : BHeap α} {x : Addr} {v : α} {l r : BTree (Addr × α)} (H : Stage h g x v l r) :
    ∃ h', attach g x = Res.ok h' ∧ Built h h' (node (x, v) l r) := by
  have hd := H.nodup
  simp only [List.nodup_cons, List.nodup_append, List.mem_append] at hd
  have hdl := hd.2.1
  have hdr := hd.2.2.1
  have key : ∃ h', attach g x = Res.ok h' ∧ Grown h h' (x :: (l.addrs ++ r.addrs)) ∧
      h'.cells x = g.cells x ∧ Holds h' (cells (some x) l) ∧ Holds h' (cells (some x) r) := by
    simp only [attach, Heap.read_of H.cell, Res.ok_bind]
    have GH := H.grown
    have HL := H.holdsL
    have HR := H.holdsR
    cases l with
    | nil =>
      cases r with
      | nil => exact ⟨g, rfl, H.grown, rfl, by simp, by simp⟩
      | node q rl rr =>
        obtain ⟨e, K⟩ := holds_reparent (par' := some x) HR (b := q.1) (v := q.2) rfl hdr
        refine ⟨_, by simpa using e, GH.set _ (by simp), ?_, by simp, K⟩
        have : x ≠ q.1 := fun e => by simp [e] at hd
        simp [this]
    | node p ll lr =>
      have hxp : x ≠ p.1 := fun e => by simp [e] at hd
      obtain ⟨e, K⟩ := holds_reparent (par' := some x) HL (b := p.1) (v := p.2) rfl hdl
      have hpr : p.1 ∉ r.addrs := fun hm => by simp at hd; grind
      have HR' := (holds_set (n := ⟨p.2, some x, ll.addr?, lr.addr?⟩) (by rw [keys_cells]; exact hpr)).mpr HR
      cases r with
      | nil =>
        refine ⟨_, by simp only [addr?_node, addr?_nil, e, Res.ok_bind]; rfl, GH.set _ (by simp), ?_, K, by simp⟩
        simp [hxp]
      | node q rl rr =>
        obtain ⟨e2, K2⟩ := holds_reparent (par' := some x) HR' (b := q.1) (v := q.2) rfl hdr
        refine ⟨_, ?_, (GH.set _ (by simp)).set _ (by simp), ?_, ?_, K2⟩
        · simp only [addr?_node, e, Res.ok_bind, e2]
        · have : x ≠ q.1 := fun e => by simp [e] at hd
          simp [this, hxp]
        · exact (holds_set (by rw [keys_cells]; intro hm; exact hd.2.2.2 _ hm _ (by simp) rfl)).mpr K
  obtain ⟨h', e, G, hc, HL, HR⟩ := key
  refine ⟨h', e, ⟨?_, ?_⟩, by simpa using G⟩
  · simp only [cells_node, holds_cons, holds_append]
    exact ⟨hc.trans H.cell, HL, HR⟩
  · simpa using H.nodup

theorem buildStep_spec {γ : Type} (hw : h.WF) {v : α} {ol or_ : Option γ}
    {F : BHeap α → γ → Res (BHeap α × Addr)} {Pl Pr : BTree (Addr × α) → Prop}
    (hl0 : ol = none → Pl .nil) (hr0 : or_ = none → Pr .nil)
    (hL : ∀ nx, ol = some nx → ∀ g ks, Grown h g ks →
      ∃ g' a t, F g nx = Res.ok (g', a) ∧ t.addr? = some a ∧ Built g g' t ∧ Pl t)
    (hR : ∀ nx, or_ = some nx → ∀ g ks, Grown h g ks →
      ∃ g' a t, F g nx = Res.ok (g', a) ∧ t.addr? = some a ∧ Built g g' t ∧ Pr t) :
    ∃ h' l r, buildStep h v ol or_ F = Res.ok (h', h.next) ∧ Built h h' (node (h.next, v) l r) ∧ Pl l ∧ Pr r := by
  have S0 : Stage h (h.alloc ⟨v, none, none, none⟩).1 h.next v .nil .nil :=
    ⟨by simp [Heap.alloc], by simp, by simp, by simp, by simpa using grown_alloc hw _⟩
  obtain ⟨g1, l, e1, S1, P1⟩ := stage_left (on := ol) (F := F) (P := Pl) S0 hl0 (fun nx e => hL nx e _ _ S0.grown)
  obtain ⟨g2, r, e2, S2, P2⟩ := stage_right (on := or_) (F := F) (P := Pr) S1 hr0 (fun nx e => hR nx e _ _ S1.grown)
  obtain ⟨h', e3, B⟩ := stage_done S2
  refine ⟨h', l, r, ?_, B, P1, P2⟩
  have : buildStep h v ol or_ F = (do
    let g ← buildSub (h.alloc ⟨v, none, none, none⟩).1 h.next ol F (fun a m => { m with left := some a })
    let g ← buildSub g h.next or_ F (fun a m => { m with right := some a })
    let g ← attach g h.next
    pure (g, h.next)) := rfl
  rw [this, e1, Res.ok_bind, e2, Res.ok_bind, e3]; rfl

theorem copy_step (fuel : Nat) (h : BHeap α) (other : Addr) (o : BNode α) (ho : h.cells other = some o) :
    copy (fuel + 1) h other = buildStep h o.value o.left o.right (copy fuel) := by
  rw [copy, Heap.read_of ho, Res.ok_bind]
  cases o.left <;> cases o.right <;> simp [buildStep, buildSub, Res.bind_assoc]

/-- Copying a node copies it and everything below it (wherever the node is). -/
theorem copy_deep (t : BTree (Addr × α)) (fuel : Nat) (hf : t.height ≤ fuel) {par : Ptr} (hw : h.WF)
    (H : Holds h (cells par t)) {a : Addr} (ha : t.addr? = some a) :
    ∃ h' a' t', copy fuel h a = Res.ok (h', a') ∧ t'.addr? = some a' ∧ Built h h' t' ∧ t'.vals = t.vals := by
  induction t generalizing h fuel par a with
  | nil => simp at ha
  | node p l r ihl ihr =>
    cases fuel with
    | zero => simp [height] at hf
    | succ fuel =>
      simp [height] at hf H ha
      subst ha
      obtain ⟨hc, hl, hr⟩ := H
      rw [copy_step fuel h p.1 _ hc]
      obtain ⟨h', l', r', e, B, P1, P2⟩ := buildStep_spec (h := h) (v := p.2) (ol := l.addr?) (or_ := r.addr?)
        (F := copy fuel) (Pl := fun t => t.vals = l.vals) (Pr := fun t => t.vals = r.vals) hw
        (by cases l <;> simp) (by cases r <;> simp)
        (fun nx e g ks G => ihl fuel (by omega) G.wf (G.holds hw hl) e)
        (fun nx e g ks G => ihr fuel (by omega) G.wf (G.holds hw hr) e)
      exact ⟨h', h.next, _, e, rfl, B, by simp [vals_node, P1, P2]⟩

theorem copy_spec (t : BTree (Addr × α)) (fuel : Nat) (hf : t.size ≤ fuel) {par : Ptr} (hw : h.WF)
    (H : Holds h (cells par t)) {a : Addr} (ha : t.addr? = some a) :
    ∃ h' a' t', copy fuel h a = Res.ok (h', a') ∧ t'.addr? = some a' ∧ Built h h' t' ∧ t'.vals = t.vals :=
  copy_deep t fuel (Nat.le_trans (height_le t) hf) hw H ha

theorem copy_root (hw : h.WF) (t : BTree (Addr × α)) (H : Rep h t) {a : Addr} (ha : t.addr? = some a)
    (fuel : Nat) (hf : t.size ≤ fuel) :
    ∃ h' a' t', copy fuel h a = Res.ok (h', a') ∧ t'.addr? = some a' ∧ Rep h' t' ∧ t'.vals = t.vals ∧
      Grown h h' t'.addrs := by
  obtain ⟨h', a', t', e, ha', B, hv⟩ := copy_spec t fuel hf hw H.1 ha
  exact ⟨h', a', t', e, ha', B.rep, hv, B.grown⟩

end Binary
