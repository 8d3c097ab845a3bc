import Verif.Proof.Heap
import Verif.Proof.InOrder
import Verif.Proof.NaryNav
/-! The records of a binary tree, seen from a position in it, and the navigator over them. -/

set_option linter.unusedSimpArgs false

namespace BTree
variable {α β γ : Type}
@[simp] theorem nil_or (s : BTree β) : nil.or s = s := rfl
@[simp] theorem or_nil (s : BTree β) : s.or nil = s := by cases s <;> rfl
@[simp] theorem node_or (a : β) (l r s) : (node a l r).or s = node a l r := rfl
@[simp] theorem addr?_nil : (nil : BTree (Addr × α)).addr? = none := rfl
@[simp] theorem addr?_node (p : Addr × α) (l r) : (node p l r).addr? = some p.1 := rfl
@[simp] theorem addrs_nil : (nil : BTree (Addr × α)).addrs = [] := rfl
@[simp] theorem addrs_node (p : Addr × α) (l r : BTree (Addr × α)) : (node p l r).addrs = p.1 :: (l.addrs ++ r.addrs) := by
  simp [addrs, pre]
theorem addr?_mem {t : BTree (Addr × α)} {a} (h : t.addr? = some a) : a ∈ t.addrs := by
  cases t with
  | nil => simp at h
  | node p l r => simp at h; simp [h]
@[simp] theorem map_nil (f : β → γ) : (nil : BTree β).map f = nil := rfl
@[simp] theorem map_node (f : β → γ) (a : β) (l r) : (node a l r).map f = node (f a) (l.map f) (r.map f) := rfl
theorem pre_map (f : β → γ) (t : BTree β) : (t.map f).pre = t.pre.map f := by
  induction t <;> simp_all [pre]
theorem label?_map (f : β → γ) (t : BTree β) : (t.map f).label? = t.label?.map f := by cases t <;> rfl
theorem addrTree_label? (t : BTree (Addr × α)) : t.addrTree.label? = t.addr? := by cases t <;> rfl
@[simp] theorem length_addrs (t : BTree (Addr × α)) : t.addrs.length = t.size := by
  induction t <;> simp_all
@[simp] theorem size_map (f : β → γ) (t : BTree β) : (t.map f).size = t.size := by
  induction t <;> simp_all

def Frame.map (g : β → γ) (f : Frame β) : Frame γ := ⟨g f.label, f.holeLeft, f.other.map g⟩

theorem fill_map (g : β → γ) (f : Frame β) (s : BTree β) : (f.fill s).map g = (f.map g).fill (s.map g) := by
  cases f with | mk a b o => cases b <;> simp [Frame.fill, Frame.map]

theorem plug_map (g : β → γ) (fs : List (Frame β)) (s : BTree β) :
    (plug fs s).map g = plug (fs.map (Frame.map g)) (s.map g) := by
  induction fs generalizing s with
  | nil => rfl
  | cons f fs ih => simp [ih, fill_map]

theorem plug_eq_map (g : β → γ) {fs : List (Frame γ)} {s : BTree γ} {t : BTree β} (h : plug fs s = t.map g) :
    ∃ fs' s', plug fs' s' = t ∧ fs'.map (Frame.map g) = fs ∧ s'.map g = s := by
  induction fs generalizing s with
  | nil => exact ⟨[], t, rfl, rfl, by simpa using h.symm⟩
  | cons f fs ih =>
    obtain ⟨fs', s', h1, h2, h3⟩ := ih h
    cases f with
    | mk a b o =>
      cases s' with
      | nil => cases b <;> simp [Frame.fill] at h3
      | node p l r =>
        cases b <;> simp [Frame.fill] at h3
        · exact ⟨⟨p, false, l⟩ :: fs', r, by simpa [Frame.fill] using h1, by simp [h2, Frame.map, h3], h3.2.2⟩
        · exact ⟨⟨p, true, r⟩ :: fs', l, by simpa [Frame.fill] using h1, by simp [h2, Frame.map, h3], h3.2.1⟩

end BTree

namespace Binary
open BTree
variable {α : Type} {h : BHeap α}

@[simp] theorem cells_nil (par : Ptr) : cells (α := α) par .nil = [] := by simp [cells]
@[simp] theorem cells_node (par : Ptr) (p : Addr × α) (l r : BTree (Addr × α)) :
    cells par (.node p l r) = (p.1, ⟨p.2, par, l.addr?, r.addr?⟩) :: (cells (some p.1) l ++ cells (some p.1) r) := by
  cases p; simp [cells]

theorem keys_cells (par : Ptr) (t : BTree (Addr × α)) : keys (cells par t) = t.addrs := by
  induction t generalizing par with
  | nil => simp
  | node p l r ihl ihr => simp [ihl, ihr]

def fpar : List (Frame (Addr × α)) → Ptr
  | [] => none
  | f :: _ => some f.label.1

@[simp] theorem fpar_nil : fpar ([] : List (Frame (Addr × α))) = none := rfl
@[simp] theorem fpar_cons (f) (fs : List (Frame (Addr × α))) : fpar (f :: fs) = some f.label.1 := rfl

def frameRec (f : Frame (Addr × α)) (fs : List (Frame (Addr × α))) (x : Ptr) : BNode α :=
  ⟨f.label.2, fpar fs, if f.holeLeft then x else f.other.addr?, if f.holeLeft then f.other.addr? else x⟩

def ctxCells : List (Frame (Addr × α)) → Ptr → List (Addr × BNode α)
  | [], _ => []
  | f :: fs, x => (f.label.1, frameRec f fs x) :: (cells (some f.label.1) f.other ++ ctxCells fs (some f.label.1))

def ctxAddrs : List (Frame (Addr × α)) → List Addr
  | [] => []
  | f :: fs => f.label.1 :: (f.other.addrs ++ ctxAddrs fs)

theorem keys_ctxCells (fs : List (Frame (Addr × α))) (x : Ptr) : keys (ctxCells fs x) = ctxAddrs fs := by
  induction fs generalizing x with
  | nil => rfl
  | cons f fs ih => simp [ctxCells, ctxAddrs, keys_cells, ih]

@[simp] theorem addr?_fill (f : Frame (Addr × α)) (s) : (f.fill s).addr? = some f.label.1 := by
  cases f with | mk a b o => cases b <;> simp [Frame.fill]

theorem cells_plug (fs : List (Frame (Addr × α))) (s : BTree (Addr × α)) :
    (cells none (plug fs s)).Perm (ctxCells fs s.addr? ++ cells (fpar fs) s) := by
  induction fs generalizing s with
  | nil => simp [ctxCells, fpar]
  | cons f fs ih =>
    refine (ih _).trans ?_
    rw [addr?_fill]
    obtain ⟨p, b, o⟩ := f
    simp only [ctxCells, fpar_cons, List.cons_append, List.append_assoc]
    cases b
    · simp only [Frame.fill, cells_node, frameRec, Bool.false_eq_true, if_false]
      refine List.perm_middle.trans (List.Perm.cons _ ?_)
      refine List.perm_append_comm.trans ?_
      simp only [List.append_assoc]
      exact List.Perm.append_left _ List.perm_append_comm
    · simp only [Frame.fill, cells_node, frameRec, if_true]
      refine List.perm_middle.trans (List.Perm.cons _ ?_)
      refine List.perm_append_comm.trans ?_
      simp only [List.append_assoc]
      refine (List.perm_append_comm_assoc _ _ _).trans ?_
      exact List.Perm.append_left _ List.perm_append_comm

theorem addrs_plug (fs : List (Frame (Addr × α))) (s : BTree (Addr × α)) :
    (plug fs s).addrs.Perm (ctxAddrs fs ++ s.addrs) := by
  have := (cells_plug fs s).map Prod.fst
  have h1 := keys_cells none (plug fs s)
  have h2 := keys_ctxCells fs s.addr?
  have h3 := keys_cells (fpar fs) s
  simp only [List.map_append] at this
  simp only [keys] at h1 h2 h3
  rw [h1, h2, h3] at this
  exact this

theorem rep_plug (fs : List (Frame (Addr × α))) (s : BTree (Addr × α)) :
    Rep h (plug fs s) ↔ Holds h (ctxCells fs s.addr?) ∧ Holds h (cells (fpar fs) s) ∧ (ctxAddrs fs ++ s.addrs).Nodup := by
  constructor
  · rintro ⟨h1, h2⟩
    have := h1.perm (cells_plug fs s)
    rw [holds_append] at this
    exact ⟨this.1, this.2, (addrs_plug fs s).nodup_iff.mp h2⟩
  · rintro ⟨h1, h2, h3⟩
    exact ⟨Holds.perm (holds_append.mpr ⟨h1, h2⟩) (cells_plug fs s).symm, (addrs_plug fs s).nodup_iff.mpr h3⟩

theorem Rep.cell {fs} {p : Addr × α} {l r} (H : Rep h (plug fs (.node p l r))) :
    h.cells p.1 = some ⟨p.2, fpar fs, l.addr?, r.addr?⟩ := by
  have := ((rep_plug fs _).mp H).2.1
  simp at this
  exact this.1

theorem Rep.parent_cell {f fs} {s : BTree (Addr × α)} (H : Rep h (plug (f :: fs) s)) :
    h.cells f.label.1 = some (frameRec f fs s.addr?) := by
  have := ((rep_plug (f :: fs) s).mp H).1
  simp [ctxCells] at this
  exact this.1

theorem Rep.nodup_focus {fs} {s : BTree (Addr × α)} (H : Rep h (plug fs s)) : s.addrs.Nodup :=
  (List.nodup_append.mp ((rep_plug fs s).mp H).2.2).2.1

theorem root_mem_ctx (f) (fs : List (Frame (Addr × α))) (s : BTree (Addr × α)) {a} (ha : (plug (f :: fs) s).addr? = some a) :
    a ∈ ctxAddrs (f :: fs) := by
  induction fs generalizing f s with
  | nil => simp at ha; simp [ctxAddrs, ha]
  | cons g fs ih =>
    have := ih g (f.fill s) ha
    simp [ctxAddrs] at this ⊢
    grind

/-- Inside a proper context the root of the focus differs from the root of the whole. -/
theorem addr_ne_of_plug_cons {f} {fs : List (Frame (Addr × α))} {s t : BTree (Addr × α)} {a b : Addr}
    (hp : plug (f :: fs) s = t) (hn : t.addrs.Nodup) (ha : s.addr? = some a) (hb : t.addr? = some b) : a ≠ b := by
  subst hp
  have h1 := (addrs_plug (f :: fs) s).nodup_iff.mp hn
  exact fun e => (List.nodup_append.mp h1).2.2 _ (root_mem_ctx f fs s hb) _ (addr?_mem ha) e.symm

/-- What the heap says about a node of a view rooted at `s`. -/
theorem focus_cases {gs} {s : BTree (Addr × α)} (H : Rep h (plug gs s)) {x : Addr} (hx : s.addr? = some x)
    {fs : List (Frame Addr)} {a : Addr} {l r : BTree Addr}
    (hu : plug fs (.node a l r) = s.addrTree) :
    ∃ (v : α) (l' r' : BTree (Addr × α)), l = l'.addrTree ∧ r = r'.addrTree ∧ (a :: (l'.addrs ++ r'.addrs)).Nodup ∧
      ((fs = [] ∧ a = x ∧ h.cells a = some ⟨v, fpar gs, l'.addr?, r'.addr?⟩) ∨
      (∃ f fs', fs = (f :: fs').map (Frame.map Prod.fst) ∧ a ≠ x ∧
        h.cells a = some ⟨v, some f.label.1, l'.addr?, r'.addr?⟩ ∧
        h.cells f.label.1 = some (frameRec f (fs' ++ gs) (some a)) ∧
        f.other.addr? ≠ some a)) := by
  have hnd := H.nodup_focus
  obtain ⟨fs', u', h1, h2, h3⟩ := plug_eq_map Prod.fst hu
  cases u' with
  | nil => simp at h3
  | node p l' r' =>
    obtain ⟨b, v⟩ := p
    simp at h3
    obtain ⟨rfl, rfl, rfl⟩ := h3
    have hnd' : (b :: (l'.addrs ++ r'.addrs)).Nodup := by
      rw [← h1] at hnd
      have := (List.nodup_append.mp ((addrs_plug fs' (node (b, v) l' r')).nodup_iff.mp hnd)).2.1
      simpa using this
    refine ⟨v, l', r', rfl, rfl, hnd', ?_⟩
    cases fs' with
    | nil =>
      left
      simp at h1
      subst h1
      simp at hx
      exact ⟨by simpa using h2.symm, hx, H.cell⟩
    | cons f fs' =>
      right
      have hT : plug (f :: (fs' ++ gs)) (node (b, v) l' r') = plug gs s := by rw [← h1, ← plug_append]; rfl
      refine ⟨f, fs', h2.symm, ?_, ?_, ?_, ?_⟩
      · exact addr_ne_of_plug_cons h1 hnd rfl hx
      · rw [← hT] at H; exact H.cell
      · rw [← hT] at H; exact H.parent_cell
      · rw [← hT, rep_plug] at H
        intro e
        have := addr?_mem e
        have h5 := H.2.2
        simp only [ctxAddrs, addrs_node] at h5
        grind

/-- The navigator of binary nodes agrees with the tree held by the heap, at any root. -/
theorem bnav_spec {gs} {s : BTree (Addr × α)} (H : Rep h (plug gs s)) {x : Addr} (hx : s.addr? = some x) :
    BNavSpec (nav h (some x)) s.addrTree := by
  have e1 : ∀ o : BTree (Addr × α), o.addrTree.label? = o.addr? := addrTree_label?
  constructor
  · rw [addrTree, pre_map]; exact H.nodup_focus
  · simp [nav, e1, hx]
  all_goals
    intro fs a l r hu
    obtain ⟨v, l', r', rfl, rfl, hd, ⟨rfl, rfl, hc⟩ | ⟨f, fs', rfl, hne, hc, hp, hno⟩⟩ := focus_cases H hx hu
  all_goals first
    | (simp [nav, Heap.read_of hc, e1]; done)
    | (simp [nav, hne, Heap.read_of hc, Heap.read_of hp, e1, Frame.map]; done)
    | (obtain ⟨q, b, o⟩ := f
       have hno' : some a ≠ o.addr? := fun e => hno e.symm
       cases b <;> simp [nav, hne, Heap.read_of hc, Heap.read_of hp, e1, Frame.map, frameRec, hno'])

/-! ### the rose tree behind a binary tree -/

end Binary

namespace BTree
variable {β γ α : Type}

@[simp] theorem toRose_nil : (nil : BTree β).toRose = [] := rfl
@[simp] theorem toRose_node (a : β) (l r) : (node a l r).toRose = [Tree.node a (l.toRose ++ r.toRose)] := rfl

/-- The frame of the rose tree. -/
def Frame.toRose (f : Frame β) : Tree.Frame β :=
  ⟨f.label, if f.holeLeft then [] else f.other.toRose, if f.holeLeft then f.other.toRose else []⟩

theorem plug_toRose {fs : List (Tree.Frame β)} {u T : Tree β} {t : BTree β} (hT : t.toRose = [T])
    (hp : Tree.plug fs u = T) :
    ∃ (bs : List (Frame β)) (a : β) (l r : BTree β), plug bs (node a l r) = t ∧ fs = bs.map Frame.toRose ∧
      u = Tree.node a (l.toRose ++ r.toRose) := by
  induction fs generalizing u with
  | nil =>
    cases t with
    | nil => simp at hT
    | node a l r =>
      simp at hT hp
      exact ⟨[], a, l, r, rfl, rfl, by rw [hp, ← hT]⟩
  | cons f fs ih =>
    obtain ⟨bs, a, l, r, h1, h2, h3⟩ := ih (u := .node f.label (f.lefts ++ u :: f.rights)) hp
    simp at h3
    obtain ⟨h3, h4⟩ := h3
    obtain ⟨b, ls, rs⟩ := f
    simp at h3 h4
    subst h3
    cases l with
    | nil =>
      cases r with
      | nil => simp at h4
      | node c rl rr =>
        refine ⟨⟨b, false, .nil⟩ :: bs, c, rl, rr, by simpa [Frame.fill] using h1, ?_, ?_⟩ <;>
          cases ls <;> cases rs <;> simp_all [Frame.toRose]
    | node c ll lr =>
      cases r with
      | nil =>
        refine ⟨⟨b, true, .nil⟩ :: bs, c, ll, lr, by simpa [Frame.fill] using h1, ?_, ?_⟩ <;>
          cases ls <;> cases rs <;> simp_all [Frame.toRose]
      | node d rl rr =>
        cases ls with
        | nil =>
          refine ⟨⟨b, true, .node d rl rr⟩ :: bs, c, ll, lr, by simpa [Frame.fill] using h1, ?_, ?_⟩ <;>
            simp_all [Frame.toRose]
        | cons s ls =>
          refine ⟨⟨b, false, .node c ll lr⟩ :: bs, d, rl, rr, by simpa [Frame.fill] using h1, ?_, ?_⟩ <;>
            cases ls <;> simp_all [Frame.toRose]

theorem preL_toRose (t : BTree β) : Tree.preL t.toRose = t.pre := by
  induction t with
  | nil => simp [pre]
  | node a l r ihl ihr => simp [pre, ihl, ihr]

theorem toRose_map (g : β → γ) (t : BTree β) : (t.map g).toRose = t.toRose.map (Tree.map g) := by
  induction t with
  | nil => simp
  | node a l r ihl ihr => simp [ihl, ihr, Tree.mapL_eq]

theorem headLabel_toRose (t : BTree β) : t.toRose.head?.map Tree.label = t.label? := by cases t <;> rfl
theorem lastLabel_toRose (t : BTree β) : t.toRose.getLast?.map Tree.label = t.label? := by cases t <;> rfl

end BTree

namespace Binary
open BTree
variable {α : Type} {h : BHeap α}

theorem first_of {a : Addr} {n : BNode α} (hc : h.cells a = some n) : first h a = Res.ok (n.left.or n.right) := by
  simp only [first, Heap.read_of hc, Res.ok_bind]; cases n.left <;> simp
theorem last_of {a : Addr} {n : BNode α} (hc : h.cells a = some n) : last h a = Res.ok (n.right.or n.left) := by
  simp only [last, Heap.read_of hc, Res.ok_bind]; cases n.right <;> simp

/-- The same navigator seen as a navigator over the rose tree of present children. -/
theorem nav_spec {gs} {s : BTree (Addr × α)} (H : Rep h (plug gs s)) {x : Addr} (hx : s.addr? = some x) {T : Tree Addr}
    (hT : s.addrTree.toRose = [T]) : NavSpec (nav h (some x)) T := by
  have e1 : ∀ o : BTree (Addr × α), o.addrTree.label? = o.addr? := addrTree_label?
  have e2 : ∀ o : BTree (Addr × α), (o.map Prod.fst).label? = o.addr? := addrTree_label?
  have hpre : T.pre = s.addrs := by
    have := preL_toRose s.addrTree
    rw [hT] at this
    simpa [addrTree, pre_map, addrs] using this
  constructor
  · rw [hpre]; exact H.nodup_focus
  · have := headLabel_toRose s.addrTree
    rw [hT] at this
    simp [e1, hx] at this
    simp [nav, this]
  all_goals
    intro fs u hu
    obtain ⟨bs, a, l, r, h1, rfl, rfl⟩ := plug_toRose hT hu
    obtain ⟨v, l', r', rfl, rfl, hd, ⟨rfl, rfl, hc⟩ | ⟨f, fs', rfl, hne, hc, hp, hno⟩⟩ := focus_cases H hx h1
  all_goals simp only [Tree.label_node, Tree.children_node]
  all_goals first
    | (simp [nav, Heap.read_of hc]; done)
    | (simp [nav, hne, Heap.read_of hc, Frame.map, Frame.toRose]; done)
    | (show first h _ = _; rw [first_of hc]
       cases l' <;> cases r' <;> simp [addrTree]; done)
    | (show last h _ = _; rw [last_of hc]
       cases l' <;> cases r' <;> simp [addrTree]; done)
    | (obtain ⟨q, b, o⟩ := f
       have hno' : some a ≠ o.addr? := fun e => hno e.symm
       cases b <;> cases o <;>
       simp_all [nav, prev, next, first_of hp, last_of hp, isLeftChild, isRightChild, hne, Heap.read_of hc, Heap.read_of hp, e1, e2, Frame.map, Frame.toRose, frameRec])

end Binary
