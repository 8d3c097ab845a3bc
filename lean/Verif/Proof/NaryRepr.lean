import Verif.Proof.Heap
import Verif.Proof.Tree
import Verif.Spec.Nav
/-! The records of an nary tree, seen from a position in it. -/
open Tree

namespace Tree
variable {α : Type}
@[simp] theorem addr_node (a : Addr) (v : α) (cs) : (node (a, v) cs).addr = a := rfl
@[simp] theorem addrs_node (p : Addr × α) (cs) : (node p cs).addrs = p.1 :: addrsL cs := by simp [addrs, addrsL]
@[simp] theorem addrsL_nil : addrsL ([] : List (Tree (Addr × α))) = [] := by simp [addrsL]
@[simp] theorem addrsL_cons (t : Tree (Addr × α)) (ts) : addrsL (t :: ts) = t.addrs ++ addrsL ts := by
  simp [addrs, addrsL]
@[simp] theorem addrsL_append (s t : List (Tree (Addr × α))) : addrsL (s ++ t) = addrsL s ++ addrsL t := by
  simp [addrsL]
@[simp] theorem headAddr_nil : headAddr ([] : List (Tree (Addr × α))) = none := rfl
@[simp] theorem headAddr_cons (t : Tree (Addr × α)) (ts) : headAddr (t :: ts) = some t.addr := rfl
@[simp] theorem headAddr_append (s t : List (Tree (Addr × α))) : headAddr (s ++ t) = (headAddr s).or (headAddr t) := by
  cases s <;> simp
@[simp] theorem lastAddr_nil : lastAddr ([] : List (Tree (Addr × α))) = none := rfl
@[simp] theorem lastAddr_append (s t : List (Tree (Addr × α))) : lastAddr (s ++ t) = (lastAddr t).or (lastAddr s) := by
  unfold lastAddr
  rw [List.getLast?_append]; cases t.getLast? <;> simp
@[simp] theorem lastAddr_single (t : Tree (Addr × α)) : lastAddr [t] = some t.addr := rfl
theorem lastAddr_cons (t : Tree (Addr × α)) (ts) : lastAddr (t :: ts) = (lastAddr ts).or (some t.addr) := by
  rw [← List.singleton_append, lastAddr_append]; simp
theorem addr_mem_addrs (t : Tree (Addr × α)) : t.addr ∈ t.addrs := by
  cases t with | node p cs => simp [addr]
theorem addr_mem_addrsL {t : Tree (Addr × α)} {ts} (h : t ∈ ts) : t.addr ∈ addrsL ts := by
  induction ts with
  | nil => simp at h
  | cons s ts ih =>
    simp at h
    rcases h with rfl | h
    · simp [addr_mem_addrs]
    · simp [ih h]
theorem addrTree_pre (t : Tree (Addr × α)) : t.addrTree.pre = t.addrs := by simp [addrTree, pre_map, addrs]
theorem addrTree_label (t : Tree (Addr × α)) : t.addrTree.label = t.addr := by simp [addrTree, addr]
theorem length_addrs (t : Tree (Addr × α)) : t.addrs.length = t.size := by simp [addrs]
theorem addrTree_size (t : Tree (Addr × α)) : t.addrTree.size = t.size := by simp [addrTree, size_map]
end Tree

namespace Nary
variable {α : Type} {h : NHeap α}

@[simp] theorem cellsL_nil (par prev nx : Ptr) (k : Nat) : cellsL (α := α) par prev nx k [] = [] := by simp [cellsL]
@[simp] theorem cellsL_cons (par prev nx : Ptr) (k : Nat) (t : Tree (Addr × α)) (ts) :
    cellsL par prev nx k (t :: ts)
      = cells par prev ((headAddr ts).or nx) (ts.length + k) t ++ cellsL par (some t.addr) nx k ts := by simp [cellsL]

/-- The record at the root of a subtree. -/
def rec_ (par prev nx : Ptr) (fol : Nat) (t : Tree (Addr × α)) : NNode α :=
  ⟨t.label.2, par, fol, prev, nx, headAddr t.children, lastAddr t.children⟩
/-- The records strictly below the root. -/
def below (t : Tree (Addr × α)) : List (Addr × NNode α) := cellsL (some t.addr) none none 0 t.children

theorem cells_eq (par prev nx : Ptr) (fol : Nat) (t : Tree (Addr × α)) :
    cells par prev nx fol t = (t.addr, rec_ par prev nx fol t) :: below t := by
  cases t with | node p cs => cases p; simp [cells, rec_, below, addr]

theorem cellsL_append (par prev nx : Ptr) (k : Nat) (l r : List (Tree (Addr × α))) :
    cellsL par prev nx k (l ++ r) =
      cellsL par prev ((headAddr r).or nx) (r.length + k) l ++ cellsL par ((lastAddr l).or prev) nx k r := by
  induction l generalizing prev with
  | nil => simp
  | cons t l ih =>
    simp [ih, lastAddr_cons, Option.or_assoc, Nat.add_assoc]

mutual
theorem keys_cells (par prev nx : Ptr) (fol : Nat) : (t : Tree (Addr × α)) → keys (cells par prev nx fol t) = t.addrs
  | .node (a, v) cs => by simp [cells, keys_cellsL]
theorem keys_cellsL (par prev nx : Ptr) (k : Nat) : (ts : List (Tree (Addr × α))) →
    keys (cellsL par prev nx k ts) = addrsL ts
  | [] => by simp
  | t :: ts => by simp [keys_cells, keys_cellsL]
end
theorem keys_below (t : Tree (Addr × α)) : keys (below t) = addrsL t.children := keys_cellsL _ _ _ _ _
theorem addrs_eq (t : Tree (Addr × α)) : t.addrs = t.addr :: addrsL t.children := by
  cases t with | node p cs => simp [addr]

/-! ### contexts -/

/-- Parent, previous sibling, next sibling and number of following siblings of a focus. -/
def fpar : List (Frame (Addr × α)) → Ptr
  | [] => none
  | f :: _ => some f.label.1
def fprev : List (Frame (Addr × α)) → Ptr
  | [] => none
  | f :: _ => lastAddr f.lefts
def fnext : List (Frame (Addr × α)) → Ptr
  | [] => none
  | f :: _ => headAddr f.rights
def ffol : List (Frame (Addr × α)) → Nat
  | [] => 0
  | f :: _ => f.rights.length

def focusCells (fs : List (Frame (Addr × α))) (s : Tree (Addr × α)) : List (Addr × NNode α) :=
  cells (fpar fs) (fprev fs) (fnext fs) (ffol fs) s

/-- The record of the node of the innermost frame when its child in the hole is at address `x`. -/
def frameRec (f : Frame (Addr × α)) (fs : List (Frame (Addr × α))) (x : Addr) : NNode α :=
  ⟨f.label.2, fpar fs, ffol fs, fprev fs, fnext fs, (headAddr f.lefts).or (some x), (lastAddr f.rights).or (some x)⟩

/-- The records of a context whose hole is filled by a tree rooted at `x`. -/
def ctxCells : List (Frame (Addr × α)) → Addr → List (Addr × NNode α)
  | [], _ => []
  | f :: fs, x => (f.label.1, frameRec f fs x) ::
      (cellsL (some f.label.1) none (some x) (f.rights.length + 1) f.lefts ++
        (cellsL (some f.label.1) (some x) none 0 f.rights ++ ctxCells fs f.label.1))

/-- Addresses of a context. -/
def ctxAddrs : List (Frame (Addr × α)) → List Addr
  | [] => []
  | f :: fs => f.label.1 :: (addrsL f.lefts ++ (addrsL f.rights ++ ctxAddrs fs))

theorem keys_ctxCells (fs : List (Frame (Addr × α))) (x : Addr) : keys (ctxCells fs x) = ctxAddrs fs := by
  induction fs generalizing x with
  | nil => rfl
  | cons f fs ih => simp [ctxCells, ctxAddrs, keys_cellsL, ih]

theorem frame_cells (f : Frame (Addr × α)) (fs) (s : Tree (Addr × α)) :
    (focusCells fs (node f.label (f.lefts ++ s :: f.rights))).Perm
      ((f.label.1, frameRec f fs s.addr) ::
      (cellsL (some f.label.1) none (some s.addr) (f.rights.length + 1) f.lefts ++
        (cellsL (some f.label.1) (some s.addr) none 0 f.rights ++ focusCells (f :: fs) s))) := by
  have e : focusCells (f :: fs) s = cells (some f.label.1) (lastAddr f.lefts) (headAddr f.rights) f.rights.length s := rfl
  rw [focusCells, cells_eq, e, below]
  simp only [children_node, cellsL_append, cellsL_cons]
  have : rec_ (fpar fs) (fprev fs) (fnext fs) (ffol fs) (node f.label (f.lefts ++ s :: f.rights)) = frameRec f fs s.addr := by
    simp [rec_, frameRec, lastAddr_cons]
  rw [this]
  refine List.Perm.cons _ ?_
  simp [addr]
  refine List.Perm.append_left _ ?_
  exact List.perm_append_comm

theorem cells_plug (fs : List (Frame (Addr × α))) (s : Tree (Addr × α)) :
    (cells none none none 0 (plug fs s)).Perm (ctxCells fs s.addr ++ focusCells fs s) := by
  induction fs generalizing s with
  | nil => simp [ctxCells, focusCells, fpar, fprev, fnext, ffol]
  | cons f fs ih =>
    refine (ih _).trans ?_
    refine ((frame_cells f fs s).append_left _).trans ?_
    simp only [ctxCells, addr, label_node, List.cons_append]
    refine List.perm_middle.trans (List.Perm.cons _ ?_)
    refine List.perm_append_comm.trans ?_
    simp only [List.append_assoc]
    refine List.Perm.append_left _ (List.Perm.append_left _ ?_)
    exact List.perm_append_comm

theorem addrs_plug (fs : List (Frame (Addr × α))) (s : Tree (Addr × α)) :
    (plug fs s).addrs.Perm (ctxAddrs fs ++ s.addrs) := by
  have := (cells_plug fs s).map Prod.fst
  have h1 := keys_cells none none none 0 (plug fs s)
  have h2 := keys_ctxCells fs s.addr
  have h3 : keys (focusCells fs s) = s.addrs := keys_cells _ _ _ _ s
  simp only [List.map_append] at this
  simp only [keys] at h1 h2 h3
  rw [h1, h2, h3] at this
  exact this

theorem keys_focusCells (fs : List (Frame (Addr × α))) (s : Tree (Addr × α)) : keys (focusCells fs s) = s.addrs :=
  keys_cells _ _ _ _ s

theorem focusCells_eq (fs : List (Frame (Addr × α))) (s : Tree (Addr × α)) :
    focusCells fs s = (s.addr, rec_ (fpar fs) (fprev fs) (fnext fs) (ffol fs) s) :: below s := cells_eq _ _ _ _ s

/-- A free-standing tree, seen from a position in it. -/
theorem rep_plug (fs : List (Frame (Addr × α))) (s : Tree (Addr × α)) :
    Rep h (plug fs s) ↔
      Holds h (ctxCells fs s.addr) ∧ Holds h (focusCells fs s) ∧ (ctxAddrs fs ++ s.addrs).Nodup := by
  constructor
  · rintro ⟨h1, h2⟩
    have := h1.perm (cells_plug fs s)
    rw [holds_append] at this
    exact ⟨this.1, this.2, (addrs_plug fs s).nodup_iff.mp h2⟩
  · rintro ⟨h1, h2, h3⟩
    refine ⟨Holds.perm (holds_append.mpr ⟨h1, h2⟩) (cells_plug fs s).symm, (addrs_plug fs s).nodup_iff.mpr h3⟩

/-- The record at a position. -/
theorem Rep.cell (H : Rep h (plug fs s)) :
    h.cells s.addr = some (rec_ (fpar fs) (fprev fs) (fnext fs) (ffol fs) s) := by
  have := ((rep_plug fs s).mp H).2.1
  rw [focusCells_eq] at this
  simp at this
  exact this.1

theorem Rep.parent_cell (H : Rep h (plug (f :: fs) s)) :
    h.cells f.label.1 = some (frameRec f fs s.addr) := by
  have := ((rep_plug (f :: fs) s).mp H).1
  simp [ctxCells] at this
  exact this.1

end Nary
