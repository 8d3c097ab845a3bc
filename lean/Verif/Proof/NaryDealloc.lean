import Verif.Proof.NaryNav
import Verif.Proof.DepthTree
/-! deallocate, children, get_child, calculate_size, calculate_arity on nary nodes. -/
open Tree

namespace Nary
variable {α : Type} {h : NHeap α}

theorem holds_cells_node {par prev nx : Ptr} {fol : Nat} {t : Tree (Addr × α)} :
    Holds h (cells par prev nx fol t) ↔
      h.cells t.addr = some (rec_ par prev nx fol t) ∧ Holds h (cellsL (some t.addr) none none 0 t.children) := by
  rw [cells_eq]; simp [below]

theorem dealloc_chain : ∀ (fuel : Nat) (ts : List (Tree (Addr × α))) (h : NHeap α) (par prev : Ptr) (k : Nat),
    Holds h (cellsL par prev none k ts) → (addrsL ts).Nodup → ladder ts < fuel →
      dealloc fuel h (headAddr ts) = Res.ok (h.freeAll (addrsL ts)) := by
  intro fuel
  induction fuel with
  | zero => intro ts h par prev k _ _ hf; omega
  | succ fuel ih =>
    intro ts h par prev k H hn hf
    cases ts with
    | nil => simp [dealloc]
    | cons t ts =>
      simp only [cellsL_cons, holds_append, holds_cells_node] at H
      obtain ⟨⟨hc, hb⟩, hr⟩ := H
      simp only [addrsL_cons, List.nodup_append] at hn
      obtain ⟨hn1, hn2, hn3⟩ := hn
      rw [addrs_eq, List.nodup_cons] at hn1
      simp only [ladder_cons] at hf
      simp only [headAddr_cons, dealloc, Heap.read_of hc, Res.ok_bind, rec_]
      rw [ih t.children h _ _ _ hb hn1.2 (by omega)]
      simp only [Res.ok_bind, Option.or_none]
      have hr' : Holds (h.freeAll (addrsL t.children)) (cellsL par (some t.addr) none k ts) := by
        refine holds_freeAll ?_ hr
        intro x hx hx2
        rw [keys_cellsL] at hx
        exact hn3 x (by rw [addrs_eq]; simp [hx2]) x hx rfl
      rw [ih ts _ _ _ _ hr' hn2 (by omega)]
      simp only [Res.ok_bind, Heap.freeAll_freeAll]
      have hta : t.addr ∉ addrsL ts := fun hm => hn3 _ (addr_mem_addrs t) _ hm rfl
      rw [Heap.free_of (n := rec_ par prev ((headAddr ts).or none) (ts.length + k) t)]
      · rw [Heap.freeAll_freeAll]
        congr 1
        refine Heap.freeAll_congr ?_
        intro x
        rw [addrsL_cons, addrs_eq]
        simp; grind
      · simp [hn1.1, hta, hc]

theorem dealloc_deep {t : Tree (Addr × α)} (H : Rep h t) {fuel : Nat} (hf : ladder [t] < fuel) :
    dealloc fuel h (some t.addr) = Res.ok (h.freeAll t.addrs) := by
  have := dealloc_chain fuel [t] h none none 0 (by simpa using H.1) (by simpa using H.2) hf
  simpa using this

theorem dealloc_spec {t : Tree (Addr × α)} (H : Rep h t) {fuel : Nat} (hf : t.size < fuel) :
    dealloc fuel h (some t.addr) = Res.ok (h.freeAll t.addrs) :=
  dealloc_deep H (Nat.lt_of_le_of_lt (ladder_le [t]) (by simpa [sizeL] using hf))

/-! ### counting -/

theorem childrenCount {fs} {s : Tree (Addr × α)} (H : Rep h (plug fs s)) :
    children h s.addr = Res.ok s.children.length := by
  have hc := H.cell
  simp only [children, Heap.read_of hc, Res.ok_bind, rec_]
  cases hs : s.children with
  | nil => simp
  | cons c cs =>
    have he : plug (⟨s.label, [], cs⟩ :: fs) c = plug fs s := by
      simp [← hs, node_eta]
    rw [← he] at H
    simp [Heap.read_of H.cell, rec_, ffol]

theorem following_spec {fs} {s : Tree (Addr × α)} (H : Rep h (plug fs s)) :
    followingSiblings h s.addr = Res.ok (ffol fs) := by
  simp [followingSiblings, Heap.read_of H.cell, rec_]

/-- The `i`-th of consecutive siblings, through the sibling links. -/
theorem childLoop_spec (ts : List (Tree (Addr × α))) : ∀ (i : Nat) (par prev : Ptr) (k : Nat),
    Holds h (cellsL par prev none k ts) → childLoop h i (headAddr ts) = Res.ok (ts[i]?.map addr) := by
  induction ts with
  | nil => intro i par prev k _; cases i <;> simp [childLoop]
  | cons t ts ih =>
    intro i par prev k H
    simp only [cellsL_cons, holds_append, holds_cells_node] at H
    obtain ⟨⟨hc, hb⟩, hr⟩ := H
    cases i with
    | zero => simp [childLoop]
    | succ i => simpa [childLoop, Heap.read_of hc, rec_] using ih i _ _ _ hr

theorem getChild_spec {fs} {s : Tree (Addr × α)} (H : Rep h (plug fs s)) (i : Nat) :
    getChild h s.addr i = Res.ok (s.children[i]?.map addr) := by
  have hc := H.cell
  have hf := ((rep_plug fs s).mp H).2.1
  rw [focusCells_eq] at hf
  simp only [holds_cons, below] at hf
  have hl := childLoop_spec s.children i _ _ _ hf.2
  simp only [getChild, Heap.read_of hc, Res.ok_bind, rec_]
  cases hs : s.children with
  | nil => cases i <;> simp [childLoop]
  | cons c cs =>
    have he : plug (⟨s.label, [], cs⟩ :: fs) c = plug fs s := by simp [← hs, node_eta]
    rw [hs] at hl
    rw [← he] at H
    simp only [headAddr_cons] at hl
    simp only [headAddr_cons, Heap.read_of H.cell, Res.ok_bind, rec_, ffol]
    split
    · rename_i hi
      simp at hi
      subst hi
      simp [lastAddr, List.getLast?_eq_getElem?]
    · exact hl

/-! ### calculate_size, calculate_arity -/

theorem sizeFrom_spec : ∀ (fuel : Nat) (ts : List (Tree (Addr × α))) (par prev : Ptr) (k : Nat),
    Holds h (cellsL par prev none k ts) → sizeL ts < fuel → sizeFrom fuel h (headAddr ts) = Res.ok (sizeL ts) := by
  intro fuel
  induction fuel with
  | zero => intro ts par prev k _ hf; omega
  | succ fuel ih =>
    intro ts par prev k H hf
    cases ts with
    | nil => simp [sizeFrom]
    | cons t ts =>
      simp only [cellsL_cons, holds_append, holds_cells_node] at H
      obtain ⟨⟨hc, hb⟩, hr⟩ := H
      have hst : t.size = sizeL t.children + 1 := by cases t; simp
      simp only [sizeL_cons] at hf
      simp only [headAddr_cons, sizeFrom, Heap.read_of hc, Res.ok_bind, rec_]
      rw [ih t.children _ _ _ hb (by omega)]
      simp only [Res.ok_bind, Option.or_none]
      rw [ih ts _ _ _ hr (by omega)]
      simp [hst]; omega

theorem calcSize_spec {t : Tree (Addr × α)} (H : Rep h t) {fuel : Nat} (hf : t.size ≤ fuel) :
    calcSize fuel h t.addr = Res.ok t.size := by
  have h1 := H.1
  rw [holds_cells_node] at h1
  have hst : t.size = sizeL t.children + 1 := by cases t; simp
  simp only [calcSize, Heap.read_of h1.1, Res.ok_bind, rec_]
  rw [sizeFrom_spec fuel t.children _ _ _ h1.2 (by omega)]
  simp [hst]; omega

theorem arity_spec : ∀ (fuel : Nat),
    (∀ (t : Tree (Addr × α)) (par prev nx : Ptr) (k : Nat), Holds h (cells par prev nx k t) → 2 * t.size ≤ fuel →
      calcArity fuel h t.addr = Res.ok t.arity) ∧
    (∀ (ts : List (Tree (Addr × α))) (par prev : Ptr) (k acc : Nat), Holds h (cellsL par prev none k ts) →
      2 * sizeL ts < fuel → arityLoop fuel h (headAddr ts) acc = Res.ok (max acc (arityL ts))) := by
  intro fuel
  induction fuel with
  | zero =>
    constructor
    · intro t _ _ _ _ _ hf; have := size_pos t; omega
    · intro ts _ _ _ _ _ hf; omega
  | succ fuel ih =>
    constructor
    · intro t par prev nx k H hf
      rw [holds_cells_node] at H
      have hst : t.size = sizeL t.children + 1 := by cases t; simp
      have hat : t.arity = max t.children.length (arityL t.children) := by cases t; simp
      simp only [calcArity, Heap.read_of H.1, Res.ok_bind, rec_]
      cases hs : t.children with
      | nil => simp [hat, hs]
      | cons c cs =>
        have H2 := H.2
        have hh := ih.2 t.children _ _ _ t.children.length H2 (by omega)
        rw [hs] at H2
        simp only [cellsL_cons, holds_append, holds_cells_node] at H2
        simp only [headAddr_cons, Heap.read_of H2.1.1, Res.ok_bind, rec_]
        rw [hs] at hh hat
        simpa [hat] using hh
    · intro ts par prev k acc H hf
      cases ts with
      | nil => simp [arityLoop]
      | cons t ts =>
        have H' := H
        simp only [cellsL_cons, holds_append] at H
        obtain ⟨H1, hr⟩ := H
        have H1' := H1
        rw [holds_cells_node] at H1'
        simp only [sizeL_cons] at hf
        have := size_pos t
        simp only [headAddr_cons, arityLoop]
        rw [ih.1 t _ _ _ _ H1 (by omega)]
        simp only [Res.ok_bind, Heap.read_of H1'.1, rec_, Option.or_none]
        rw [ih.2 ts _ _ _ _ hr (by omega)]
        simp [Nat.max_assoc]

theorem calcArity_spec {t : Tree (Addr × α)} (H : Rep h t) {fuel : Nat} (hf : 2 * t.size ≤ fuel) :
    calcArity fuel h t.addr = Res.ok t.arity := (arity_spec fuel).1 t _ _ _ _ H.1 hf

end Nary
