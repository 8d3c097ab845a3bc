import Verif.Proof.StarWorld
/-! The links of a tree, seen through a navigator with any root. -/
open Tree

/-- The address of a node of `T`. -/
def Tree.Has {α : Type} (T : Tree (Addr × α)) (a : Addr) : Prop := ∃ fs s, plug fs s = T ∧ s.addr = a

namespace Tree.Has
variable {α : Type} {T s : Tree (Addr × α)} {f : Frame (Addr × α)} {fs : List (Frame (Addr × α))}

theorem parent (h : plug (f :: fs) s = T) : T.Has f.label.1 := ⟨fs, node f.label (f.lefts ++ s :: f.rights), h, rfl⟩

theorem first (h : plug fs s = T) {b : Addr} (hb : headAddr s.children = some b) :
    ∃ gs v, plug gs v = T ∧ v.addr = b ∧ gs.head?.map (fun f => f.label.1) = some s.addr := by
  obtain ⟨l, cs⟩ := s
  cases cs with
  | nil => cases hb
  | cons c cs => cases hb; exact ⟨⟨l, [], cs⟩ :: fs, c, h, rfl, rfl⟩

theorem next (h : plug (f :: fs) s = T) {b : Addr} (hb : headAddr f.rights = some b) :
    ∃ gs v, plug gs v = T ∧ v.addr = b ∧ gs.head?.map (fun f => f.label.1) = some f.label.1 ∧
      (preBefore gs).length = (preBefore (f :: fs)).length + s.size := by
  obtain ⟨l, ls, rs⟩ := f
  cases rs with
  | nil => cases hb
  | cons c rs =>
    cases hb
    refine ⟨⟨l, ls ++ [s], rs⟩ :: fs, c, by rw [← h]; simp, rfl, rfl, ?_⟩
    simp [preBefore, preL_append, preL]
    omega

theorem mem {a : Addr} (h : T.Has a) : a ∈ T.addrs := by
  obtain ⟨fs, s, rfl, rfl⟩ := h
  simp [addrs, pre_plug, pre_eq_cons s, Tree.addr]

theorem mem_binary {t : BTree (Addr × α)} (hT : t.toRose = [T]) {a : Addr} (h : T.Has a) : a ∈ t.addrs := by
  have := h.mem
  have e := BTree.preL_toRose t
  rw [hT] at e
  simp [preL] at e
  rw [BTree.addrs, ← e]
  exact this
end Tree.Has

/-- The links of `T`, and a navigator that ends at its root, wherever in `T` that is. -/
structure Wired {α : Type} (nav : Ptr → Nav) (val : Addr → Res α) (T : Tree (Addr × α)) : Prop where
  nodup : T.addrs.Nodup
  val : ∀ fs s, plug fs s = T → ∃ v, val s.addr = Res.ok v
  root : ∀ r, (nav r).root = r
  parent : ∀ r fs s, plug fs s = T → (nav r).parent s.addr = Res.ok (if r = some s.addr then none else fs.head?.map (fun f => f.label.1))
  first : ∀ r fs s, plug fs s = T → (nav r).first s.addr = Res.ok (headAddr s.children)
  next : ∀ r fs s, plug fs s = T → (nav r).next s.addr = Res.ok (if r = some s.addr then none else fs.head?.bind (fun f => headAddr f.rights))
  isLast : ∀ r f fs s, plug (f :: fs) s = T → ∃ b, (nav r).isLast s.addr = Res.ok b

theorem Nary.wired {α : Type} {h : NHeap α} {T : Tree (Addr × α)} (H : Nary.Rep h T) :
    Wired (Nary.nav h) (fun a => do pure (← h.read a).value) T := by
  refine ⟨H.2, ?_, fun r => rfl, ?_, ?_, ?_, ?_⟩
  · rintro fs s rfl
    exact ⟨_, by rw [Heap.read_of H.cell]; rfl⟩
  · rintro r fs s rfl
    simp only [Nary.nav]
    by_cases hr : r = some s.addr
    · subst hr; simp
    · have : (some s.addr == r) = false := by simpa using fun e => hr e.symm
      rw [this, if_neg (by simp), if_neg hr, Heap.read_of H.cell]
      cases fs <;> rfl
  · rintro r fs s rfl
    simp only [Nary.nav]
    rw [Heap.read_of H.cell]
    rfl
  · rintro r fs s rfl
    simp only [Nary.nav]
    by_cases hr : r = some s.addr
    · subst hr; simp
    · have : (some s.addr == r) = false := by simpa using fun e => hr e.symm
      rw [this, if_neg (by simp), if_neg hr, Heap.read_of H.cell]
      cases fs <;> rfl
  · rintro r f fs s rfl
    simp only [Nary.nav]
    cases (some s.addr == r)
    · rw [if_neg (by simp), Heap.read_of H.cell]
      simp only [Res.ok_bind, Nary.rec_, Nary.fpar, Option.map, deref_some, List.head?_cons]
      rw [Heap.read_of H.parent_cell]
      exact ⟨_, rfl⟩
    · exact ⟨_, rfl⟩

theorem Binary.wired {α : Type} {h : BHeap α} {t : BTree (Addr × α)} (H : Binary.Rep h t) {T : Tree (Addr × α)}
    (hT : t.toRose = [T]) : Wired (Binary.nav h) (fun a => do pure (← h.read a).value) T := by
  have S := Binary.starable H hT
  have hpar : ∀ fs s, plug fs s = T → (Binary.nav h none).parent s.addr = Res.ok (fs.head?.map (fun f => f.label.1)) := by
    intro fs s hs
    cases fs with
    | cons f fs => exact S.parent f fs s hs
    | nil =>
      cases hs
      cases t with
      | nil => cases hT
      | node p l r =>
        cases hT
        simp only [Binary.nav]
        rw [show (node p (l.toRose ++ r.toRose)).addr = p.1 from rfl, Heap.read_of (H.cell (fs := []))]
        rfl
  refine ⟨S.nodup, fun fs s hs => ⟨_, S.val fs s hs⟩, fun r => rfl, ?_, ?_, ?_, ?_⟩
  · intro r fs s hs
    have e := hpar fs s hs
    by_cases hr : r = some s.addr
    · subst hr; simp [Binary.nav]
    · have h1 : (some s.addr == r) = false := by simpa using fun e => hr e.symm
      rw [if_neg hr, ← e]
      simp only [Binary.nav]
      rw [h1]
      rfl
  · intro r fs s hs
    exact (Binary.rose_focus H hT hs).2.1
  · intro r fs s hs
    by_cases hr : r = some s.addr
    · subst hr; simp [Binary.nav]
    · have h1 : (some s.addr == r) = false := by simpa using fun e => hr e.symm
      simp only [Binary.nav]
      rw [h1, if_neg (by simp), if_neg hr, (Binary.rose_focus H hT hs).2.2.2.1]
  · intro r f fs s hs
    simp only [Binary.nav]
    cases (some s.addr == r)
    · have e' : (do pure (← h.read s.addr).parent : Res Ptr) = Res.ok (some f.label.1) := by simpa [Binary.nav] using hpar (f :: fs) s hs
      have hl := (Binary.rose_focus H hT (fs := fs) (u := node f.label (f.lefts ++ s :: f.rights)) hs).2.2.1
      rw [if_neg (by simp)]
      cases hrd : h.read s.addr with
      | ok n =>
        rw [hrd] at e'
        simp at e'
        simp only [Res.ok_bind, e', deref_some]
        rw [show f.label.1 = (node f.label (f.lefts ++ s :: f.rights)).addr from rfl, hl]
        exact ⟨_, rfl⟩
      | ub => rw [hrd] at e'; cases e'
      | diverge => rw [hrd] at e'; cases e'
    · exact ⟨_, rfl⟩
