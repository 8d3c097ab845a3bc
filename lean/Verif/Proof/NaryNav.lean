import Verif.Proof.NaryRepr
/-! The navigator of nary nodes agrees with the tree held by the heap, at any root. -/
open Tree

namespace Tree
variable {α : Type}
theorem addrs_sub_plug (fs : List (Frame (Addr × α))) (s : Tree (Addr × α)) {a} (ha : a ∈ s.addrs) :
    a ∈ (plug fs s).addrs := (Nary.addrs_plug fs s).mem_iff.mpr (by simp [ha])

/-- Inside a proper context the root of the focus differs from the root of the whole. -/
theorem addr_ne_of_plug_cons {f} {fs : List (Frame (Addr × α))} {s t : Tree (Addr × α)} (h : plug (f :: fs) s = t)
    (hn : t.addrs.Nodup) : s.addr ≠ t.addr := by
  induction fs generalizing f s t with
  | nil =>
    simp at h
    subst h
    simp [addr] at hn ⊢
    intro he
    have := addr_mem_addrs s
    simp [addr, he] at this
    exact hn.1.2.1 this
  | cons g fs ih =>
    simp only [plug_cons] at h
    have h1 := (Nary.addrs_plug (f :: g :: fs) s).nodup_iff.mp (by simpa [h] using hn)
    intro he
    have hm : t.addr ∈ Nary.ctxAddrs (f :: g :: fs) := by
      clear ih h1 he hn
      subst h
      have : ∀ (fs : List (Frame (Addr × α))) (f : Frame (Addr × α)) (s), (plug (f :: fs) s).addr ∈ Nary.ctxAddrs (f :: fs) := by
        intro fs
        induction fs with
        | nil => intro f s; simp [Nary.ctxAddrs, addr]
        | cons g fs ih => intro f s; rw [plug_cons]; have := ih g (node f.label (f.lefts ++ s :: f.rights)); simp [Nary.ctxAddrs] at this ⊢; grind
      exact this (g :: fs) f s
    have := (List.nodup_append.mp h1).2.2 _ hm _ (addr_mem_addrs s)
    exact this he.symm
end Tree

namespace Nary
variable {α : Type} {h : NHeap α}

theorem Rep.nodup_focus {fs} {s : Tree (Addr × α)} (H : Rep h (plug fs s)) : s.addrs.Nodup :=
  (List.nodup_append.mp ((rep_plug fs s).mp H).2.2).2.1

theorem nav_spec {gs} {s : Tree (Addr × α)} (H : Rep h (plug gs s)) : NavSpec (nav h (some s.addr)) s.addrTree := by
  have hnd := H.nodup_focus
  have key : ∀ (fs : List (Frame Addr)) (u : Tree Addr), plug fs u = s.addrTree →
      (fs = [] ∧ u.label = s.addr ∧ u.children = s.children.map (Tree.map Prod.fst) ∧
        h.cells s.addr = some (rec_ (fpar gs) (fprev gs) (fnext gs) (ffol gs) s)) ∨
      (∃ f fs' u', (f :: fs').map (Frame.map Prod.fst) = fs ∧ u.label = u'.addr ∧
        u.children = u'.children.map (Tree.map Prod.fst) ∧ u'.addr ≠ s.addr ∧
        h.cells u'.addr = some (rec_ (some f.label.1) (lastAddr f.lefts) (headAddr f.rights) f.rights.length u') ∧
        h.cells f.label.1 = some (frameRec f (fs' ++ gs) u'.addr)
        ∧ (f.label.1 :: (addrsL f.lefts ++ (addrsL f.rights ++ u'.addrs))).Nodup) := by
    intro fs u hu
    obtain ⟨fs', u', h1, h2, h3⟩ := plug_eq_map Prod.fst hu
    have hl : u.label = u'.addr := by rw [← h3, label_map]; rfl
    have hcs : u.children = u'.children.map (Tree.map Prod.fst) := by rw [← h3, children_map]
    cases fs' with
    | nil =>
      left
      simp at h1
      subst h1
      exact ⟨by simpa using h2.symm, hl, hcs, H.cell⟩
    | cons f fs' =>
      right
      have hT : plug (f :: (fs' ++ gs)) u' = plug gs s := by rw [← h1, ← plug_append]; rfl
      refine ⟨f, fs', u', h2, hl, hcs, ?_, ?_, ?_, ?_⟩
      · exact addr_ne_of_plug_cons h1 hnd
      · rw [← hT] at H; exact H.cell
      · rw [← hT] at H; exact H.parent_cell
      · rw [← hT, rep_plug] at H
        have := H.2.2
        simp only [ctxAddrs] at this
        grind
  have em : ∀ o : Option (Tree (Addr × α)), Option.map (label ∘ map Prod.fst) o = o.map addr := by
    intro o; cases o <;> simp [addr]
  constructor
  · rw [addrTree_pre]; exact hnd
  · simp [nav, addrTree_label]
  · intro fs u hu
    rcases key fs u hu with ⟨rfl, hl, hcs, hc⟩ | ⟨f, fs', u', rfl, hl, hcs, hne, hc, hp, hd⟩ <;> rw [hl]
    · simp [nav]
    · simp [nav, hne, Heap.read_of hc, rec_, Frame.map]
  · intro fs u hu
    rcases key fs u hu with ⟨rfl, hl, hcs, hc⟩ | ⟨f, fs', u', rfl, hl, hcs, hne, hc, hp, hd⟩ <;> rw [hl]
    · simp [nav]
    · simp [nav, hne, Heap.read_of hc, rec_, Frame.map, lastAddr, em]
  · intro fs u hu
    rcases key fs u hu with ⟨rfl, hl, hcs, hc⟩ | ⟨f, fs', u', rfl, hl, hcs, hne, hc, hp, hd⟩ <;> rw [hl]
    · simp [nav]
    · simp [nav, hne, Heap.read_of hc, rec_, Frame.map, headAddr, em]
  · intro fs u hu
    rcases key fs u hu with ⟨rfl, hl, hcs, hc⟩ | ⟨f, fs', u', rfl, hl, hcs, hne, hc, hp, hd⟩ <;> rw [hl, hcs] <;>
      simp [nav, Heap.read_of hc, rec_, headAddr, em]
  · intro fs u hu
    rcases key fs u hu with ⟨rfl, hl, hcs, hc⟩ | ⟨f, fs', u', rfl, hl, hcs, hne, hc, hp, hd⟩ <;> rw [hl, hcs] <;>
      simp [nav, Heap.read_of hc, rec_, lastAddr, em]
  · intro fs u hu
    rcases key fs u hu with ⟨rfl, hl, hcs, hc⟩ | ⟨f, fs', u', rfl, hl, hcs, hne, hc, hp, hd⟩ <;> rw [hl]
    · simp [nav]
    · simp [nav, hne, Heap.read_of hc, rec_, Heap.read_of hp, frameRec, Frame.map]
      cases hf : f.lefts with
      | nil => simp
      | cons t l =>
        have : t.addr ≠ u'.addr := by
          have := addr_mem_addrs t; have := addr_mem_addrs u'; rw [hf] at hd; simp at hd; grind
        simp; grind
  · intro fs u hu
    rcases key fs u hu with ⟨rfl, hl, hcs, hc⟩ | ⟨f, fs', u', rfl, hl, hcs, hne, hc, hp, hd⟩ <;> rw [hl]
    · simp [nav]
    · simp [nav, hne, Heap.read_of hc, rec_, Heap.read_of hp, frameRec, Frame.map]
      rcases List.eq_nil_or_concat f.rights with hf | ⟨l, t, hf⟩
      · simp [hf]
      · have : t.addr ≠ u'.addr := by
          have := addr_mem_addrs t; have := addr_mem_addrs u'; rw [hf] at hd; simp at hd; grind
        simp [hf]; grind
end Nary
