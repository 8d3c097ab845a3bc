import Verif.Proof.Bare
import Verif.Props.Pattern
/-!
# C55: optional arguments never prevent a match

`Pat.skippable`: the matcher can match nothing; `Pat.bare p` is `p` without its arguments that can (Spec/Pattern.lean).
-/
open Tree World Pat
variable {α : Type}

/-- A search that fails is right: the pattern cannot match nothing, and it does not match even without its optional arguments. -/
theorem C55_search_nary {W : World (NNode α)} {ts : Nat → Option (Option (Tree (Addr × α)))} {x : Nat} {t : Option (Tree (Addr × α))}
    (O : Owned (Nary.shape α) W ts) (hx : ts x = some t) {p : Pat α} (hf : p.formed) (hp : p.starless) (hn : p.ids.Nodup) (s : Pattern.State)
    (F : p.skippable ∨ ∃ T, t = some T ∧ Fits Prod.snd p.bare T) :
    ∃ s', W.search (Nary.kind α) NNode.value p s x = Res.ok (true, s') := by
  obtain ⟨r, _, h2, h3, _⟩ := O.get (Nary.lawful α) hx
  have hb := Simple.Basic.of hf hp
  cases t with
  | none =>
    have hr : r.root = none := by rw [h3]; rfl
    obtain ⟨ok, m', e, _⟩ := Simple.search_total_empty (nav := (Nary.kind α).nav W.heap) (vl := fun a => do pure (NNode.value (← W.heap.read a)))
      (fuel := W.heap.fuel) (by simp [Heap.fuel]) hb hn s.marks
    have := Simple.search_none hb (F.resolve_right (by simp)) e
    subst this
    exact ⟨_, World.search_simple hp s h2 (by rw [hr]; exact e)⟩
  | some T =>
    have HT : Nary.Rep W.heap T := O.rep x _ hx T rfl
    have hr : r.root = some T.addr := by rw [h3, Nary.shape_ptr]; rfl
    have hsz := Nary.size_le O.wf HT
    obtain ⟨ok, m', e, _⟩ := Simple.search_total (Nary.walkable HT) (fuel := W.heap.fuel) (by simp only [Heap.fuel]; omega) hb hn s.marks
      (root := some T.addr) (by rintro a ⟨⟩; exact ⟨[], T, rfl, rfl⟩)
    have := Simple.search_bare (Nary.searchable HT) hb hn (gs := []) rfl (F.imp_right (by rintro ⟨T', h, F⟩; cases h; exact F)) e
    subst this
    have e' : Simple.search ((Nary.kind α).nav W.heap) (fun a => do pure (NNode.value (← W.heap.read a))) W.heap.fuel (some T.addr) p s.marks = Res.ok (true, m') := e
    exact ⟨_, World.search_simple hp s h2 (by rw [hr]; exact e')⟩

theorem C55_search_binary {W : World (BNode α)} {ts : Nat → Option (BTree (Addr × α))} {x : Nat} {t : BTree (Addr × α)}
    (O : Owned (Binary.shape α) W ts) (hx : ts x = some t) {p : Pat α} (hf : p.formed) (hp : p.starless) (hn : p.ids.Nodup) (s : Pattern.State)
    (F : p.skippable ∨ ∃ T, t.toRose = [T] ∧ Fits Prod.snd p.bare T) :
    ∃ s', W.search (Binary.kind α) BNode.value p s x = Res.ok (true, s') := by
  obtain ⟨r, _, h2, h3, _⟩ := O.get (Binary.lawful α) hx
  have hb := Simple.Basic.of hf hp
  have H : Binary.Rep W.heap t := O.rep x t hx
  have hsz := Binary.size_le O.wf H
  rw [Binary.shape_ptr'] at h3
  cases t with
  | nil =>
    obtain ⟨ok, m', e, _⟩ := Simple.search_total_empty (nav := (Binary.kind α).nav W.heap) (vl := fun a => do pure (BNode.value (← W.heap.read a)))
      (fuel := W.heap.fuel) (by simp [Heap.fuel]) hb hn s.marks
    have := Simple.search_none hb (F.resolve_right (by simp [BTree.toRose])) e
    subst this
    exact ⟨_, World.search_simple hp s h2 (by rw [h3, BTree.addr?_nil]; exact e)⟩
  | node a l rr =>
    obtain ⟨T, hT, ha⟩ : ∃ T, (BTree.node a l rr).toRose = [T] ∧ T.addr = a.1 := ⟨_, rfl, rfl⟩
    have hszT := Binary.size_of_toRose hT
    obtain ⟨ok, m', e, _⟩ := Simple.search_total (Binary.walkable H hT) (fuel := W.heap.fuel) (by rw [hszT]; simp only [Heap.fuel]; omega) hb hn s.marks
      (root := some T.addr) (by rintro b ⟨⟩; exact ⟨[], T, rfl, rfl⟩)
    have := Simple.search_bare (Binary.searchable H hT) hb hn (gs := []) rfl
      (F.imp_right (by rintro ⟨T', h, F⟩; rw [hT] at h; simp only [List.cons.injEq, and_true] at h; exact h ▸ F)) e
    subst this
    have e' : Simple.search ((Binary.kind α).nav W.heap) (fun a => do pure (BNode.value (← W.heap.read a))) W.heap.fuel (some T.addr) p s.marks = Res.ok (true, m') := e
    exact ⟨_, World.search_simple hp s h2 (by rw [h3, BTree.addr?_node, ← ha]; exact e')⟩

/-- The same for a view on any node of a tree. -/
theorem C55_view_nary {h : NHeap α} {gs : List (Frame (Addr × α))} {s : Tree (Addr × α)} (hw : h.WF) (H : Nary.Rep h (plug gs s))
    {p : Pat α} (hf : p.formed) (hp : p.starless) (hn : p.ids.Nodup) (m : Memo) (F : p.skippable ∨ Fits Prod.snd p.bare s) :
    ∃ m', Search.search (Nary.nav h) (fun a => do pure (← h.read a).value) h.fuel (some s.addr) p m = Res.ok (true, m') := by
  have hsz := Nary.size_le hw H
  have hb := Simple.Basic.of hf hp
  obtain ⟨ok, m', e, _⟩ := Simple.search_total (Nary.walkable H) (fuel := h.fuel) (by simp only [Heap.fuel]; omega) hb hn m.marks
    (root := some s.addr) (by rintro b ⟨⟩; exact ⟨gs, s, rfl, rfl⟩)
  have := Simple.search_bare (Nary.searchable H) hb hn rfl F e
  subst this
  exact ⟨⟨m', m.cuts⟩, by rw [Simple.search_up _ _ _ hp, e]; rfl⟩

theorem C55_view_binary {h : BHeap α} {gs : List (BTree.Frame (Addr × α))} {a : Addr × α} {l r : BTree (Addr × α)} (hw : h.WF)
    (H : Binary.Rep h (BTree.plug gs (.node a l r))) {p : Pat α} (hf : p.formed) (hp : p.starless) (hn : p.ids.Nodup) (m : Memo)
    (F : p.skippable ∨ ∃ T, (BTree.node a l r).toRose = [T] ∧ Fits Prod.snd p.bare T) :
    ∃ m', Search.search (Binary.nav h) (fun a => do pure (← h.read a).value) h.fuel (some a.1) p m = Res.ok (true, m') := by
  have hT := binary_toRose_plug gs a l r
  have hsz := Binary.size_le hw H
  have hszT := Binary.size_of_toRose hT
  have hb := Simple.Basic.of hf hp
  obtain ⟨ok, m', e, _⟩ := Simple.search_total (Binary.walkable H hT) (fuel := h.fuel) (by rw [hszT]; simp only [Heap.fuel]; omega) hb hn m.marks
    (root := some a.1) (by rintro b ⟨⟩; exact ⟨_, _, rfl, rfl⟩)
  have := Simple.search_bare (Binary.searchable H hT) hb hn rfl
    (F.imp_right (by rintro ⟨T', h, F⟩; simp only [BTree.toRose, List.cons.injEq, and_true] at h; exact h ▸ F)) e
  subst this
  exact ⟨⟨m', m.cuts⟩, by rw [Simple.search_up _ _ _ hp, e]; rfl⟩

open Samples in
/-- Non-vacuity: `one(1)(cpt(one(2)(opt(8), one(6))), opt(9))` without its optional arguments is `one(1)(cpt(one(2)(one(6))))`, which matches
`1(2(5,6(7)),3,4)`. -/
example : patNull.bare = one 0 1 [cpt 1 (one 2 2 [one 4 6 []])] ∧ Fits Prod.snd patNull.bare deep := by
  have e : patNull.bare = one 0 1 [cpt 1 (one 2 2 [one 4 6 []])] := by
    simp [patNull, one, cpt, opt, bare, bareL, skippable, skippableL]
  refine ⟨e, ?_⟩
  rw [e]
  simp only [one, cpt, Fits]
  refine ⟨rfl, [], node (1,2) [node (4,5) [], node (5,6) [node (6,7) []]], _, rfl, ?_, trivial⟩
  simp only [Fits]
  refine ⟨[], _, [], rfl, ?_, trivial⟩
  simp only [Fits]
  refine ⟨rfl, [node (4,5) []], node (5,6) [node (6,7) []], [], rfl, ?_, trivial⟩
  simp [Fits, FitsL]

open Samples in
/-- The search of that pattern in that tree, whatever the pattern object was used for before. -/
example (s : Pattern.State) (h : Fits Prod.snd patNull.bare deep) : ∃ s', nworld.search (Nary.kind Nat) NNode.value patNull s 0 = Res.ok (true, s') := by
  obtain ⟨ts, O, h0, _⟩ := nstate
  exact C55_search_nary O h0 patNull_formed patNull_starless (by decide) s (.inr ⟨_, rfl, h⟩)
