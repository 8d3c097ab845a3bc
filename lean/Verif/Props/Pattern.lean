import Verif.Props.SampleWorlds
import Verif.Proof.PatternTotal
/-!
# C34–C37: patterns

`Pat.Fits p t` (Spec/Pattern.lean) says when a pattern matches at the root of a tree, `Found` which nodes its matchers have to
remember, `Exact` and `Tree.Part` what the result is. `plain`: no matcher of the pattern can match nothing. The values of a
labelled tree are the second components of its labels. `p.ids.Nodup`: the matchers of a pattern are different objects.
-/
open Tree World Pat
variable {α : Type}

namespace Pat
variable {β : Type} {val : β → α} {addr : β → Nat} {m m' : Nat → Option Nat}
mutual
/-- The nodes remembered are fixed by the pattern and the tree. -/
theorem found_unique : (p : Pat α) → (t : Tree β) → Found val addr m p t → Found val addr m' p t → ∀ i ∈ p.ids, m i = m' i
  | Pat.node i .one f ps, t, h, h', j, hj => by
    simp only [Found] at h h'
    simp only [ids_node, List.mem_cons] at hj
    rcases hj with rfl | hj
    · rw [h.1, h'.1]
    · exact foundL_unique ps _ h.2.2 h'.2.2 j hj
  | Pat.node i .cpt f ps, t, h, h', j, hj => by
    simp only [Found] at h h'
    simp only [ids_node, List.mem_cons] at hj
    rcases hj with rfl | hj
    · rw [h.1, h'.1]
    · exact foundL_unique ps _ h.2 h'.2 j hj
  | Pat.node i (.opt q) f ps, t, h, h', j, hj => by
    simp only [Found] at h h'
    simp only [ids_node, List.mem_cons] at hj
    rcases hj with rfl | hj
    · rw [h.1, h'.1]
    · rcases h.2 with ⟨a, b⟩ | ⟨a, _, b⟩ <;> rcases h'.2 with ⟨a', b'⟩ | ⟨a', _, b'⟩
      · exact foundL_unique ps _ b b' j hj
      · exact absurd ⟨a, foundL_fits _ _ b⟩ a'
      · exact absurd ⟨a', foundL_fits _ _ b'⟩ a
      · exact foundL_unique ps _ b b' j hj
theorem foundL_unique : (ps : List (Pat α)) → (ts : List (Tree β)) → FoundL val addr m ps ts → FoundL val addr m' ps ts →
    ∀ i ∈ idsL ps, m i = m' i
  | [], _, _, _, j, hj => by simp at hj
  | p :: ps, ts, h, h', j, hj => by
    simp only [FoundL] at h h'
    obtain ⟨l, t, r, rfl, h1, h2, h3⟩ := h
    obtain ⟨l', t', r', e, h1', h2', h3'⟩ := h'
    have key : t = t' ∧ r = r' := by
      rcases List.append_eq_append_iff.mp e with ⟨x, rfl, e2⟩ | ⟨x, rfl, e2⟩
      · cases x with
        | nil => simp at e2; exact e2
        | cons y x =>
          simp at e2
          exact absurd (e2.1 ▸ found_fits _ _ h2) (h1' y (by simp))
      · cases x with
        | nil => simp at e2; exact ⟨e2.1.symm, e2.2.symm⟩
        | cons y x =>
          simp at e2
          exact absurd (e2.1 ▸ found_fits _ _ h2') (h1 y (by simp))
    obtain ⟨rfl, rfl⟩ := key
    simp only [idsL_cons, List.mem_append] at hj
    rcases hj with hj | hj
    · exact found_unique p t h2 h2' j hj
    · exact foundL_unique ps r h3 h3' j hj
end
end Pat

theorem binary_toRose_plug {β : Type} (gs : List (BTree.Frame β)) (a : β) (l r : BTree β) :
    (BTree.plug gs (.node a l r)).toRose = [Tree.plug (gs.map BTree.Frame.toRose) (Tree.node a (l.toRose ++ r.toRose))] := by
  induction gs generalizing a l r with
  | nil => rfl
  | cons f gs ih =>
    obtain ⟨b, left, o⟩ := f
    cases left <;> simp [BTree.plug, Tree.plug, BTree.Frame.toRose, BTree.Frame.fill, ih]

/-! ## C35: searching -/

/-- `search` returns whether the pattern matches at the root of the tree; then each matcher remembers the first node it could
take, whatever the pattern object was used for before; and when it fails nothing is matched. -/
theorem C35_search_nary {W : World (NNode α)} {ts : Nat → Option (Option (Tree (Addr × α)))} {x : Nat} {t : Option (Tree (Addr × α))}
    (O : Owned (Nary.shape α) W ts) (hx : ts x = some t) {p : Pat α} (hp : p.plain) (hn : p.ids.Nodup) (s : Pattern.State) :
    ∃ ok s', W.search (Nary.kind α) NNode.value p s x = Res.ok (ok, s') ∧ s'.typed = (s.typed || ok) ∧
      (ok = true ↔ ∃ T, t = some T ∧ Fits Prod.snd p T) ∧
      (ok = true → ∀ T, t = some T → Found Prod.snd Prod.fst s'.marks p T ∧
        ∀ m, Found Prod.snd Prod.fst m p T → ∀ i ∈ p.ids, s'.marks i = m i) ∧
      (ok = false → s'.marks p.id = none) := by
  obtain ⟨ok, s', e, h1, h2⟩ := Nary.search_spec O hx hp hn s
  refine ⟨ok, s', e, h1, ?_⟩
  rcases h2 with ⟨rfl, T, rfl, h2⟩ | ⟨rfl, h2, h3⟩
  · refine ⟨by simp; exact found_fits _ _ h2, fun _ T' hT => ?_, by simp⟩
    cases hT
    exact ⟨h2, fun m hm => found_unique _ _ h2 hm⟩
  · exact ⟨by simp; exact h3, by simp, fun _ => h2⟩

theorem C35_search_binary {W : World (BNode α)} {ts : Nat → Option (BTree (Addr × α))} {x : Nat} {t : BTree (Addr × α)}
    (O : Owned (Binary.shape α) W ts) (hx : ts x = some t) {p : Pat α} (hp : p.plain) (hn : p.ids.Nodup) (s : Pattern.State) :
    ∃ ok s', W.search (Binary.kind α) BNode.value p s x = Res.ok (ok, s') ∧ s'.typed = (s.typed || ok) ∧
      (ok = true ↔ ∃ T, t.toRose = [T] ∧ Fits Prod.snd p T) ∧
      (ok = true → ∀ T, t.toRose = [T] → Found Prod.snd Prod.fst s'.marks p T ∧
        ∀ m, Found Prod.snd Prod.fst m p T → ∀ i ∈ p.ids, s'.marks i = m i) ∧
      (ok = false → s'.marks p.id = none) := by
  obtain ⟨ok, s', e, h1, h2⟩ := Binary.search_spec O hx hp hn s
  refine ⟨ok, s', e, h1, ?_⟩
  rcases h2 with ⟨rfl, T, hT, h2⟩ | ⟨rfl, h2, h3⟩
  · refine ⟨by simp; exact ⟨T, hT, found_fits _ _ h2⟩, fun _ T' hT' => ?_, by simp⟩
    rw [hT] at hT'
    simp only [List.cons.injEq, and_true] at hT'
    subst hT'
    exact ⟨h2, fun m hm => found_unique _ _ h2 hm⟩
  · exact ⟨by simp; exact h3, by simp, fun _ => h2⟩

/-- The search of a view: the node `s` anywhere inside a tree of the heap. Only what is below that node counts. -/
theorem C35_view_nary {h : NHeap α} {gs : List (Frame (Addr × α))} {s : Tree (Addr × α)} (hw : h.WF) (H : Nary.Rep h (plug gs s))
    {p : Pat α} (hp : p.plain) (hn : p.ids.Nodup) (m : Memo) :
    ∃ ok m', Search.search (Nary.nav h) (fun a => do pure (← h.read a).value) h.fuel (some s.addr) p m = Res.ok (ok, m') ∧
      (ok = true ↔ Fits Prod.snd p s) ∧ (ok = true → Found Prod.snd Prod.fst m'.marks p s) := by
  have hsz := Nary.size_le hw H
  obtain ⟨ok, m', e, _, h2⟩ := Simple.search_spec (Nary.searchable H) (fuel := h.fuel) (by simp only [Heap.fuel]; omega) hp hn m.marks rfl
  refine ⟨ok, ⟨m', m.cuts⟩, by rw [Simple.search_up _ _ _ hp.starless, e]; rfl, ?_⟩
  rcases h2 with ⟨rfl, h2⟩ | ⟨rfl, _, h2⟩
  · exact ⟨by simp; exact found_fits _ _ h2, fun _ => h2⟩
  · exact ⟨by simp; exact h2, by simp⟩

theorem C35_view_binary {h : BHeap α} {gs : List (BTree.Frame (Addr × α))} {a : Addr × α} {l r : BTree (Addr × α)} (hw : h.WF)
    (H : Binary.Rep h (BTree.plug gs (.node a l r))) {p : Pat α} (hp : p.plain) (hn : p.ids.Nodup) (m : Memo) :
    ∃ ok m' T, (BTree.node a l r).toRose = [T] ∧
      Search.search (Binary.nav h) (fun a => do pure (← h.read a).value) h.fuel (some a.1) p m = Res.ok (ok, m') ∧
      (ok = true ↔ Fits Prod.snd p T) ∧ (ok = true → Found Prod.snd Prod.fst m'.marks p T) := by
  have hT := binary_toRose_plug gs a l r
  have hsz := Binary.size_le hw H
  have hszT := Binary.size_of_toRose hT
  obtain ⟨ok, m', e, _, h2⟩ := Simple.search_spec (Binary.searchable H hT) (fuel := h.fuel)
    (by rw [hszT]; simp only [Heap.fuel]; omega) hp hn m.marks rfl
  rw [Tree.addr, label_node] at e
  refine ⟨ok, ⟨m', m.cuts⟩, _, rfl, by rw [Simple.search_up _ _ _ hp.starless, e]; rfl, ?_⟩
  rcases h2 with ⟨rfl, h2⟩ | ⟨rfl, _, h2⟩
  · exact ⟨by simp; exact found_fits _ _ h2, fun _ => h2⟩
  · exact ⟨by simp; exact h2, by simp⟩

/-- After a successful search of the tree `T` of `x`, in any state in which `x` still holds it, `assign_result` makes `y` (which
may be `x`) a tree of new nodes: the matched nodes of `T`, nested like the matchers. Nothing else changes. -/
theorem C35_result_nary {W W2 : World (NNode α)} {ts ts2 : Nat → Option (Option (Tree (Addr × α)))} {x y : Nat} {T : Tree (Addr × α)}
    {u : Option (Tree (Addr × α))} (O : Owned (Nary.shape α) W ts) (hx : ts x = some (some T)) {p : Pat α} (hp : p.plain)
    (hn : p.ids.Nodup) {s s' : Pattern.State} (hsearch : W.search (Nary.kind α) NNode.value p s x = Res.ok (true, s'))
    (O2 : Owned (Nary.shape α) W2 ts2) (hx2 : ts2 x = some (some T)) (hy : ts2 y = some u) :
    ∃ W' c n, W2.assignResult (Nary.kind α) NNode.value (Nary.builder α) p s' y = Res.ok (true, W') ∧
      Owned (Nary.shape α) W' (upd ts2 y (some (some n))) ∧ n.vals = c.vals ∧ Tree.Part c T ∧
      Exact Prod.snd Prod.fst s'.marks p c ∧ (∀ a ∈ n.addrs, W2.heap.cells a = none) ∧
      (∀ z, z ≠ y → W'.vars z = W2.vars z) := by
  obtain ⟨ok, s1, e, h1, h2⟩ := Nary.search_spec O hx hp hn s
  cases hsearch.symm.trans e
  rcases h2 with ⟨_, T', hT, hF⟩ | ⟨h, _⟩
  · cases hT
    obtain ⟨W', c, n, k1, k2, k3, k4, k5, k6, k7, _⟩ := Nary.assignPart_spec O2 hx2 hy hp (by rw [h1]; simp) (gs := []) rfl hF
    exact ⟨W', c, n, k1, k2, k3, k4, k5, k6, k7⟩
  · cases h

theorem C35_result_binary {W W2 : World (BNode α)} {ts ts2 : Nat → Option (BTree (Addr × α))} {x y : Nat} {t u : BTree (Addr × α)}
    (O : Owned (Binary.shape α) W ts) (hx : ts x = some t) {p : Pat α} (hp : p.plain)
    (hn : p.ids.Nodup) {s s' : Pattern.State} (hsearch : W.search (Binary.kind α) BNode.value p s x = Res.ok (true, s'))
    (O2 : Owned (Binary.shape α) W2 ts2) (hx2 : ts2 x = some t) (hy : ts2 y = some u) :
    ∃ W' c n C, W2.assignResult (Binary.kind α) BNode.value (Binary.builder α) p s' y = Res.ok (true, W') ∧
      Owned (Binary.shape α) W' (upd ts2 y (some n)) ∧ n.vals = c.vals ∧ BTree.Part c t ∧ c.toRose = [C] ∧
      Exact Prod.snd Prod.fst s'.marks p C ∧ (∀ a ∈ n.addrs, W2.heap.cells a = none) ∧
      (∀ z, z ≠ y → W'.vars z = W2.vars z) := by
  obtain ⟨ok, s1, e, h1, h2⟩ := Binary.search_spec O hx hp hn s
  cases hsearch.symm.trans e
  rcases h2 with ⟨_, T', hT, hF⟩ | ⟨h, _⟩
  · cases t with
    | nil => cases hT
    | node a l r =>
      cases hT
      obtain ⟨W', cl, cr, n, k1, k2, k3, k4, k5, k6, k7, _⟩ := Binary.assignPart_spec O2 hx2 hy hp (by rw [h1]; simp) (gs := []) rfl hF
      exact ⟨W', _, n, _, k1, k2, k3, k4, rfl, k5, k6, k7⟩
  · cases h

/-- A pattern object that has never matched refuses to assign; after a failed search it assigns the empty tree. -/
theorem C35_no_match_nary {W W2 : World (NNode α)} {ts ts2 : Nat → Option (Option (Tree (Addr × α)))} {x y : Nat}
    {t u : Option (Tree (Addr × α))} (O : Owned (Nary.shape α) W ts) (hx : ts x = some t) {p : Pat α} (hp : p.plain)
    (hn : p.ids.Nodup) {s s' : Pattern.State} (hsearch : W.search (Nary.kind α) NNode.value p s x = Res.ok (false, s'))
    (O2 : Owned (Nary.shape α) W2 ts2) (hy : ts2 y = some u) :
    (s.typed = false → W2.assignResult (Nary.kind α) NNode.value (Nary.builder α) p s' y = Res.ok (false, W2)) ∧
    (s.typed = true → ∃ W', W2.assignResult (Nary.kind α) NNode.value (Nary.builder α) p s' y = Res.ok (true, W') ∧
      Owned (Nary.shape α) W' (upd ts2 y (some none))) := by
  obtain ⟨ok, s1, e, h1, h2⟩ := Nary.search_spec O hx hp hn s
  cases hsearch.symm.trans e
  rcases h2 with ⟨h, _⟩ | ⟨_, h2, _⟩
  · cases h
  · refine ⟨fun h => ?_, fun h => ?_⟩
    · have : s'.typed = false := by rw [h1, h]; rfl
      simp [World.assignResult, World.assignPart, this]
    · exact Nary.assignPart_none O2 hy (by rw [h1, h]; rfl) h2

theorem C35_no_match_binary {W W2 : World (BNode α)} {ts ts2 : Nat → Option (BTree (Addr × α))} {x y : Nat}
    {t u : BTree (Addr × α)} (O : Owned (Binary.shape α) W ts) (hx : ts x = some t) {p : Pat α} (hp : p.plain)
    (hn : p.ids.Nodup) {s s' : Pattern.State} (hsearch : W.search (Binary.kind α) BNode.value p s x = Res.ok (false, s'))
    (O2 : Owned (Binary.shape α) W2 ts2) (hy : ts2 y = some u) :
    (s.typed = false → W2.assignResult (Binary.kind α) BNode.value (Binary.builder α) p s' y = Res.ok (false, W2)) ∧
    (s.typed = true → ∃ W', W2.assignResult (Binary.kind α) BNode.value (Binary.builder α) p s' y = Res.ok (true, W') ∧
      Owned (Binary.shape α) W' (upd ts2 y (some .nil))) := by
  obtain ⟨ok, s1, e, h1, h2⟩ := Binary.search_spec O hx hp hn s
  cases hsearch.symm.trans e
  rcases h2 with ⟨h, _⟩ | ⟨_, h2, _⟩
  · cases h
  · refine ⟨fun h => ?_, fun h => ?_⟩
    · have : s'.typed = false := by rw [h1, h]; rfl
      simp [World.assignResult, World.assignPart, this]
    · exact Binary.assignPart_none O2 hy (by rw [h1, h]; rfl) h2

/-! ## C34: captures -/

/-- `mark_count` is the number of captures; the captures are numbered in pre-order. -/
theorem C34_numbering (p : Pat α) : p.captures = p.pre.filter (fun q => q.kind = .cpt) ∧
    p.markCount = p.pre.countP (fun q => q.kind = .cpt) := by
  refine ⟨captures_pre p, ?_⟩
  rw [markCount, captures_pre, List.countP_eq_length_filter]

/-- After a successful search, `assign_mark` with the number `k` of a capture makes `y` a tree of new nodes: the nodes matched
within the capture, which are nested below the node the capture remembers. -/
theorem C34_mark_nary {W W2 : World (NNode α)} {ts ts2 : Nat → Option (Option (Tree (Addr × α)))} {x y k : Nat} {T : Tree (Addr × α)}
    {u : Option (Tree (Addr × α))} (O : Owned (Nary.shape α) W ts) (hx : ts x = some (some T)) {p q : Pat α} (hp : p.plain)
    (hn : p.ids.Nodup) {s s' : Pattern.State} (hsearch : W.search (Nary.kind α) NNode.value p s x = Res.ok (true, s'))
    (hq : (p.pre.filter (fun q => q.kind = .cpt))[k - 1]? = some q)
    (O2 : Owned (Nary.shape α) W2 ts2) (hx2 : ts2 x = some (some T)) (hy : ts2 y = some u) :
    ∃ W' c n fs v, W2.assignMark (Nary.kind α) NNode.value (Nary.builder α) p s' k y = Res.ok (true, W') ∧
      Owned (Nary.shape α) W' (upd ts2 y (some (some n))) ∧ n.vals = c.vals ∧ plug fs v = T ∧ Tree.Part c v ∧
      s'.marks q.id = some v.label.1 ∧ Exact Prod.snd Prod.fst s'.marks q c ∧ (∀ a ∈ n.addrs, W2.heap.cells a = none) ∧
      (∀ z, z ≠ y → W'.vars z = W2.vars z) := by
  obtain ⟨ok, s1, e, h1, h2⟩ := Nary.search_spec O hx hp hn s
  cases hsearch.symm.trans e
  rcases h2 with ⟨_, T', hT, hF⟩ | ⟨h, _⟩
  · cases hT
    have hmem : q ∈ p.pre := (List.mem_filter.mp (List.mem_of_getElem? hq)).1
    obtain ⟨hqp, fs, v, hv, hFq⟩ := found_sub p T hF hp q hmem
    obtain ⟨W', c, n, k1, k2, k3, k4, k5, k6, k7, _⟩ := Nary.assignPart_spec O2 hx2 hy hqp (by rw [h1]; simp) hv hFq
    refine ⟨W', c, n, fs, v, ?_, k2, k3, hv, k4, found_mark hFq, k5, k6, k7⟩
    rw [World.assignMark, captures_pre, hq]
    exact k1
  · cases h

theorem C34_mark_binary {W W2 : World (BNode α)} {ts ts2 : Nat → Option (BTree (Addr × α))} {x y k : Nat} {t u : BTree (Addr × α)}
    (O : Owned (Binary.shape α) W ts) (hx : ts x = some t) {p q : Pat α} (hp : p.plain)
    (hn : p.ids.Nodup) {s s' : Pattern.State} (hsearch : W.search (Binary.kind α) BNode.value p s x = Res.ok (true, s'))
    (hq : (p.pre.filter (fun q => q.kind = .cpt))[k - 1]? = some q)
    (O2 : Owned (Binary.shape α) W2 ts2) (hx2 : ts2 x = some t) (hy : ts2 y = some u) :
    ∃ W' c n C fs v, W2.assignMark (Binary.kind α) BNode.value (Binary.builder α) p s' k y = Res.ok (true, W') ∧
      Owned (Binary.shape α) W' (upd ts2 y (some n)) ∧ n.vals = c.vals ∧ BTree.plug fs v = t ∧ BTree.Part c v ∧ c.toRose = [C] ∧
      s'.marks q.id = v.addr? ∧ Exact Prod.snd Prod.fst s'.marks q C ∧ (∀ a ∈ n.addrs, W2.heap.cells a = none) ∧
      (∀ z, z ≠ y → W'.vars z = W2.vars z) := by
  obtain ⟨ok, s1, e, h1, h2⟩ := Binary.search_spec O hx hp hn s
  cases hsearch.symm.trans e
  rcases h2 with ⟨_, T', hT, hF⟩ | ⟨h, _⟩
  · have hmem : q ∈ p.pre := (List.mem_filter.mp (List.mem_of_getElem? hq)).1
    obtain ⟨hqp, fs, v, hv, hFq⟩ := found_sub p T' hF hp q hmem
    obtain ⟨bs, a, l, r, hb, _, rfl⟩ := BTree.plug_toRose hT hv
    obtain ⟨W', cl, cr, n, k1, k2, k3, k4, k5, k6, k7, _⟩ := Binary.assignPart_spec O2 hx2 hy hqp (by rw [h1]; simp) hb hFq
    refine ⟨W', _, n, _, bs, _, ?_, k2, k3, hb, k4, rfl, found_mark hFq, k5, k6, k7⟩
    rw [World.assignMark, captures_pre, hq]
    exact k1
  · cases h

/-! ## C36: every search ends -/

/-- The search of any pattern made of `one`, `opt` and `cpt`, in any tree, returns, and its matchers remember nodes of that tree. -/
theorem C36_search_nary {W : World (NNode α)} {ts : Nat → Option (Option (Tree (Addr × α)))} {x : Nat} {t : Option (Tree (Addr × α))}
    (O : Owned (Nary.shape α) W ts) (hx : ts x = some t) {p : Pat α} (hp : p.formed) (hp' : p.starless) (hn : p.ids.Nodup) (s : Pattern.State) :
    ∃ ok s', W.search (Nary.kind α) NNode.value p s x = Res.ok (ok, s') ∧
      ∀ i ∈ p.ids, ∀ a, s'.marks i = some a → a ∈ (Nary.shape α).addrs t := by
  obtain ⟨ok, s', e, _, _, h⟩ := Nary.search_total O hx hp hp' hn s
  refine ⟨ok, s', e, fun i hi a ha => ?_⟩
  obtain ⟨T, fs, v, rfl, rfl, rfl⟩ := h i hi a ha
  rw [Nary.shape_addrs]
  simp [addrs, pre_plug, pre_eq_cons v, Tree.addr]

theorem C36_search_binary {W : World (BNode α)} {ts : Nat → Option (BTree (Addr × α))} {x : Nat} {t : BTree (Addr × α)}
    (O : Owned (Binary.shape α) W ts) (hx : ts x = some t) {p : Pat α} (hp : p.formed) (hp' : p.starless) (hn : p.ids.Nodup) (s : Pattern.State) :
    ∃ ok s', W.search (Binary.kind α) BNode.value p s x = Res.ok (ok, s') ∧
      ∀ i ∈ p.ids, ∀ a, s'.marks i = some a → a ∈ t.addrs := by
  obtain ⟨ok, s', e, _, h⟩ := Binary.search_total O hx hp hp' hn s
  exact ⟨ok, s', e, h⟩

/-- Whatever a search of any pattern has found in an n-ary tree, as long as that tree is still there the result can be assigned:
`y` becomes a well-formed tree of new nodes, with values of the tree searched, and no node is lost or freed twice. -/
theorem C36_result_nary {W W2 : World (NNode α)} {ts ts2 : Nat → Option (Option (Tree (Addr × α)))} {x y : Nat}
    {t u : Option (Tree (Addr × α))} (O : Owned (Nary.shape α) W ts) (hx : ts x = some t) {p : Pat α} (hp : p.formed)
    (hp' : p.starless) (hn : p.ids.Nodup) {s s' : Pattern.State} {ok : Bool} (hsearch : W.search (Nary.kind α) NNode.value p s x = Res.ok (ok, s'))
    (O2 : Owned (Nary.shape α) W2 ts2) (hx2 : ts2 x = some t) (hy : ts2 y = some u) (hs : (s.typed || ok) = true) :
    ∃ W' c, W2.assignResult (Nary.kind α) NNode.value (Nary.builder α) p s' y = Res.ok (true, W') ∧
      Owned (Nary.shape α) W' (upd ts2 y (some c)) ∧ (∀ z, z ≠ y → W'.vars z = W2.vars z) ∧
      ∀ n, c = some n → (∀ a ∈ n.pre, ∃ T, t = some T ∧ ∃ b ∈ T.pre, a.2 = b.2) ∧ ∀ a ∈ n.addrs, W2.heap.cells a = none := by
  obtain ⟨ok, s', e, h1, h2, h3⟩ := Nary.search_total O hx hp hp' hn s
  cases hsearch.symm.trans e
  exact Nary.assignPart_total O2 hx2 hy (.of hp hp') (by rw [h1]; exact hs) h2 h3

/-! ## C37: optional matchers without arguments -/

theorem opt_leaf_nary {h : NHeap α} {T : Tree (Addr × α)} (hw : h.WF) (H : Nary.Rep h T) (i : Nat) (q : Quantifier) (hq : q ≠ .reluctant)
    (test : α → Bool) (m : Marks) :
    Simple.search (Nary.nav h) (fun a => do pure (← h.read a).value) h.fuel (some T.addr) (.node i (.opt q) test []) m =
      Res.ok (true, (resetL [.node i (.opt q) test []] m).set i (some T.addr)) := by
  have S := Nary.walkable H
  obtain ⟨n, _, hn⟩ := NodeOf.exists_of (T := T) (fs := []) rfl
  obtain ⟨v, ev⟩ := S.val _ _ hn
  obtain ⟨it', ec, _⟩ := Simple.childIt_total S (it := ⟨true, some T.addr, some T.addr⟩) hn
  have hqb : (q == Quantifier.reluctant) = false := by simpa using hq
  have hc : childMaySteal ([] : List (Pat α)) = true := rfl
  simp only [Simple.search, Simple.all, Simple.this, prefersNull, hqb, Bool.and_false, Bool.false_eq_true, if_false, Heap.fuel,
    Simple.loop, ev, Res.ok_bind, ec, hc]
  cases test v <;> simp [Simple.next]

/-- `opt(v)` without arguments takes the first node whatever its value is: the search succeeds and remembers the root of any tree. -/
theorem C37_opt_any_value_defect {W : World (NNode α)} {ts : Nat → Option (Option (Tree (Addr × α)))} {x : Nat} {T : Tree (Addr × α)}
    (O : Owned (Nary.shape α) W ts) (hx : ts x = some (some T)) (i : Nat) (q : Quantifier) (hq : q ≠ .reluctant) (test : α → Bool)
    (_hno : test T.label.2 = false) (s : Pattern.State) :
    ∃ s', W.search (Nary.kind α) NNode.value (.node i (.opt q) test []) s x = Res.ok (true, s') ∧ s'.marks i = some T.addr := by
  obtain ⟨r, _, h2, h3, _⟩ := O.get (Nary.lawful α) hx
  have HT : Nary.Rep W.heap T := O.rep x _ hx T rfl
  have hr : r.root = some T.addr := by rw [h3, Nary.shape_ptr]; rfl
  have e' : Simple.search ((Nary.kind α).nav W.heap) (fun a => do pure (NNode.value (← W.heap.read a))) W.heap.fuel (some T.addr)
      (.node i (.opt q) test []) s.marks = _ := opt_leaf_nary O.wf HT i q hq test s.marks
  refine ⟨⟨⟨(resetL [Pat.node i (MKind.opt q) test []] s.marks).set i (some T.addr), s.memo.cuts⟩, s.typed || true⟩, ?_, ?_⟩
  · simp only [World.search, h2, Res.ok_bind, hr]
    rw [Simple.search_up _ _ _ (by intro j q' g qs; simp [Pat.pre, Pat.preL]), e']; rfl
  · simp [Pattern.State.marks, Marks.set]

/-- `opt<RELUCTANT>(v)` without arguments never takes a node. -/
theorem C37_reluctant_nothing {W : World (NNode α)} {ts : Nat → Option (Option (Tree (Addr × α)))} {x : Nat} {t : Option (Tree (Addr × α))}
    (O : Owned (Nary.shape α) W ts) (hx : ts x = some t) (i : Nat) (test : α → Bool) (s : Pattern.State) :
    ∃ s', W.search (Nary.kind α) NNode.value (.node i (.opt .reluctant) test []) s x = Res.ok (true, s') ∧ s'.marks i = none := by
  obtain ⟨r, _, h2, h3, _⟩ := O.get (Nary.lawful α) hx
  refine ⟨⟨⟨resetL [.node i (.opt .reluctant) test []] s.marks, s.memo.cuts⟩, s.typed || true⟩, ?_, by simp [Pattern.State.marks, resetL]⟩
  simp [World.search, h2, Search.search, Search.all, Search.this, prefersNull, matchesNull, allNull, Memo.reset]

namespace Samples
def one (i v : Nat) (ps : List (Pat Nat)) : Pat Nat := .node i .one (· == v) ps
def opt (i v : Nat) (ps : List (Pat Nat)) : Pat Nat := .node i (.opt .default) (· == v) ps
def cpt (i : Nat) (p : Pat Nat) : Pat Nat := .node i .cpt (fun _ => true) [p]
/-- A pattern object that has not been used. -/
def unused : Pattern.State := ⟨⟨fun _ => none, fun _ => none⟩, false⟩
end Samples

open Samples

/-- `search` of the tree in `x0`, then `assign_result` to `x1`. -/
def Samples.searchAssign {ν lit : Type} (K : Kind ν Nat lit) (value : ν → Nat) (B : Pattern.Builder ν) (W : World ν) (p : Pat Nat) :
    Res (Bool × World ν) := do
  let (ok, s) ← W.search K value p unused 0
  let (_, W) ← W.assignResult K value B p s 1
  pure (ok, W)

theorem ub_of_test {β : Type} {r : Res β} (h : (match r with | .ub => true | _ => false) = true) : r = Res.ub := by
  cases r <;> simp_all
theorem ok_of_test {γ : Type} {r : Res (Bool × γ)} (h : (match r with | .ok (b, _) => b | _ => false) = true) : ∃ s, r = Res.ok (true, s) := by
  cases r <;> simp_all
  case ok x => exact ⟨x.2, by rw [← h]⟩

theorem fail_of_test {γ : Type} {r : Res (Bool × γ)} (h : (match r with | .ok (b, _) => !b | _ => false) = true) : ∃ s, r = Res.ok (false, s) := by
  cases r <;> simp_all
  case ok x => exact ⟨x.2, by rw [← h]⟩

theorem Res.ok_and {β : Type} {r : Res β} {P : β → Prop} [DecidablePred P] (h : (match r with | .ok x => decide (P x) | _ => false) = true) :
    ∃ x, r = Res.ok x ∧ P x := by
  cases r <;> simp_all

/-- `1(2(8(3)), 2(8, 4))` -/
def Samples.staleTree : Tree Nat :=
  Tree.node 1 [Tree.node 2 [Tree.node 8 [Tree.node 3 []]], Tree.node 2 [Tree.node 8 [], Tree.node 4 []]]

/-- `one(1)(one(2)(one(8)(opt(3)), one(4)))` in `1(2(8(3)), 2(8, 4))`: the first `2` has no child `4`; the second one has, and its
child `8` has no children. The result is `1(2(8(3), 4))` with the `3` of the abandoned attempt, which is not a part of the tree. -/
theorem C37_stale_node_defect : ∃ W' n, searchAssign (Nary.kind Nat) NNode.value (Nary.builder Nat)
      (after (Nary.kind Nat) [.newLit 0 staleTree, .newEmpty 1]) (one 0 1 [one 1 2 [one 2 8 [opt 3 3 []], one 4 4 []]]) = Res.ok (true, W') ∧
    W'.vars 1 = some ⟨some n.addr, 0, 0, some n.addr⟩ ∧ Nary.Rep W'.heap n ∧
    n.vals = Tree.node 1 [Tree.node 2 [Tree.node 8 [Tree.node 3 []], Tree.node 4 []]] ∧ ¬ Tree.Part n.vals staleTree := by
  obtain ⟨⟨b, W'⟩, e, rfl, h1, h2⟩ := Res.ok_and (r := searchAssign (Nary.kind Nat) NNode.value (Nary.builder Nat)
      (after (Nary.kind Nat) [.newLit 0 staleTree, .newEmpty 1]) (one 0 1 [one 1 2 [one 2 8 [opt 3 3 []], one 4 4 []]]))
    (P := fun x => x.1 = true ∧ x.2.vars 1 = some ⟨some 7, 0, 0, some 7⟩ ∧
      Nary.Rep x.2.heap (Tree.node (7, 1) [Tree.node (8, 2) [Tree.node (9, 8) [Tree.node (10, 3) []], Tree.node (11, 4) []]]))
    (by decide +kernel)
  refine ⟨W', Tree.node (7, 1) [Tree.node (8, 2) [Tree.node (9, 8) [Tree.node (10, 3) []], Tree.node (11, 4) []]], e, h1, h2, rfl, ?_⟩
  clear e h1 h2
  simp [Tree.vals, Tree.map, Tree.mapL, staleTree, Tree.Part, Tree.PartL, List.cons_eq_append_iff, or_imp, forall_and]
  constructor
  · rintro _ _ _ rfl rfl rfl - x y z h1 - - - - - - a b c rfl
    simp [List.cons_eq_append_iff] at h1
  · rintro _ _ _ _ rfl rfl rfl rfl - x y z h1 h2 a b c h3
    simp only [children_node, List.cons_eq_append_iff] at h1
    rcases h1 with ⟨-, h1⟩ | ⟨_, -, h1⟩
    · cases h1
      simp at h3
    · rcases h1 with ⟨-, h1⟩ | ⟨_, -, h1⟩
      · cases h1
        simp at h2
      · simp at h1

/-- `1(2(8(3, 5)), 2(8, 4))` -/
def Samples.renounceTree : Tree Nat :=
  Tree.node 1 [Tree.node 2 [Tree.node 8 [Tree.node 3 [], Tree.node 5 []]], Tree.node 2 [Tree.node 8 [], Tree.node 4 []]]
def Samples.renounceWorld : World (NNode Nat) := after (Nary.kind Nat) [.newLit 0 renounceTree, .newEmpty 1]

/-- The search of `one(1)(one(2)(one(8)(opt(3), one(5)), one(4)))` succeeds in `1(2(8(3, 5)), 2(8, 4))`, where even the pattern
without `opt(3)` does not match. -/
theorem C37_false_match_defect :
    (∃ s, renounceWorld.search (Nary.kind Nat) NNode.value (one 0 1 [one 1 2 [one 2 8 [opt 3 3 [], one 4 5 []], one 5 4 []]]) unused 0 =
      Res.ok (true, s)) ∧
    (∃ s, renounceWorld.search (Nary.kind Nat) NNode.value (one 0 1 [one 1 2 [one 2 8 [one 4 5 []], one 5 4 []]]) unused 0 =
      Res.ok (false, s)) :=
  ⟨ok_of_test (by decide +kernel), fail_of_test (by decide +kernel)⟩

/-- `1(2(8(3, 4)), 2(8(-, 3), 7))` -/
def Samples.dropWorld : World (BNode Nat) :=
  after (Binary.kind Nat) [.newLit 0 (Tree.node (some 1)
    [Tree.node (some 2) [Tree.node (some 8) [Tree.node (some 3) [], Tree.node (some 4) []]],
     Tree.node (some 2) [Tree.node (some 8) [Tree.node none [], Tree.node (some 3) []], Tree.node (some 7) []]]), .newEmpty 1]

/-- `one(1)(one(2)(one(8)(opt(3), opt(4)), one(7)))` in the binary tree `1(2(8(3, 4)), 2(8(-, 3), 7))`: the search succeeds, and
assign_result stops with a failed assertion: two children for the same slot. -/
theorem C37_binary_assert_defect :
    (∃ s, dropWorld.search (Binary.kind Nat) BNode.value (one 0 1 [one 1 2 [one 2 8 [opt 3 3 [], opt 4 4 []], one 5 7 []]]) unused 0 =
      Res.ok (true, s)) ∧
    searchAssign (Binary.kind Nat) BNode.value (Binary.builder Nat) dropWorld
      (one 0 1 [one 1 2 [one 2 8 [opt 3 3 [], opt 4 4 []], one 5 7 []]]) = Res.ub :=
  ⟨ok_of_test (by decide +kernel), ub_of_test (by decide +kernel)⟩

def Samples.twice : World (NNode Nat) := after (Nary.kind Nat)
  [.newLit 0 (Tree.node 1 [Tree.node 2 [], Tree.node 3 []]), .newLit 1 (Tree.node 1 [Tree.node 2 []]), .newEmpty 2]
/-- Two searches with the same pattern, in `x0` and in `x1`, then `assign_mark(1)` to `x2`. -/
def Samples.markAfterTwo (W : World (NNode Nat)) (p : Pat Nat) : Res (Bool × Bool × World (NNode Nat)) := do
  let (a, s) ← W.search (Nary.kind Nat) NNode.value p unused 0
  let (b, s) ← W.search (Nary.kind Nat) NNode.value p s 1
  let (_, W) ← W.assignMark (Nary.kind Nat) NNode.value (Nary.builder Nat) p s 1 2
  pure (a, b, W)

/-- `one(1)(cpt(one(2)), one(3))` matches `1(2, 3)` and not `1(2)`, but after the second, failed search the capture still gives `2`. -/
theorem C34_failed_search_defect : ∃ W', markAfterTwo twice (one 0 1 [cpt 1 (one 2 2 []), one 3 3 []]) = Res.ok (true, false, W') ∧
    W'.vars 2 = some ⟨some 5, 0, 0, some 5⟩ ∧ W'.heap.cells 5 = some ⟨2, none, 0, none, none, none, none⟩ := by
  obtain ⟨⟨a, b, W'⟩, e, rfl, rfl, h1, h2⟩ := Res.ok_and (r := markAfterTwo twice (one 0 1 [cpt 1 (one 2 2 []), one 3 3 []]))
    (P := fun x => x.1 = true ∧ x.2.1 = false ∧ x.2.2.vars 2 = some ⟨some 5, 0, 0, some 5⟩ ∧
      x.2.2.heap.cells 5 = some ⟨2, none, 0, none, none, none, none⟩) (by decide +kernel)
  exact ⟨W', e, h1, h2⟩

/-! ## The hypotheses are met -/
namespace Samples
/-- `one(1)(cpt(one(2)(one(6))), opt(9)(one(4)))` -/
def pat : Pat Nat := one 0 1 [cpt 1 (one 2 2 [one 3 6 []]), .node 4 (.opt .default) (· == 9) [one 5 4 []]]
theorem pat_plain : pat.plain := by simp [pat, one, cpt, plain, plainL]
theorem pat_ids : pat.ids.Nodup := by decide
/-- `one(1)(cpt(one(2)(opt(8), one(6))), opt(9))` -/
def patNull : Pat Nat := one 0 1 [cpt 1 (one 2 2 [opt 3 8 [], one 4 6 []]), opt 5 9 []]
theorem patNull_formed : patNull.formed := by
  intro i f ps h
  simp [patNull, one, opt, cpt, Pat.pre, Pat.preL] at h
  simp [h]
theorem patNull_starless : patNull.starless := by
  intro i q f ps h
  simp [patNull, one, opt, cpt, Pat.pre, Pat.preL] at h
/-- `one(1)(one(2)(cpt(one(4))), opt(9)(one(5)))` is not found in `1(2(-,4),3(5))`: `3` and its child are not `5`. -/
def bpat (n : Nat) : Pat Nat := one 0 1 [one 1 2 [cpt 2 (one 3 4 [])], .node 4 (.opt .possessive) (· == 3) [one 5 n []]]
end Samples

example : ∃ ts s', Owned (Nary.shape Nat) nworld ts ∧ ts 0 = some (some deep) ∧ ts 1 = some none ∧ pat.plain ∧ pat.ids.Nodup ∧
    nworld.search (Nary.kind Nat) NNode.value pat unused 0 = Res.ok (true, s') ∧
    (pat.pre.filter (fun q => q.kind = .cpt))[1 - 1]? = some (cpt 1 (one 2 2 [one 3 6 []])) := by
  obtain ⟨ts, O, h0, h1, _⟩ := nstate
  obtain ⟨s', e⟩ : ∃ s', nworld.search (Nary.kind Nat) NNode.value pat unused 0 = Res.ok (true, s') := ok_of_test (by decide +kernel)
  exact ⟨ts, s', O, h0, h1, pat_plain, pat_ids, e, rfl⟩
example : ∃ s', nworld.search (Nary.kind Nat) NNode.value patNull unused 0 = Res.ok (true, s') ∧ patNull.formed ∧ patNull.starless ∧ patNull.ids.Nodup := by
  obtain ⟨s', e⟩ : ∃ s', nworld.search (Nary.kind Nat) NNode.value patNull unused 0 = Res.ok (true, s') := ok_of_test (by decide +kernel)
  exact ⟨s', e, patNull_formed, patNull_starless, by decide⟩
example : ∃ ts s' s'', Owned (Binary.shape Nat) bworld ts ∧ ts 0 = some bin ∧ ts 1 = some .nil ∧ (bpat 5).plain ∧ (bpat 5).ids.Nodup ∧
    bworld.search (Binary.kind Nat) BNode.value (bpat 5) unused 0 = Res.ok (true, s') ∧
    bworld.search (Binary.kind Nat) BNode.value (bpat 6) ⟨⟨fun _ => none, fun _ => none⟩, true⟩ 0 = Res.ok (false, s'') := by
  obtain ⟨ts, O, h0, h1, _⟩ := bstate
  obtain ⟨s', e⟩ : ∃ s', bworld.search (Binary.kind Nat) BNode.value (bpat 5) unused 0 = Res.ok (true, s') := ok_of_test (by decide +kernel)
  obtain ⟨s'', e'⟩ : ∃ s', bworld.search (Binary.kind Nat) BNode.value (bpat 6) ⟨⟨fun _ => none, fun _ => none⟩, true⟩ 0 = Res.ok (false, s') :=
    fail_of_test (by decide +kernel)
  exact ⟨ts, s', s'', O, h0, h1, by simp [bpat, one, cpt, plain, plainL], by decide, e, e'⟩
