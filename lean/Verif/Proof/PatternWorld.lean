import Verif.Proof.PatternBin
import Verif.Proof.Compare
/-! Patterns and tree objects. -/
open Tree

set_option linter.unusedSimpArgs false

namespace Pat
variable {α : Type}

mutual
theorem captures_pre : (p : Pat α) → p.captures = p.pre.filter (fun q => q.kind = .cpt)
  | node i .cpt f ps => by simp [captures, pre, Pat.kind, capturesL_pre ps]
  | node i .one f ps => by simp [captures, pre, Pat.kind, capturesL_pre ps]
  | node i (.opt q) f ps => by simp [captures, pre, Pat.kind, capturesL_pre ps]
  | node i (.star q) f ps => by simp [captures, pre, Pat.kind, capturesL_pre ps]
theorem capturesL_pre : (ps : List (Pat α)) → capturesL ps = (preL ps).filter (fun q => q.kind = .cpt)
  | [] => by simp [capturesL, preL]
  | p :: ps => by simp [capturesL, preL, captures_pre p, capturesL_pre ps]
end

section
variable {β : Type} {val : β → α} {addr : β → Nat} {m : Nat → Option Nat}
mutual
/-- Every matcher of a pattern that was found was found somewhere in the tree. -/
theorem found_sub : (p : Pat α) → (s : Tree β) → Found val addr m p s → p.plain → ∀ q ∈ p.pre, q.plain ∧ ∃ fs u, plug fs u = s ∧ Found val addr m q u
  | node i .one f ps, s, h, hp, q, hq => by
    simp only [pre, List.mem_cons] at hq
    rcases hq with rfl | hq
    · exact ⟨hp, [], s, rfl, h⟩
    · simp only [Found] at h
      simp only [plain] at hp
      obtain ⟨h0, t, ht, fs, u, rfl, h2⟩ := foundL_sub ps _ h.2.2 hp q hq
      obtain ⟨l, r, e⟩ := List.append_of_mem ht
      refine ⟨h0, fs ++ [⟨s.label, l, r⟩], u, ?_, h2⟩
      rw [plug_append]; simp only [plug]; rw [← e]; cases s; rfl
  | node i .cpt f ps, s, h, hp, q, hq => by
    simp only [pre, List.mem_cons] at hq
    rcases hq with rfl | hq
    · exact ⟨hp, [], s, rfl, h⟩
    · simp only [Found] at h
      simp only [plain] at hp
      obtain ⟨h0, t, ht, fs, u, e, h2⟩ := foundL_sub ps _ h.2 hp.2 q hq
      simp at ht; subst ht
      exact ⟨h0, fs, u, e, h2⟩
  | node i (.opt q') f ps, s, h, hp, q, hq => by
    simp only [pre, List.mem_cons] at hq
    rcases hq with rfl | hq
    · exact ⟨hp, [], s, rfl, h⟩
    · simp only [Found] at h
      simp only [plain] at hp
      rcases h.2 with ⟨_, h1⟩ | ⟨_, _, h1⟩
      · obtain ⟨h0, t, ht, fs, u, rfl, h2⟩ := foundL_sub ps _ h1 hp.2 q hq
        obtain ⟨l, r, e⟩ := List.append_of_mem ht
        refine ⟨h0, fs ++ [⟨s.label, l, r⟩], u, ?_, h2⟩
        rw [plug_append]; simp only [plug]; rw [← e]; cases s; rfl
      · obtain ⟨h0, t, ht, fs, u, e, h2⟩ := foundL_sub ps _ h1 hp.2 q hq
        simp at ht; subst ht
        exact ⟨h0, fs, u, e, h2⟩
theorem foundL_sub : (ps : List (Pat α)) → (ts : List (Tree β)) → FoundL val addr m ps ts → plainL ps → ∀ q ∈ preL ps,
    q.plain ∧ ∃ t ∈ ts, ∃ fs u, plug fs u = t ∧ Found val addr m q u
  | [], _, _, _, q, hq => by simp [preL] at hq
  | p :: ps, ts, h, hp, q, hq => by
    simp only [preL, List.mem_append] at hq
    simp only [FoundL] at h
    simp only [plainL] at hp
    obtain ⟨l, t, r, rfl, _, h1, h2⟩ := h
    rcases hq with hq | hq
    · obtain ⟨h0, fs, u, e, h3⟩ := found_sub p t h1 hp.1 q hq
      exact ⟨h0, t, by simp, fs, u, e, h3⟩
    · obtain ⟨h0, t', ht, h3⟩ := foundL_sub ps r h2 hp.2 q hq
      exact ⟨h0, t', by simp [ht], h3⟩
end
end
end Pat

namespace Simple
open Pat
variable {α : Type} {nav : Ptr → Nav} {vl : Addr → Res α} {fuel : Nat}

mutual
theorem this_nowhere (hf : 0 < fuel) : (p : Pat α) → p.plain → (m : Marks) → (it : PIt) → it.cur = none →
    this nav vl fuel p m it = Res.ok (false, m, it)
  | Pat.node i .one f ps, hp, m, it, h => by
    obtain ⟨fuel, rfl⟩ : ∃ n, fuel = n + 1 := ⟨fuel - 1, by omega⟩
    simp only [this, loop, h]; rfl
  | Pat.node i .cpt f ps, hp, m, it, h => by
    simp only [plain] at hp
    have : ps ≠ [] := by intro e; simp [e] at hp
    simp only [Simple.this, all_nowhere hf ps this hp.2 m it h, Res.ok_bind]; rfl
  | Pat.node i (.opt q) f ps, hp, m, it, h => by
    have hnull := matchesNull_plain _ hp
    obtain ⟨fuel, rfl⟩ : ∃ n, fuel = n + 1 := ⟨fuel - 1, by omega⟩
    simp only [this, prefersNull, hnull, Bool.false_and, Bool.false_eq_true, if_false, loop, h]; rfl
theorem all_nowhere (hf : 0 < fuel) : (ps : List (Pat α)) → ps ≠ [] → plainL ps → (m : Marks) → (it : PIt) → it.cur = none →
    all nav vl fuel ps m it = Res.ok (false, m, it)
  | [], h, _, _, _, _ => absurd rfl h
  | p :: ps, _, hp, m, it, h => by
    simp only [plainL] at hp
    simp only [all, this_nowhere hf p hp.1 m it h, Res.ok_bind]; rfl
end

theorem search_nowhere (hf : 0 < fuel) {p : Pat α} (hp : p.plain) (m : Marks) :
    search nav vl fuel none p m = Res.ok (false, resetL [p] m) := by
  have := all_nowhere (nav := nav) (vl := vl) hf [p] (by simp) (by simpa [plainL] using hp) (resetL [p] m) ⟨true, none, none⟩ rfl
  simp [search, this]
end Simple

theorem World.search_simple {ν α lit : Type} {K : Kind ν α lit} {value : ν → α} {W : World ν} {x : Nat} {r : TreeRec} {p : Pat α}
    (hp : p.starless) (s : Pattern.State) (hr : W.get x = Res.ok r) {ok m}
    (h : Simple.search (K.nav W.heap) (fun a => do pure (value (← W.heap.read a))) W.heap.fuel r.root p s.marks = Res.ok (ok, m)) :
    W.search K value p s x = Res.ok (ok, ⟨⟨m, s.memo.cuts⟩, s.typed || ok⟩) := by
  simp only [World.search, hr, Res.ok_bind]
  rw [Simple.search_up _ _ _ hp, h]; rfl

namespace Nary
open Pat
variable {α : Type} {W : World (NNode α)} {ts : Nat → Option (Option (Tree (Addr × α)))} {x y : Nat}

theorem search_spec (O : Owned (Nary.shape α) W ts) {t} (hx : ts x = some t) {p : Pat α} (hp : p.plain) (hn : p.ids.Nodup)
    (s : Pattern.State) :
    ∃ ok s', W.search (Nary.kind α) NNode.value p s x = Res.ok (ok, s') ∧ s'.typed = (s.typed || ok) ∧
      ((ok = true ∧ ∃ T, t = some T ∧ Found Prod.snd Prod.fst s'.marks p T) ∨
        (ok = false ∧ s'.marks p.id = none ∧ ∀ T, t = some T → ¬ Fits Prod.snd p T)) := by
  obtain ⟨r, _, h2, h3, _⟩ := O.get (Nary.lawful α) hx
  have H := O.rep x t hx
  cases t with
  | none =>
    have hr : r.root = none := by rw [h3]; rfl
    refine ⟨false, ⟨⟨resetL [p] s.marks, s.memo.cuts⟩, s.typed || false⟩, ?_, rfl, .inr ⟨rfl, by simp [Pattern.State.marks, resetL, id_mem], by simp⟩⟩
    refine World.search_simple hp.starless s h2 ?_
    rw [hr, Simple.search_nowhere (by simp [Heap.fuel]) hp]
  | some T =>
    have HT : Rep W.heap T := H T rfl
    have hr : r.root = some T.addr := by rw [h3, shape_ptr]; rfl
    have hsz := size_le O.wf HT
    obtain ⟨ok, m', e, h4, h5⟩ := Simple.search_spec (Nary.searchable HT) (fuel := W.heap.fuel) (by simp only [Heap.fuel]; omega) hp hn s.marks
      (gs := []) (s := T) rfl
    refine ⟨ok, ⟨⟨m', s.memo.cuts⟩, s.typed || ok⟩, ?_, rfl, ?_⟩
    · refine World.search_simple hp.starless s h2 ?_
      have e' : Simple.search ((Nary.kind α).nav W.heap) (fun a => do pure (NNode.value (← W.heap.read a))) W.heap.fuel (some T.addr) p s.marks = Res.ok (ok, m') := e
      rw [hr, e']
    · rcases h5 with ⟨rfl, h5⟩ | ⟨rfl, h5, h6⟩
      · exact .inl ⟨rfl, T, rfl, h5⟩
      · exact .inr ⟨rfl, h5, by simpa using h6⟩

theorem readable {h : NHeap α} {T} (H : Rep h T) : Readable NNode.value h T := by
  rintro fs s rfl
  exact ⟨_, H.cell, rfl⟩

/-- Assigning what a matcher has found in the tree `T` to any tree object. -/
theorem assignPart_spec (O : Owned (Nary.shape α) W ts) {T u gs v} (hx : ts x = some (some T)) (hy : ts y = some u) {q : Pat α}
    (hq : q.plain) {s : Pattern.State} (hs : s.typed = true) (hv : plug gs v = T) (hF : Found Prod.snd Prod.fst s.marks q v) :
    ∃ W' c n, W.assignPart (Nary.kind α) NNode.value (Nary.builder α) q s y = Res.ok (true, W') ∧
      Owned (Nary.shape α) W' (upd ts y (some (some n))) ∧ n.vals = c.vals ∧ Tree.Part c v ∧
      Exact Prod.snd Prod.fst s.marks q c ∧ (∀ a ∈ n.addrs, W.heap.cells a = none) ∧
      (∀ z, z ≠ y → W'.vars z = W.vars z) ∧ W'.vars y = some ⟨some n.addr, 0, 0, some n.addr⟩ := by
  have HT : Rep W.heap T := O.rep x _ hx T rfl
  have hsz := size_le O.wf HT
  obtain ⟨h', c, n, e, H, V, P, E, G⟩ := result_spec (m := s.marks) (T := T)
    HT.2 q W.heap gs v O.wf (readable HT) hv hq hF
  obtain ⟨O1, M⟩ := (owned_match (Nary.lawful α)).mp O
  obtain ⟨rx, g1, g2, g3, _⟩ := O.get (Nary.lawful α) hy
  have G' : Grown W.heap h' ((Nary.shape α).addrs (some n)) := G.congr (by intro x; simp [shape_addrs])
  have O2 := O1.grow (Nary.lawful α) G' (by rw [shape_rep]; exact H)
  obtain ⟨e2, O3⟩ := TreeOps.assign_spec (Nary.lawful α) (rs := 0) (ra := 0) O2 hy g3
  refine ⟨⟨h'.freeAll ((Nary.shape α).addrs u), upd W.vars y (some ⟨some n.addr, 0, 0, some n.addr⟩)⟩, c, n, ?_, (owned_match (Nary.lawful α)).mpr ⟨O3, match_upd (fun z _ => M z) (.some (by rw [shape_ptr]; rfl) (by rw [shape_ptr]; rfl))⟩, V, P, E, ?_, ?_, ?_⟩
  · rw [shape_ptr] at e2
    simp only [Option.map_some] at e2
    simp only [World.assignPart, hs, e, Res.ok_bind, g2, Bool.not_true, Bool.false_eq_true, if_false]
    rw [e2]; rfl
  · have := loose_fresh O O2
    simpa [shape_addrs] using this
  · intro z hz; simp [upd, hz]
  · simp [upd, shape_ptr]

theorem assignPart_none (O : Owned (Nary.shape α) W ts) {u} (hy : ts y = some u) {q : Pat α} {s : Pattern.State}
    (hs : s.typed = true) (hm : s.marks q.id = none) :
    ∃ W', W.assignPart (Nary.kind α) NNode.value (Nary.builder α) q s y = Res.ok (true, W') ∧
      Owned (Nary.shape α) W' (upd ts y (some none)) := by
  obtain ⟨O1, M⟩ := (owned_match (Nary.lawful α)).mp O
  obtain ⟨rx, g1, g2, g3, _⟩ := O.get (Nary.lawful α) hy
  obtain ⟨e2, O3⟩ := TreeOps.assign_spec (Nary.lawful α) (rs := 0) (ra := 0) O1 hy g3
  refine ⟨⟨W.heap.freeAll ((Nary.shape α).addrs u), upd W.vars y (some ⟨none, 0, 0, none⟩)⟩, ?_, (owned_match (Nary.lawful α)).mpr ⟨O3, match_upd (fun z _ => M z) (.some rfl rfl)⟩⟩
  have e : Pattern.result (Nary.kind α) NNode.value (Nary.builder α) s.marks q W.heap = Res.ok (W.heap, none) := by
    obtain ⟨i, k, f, ps⟩ := q
    simp only [Pat.id] at hm
    cases k <;> simp [Pattern.result, hm]
  have : (Nary.shape α).ptr (Nary.shape α).nil = none := rfl
  rw [this] at e2
  simp only [World.assignPart, hs, e, Res.ok_bind, g2, Bool.not_true, Bool.false_eq_true, if_false]
  rw [e2]; rfl
end Nary

namespace Binary
open Pat
variable {α : Type} {W : World (BNode α)} {ts : Nat → Option (BTree (Addr × α))} {x y : Nat}

theorem search_spec (O : Owned (Binary.shape α) W ts) {t} (hx : ts x = some t) {p : Pat α} (hp : p.plain) (hn : p.ids.Nodup)
    (s : Pattern.State) :
    ∃ ok s', W.search (Binary.kind α) BNode.value p s x = Res.ok (ok, s') ∧ s'.typed = (s.typed || ok) ∧
      ((ok = true ∧ ∃ T, t.toRose = [T] ∧ Found Prod.snd Prod.fst s'.marks p T) ∨
        (ok = false ∧ s'.marks p.id = none ∧ ∀ T, t.toRose = [T] → ¬ Fits Prod.snd p T)) := by
  obtain ⟨r, _, h2, h3, _⟩ := O.get (Binary.lawful α) hx
  have H : Rep W.heap t := O.rep x t hx
  have hsz := size_le O.wf H
  rw [shape_ptr'] at h3
  cases t with
  | nil =>
    refine ⟨false, ⟨⟨resetL [p] s.marks, s.memo.cuts⟩, s.typed || false⟩, ?_, rfl, .inr ⟨rfl, by simp [Pattern.State.marks, resetL, id_mem], by simp⟩⟩
    refine World.search_simple hp.starless s h2 ?_
    rw [h3, BTree.addr?_nil, Simple.search_nowhere (by simp [Heap.fuel]) hp]
  | node a l rr =>
    have hT : (BTree.node a l rr).toRose = [roseAt a l rr] := rfl
    have hsz' : (roseAt a l rr).size = (BTree.node a l rr).size := by
      have := size_toRose (BTree.node a l rr)
      rw [hT] at this
      simpa using this
    obtain ⟨ok, m', e, h4, h5⟩ := Simple.search_spec (Binary.searchable H hT) (fuel := W.heap.fuel) (by rw [hsz']; simp only [Heap.fuel]; omega) hp hn s.marks
      (gs := []) (s := roseAt a l rr) rfl
    refine ⟨ok, ⟨⟨m', s.memo.cuts⟩, s.typed || ok⟩, ?_, rfl, ?_⟩
    · refine World.search_simple hp.starless s h2 ?_
      have e' : Simple.search ((Binary.kind α).nav W.heap) (fun a => do pure (BNode.value (← W.heap.read a))) W.heap.fuel (some a.1) p s.marks = Res.ok (ok, m') := e
      rw [h3, BTree.addr?_node, e']
    · rcases h5 with ⟨rfl, h5⟩ | ⟨rfl, h5, h6⟩
      · exact .inl ⟨rfl, _, hT, h5⟩
      · refine .inr ⟨rfl, h5, ?_⟩
        rintro T h; rw [hT] at h; simp only [List.cons.injEq, and_true] at h; subst h; exact h6

/-- Assigning what a matcher has found in the tree `T` to any tree object. -/
theorem assignPart_spec (O : Owned (Binary.shape α) W ts) {T u a l r} {gs} (hx : ts x = some T) (hy : ts y = some u) {q : Pat α}
    (hq : q.plain) {s : Pattern.State} (hs : s.typed = true) (hv : BTree.plug gs (.node a l r) = T)
    (hF : Found Prod.snd Prod.fst s.marks q (roseAt a l r)) :
    ∃ W' cl cr n, W.assignPart (Binary.kind α) BNode.value (Binary.builder α) q s y = Res.ok (true, W') ∧
      Owned (Binary.shape α) W' (upd ts y (some n)) ∧ n.vals = (BTree.node a cl cr).vals ∧
      BTree.Part (BTree.node a cl cr) (BTree.node a l r) ∧
      Exact Prod.snd Prod.fst s.marks q (roseAt a cl cr) ∧ (∀ a ∈ n.addrs, W.heap.cells a = none) ∧
      (∀ z, z ≠ y → W'.vars z = W.vars z) ∧ W'.vars y = some ⟨n.addr?, 0, 0, n.addr?⟩ := by
  have HT : Rep W.heap T := O.rep x _ hx
  obtain ⟨h', cl, cr, b, l', r', e, H, V1, V2, P1, P2, E, G⟩ := result_spec (m := s.marks) (T := T)
    HT.2 q W.heap gs a l r O.wf HT hv hq hF
  obtain ⟨O1, M⟩ := (owned_match (Binary.lawful α)).mp O
  obtain ⟨rx, g1, g2, g3, _⟩ := O.get (Binary.lawful α) hy
  have G' : Grown W.heap h' ((Binary.shape α).addrs (BTree.node (b, a.2) l' r')) := G.congr (by intro x; rw [shape_addrs])
  have O2 := O1.grow (Binary.lawful α) G' H
  obtain ⟨e2, O3⟩ := TreeOps.assign_spec (Binary.lawful α) (rs := 0) (ra := 0) O2 hy g3
  refine ⟨⟨h'.freeAll ((Binary.shape α).addrs u), upd W.vars y (some ⟨some b, 0, 0, some b⟩)⟩, cl, cr, BTree.node (b, a.2) l' r', ?_,
    (owned_match (Binary.lawful α)).mpr ⟨O3, match_upd (fun z _ => M z) (.some rfl rfl)⟩, ?_, .node a P1 P2, E, ?_, ?_, ?_⟩
  · rw [shape_ptr'] at e2
    simp only [BTree.addr?_node] at e2
    simp only [World.assignPart, hs, e, Res.ok_bind, g2, Bool.not_true, Bool.false_eq_true, if_false]
    rw [e2]; rfl
  · show BTree.node a.2 l'.vals r'.vals = BTree.node a.2 cl.vals cr.vals
    rw [V1, V2]
  · have := loose_fresh O O2
    rw [shape_addrs] at this
    exact this
  · intro z hz; simp [upd, hz]
  · simp [upd]

theorem assignPart_none (O : Owned (Binary.shape α) W ts) {u} (hy : ts y = some u) {q : Pat α} {s : Pattern.State}
    (hs : s.typed = true) (hm : s.marks q.id = none) :
    ∃ W', W.assignPart (Binary.kind α) BNode.value (Binary.builder α) q s y = Res.ok (true, W') ∧
      Owned (Binary.shape α) W' (upd ts y (some .nil)) := by
  obtain ⟨O1, M⟩ := (owned_match (Binary.lawful α)).mp O
  obtain ⟨rx, g1, g2, g3, _⟩ := O.get (Binary.lawful α) hy
  obtain ⟨e2, O3⟩ := TreeOps.assign_spec (Binary.lawful α) (rs := 0) (ra := 0) O1 hy g3
  refine ⟨⟨W.heap.freeAll ((Binary.shape α).addrs u), upd W.vars y (some ⟨none, 0, 0, none⟩)⟩, ?_, (owned_match (Binary.lawful α)).mpr ⟨O3, match_upd (fun z _ => M z) (.some rfl rfl)⟩⟩
  have e : Pattern.result (Binary.kind α) BNode.value (Binary.builder α) s.marks q W.heap = Res.ok (W.heap, none) := by
    obtain ⟨i, k, f, ps⟩ := q
    simp only [Pat.id] at hm
    cases k <;> simp [Pattern.result, hm]
  have : (Binary.shape α).ptr (Binary.shape α).nil = none := rfl
  rw [this] at e2
  simp only [World.assignPart, hs, e, Res.ok_bind, g2, Bool.not_true, Bool.false_eq_true, if_false]
  rw [e2]; rfl
end Binary
