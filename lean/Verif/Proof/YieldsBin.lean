import Verif.Proof.YieldsWorld
/-! The results of patterns with `star`, and binary trees. -/

set_option linter.unusedSimpArgs false

theorem BTree.map_twice {β γ δ : Type} (f : β → γ) (g : γ → δ) (t : BTree β) : (t.map f).map g = t.map (fun x => g (f x)) := by
  induction t with
  | nil => rfl
  | node a l r ihl ihr => simp [BTree.map, ihl, ihr]

theorem BTree.part_label {β : Type} {c b : BTree β} {a : β} (h : BTree.Part c b) (hc : c.label? = some a) : ∃ l r, b = .node a l r := by
  cases h with
  | nil => cases hc
  | node a' h1 h2 =>
    simp [BTree.label?] at hc
    exact ⟨_, _, by rw [hc]⟩

namespace Binary
open Pat
variable {α : Type} {W : World (BNode α)} {ts : Nat → Option (BTree (Addr × α))} {x y : Nat}

/-- A tree that has been made is assigned. -/
theorem assignMade_spec (O : Owned (Binary.shape α) W ts) {t u : BTree (Addr × α)} {T V : Tree (Addr × α)} {fs} (hx : ts x = some t) (hT : t.toRose = [T])
    (hy : ts y = some u) {q : Pat α} {s : Pattern.State} (hs : s.typed = true) (hv : Tree.plug fs V = T)
    {h' : BHeap α} {P : Tree (Lab α)} (e : Pattern.result (Binary.kind α) BNode.value (Binary.builder α) s.marks q W.heap = Res.ok (h', some P.label.2))
    (HP : Made t h' P) (hl : P.label.1 = V.label) (G : Grown W.heap h' P.gens) :
    ∃ W' c b gs n, W.assignPart (Binary.kind α) BNode.value (Binary.builder α) q s y = Res.ok (true, W') ∧
      Owned (Binary.shape α) W' (upd ts y (some n)) ∧ n.vals = c.vals ∧ BTree.plug gs b = t ∧ gs.map BTree.Frame.toRose = fs ∧ b.toRose = [V] ∧
      BTree.Part c b ∧ c.toRose = [P.refs] ∧ (∀ a ∈ n.addrs, W.heap.cells a = none) ∧
      (∀ z, z ≠ y → W'.vars z = W.vars z) := by
  have HT : Rep W.heap t := O.rep x _ hx
  have M := makes hT HT.2
  obtain ⟨BP, hBP, H, gs, b, hgs, hpart⟩ := HP
  have V1 : (BP.map Tree.rel).vals = (BP.map Prod.fst).vals := by
    simp only [BTree.vals, BTree.map_twice]; rfl
  have hlabP : BP.label? = some P.label := by
    rw [← BTree.headLabel_toRose, hBP]; rfl
  have hlab : (BP.map Prod.fst).label? = some V.label := by
    cases BP with
    | nil => cases hlabP
    | node a l r =>
      simp [BTree.label?] at hlabP
      simp [BTree.label?, BTree.map, hlabP, hl]
  obtain ⟨l, r, rfl⟩ := BTree.part_label hpart hlab
  have hbR : (BTree.node V.label l r).toRose = [Tree.node V.label (l.toRose ++ r.toRose)] := rfl
  have hTp := toRose_plug gs _ _ hbR
  rw [hgs, hT] at hTp
  simp only [List.cons.injEq, and_true] at hTp
  obtain ⟨k1, k2⟩ := Tree.sub_unique (g := Prod.fst) M.nodup hv hTp.symm rfl
  have hla : (BP.map Tree.rel).addr? = some P.label.2 := by
    cases BP with
    | nil => cases hlabP
    | node a l r =>
      simp [BTree.label?] at hlabP
      simp [BTree.map, Tree.rel, hlabP]
  have G : Grown W.heap h' (BP.map Tree.rel).addrs := G.congr (fun x => ((addrs_rel hBP).2 x).symm)
  generalize hn : BP.map Tree.rel = n at *
  obtain ⟨O1, M⟩ := (owned_match (Binary.lawful α)).mp O
  obtain ⟨rx, g1, g2, g3, _⟩ := O.get (Binary.lawful α) hy
  have G' : Grown W.heap h' ((Binary.shape α).addrs n) := G.congr (by intro x; rw [shape_addrs])
  have O2 := O1.grow (Binary.lawful α) G' H
  obtain ⟨e2, O3⟩ := TreeOps.assign_spec (Binary.lawful α) (rs := 0) (ra := 0) O2 hy g3
  refine ⟨⟨h'.freeAll ((Binary.shape α).addrs u), upd W.vars y (some ⟨n.addr?, 0, 0, n.addr?⟩)⟩, BP.map Prod.fst, BTree.node V.label l r, gs, n, ?_,
    (owned_match (Binary.lawful α)).mpr ⟨O3, match_upd (fun z _ => M z) (.some (by rw [shape_ptr']) (by rw [shape_ptr']))⟩, V1, hgs, k1.symm, by rw [k2.symm] at hbR; exact hbR, hpart, ?_, ?_, ?_⟩
  · rw [shape_ptr'] at e2
    simp only [World.assignPart, hs, e, Res.ok_bind, g2, Bool.not_true, Bool.false_eq_true, if_false]
    rw [hla] at e2
    rw [e2, hla]; rfl
  · rw [BTree.toRose_map, hBP]; rfl
  · have := loose_fresh O O2
    rw [shape_addrs] at this
    exact this
  · intro z hz; simp [upd, hz]

theorem assignYield_spec (O : Owned (Binary.shape α) W ts) {t u : BTree (Addr × α)} {T V : Tree (Addr × α)} {fs} (hx : ts x = some t) (hT : t.toRose = [T])
    (hy : ts y = some u) {q : Pat α} (hq : q.solid) (ht : q.thin) {s : Pattern.State} (hs : s.typed = true) (hv : Tree.plug fs V = T)
    (hF : Placed Prod.snd Prod.fst s.marks q V) :
    ∃ W' c b gs n C, W.assignPart (Binary.kind α) BNode.value (Binary.builder α) q s y = Res.ok (true, W') ∧
      Owned (Binary.shape α) W' (upd ts y (some n)) ∧ n.vals = c.vals ∧ BTree.plug gs b = t ∧ gs.map BTree.Frame.toRose = fs ∧ b.toRose = [V] ∧
      BTree.Part c b ∧ c.toRose = [C] ∧ Tree.Part C V ∧ Yields Prod.snd Prod.fst s.marks q V C ∧ (∀ a ∈ n.addrs, W.heap.cells a = none) ∧
      (∀ z, z ≠ y → W'.vars z = W.vars z) := by
  have HT : Rep W.heap t := O.rep x _ hx
  have hadd : T.addrs = t.addrs := by
    have := BTree.preL_toRose t
    rw [hT] at this
    simp at this
    simp [Tree.addrs, BTree.addrs, this]
  have hlt : ∀ a ∈ T.addrs, a < W.heap.next := fun a ha => HT.1.lt_next O.wf (by rw [keys_cells]; rw [← hadd]; exact ha)
  obtain ⟨h', P, e, HP, hl, Y, G⟩ := Generate.result_spec (m := s.marks) (makes hT HT.2) q W.heap fs V O.wf HT hlt hv hq ht hF
  obtain ⟨W', c, b, gs, n, k1, k2, k3, k4, k5, k6, k7, k8, k9, k10⟩ := assignMade_spec O hx hT hy hs hv e HP hl G
  exact ⟨W', c, b, gs, n, P.refs, k1, k2, k3, k4, k5, k6, k7, k8, yields_part _ _ _ Y, Y, k9, k10⟩
end Binary
