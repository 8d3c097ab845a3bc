import Verif.Props.SampleWorlds
import Verif.Proof.PrintTrees
/-!
# C30: printing

The text written is the layout `Shown.text` (Spec/Print.lean) of a part `s` of the tree: `Shown.Of s t` says that `s` is `t`
with later children left out, marked where that happened. `disp` is the text of one value, `pos` the number of an address, `hex`
whether the stream is in hexadecimal mode; the text of a node is `nodeText` (Spec/Print.lean). The root is printed in the mode the
stream had, the other nodes in hexadecimal mode if addresses are wanted (C86). Labels are pairs (address, value), so different
nodes have different labels.
-/
open Tree World
variable {α : Type}

theorem nary_nodup {h : NHeap α} {gs} {s : Tree (Addr × α)} (H : Nary.Rep h (plug gs s)) : s.pre.Nodup :=
  (List.pairwise_map.mp (show (s.pre.map Prod.fst).Nodup from H.nodup_focus)).imp fun h e => h (by rw [e])

theorem gaps_pre {β : Type} (t : BTree β) : (preL t.toGaps).map Prod.fst = t.pre := by
  induction t with
  | nil => rfl
  | node a l r ihl ihr => simp [BTree.toGaps, BTree.pre, ihl, ihr]

theorem gaps_head {β : Type} {t : BTree β} {a : β} (h : t.label? = some a) : ∃ G, t.toGaps = [G] ∧ G.label.1 = a ∧ G.pre.map Prod.fst = t.pre := by
  have := gaps_pre t
  cases t with
  | nil => cases h
  | node b l r => cases h; exact ⟨_, rfl, rfl, by simpa [BTree.toGaps] using this⟩

/-- A view of the node at the root of `s`, anywhere inside a tree of the heap, prints the first `limit` nodes of `s` in
pre-order, nested as in `s`, and nothing of the rest of the tree. -/
theorem C30_view_nary {h : NHeap α} {gs : List (Frame (Addr × α))} {s : Tree (Addr × α)} (hw : h.WF) (H : Nary.Rep h (plug gs s))
    (P : Prefs) (hd : P.digits < 16) (disp : Bool → α → List Char) (pos : Addr → Nat) (hex : Bool) (hl : 1 ≤ P.limit) :
    ∃ o, Nary.printView P disp pos hex h (some s.addr) = Res.ok ((o.marked hex (hex || decide (0 < P.digits))).text (fun q => nodeText disp P.digits q.1 (pos q.2.1) q.2.2)
        (fun _ => false) P.step 0, hex || decide (0 < P.digits)) ∧
      Shown.Of o s ∧ o.pre = s.pre.take P.limit.toNat := by
  have hsz : s.size ≤ h.fuel := by
    have h1 : (plug gs s).size ≤ h.next := by
      have := (Nary.lawful α).size_le (t := some (plug gs s)) hw ((Nary.shape_rep _ _).mpr H)
      simpa [Nary.shape_size] using this
    have h2 : s.size ≤ (plug gs s).size := by
      have := sub_size_le (fs := gs.map (Frame.map Prod.fst)) (s := s.map Prod.fst) rfl
      rw [← plug_map, size_map, size_map] at this
      omega
    simp only [Heap.fuel]; omega
  exact printed (f := id) (Nary.printable H _ _ (printLabel_eq pos hd)) rfl hsz hex (by omega) rfl

theorem C30_view_binary {h : BHeap α} {gs : List (BTree.Frame (Addr × α))} {s : BTree (Addr × α)} {p : Addr × α} (hw : h.WF)
    (H : Binary.Rep h (BTree.plug gs s)) (hp : s.label? = some p) (P : Prefs) (hd : P.digits < 16) (disp : Bool → α → List Char) (pos : Addr → Nat) (hex : Bool) (hl : 1 ≤ P.limit) :
    ∃ G o, s.toGaps = [G] ∧ Binary.printView P disp pos hex h (some p.1) =
        Res.ok ((o.marked hex (hex || decide (0 < P.digits))).text
          (fun q => nodeText disp P.digits q.1 (pos q.2.1.1) q.2.1.2) (fun q => q.2.2) P.step 0, hex || decide (0 < P.digits)) ∧
      Shown.Of o G ∧ o.pre = G.pre.take P.limit.toNat ∧ o.pre.map Prod.fst = s.pre.take P.limit.toNat := by
  obtain ⟨G, hG, hGl, hGp⟩ := gaps_head hp
  have hsz : G.size ≤ h.fuel := by
    have h1 : s.size ≤ h.next := by
      rw [← BTree.length_addrs]
      refine list_length_le_of_lt H.nodup_focus fun a ha => ?_
      refine H.1.lt_next hw ?_
      rw [Binary.keys_cells]
      exact (Binary.addrs_plug gs s).mem_iff.mpr (by simp [ha])
    have h2 : G.size = s.size := by
      rw [← length_pre, ← List.length_map (f := Prod.fst), hGp, ← BTree.length_addrs]; simp [BTree.addrs]
    simp only [Heap.fuel]; omega
  obtain ⟨o, h1, h2, h3⟩ := printed (disp := disp) (f := fun q : (Addr × α) × Bool => q.1) (Binary.printable H (x := p.1) (by simp [BTree.addr?, hp]) hG _ _ (printLabel_eq pos hd)) rfl hsz hex
    (by omega) (root := some p.1) (by rw [hGl])
  exact ⟨G, o, hG, h1, h2, h3, by rw [h3, List.map_take, hGp]⟩

/-- `print_tree` of a tree of the program prints its first `limit` nodes in pre-order, nested as in the tree, and marks where
children were left out; that fixes what is shown. -/
theorem C30_tree_nary {W : World (NNode α)} {ts : Nat → Option (Option (Tree (Addr × α)))} {x : Nat} {t : Tree (Addr × α)}
    (O : Owned (Nary.shape α) W ts) (hx : ts x = some (some t)) (P : Prefs) (hd : P.digits < 16) (disp : Bool → α → List Char) (pos : Addr → Nat) (hex : Bool) (hl : 1 ≤ P.limit) :
    ∃ o, Nary.print P disp pos hex W x = Res.ok ((o.marked hex (hex || decide (0 < P.digits))).text (fun q => nodeText disp P.digits q.1 (pos q.2.1) q.2.2)
        (fun _ => false) P.step 0, hex || decide (0 < P.digits)) ∧
      Shown.Of o t ∧ o.pre = t.pre.take P.limit.toNat ∧
      ∀ o', Shown.Of o' t → o'.pre = t.pre.take P.limit.toNat → o' = o := by
  obtain ⟨r, _, e, hr, _⟩ := O.get (Nary.lawful α) hx
  have H : Nary.Rep W.heap (plug [] t) := (Nary.shape_rep _ _).mp (O.rep x _ hx)
  obtain ⟨o, h1, h2, h3⟩ := C30_view_nary O.wf H P hd disp pos hex hl
  have hroot : r.root = some t.addr := by rw [hr, Nary.shape_ptr]; rfl
  exact ⟨o, by simp [Nary.print, e, hroot, h1], h2, h3, fun o' k1 k2 => Shown.Of.unique (nary_nodup H) k1 h2 (k2.trans h3.symm)⟩

/-- The same for binary trees; the empty left slot of a node with a right child only is printed as `n()`. -/
theorem C30_tree_binary {W : World (BNode α)} {ts : Nat → Option (BTree (Addr × α))} {x : Nat} {t : BTree (Addr × α)}
    (O : Owned (Binary.shape α) W ts) (hx : ts x = some t) (hne : t ≠ .nil) (P : Prefs) (hd : P.digits < 16) (disp : Bool → α → List Char) (pos : Addr → Nat) (hex : Bool)
    (hl : 1 ≤ P.limit) :
    ∃ G o, t.toGaps = [G] ∧ Binary.print P disp pos hex W x =
        Res.ok ((o.marked hex (hex || decide (0 < P.digits))).text
          (fun q => nodeText disp P.digits q.1 (pos q.2.1.1) q.2.1.2) (fun q => q.2.2) P.step 0, hex || decide (0 < P.digits)) ∧
      Shown.Of o G ∧ o.pre = G.pre.take P.limit.toNat ∧ o.pre.map Prod.fst = t.pre.take P.limit.toNat ∧
      ∀ o', Shown.Of o' G → o'.pre = G.pre.take P.limit.toNat → o' = o := by
  obtain ⟨r, _, e, hr, _⟩ := O.get (Binary.lawful α) hx
  have H : Binary.Rep W.heap (BTree.plug [] t) := O.rep x _ hx
  obtain ⟨p, hp⟩ : ∃ p, t.label? = some p := by cases t with
    | nil => exact absurd rfl hne
    | node p l r => exact ⟨p, rfl⟩
  obtain ⟨G, o, hG, h1, h2, h3, h4⟩ := C30_view_binary O.wf H hp P hd disp pos hex hl
  obtain ⟨G', hG', _, hGp⟩ := gaps_head hp
  cases hG.symm.trans hG'
  have hnd : G.pre.Nodup := by
    have : ((G.pre.map Prod.fst).map Prod.fst).Nodup := by rw [hGp]; exact H.nodup_focus
    rw [List.map_map] at this
    exact (List.pairwise_map.mp this).imp fun h e => h (by rw [e])
  have hroot : r.root = some p.1 := by rw [hr, Binary.shape_ptr]; simp [BTree.addr?, hp]
  exact ⟨G, o, hG, by simp [Binary.print, e, hroot, h1], h2, h3, h4, fun o' k1 k2 => Shown.Of.unique hnd k1 h2 (k2.trans h3.symm)⟩

/-- With a limit of at least `size()` the whole tree is printed. -/
theorem C30_whole_nary {W : World (NNode α)} {ts : Nat → Option (Option (Tree (Addr × α)))} {x : Nat} {t : Tree (Addr × α)}
    (O : Owned (Nary.shape α) W ts) (hx : ts x = some (some t)) (P : Prefs) (hd : P.digits < 16) (disp : Bool → α → List Char) (pos : Addr → Nat) (hex : Bool)
    (hl : (t.size : Int) ≤ P.limit) :
    Nary.print P disp pos hex W x = Res.ok (((Shown.all t).marked hex (hex || decide (0 < P.digits))).text
      (fun q => nodeText disp P.digits q.1 (pos q.2.1) q.2.2) (fun _ => false) P.step 0, hex || decide (0 < P.digits)) := by
  have := size_pos t
  obtain ⟨o, h1, _, _, h4⟩ := C30_tree_nary O hx P hd disp pos hex (by omega)
  rw [h1, h4 (Shown.all t) (Shown.all_of t).1 (by rw [(Shown.all_of t).2, List.take_of_length_le (by rw [length_pre]; omega)])]

theorem C30_whole_binary {W : World (BNode α)} {ts : Nat → Option (BTree (Addr × α))} {x : Nat} {t : BTree (Addr × α)}
    (O : Owned (Binary.shape α) W ts) (hx : ts x = some t) (hne : t ≠ .nil) (P : Prefs) (hd : P.digits < 16) (disp : Bool → α → List Char) (pos : Addr → Nat) (hex : Bool)
    (hl : (t.size : Int) ≤ P.limit) :
    ∃ G, t.toGaps = [G] ∧ Binary.print P disp pos hex W x =
      Res.ok (((Shown.all G).marked hex (hex || decide (0 < P.digits))).text
        (fun q => nodeText disp P.digits q.1 (pos q.2.1.1) q.2.1.2) (fun q => q.2.2) P.step 0, hex || decide (0 < P.digits)) := by
  have hpos : 1 ≤ t.size := by cases t with
    | nil => exact absurd rfl hne
    | node p l r => simp [BTree.size]
  obtain ⟨G, o, hG, h1, _, _, h3, h4⟩ := C30_tree_binary O hx hne P hd disp pos hex (by omega)
  refine ⟨G, hG, ?_⟩
  have hsz : G.pre.length = t.size := by
    have h5 := gaps_pre t
    rw [hG] at h5
    rw [← BTree.length_addrs, BTree.addrs, ← h5]; simp
  rw [h1, h4 (Shown.all G) (Shown.all_of G).1 (by rw [(Shown.all_of G).2, List.take_of_length_le (by omega)])]

/-- With a limit of 0 or less nothing is printed; an empty tree is printed as `n()` whatever the limit. -/
theorem C30_nothing_nary {W : World (NNode α)} {ts : Nat → Option (Option (Tree (Addr × α)))} {x : Nat} {t : Option (Tree (Addr × α))}
    (O : Owned (Nary.shape α) W ts) (hx : ts x = some t) (P : Prefs) (disp : Bool → α → List Char) (pos : Addr → Nat) (hex : Bool) :
    (t = none → Nary.print P disp pos hex W x = Res.ok ("n()".toList, hex)) ∧
    (t ≠ none → P.limit ≤ 0 → Nary.print P disp pos hex W x = Res.ok ([], hex)) := by
  obtain ⟨r, _, e, hr, _⟩ := O.get (Nary.lawful α) hx
  refine ⟨?_, ?_⟩
  · rintro rfl
    have hroot : r.root = none := by rw [hr, Nary.shape_ptr]; rfl
    simp [Nary.print, e, hroot, Nary.printView, printTree, render]
  · intro hne hl
    cases t with
    | none => exact absurd rfl hne
    | some t =>
      have hroot : r.root = some t.addr := by rw [hr, Nary.shape_ptr]; rfl
      simp [Nary.print, e, hroot, Nary.printView, printed_nothing (show 0 < W.heap.fuel by simp [Heap.fuel]) hex hl]

theorem C30_nothing_binary {W : World (BNode α)} {ts : Nat → Option (BTree (Addr × α))} {x : Nat} {t : BTree (Addr × α)}
    (O : Owned (Binary.shape α) W ts) (hx : ts x = some t) (P : Prefs) (disp : Bool → α → List Char) (pos : Addr → Nat) (hex : Bool) :
    (t = .nil → Binary.print P disp pos hex W x = Res.ok ("n()".toList, hex)) ∧
    (t ≠ .nil → P.limit ≤ 0 → Binary.print P disp pos hex W x = Res.ok ([], hex)) := by
  obtain ⟨r, _, e, hr, _⟩ := O.get (Binary.lawful α) hx
  refine ⟨?_, ?_⟩
  · rintro rfl
    have hroot : r.root = none := by rw [hr, Binary.shape_ptr]; rfl
    simp [Binary.print, e, hroot, Binary.printView, printTree, render]
  · intro hne hl
    cases t with
    | nil => exact absurd rfl hne
    | node p l q =>
      have hroot : r.root = some p.1 := by rw [hr, Binary.shape_ptr]; rfl
      simp [Binary.print, e, hroot, Binary.printView, printed_nothing (show 0 < W.heap.fuel by simp [Heap.fuel]) hex hl]

/-! The hypotheses are met, and what the layout looks like: `1(2(5,6(7)),3,4)` with a limit of 4, and the binary tree
`1(2(-,4),3(5))` in full. -/

example : ∃ ts, Owned (Nary.shape Nat) Samples.nworld ts ∧ ts 0 = some (some Samples.deep) ∧ ts 1 = some none :=
  let ⟨ts, O, h0, h1, _⟩ := Samples.nstate
  ⟨ts, O, h0, h1⟩
example : ∃ ts, Owned (Binary.shape Nat) Samples.bworld ts ∧ ts 0 = some Samples.bin ∧ Samples.bin ≠ .nil :=
  let ⟨ts, O, h0, _, _⟩ := Samples.bstate
  ⟨ts, O, h0, by decide⟩

example : (Nary.print ⟨2, 4, 0⟩ (fun hex v => Nat.toDigits (if hex then 16 else 10) v) id false Samples.nworld 0) = Res.ok
    ("n(1)(\n  n(2)(\n    n(5),\n    n(6)(\n        ...)),\n  ...)".toList, false) := by decide +kernel
example : (Binary.print ⟨2, 10, 0⟩ (fun hex v => Nat.toDigits (if hex then 16 else 10) v) id false Samples.bworld 0) = Res.ok
    ("n(1)(\n  n(2)(\n    n(),\n    n(4)),\n  n(3)(\n    n(5)))".toList, false) := by decide +kernel
