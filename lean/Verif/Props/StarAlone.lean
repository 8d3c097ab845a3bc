import Verif.Props.StarResult
import Verif.Proof.StarAlone
/-!
# C43, C74: a `star` without arguments

The pattern is `star<q>(v)`, with the values accepted by `v` given by `test`.
-/
open Tree World Pat
variable {α : Type} {i : Nat} {q : Quantifier} {test : α → Bool}

/-- It is found in every tree, whatever its root is. -/
theorem C43_search_nary {W : World (NNode α)} {ts : Nat → Option (Option (Tree (Addr × α)))} {x : Nat} {t : Option (Tree (Addr × α))}
    (O : Owned (Nary.shape α) W ts) (hx : ts x = some t) (s : Pattern.State) :
    ∃ s', W.search (Nary.kind α) NNode.value (.node i (.star q) test []) s x = Res.ok (true, s') := by
  obtain ⟨s', h, -⟩ := search_alone (Nary.rosy α) (Nary.lawful α) O hx i q test s
  exact ⟨s', h⟩

theorem C43_search_binary {W : World (BNode α)} {ts : Nat → Option (BTree (Addr × α))} {x : Nat} {t : BTree (Addr × α)}
    (O : Owned (Binary.shape α) W ts) (hx : ts x = some t) (s : Pattern.State) :
    ∃ s', W.search (Binary.kind α) BNode.value (.node i (.star q) test []) s x = Res.ok (true, s') := by
  obtain ⟨s', h, -⟩ := search_alone (Binary.rosy α) (Binary.lawful α) O hx i q test s
  exact ⟨s', h⟩

/-- A reluctant one takes nothing; nothing is taken from the empty tree. -/
theorem C43_nothing_nary {W W2 : World (NNode α)} {ts ts2 : Nat → Option (Option (Tree (Addr × α)))} {x y : Nat} {t u : Option (Tree (Addr × α))}
    (O : Owned (Nary.shape α) W ts) (hx : ts x = some t) (hq : q = .reluctant ∨ t = none) {s s' : Pattern.State}
    (hsearch : W.search (Nary.kind α) NNode.value (.node i (.star q) test []) s x = Res.ok (true, s'))
    (O2 : Owned (Nary.shape α) W2 ts2) (hy : ts2 y = some u) :
    ∃ W', W2.assignResult (Nary.kind α) NNode.value (Nary.builder α) (.node i (.star q) test []) s' y = Res.ok (true, W') ∧
      Owned (Nary.shape α) W' (upd ts2 y (some none)) := by
  obtain ⟨s1, e, h1, h2, -⟩ := search_alone (Nary.rosy α) (Nary.lawful α) O hx i q test s
  cases hsearch.symm.trans e
  exact Nary.assignPart_none O2 hy h1 (h2 (hq.imp_right fun h => by simp [h]))

theorem C43_nothing_binary {W W2 : World (BNode α)} {ts ts2 : Nat → Option (BTree (Addr × α))} {x y : Nat} {t u : BTree (Addr × α)}
    (O : Owned (Binary.shape α) W ts) (hx : ts x = some t) (hq : q = .reluctant ∨ t = .nil) {s s' : Pattern.State}
    (hsearch : W.search (Binary.kind α) BNode.value (.node i (.star q) test []) s x = Res.ok (true, s'))
    (O2 : Owned (Binary.shape α) W2 ts2) (hy : ts2 y = some u) :
    ∃ W', W2.assignResult (Binary.kind α) BNode.value (Binary.builder α) (.node i (.star q) test []) s' y = Res.ok (true, W') ∧
      Owned (Binary.shape α) W' (upd ts2 y (some .nil)) := by
  obtain ⟨s1, e, h1, h2, -⟩ := search_alone (Binary.rosy α) (Binary.lawful α) O hx i q test s
  cases hsearch.symm.trans e
  exact Binary.assignPart_none O2 hy h1 (h2 (hq.imp_right fun h => by rw [h]; rfl))

/-- The default one takes the root. -/
theorem C43_default_nary {W W2 : World (NNode α)} {ts ts2 : Nat → Option (Option (Tree (Addr × α)))} {x y : Nat} {T : Tree (Addr × α)}
    {u : Option (Tree (Addr × α))} (O : Owned (Nary.shape α) W ts) (hx : ts x = some (some T)) {s s' : Pattern.State}
    (hsearch : W.search (Nary.kind α) NNode.value (.node i (.star .default) test []) s x = Res.ok (true, s'))
    (O2 : Owned (Nary.shape α) W2 ts2) (hx2 : ts2 x = some (some T)) (hy : ts2 y = some u) :
    ∃ W' a, W2.assignResult (Nary.kind α) NNode.value (Nary.builder α) (.node i (.star .default) test []) s' y = Res.ok (true, W') ∧
      Owned (Nary.shape α) W' (upd ts2 y (some (some (node (a, T.label.2) [])))) ∧ W2.heap.cells a = none ∧ ∀ z, z ≠ y → W'.vars z = W2.vars z := by
  obtain ⟨s1, e, h1, -, h2⟩ := search_alone (Nary.rosy α) (Nary.lawful α) O hx i .default test s
  cases hsearch.symm.trans e
  have HT : Nary.Rep W2.heap T := O2.rep x _ hx2 T rfl
  obtain ⟨h', P, e, H, k, G⟩ := Generate.alone_default (test := test) (Nary.makes HT.2) O2.wf HT (gs := []) rfl (h2 (by simp) T (by simp))
  obtain ⟨W', n, k1, k2, k3, k4, k5⟩ := Nary.assignMade_spec O2 hy h1 e H G
  obtain ⟨⟨a, v⟩, cs⟩ := n
  rw [k] at k3
  simp [Tree.vals] at k3
  obtain ⟨rfl, k3⟩ := k3
  cases cs with
  | cons c cs => simp at k3
  | nil => exact ⟨W', a, k1, k2, k4 a (by simp), k5⟩

theorem C43_default_binary {W W2 : World (BNode α)} {ts ts2 : Nat → Option (BTree (Addr × α))} {x y : Nat} {a : Addr × α} {l r u : BTree (Addr × α)}
    (O : Owned (Binary.shape α) W ts) (hx : ts x = some (.node a l r)) {s s' : Pattern.State}
    (hsearch : W.search (Binary.kind α) BNode.value (.node i (.star .default) test []) s x = Res.ok (true, s'))
    (O2 : Owned (Binary.shape α) W2 ts2) (hx2 : ts2 x = some (.node a l r)) (hy : ts2 y = some u) :
    ∃ W' b, W2.assignResult (Binary.kind α) BNode.value (Binary.builder α) (.node i (.star .default) test []) s' y = Res.ok (true, W') ∧
      Owned (Binary.shape α) W' (upd ts2 y (some (.node (b, a.2) .nil .nil))) ∧ W2.heap.cells b = none ∧ ∀ z, z ≠ y → W'.vars z = W2.vars z := by
  obtain ⟨s1, e, h1, -, h2⟩ := search_alone (Binary.rosy α) (Binary.lawful α) O hx i .default test s
  cases hsearch.symm.trans e
  have HT : Binary.Rep W2.heap (.node a l r) := O2.rep x _ hx2
  have hT : (BTree.node a l r).toRose = [node a (l.toRose ++ r.toRose)] := rfl
  obtain ⟨h', P, e, H, k, G⟩ := Generate.alone_default (test := test) (Binary.makes hT HT.2) O2.wf HT (gs := []) rfl (h2 (by simp) _ hT)
  have hl : P.label.1 = (node a (l.toRose ++ r.toRose)).label := by
    have := congrArg label k
    simpa [refs] using this
  obtain ⟨W', c, b, gs, n, k1, k2, k3, k4, k5, k6, k7, k8, k9, k10⟩ := Binary.assignMade_spec O2 hx2 hT hy h1 (fs := []) rfl e H hl G
  rw [k] at k8
  have hc : c = .node a .nil .nil := by
    cases c with
    | nil => cases k8
    | node d l' r' =>
      simp only [BTree.toRose, List.cons.injEq, Tree.node.injEq, List.append_eq_nil_iff, and_true, label_node] at k8
      obtain ⟨rfl, k8, k9⟩ := k8
      cases l' with
      | node => cases k8
      | nil =>
        cases r' with
        | node => cases k9
        | nil => rfl
  subst hc
  cases n with
  | nil => cases k3
  | node d l' r' =>
    simp [BTree.vals, BTree.map] at k3
    obtain ⟨k3, k11, k12⟩ := k3
    obtain ⟨d1, d2⟩ := d
    cases l' with
    | node => cases k11
    | nil =>
      cases r' with
      | node => cases k12
      | nil =>
        subst k3
        exact ⟨W', d1, k1, k2, k9 d1 (by simp), k10⟩

/-- A greedy or possessive one takes the whole tree, if the values of all nodes but the root are accepted. Otherwise the result
is never reached. -/
theorem C43_greedy_nary {W W2 : World (NNode α)} {ts ts2 : Nat → Option (Option (Tree (Addr × α)))} {x y : Nat} {T : Tree (Addr × α)}
    {u : Option (Tree (Addr × α))} (O : Owned (Nary.shape α) W ts) (hx : ts x = some (some T)) (hq : q = .greedy ∨ q = .possessive) {s s' : Pattern.State}
    (hsearch : W.search (Nary.kind α) NNode.value (.node i (.star q) test []) s x = Res.ok (true, s'))
    (O2 : Owned (Nary.shape α) W2 ts2) (hx2 : ts2 x = some (some T)) (hy : ts2 y = some u) :
    ((∀ b ∈ preL T.children, test b.2 = true) →
      ∃ W' n, W2.assignResult (Nary.kind α) NNode.value (Nary.builder α) (.node i (.star q) test []) s' y = Res.ok (true, W') ∧
        Owned (Nary.shape α) W' (upd ts2 y (some (some n))) ∧ n.vals = T.vals ∧ (∀ a ∈ n.addrs, W2.heap.cells a = none) ∧
        ∀ z, z ≠ y → W'.vars z = W2.vars z) ∧
    (¬ (∀ b ∈ preL T.children, test b.2 = true) →
      W2.assignResult (Nary.kind α) NNode.value (Nary.builder α) (.node i (.star q) test []) s' y = Res.diverge) := by
  obtain ⟨s1, e, h1, -, h2⟩ := search_alone (Nary.rosy α) (Nary.lawful α) O hx i q test s
  cases hsearch.symm.trans e
  have HT : Nary.Rep W2.heap T := O2.rep x _ hx2 T rfl
  have hlt : ∀ a ∈ T.addrs, a < W2.heap.next := fun a ha => HT.1.lt_next O2.wf (by rw [Nary.keys_cells]; exact ha)
  have hall : (∀ b ∈ preL T.children, test b.2 = true) ↔ (preL T.children).all (fun b => test b.2) = true := List.all_eq_true.symm
  have key := Generate.alone_greedy (test := test) (i := i) (q := q) (m := s'.marks) (Nary.makes HT.2) O2.wf HT hlt (gs := []) rfl
    (h2 (by rcases hq with rfl | rfl <;> simp) T (by simp)) hq
  rw [hall]
  refine ⟨fun hA => ?_, fun hA => ?_⟩
  · rw [if_pos hA] at key
    obtain ⟨h', P, e, H, k, G⟩ := key
    obtain ⟨W', n, k1, k2, k3, k4, k5⟩ := Nary.assignMade_spec O2 hy h1 e H G
    exact ⟨W', n, k1, k2, by rw [k3, k], k4, k5⟩
  · rw [if_neg hA] at key
    simp only [World.assignResult, World.assignPart, h1, key, Bool.not_true, Bool.false_eq_true, if_false, Res.diverge_bind]

theorem C43_greedy_binary {W W2 : World (BNode α)} {ts ts2 : Nat → Option (BTree (Addr × α))} {x y : Nat} {a : Addr × α} {l r u : BTree (Addr × α)}
    (O : Owned (Binary.shape α) W ts) (hx : ts x = some (.node a l r)) (hq : q = .greedy ∨ q = .possessive) {s s' : Pattern.State}
    (hsearch : W.search (Binary.kind α) BNode.value (.node i (.star q) test []) s x = Res.ok (true, s'))
    (O2 : Owned (Binary.shape α) W2 ts2) (hx2 : ts2 x = some (.node a l r)) (hy : ts2 y = some u) :
    ((∀ b ∈ l.pre ++ r.pre, test b.2 = true) →
      ∃ W' n, W2.assignResult (Binary.kind α) BNode.value (Binary.builder α) (.node i (.star q) test []) s' y = Res.ok (true, W') ∧
        Owned (Binary.shape α) W' (upd ts2 y (some n)) ∧ n.vals = (BTree.node a l r).vals ∧ (∀ a ∈ n.addrs, W2.heap.cells a = none) ∧
        ∀ z, z ≠ y → W'.vars z = W2.vars z) ∧
    (¬ (∀ b ∈ l.pre ++ r.pre, test b.2 = true) →
      W2.assignResult (Binary.kind α) BNode.value (Binary.builder α) (.node i (.star q) test []) s' y = Res.diverge) := by
  obtain ⟨s1, e, h1, -, h2⟩ := search_alone (Binary.rosy α) (Binary.lawful α) O hx i q test s
  cases hsearch.symm.trans e
  have HT : Binary.Rep W2.heap (.node a l r) := O2.rep x _ hx2
  have hT : (BTree.node a l r).toRose = [node a (l.toRose ++ r.toRose)] := rfl
  have hpre : preL (node a (l.toRose ++ r.toRose)).children = l.pre ++ r.pre := by
    rw [children_node, preL_append, BTree.preL_toRose, BTree.preL_toRose]
  have hadd : (node a (l.toRose ++ r.toRose)).addrs = (BTree.node a l r).addrs := by
    have : (node a (l.toRose ++ r.toRose)).pre = (BTree.node a l r).pre := by
      rw [Tree.pre_node, ← children_node a (l.toRose ++ r.toRose), hpre]; rfl
    simp [Tree.addrs, BTree.addrs, this]
  have hlt : ∀ b ∈ (node a (l.toRose ++ r.toRose)).addrs, b < W2.heap.next := fun b hb => HT.1.lt_next O2.wf (by rw [Binary.keys_cells]; rw [← hadd]; exact hb)
  have hall : (∀ b ∈ l.pre ++ r.pre, test b.2 = true) ↔ (preL (node a (l.toRose ++ r.toRose)).children).all (fun b => test b.2) = true := by
    rw [hpre]; exact List.all_eq_true.symm
  have key := Generate.alone_greedy (test := test) (i := i) (q := q) (m := s'.marks) (Binary.makes hT HT.2) O2.wf HT hlt (gs := []) rfl
    (h2 (by rcases hq with rfl | rfl <;> simp) _ hT) hq
  rw [hall]
  refine ⟨fun hA => ?_, fun hA => ?_⟩
  · rw [if_pos hA] at key
    obtain ⟨h', P, e, H, k, G⟩ := key
    have hl : P.label.1 = (node a (l.toRose ++ r.toRose)).label := by
      have := congrArg label k
      simpa [refs] using this
    obtain ⟨W', c, b, gs, n, k1, k2, k3, k4, k5, k6, k7, k8, k9, k10⟩ := Binary.assignMade_spec O2 hx2 hT hy h1 (fs := []) rfl e H hl G
    simp at k5
    subst k5
    simp only [BTree.plug] at k4
    subst k4
    have : c = .node a l r := by
      refine k7.eq_of_size ?_
      rw [← Binary.size_of_toRose k8, k, ← Binary.size_of_toRose hT]
      exact Nat.le_refl _
    exact ⟨W', n, k1, k2, by rw [k3, this], k9, k10⟩
  · rw [if_neg hA] at key
    simp only [World.assignResult, World.assignPart, h1, key, Bool.not_true, Bool.false_eq_true, if_false, Res.diverge_bind]

/-- Otherwise the copying started by it, which is `keep_assigning_children` (multi_matcher.hpp 136-152) from the first child of
the root, with the new copy of the root, goes on after any number `n` of steps. -/
theorem C43_endless_nary {W : World (NNode α)} {ts : Nat → Option (Option (Tree (Addr × α)))} {x : Nat} {T : Tree (Addr × α)}
    (O : Owned (Nary.shape α) W ts) (hx : ts x = some (some T)) (hA : ¬ (∀ b ∈ preL T.children, test b.2 = true)) (n : Nat) :
    Generate.keepAssigning (Nary.kind α) NNode.value (Nary.builder α) test n (W.heap.alloc ((Nary.kind α).leaf T.label.2)).1 W.heap.next
      (headAddr T.children) = Res.diverge := by
  have HT : Nary.Rep W.heap T := O.rep x _ hx T rfl
  exact Generate.keepAssigning_endless (Nary.makes HT.2) O.wf HT (fun a ha => HT.1.lt_next O.wf (by rw [Nary.keys_cells]; exact ha)) (gs := []) rfl
    (fun h => hA (List.all_eq_true.mp h)) n

theorem C43_endless_binary {W : World (BNode α)} {ts : Nat → Option (BTree (Addr × α))} {x : Nat} {a : Addr × α} {l r : BTree (Addr × α)}
    (O : Owned (Binary.shape α) W ts) (hx : ts x = some (.node a l r)) (hA : ¬ (∀ b ∈ l.pre ++ r.pre, test b.2 = true)) (n : Nat) :
    Generate.keepAssigning (Binary.kind α) BNode.value (Binary.builder α) test n (W.heap.alloc ((Binary.kind α).leaf a.2)).1 W.heap.next
      (headAddr (l.toRose ++ r.toRose)) = Res.diverge := by
  have HT : Binary.Rep W.heap (.node a l r) := O.rep x _ hx
  have hT : (BTree.node a l r).toRose = [node a (l.toRose ++ r.toRose)] := rfl
  have hpre : preL (node a (l.toRose ++ r.toRose)).children = l.pre ++ r.pre := by
    rw [children_node, preL_append, BTree.preL_toRose, BTree.preL_toRose]
  have hadd : (node a (l.toRose ++ r.toRose)).addrs = (BTree.node a l r).addrs := by
    have : (node a (l.toRose ++ r.toRose)).pre = (BTree.node a l r).pre := by
      rw [Tree.pre_node, ← children_node a (l.toRose ++ r.toRose), hpre]; rfl
    simp [Tree.addrs, BTree.addrs, this]
  exact Generate.keepAssigning_endless (Binary.makes hT HT.2) O.wf HT
    (fun b hb => HT.1.lt_next O.wf (by rw [Binary.keys_cells]; rw [← hadd]; exact hb)) (gs := []) rfl
    (fun h => hA (by rw [hpre] at h; exact List.all_eq_true.mp h)) n

open Samples
/-- The hypotheses are met in `nworld` and `bworld`, by values all accepted and by values not accepted. -/
example : ∃ ts s, Owned (Nary.shape Nat) nworld ts ∧ ts 0 = some (some deep) ∧ ts 1 = some none ∧
    nworld.search (Nary.kind Nat) NNode.value (star .greedy 0 (fun v => 1 < v) []) unused 0 = Res.ok (true, s) ∧
    (∀ b ∈ preL deep.children, 1 < b.2) ∧ ¬ (∀ b ∈ preL deep.children, b.2 < 7) := by
  obtain ⟨ts, O, h0, h1, _⟩ := nstate
  obtain ⟨s, e⟩ := C43_search_nary (i := 0) (q := .greedy) (test := fun v => decide (1 < v)) O h0 unused
  exact ⟨ts, s, O, h0, h1, e, by decide, by decide⟩
example : ∃ ts s, Owned (Binary.shape Nat) bworld ts ∧ ts 0 = some bin ∧ ts 1 = some .nil ∧
    bworld.search (Binary.kind Nat) BNode.value (star .default 0 (fun v => 1 < v) []) unused 0 = Res.ok (true, s) := by
  obtain ⟨ts, O, h0, h1, _⟩ := bstate
  obtain ⟨s, e⟩ := C43_search_binary (i := 0) (q := .default) (test := fun v => decide (1 < v)) O h0 unused
  exact ⟨ts, s, O, h0, h1, e⟩

/-- `star<GREEDY>(2)` in `1(2, 3)`: the search succeeds, `assign_result` never ends (multi_matcher.hpp 145-147). -/
theorem C74_greedy_defect :
    (∃ s, (worldOf (node 1 [node 2 [], node 3 []])).search (Nary.kind Nat) NNode.value (star .greedy 0 (· == 2) []) unused 0 = Res.ok (true, s)) ∧
    searchAssign (Nary.kind Nat) NNode.value (Nary.builder Nat) (after (Nary.kind Nat) [.newLit 0 (node 1 [node 2 [], node 3 []]), .newEmpty 1])
      (star .greedy 0 (· == 2) []) = Res.diverge := by
  refine ⟨ok_of_test (by decide +kernel), ?_⟩
  have : (match searchAssign (Nary.kind Nat) NNode.value (Nary.builder Nat) (after (Nary.kind Nat) [.newLit 0 (node 1 [node 2 [], node 3 []]), .newEmpty 1])
      (star .greedy 0 (· == 2) []) with | .diverge => true | _ => false) = true := by decide +kernel
  revert this
  generalize searchAssign (Nary.kind Nat) NNode.value (Nary.builder Nat) _ _ = r
  cases r <;> simp
