import Verif.Props.SampleWorlds
/-!
# C13-C16: copy, move, destruction, memory safety of histories

`Owned S W ts` (Spec/World.lean): the program state `W` is exactly the family of trees `ts`. The nodes in `ts` carry their
addresses, so that equations between families say which nodes, not only which values. `ts x = none`: no tree object named
`x`; `ts x = some t`: the object holds `t`, possibly the empty tree.
-/
open Tree World

variable {α : Type}

namespace Generic
variable {ν lit T V C : Type} {K : Kind ν α lit} {S : Shape K T V C} {ts : Nat → Option T} {W : World ν} {t u : T} {x y : Nat}

theorem copyConstruct (L : Lawful S) (O : Owned S W ts) (hx : ts x = none) (hy : ts y = some t) :
    ∃ W' t', W.newCopy K x y = Res.ok W' ∧ Owned S W' (upd ts x (some t')) ∧ S.vals t' = S.vals t ∧
      ∀ a ∈ S.addrs t', W.heap.cells a = none := by
  obtain ⟨r, hr, _⟩ := O.get L hy
  obtain ⟨h', n, e, O', hv, hf⟩ := newCopy_spec L O hx hy hr
  exact ⟨_, n, e, O', hv, hf⟩

theorem copyAssign (L : Lawful S) (O : Owned S W ts) (hx : ts x = some u) (hy : ts y = some t) :
    ∃ W' t', W.assignCopy K x y = Res.ok W' ∧ Owned S W' (upd ts x (some t')) ∧ S.vals t' = S.vals t ∧
      ∀ a ∈ S.addrs t', W.heap.cells a = none := by
  obtain ⟨r, hr, _⟩ := O.get L hy
  obtain ⟨h', n, e, O', hv, hf⟩ := assignCopy_spec L O hx hy hr
  exact ⟨_, n, e, O', hv, hf⟩

theorem moveConstruct (L : Lawful S) (O : Owned S W ts) (hx : ts x = none) (hy : ts y = some t) :
    ∃ W', W.newMove x y = Res.ok W' ∧ Owned S W' (upd (upd ts x (some t)) y (some S.nil)) ∧ W'.heap = W.heap := by
  obtain ⟨r, hr, _⟩ := O.get L hy
  obtain ⟨e, O'⟩ := newMove_spec L O hx hy hr
  exact ⟨_, e, O', rfl⟩

theorem moveAssign (L : Lawful S) (O : Owned S W ts) (hx : ts x = some u) (hy : ts y = some t) :
    ∃ W', W.assignMove K x y = Res.ok W' ∧ Owned S W' (upd (upd ts x (some t)) y (some S.nil)) ∧ W'.heap.next = W.heap.next ∧
      ∀ a, W'.heap.cells a = if a ∈ S.addrs u then none else W.heap.cells a := by
  obtain ⟨r, hr, _⟩ := O.get L hy
  obtain ⟨h', rfl, e, O'⟩ := assignMove_spec L O hx hy hr
  exact ⟨_, e, O', rfl, fun _ => rfl⟩

theorem swapped (L : Lawful S) (O : Owned S W ts) (hx : ts x = some t) (hy : ts y = some u) :
    ∃ W', W.swap x y = Res.ok W' ∧ Owned S W' (upd (upd ts x (some u)) y (some t)) ∧ W'.heap = W.heap := by
  obtain ⟨rx, hrx, _⟩ := O.get L hx
  obtain ⟨ry, hry, _⟩ := O.get L hy
  obtain ⟨e, O'⟩ := swap_spec L O hx hy hrx hry
  exact ⟨_, e, O', rfl⟩

theorem cleared (L : Lawful S) (O : Owned S W ts) (hx : ts x = some t) :
    ∃ W', W.clear K x = Res.ok W' ∧ Owned S W' (upd ts x (some S.nil)) ∧
      (∀ a, W'.heap.cells a = if a ∈ S.addrs t then none else W.heap.cells a) ∧
      (∀ y, y ≠ x → W'.vars y = W.vars y) ∧ W'.vars x = some ⟨none, 0, 0, none⟩ ∧ W'.size K x = Res.ok (W', 0) := by
  obtain ⟨h', rfl, e, O'⟩ := clear_spec L O hx
  refine ⟨_, e, O', fun _ => rfl, fun y hy => upd_other _ _ hy, upd_same _ _ _, ?_⟩
  have : upd (upd W.vars x (some TreeRec.empty)) x (some TreeRec.empty) = upd W.vars x (some TreeRec.empty) := upd_twice _ _ _ _
  simp [World.size, World.get, upd_same, TreeOps.sizeQ, put_eq', this, TreeRec.empty] at this ⊢

theorem destroyed (L : Lawful S) (O : Owned S W ts) (hx : ts x = some t) :
    ∃ W', W.destroy K x = Res.ok W' ∧ Owned S W' (upd ts x none) ∧
      (∀ a, W'.heap.cells a = if a ∈ S.addrs t then none else W.heap.cells a) ∧ (∀ y, y ≠ x → W'.vars y = W.vars y) := by
  obtain ⟨h', rfl, e, O'⟩ := destroy_spec L O hx
  exact ⟨_, e, O', fun _ => rfl, fun y hy => upd_other _ _ hy⟩

theorem history (L : Lawful S) (D : Determined S) {ops : List (Op α lit)} (h : Supports S start ops) :
    ∃ W as ts, start.run K ops = Res.ok (W, as) ∧ Trace S start (fun _ => none) (ops.zip as) W ts ∧ Owned S W ts := by
  obtain ⟨W, as, ts, h1, _, h2, h3⟩ := history_trace L D ops (start_owned L) h
  exact ⟨W, as, ts, h1, h2, h3⟩

theorem noLeak (L : Lawful S) (D : Determined S) {ops : List (Op α lit)} (h : Supports S start ops) {W : World ν} {as : List Ans}
    (hr : start.run K ops = Res.ok (W, as)) (hend : ∀ x, W.vars x = none) : ∀ a, W.heap.cells a = none := by
  obtain ⟨W', as', ts, h1, _, O⟩ := history L D h
  rw [hr] at h1; cases h1
  intro a
  cases hc : W.heap.cells a with
  | none => rfl
  | some v =>
    obtain ⟨z, t, hz, _⟩ := O.noLeak a (by simp [hc])
    rw [dead O (hend z)] at hz; cases hz

end Generic

/-! ## C13 copy -/

/-- Copy construction of `x` from `y`: a tree with the values and shape of `y`'s, on new nodes; nothing else changes (in
particular `y` still has the very nodes it had). -/
theorem C13_copy_construct_nary {W : World (NNode α)} {ts : Nat → Option (Option (Tree (Addr × α)))}
    (O : Owned (Nary.shape α) W ts) {x y : Nat} {t : Option (Tree (Addr × α))} (hx : ts x = none) (hy : ts y = some t) :
    ∃ W' t', W.newCopy (Nary.kind α) x y = Res.ok W' ∧ Owned (Nary.shape α) W' (upd ts x (some t')) ∧
      t'.map Tree.vals = t.map Tree.vals ∧ ∀ a ∈ (Nary.shape α).addrs t', W.heap.cells a = none :=
  Generic.copyConstruct (Nary.lawful α) O hx hy

theorem C13_copy_construct_binary {W : World (BNode α)} {ts : Nat → Option (BTree (Addr × α))}
    (O : Owned (Binary.shape α) W ts) {x y : Nat} {t : BTree (Addr × α)} (hx : ts x = none) (hy : ts y = some t) :
    ∃ W' t', W.newCopy (Binary.kind α) x y = Res.ok W' ∧ Owned (Binary.shape α) W' (upd ts x (some t')) ∧
      t'.vals = t.vals ∧ ∀ a ∈ (Binary.shape α).addrs t', W.heap.cells a = none :=
  Generic.copyConstruct (Binary.lawful α) O hx hy

/-- Copy assignment `x = y`, also with `x` and `y` the same object: the old nodes of `x` are gone (`Owned` has no other
nodes than the trees'), the rest is as for construction. -/
theorem C13_copy_assign_nary {W : World (NNode α)} {ts : Nat → Option (Option (Tree (Addr × α)))}
    (O : Owned (Nary.shape α) W ts) {x y : Nat} {t u : Option (Tree (Addr × α))} (hx : ts x = some u) (hy : ts y = some t) :
    ∃ W' t', W.assignCopy (Nary.kind α) x y = Res.ok W' ∧ Owned (Nary.shape α) W' (upd ts x (some t')) ∧
      t'.map Tree.vals = t.map Tree.vals ∧ ∀ a ∈ (Nary.shape α).addrs t', W.heap.cells a = none :=
  Generic.copyAssign (Nary.lawful α) O hx hy

theorem C13_copy_assign_binary {W : World (BNode α)} {ts : Nat → Option (BTree (Addr × α))}
    (O : Owned (Binary.shape α) W ts) {x y : Nat} {t u : BTree (Addr × α)} (hx : ts x = some u) (hy : ts y = some t) :
    ∃ W' t', W.assignCopy (Binary.kind α) x y = Res.ok W' ∧ Owned (Binary.shape α) W' (upd ts x (some t')) ∧
      t'.vals = t.vals ∧ ∀ a ∈ (Binary.shape α).addrs t', W.heap.cells a = none :=
  Generic.copyAssign (Binary.lawful α) O hx hy

/-! ## C14 move and swap -/

/-- Move construction: `x` has exactly the nodes `y` had, `y` is empty, no node is allocated, freed or changed. -/
theorem C14_move_construct_nary {W : World (NNode α)} {ts : Nat → Option (Option (Tree (Addr × α)))}
    (O : Owned (Nary.shape α) W ts) {x y : Nat} {t : Option (Tree (Addr × α))} (hx : ts x = none) (hy : ts y = some t) :
    ∃ W', W.newMove x y = Res.ok W' ∧ Owned (Nary.shape α) W' (upd (upd ts x (some t)) y (some none)) ∧ W'.heap = W.heap :=
  Generic.moveConstruct (Nary.lawful α) O hx hy

theorem C14_move_construct_binary {W : World (BNode α)} {ts : Nat → Option (BTree (Addr × α))}
    (O : Owned (Binary.shape α) W ts) {x y : Nat} {t : BTree (Addr × α)} (hx : ts x = none) (hy : ts y = some t) :
    ∃ W', W.newMove x y = Res.ok W' ∧ Owned (Binary.shape α) W' (upd (upd ts x (some t)) y (some .nil)) ∧ W'.heap = W.heap :=
  Generic.moveConstruct (Binary.lawful α) O hx hy

/-- Move assignment: besides, exactly the former nodes of `x` are freed. A self move leaves an empty tree. -/
theorem C14_move_assign_nary {W : World (NNode α)} {ts : Nat → Option (Option (Tree (Addr × α)))}
    (O : Owned (Nary.shape α) W ts) {x y : Nat} {t u : Option (Tree (Addr × α))} (hx : ts x = some u) (hy : ts y = some t) :
    ∃ W', W.assignMove (Nary.kind α) x y = Res.ok W' ∧ Owned (Nary.shape α) W' (upd (upd ts x (some t)) y (some none)) ∧
      W'.heap.next = W.heap.next ∧ ∀ a, W'.heap.cells a = if a ∈ (Nary.shape α).addrs u then none else W.heap.cells a :=
  Generic.moveAssign (Nary.lawful α) O hx hy

theorem C14_move_assign_binary {W : World (BNode α)} {ts : Nat → Option (BTree (Addr × α))}
    (O : Owned (Binary.shape α) W ts) {x y : Nat} {t u : BTree (Addr × α)} (hx : ts x = some u) (hy : ts y = some t) :
    ∃ W', W.assignMove (Binary.kind α) x y = Res.ok W' ∧ Owned (Binary.shape α) W' (upd (upd ts x (some t)) y (some .nil)) ∧
      W'.heap.next = W.heap.next ∧ ∀ a, W'.heap.cells a = if a ∈ (Binary.shape α).addrs u then none else W.heap.cells a :=
  Generic.moveAssign (Binary.lawful α) O hx hy

theorem C14_swap_nary {W : World (NNode α)} {ts : Nat → Option (Option (Tree (Addr × α)))}
    (O : Owned (Nary.shape α) W ts) {x y : Nat} {t u : Option (Tree (Addr × α))} (hx : ts x = some t) (hy : ts y = some u) :
    ∃ W', W.swap x y = Res.ok W' ∧ Owned (Nary.shape α) W' (upd (upd ts x (some u)) y (some t)) ∧ W'.heap = W.heap :=
  Generic.swapped (Nary.lawful α) O hx hy

theorem C14_swap_binary {W : World (BNode α)} {ts : Nat → Option (BTree (Addr × α))}
    (O : Owned (Binary.shape α) W ts) {x y : Nat} {t u : BTree (Addr × α)} (hx : ts x = some t) (hy : ts y = some u) :
    ∃ W', W.swap x y = Res.ok W' ∧ Owned (Binary.shape α) W' (upd (upd ts x (some u)) y (some t)) ∧ W'.heap = W.heap :=
  Generic.swapped (Binary.lawful α) O hx hy

/-! ## C16 clear and destruction -/

/-- `clear()` frees exactly the nodes of the tree (in the model freeing a node twice is undefined behaviour, so each is
freed once) and leaves the empty tree: null root, so `begin() == end()` (C09), and `size()` answers 0. -/
theorem C16_clear_nary {W : World (NNode α)} {ts : Nat → Option (Option (Tree (Addr × α)))} (O : Owned (Nary.shape α) W ts)
    {x : Nat} {t : Option (Tree (Addr × α))} (hx : ts x = some t) :
    ∃ W', W.clear (Nary.kind α) x = Res.ok W' ∧ Owned (Nary.shape α) W' (upd ts x (some none)) ∧
      (∀ a, W'.heap.cells a = if a ∈ (Nary.shape α).addrs t then none else W.heap.cells a) ∧
      (∀ y, y ≠ x → W'.vars y = W.vars y) ∧ W'.vars x = some ⟨none, 0, 0, none⟩ ∧
      W'.size (Nary.kind α) x = Res.ok (W', 0) :=
  Generic.cleared (Nary.lawful α) O hx

theorem C16_clear_binary {W : World (BNode α)} {ts : Nat → Option (BTree (Addr × α))} (O : Owned (Binary.shape α) W ts)
    {x : Nat} {t : BTree (Addr × α)} (hx : ts x = some t) :
    ∃ W', W.clear (Binary.kind α) x = Res.ok W' ∧ Owned (Binary.shape α) W' (upd ts x (some .nil)) ∧
      (∀ a, W'.heap.cells a = if a ∈ (Binary.shape α).addrs t then none else W.heap.cells a) ∧
      (∀ y, y ≠ x → W'.vars y = W.vars y) ∧ W'.vars x = some ⟨none, 0, 0, none⟩ ∧
      W'.size (Binary.kind α) x = Res.ok (W', 0) :=
  Generic.cleared (Binary.lawful α) O hx

theorem C16_destroy_nary {W : World (NNode α)} {ts : Nat → Option (Option (Tree (Addr × α)))} (O : Owned (Nary.shape α) W ts)
    {x : Nat} {t : Option (Tree (Addr × α))} (hx : ts x = some t) :
    ∃ W', W.destroy (Nary.kind α) x = Res.ok W' ∧ Owned (Nary.shape α) W' (upd ts x none) ∧
      (∀ a, W'.heap.cells a = if a ∈ (Nary.shape α).addrs t then none else W.heap.cells a) ∧
      (∀ y, y ≠ x → W'.vars y = W.vars y) :=
  Generic.destroyed (Nary.lawful α) O hx

theorem C16_destroy_binary {W : World (BNode α)} {ts : Nat → Option (BTree (Addr × α))} (O : Owned (Binary.shape α) W ts)
    {x : Nat} {t : BTree (Addr × α)} (hx : ts x = some t) :
    ∃ W', W.destroy (Binary.kind α) x = Res.ok W' ∧ Owned (Binary.shape α) W' (upd ts x none) ∧
      (∀ a, W'.heap.cells a = if a ∈ (Binary.shape α).addrs t then none else W.heap.cells a) ∧
      (∀ y, y ≠ x → W'.vars y = W.vars y) :=
  Generic.destroyed (Binary.lawful α) O hx

/-! ## C15 no memory error in any supported history; C59 the others -/

/-- Every history of calls in which each call is supported (`Legal` in Spec/History.lean) runs to the end without undefined
behaviour, each call has the effect `Effect` describes, and at the end (hence, applied to the prefixes of the history, at
every moment) each allocated node belongs to exactly one tree. On the calls excluded by `Legal` the library
does commit memory errors: C54, C59. -/
theorem C15_no_memory_error_nary {ops : List (Op α (Tree α))} (h : Supports (Nary.shape α) start ops) :
    ∃ W as ts, start.run (Nary.kind α) ops = Res.ok (W, as) ∧
      Trace (Nary.shape α) start (fun _ => none) (ops.zip as) W ts ∧ Owned (Nary.shape α) W ts :=
  Generic.history (Nary.lawful α) (Nary.determined α) h

theorem C15_no_memory_error_binary {ops : List (Op α (Lit α))} (h : Supports (Binary.shape α) start ops) :
    ∃ W as ts, start.run (Binary.kind α) ops = Res.ok (W, as) ∧
      Trace (Binary.shape α) start (fun _ => none) (ops.zip as) W ts ∧ Owned (Binary.shape α) W ts :=
  Generic.history (Binary.lawful α) (Binary.determined α) h

/-- When all tree objects are gone, so is all memory. -/
theorem C15_no_leak_nary {ops : List (Op α (Tree α))} (h : Supports (Nary.shape α) start ops) {W : World (NNode α)}
    {as : List Ans} (hr : start.run (Nary.kind α) ops = Res.ok (W, as)) (hend : ∀ x, W.vars x = none) :
    ∀ a, W.heap.cells a = none :=
  Generic.noLeak (Nary.lawful α) (Nary.determined α) h hr hend

theorem C15_no_leak_binary {ops : List (Op α (Lit α))} (h : Supports (Binary.shape α) start ops) {W : World (BNode α)}
    {as : List Ans} (hr : start.run (Binary.kind α) ops = Res.ok (W, as)) (hend : ∀ x, W.vars x = none) :
    ∀ a, W.heap.cells a = none :=
  Generic.noLeak (Binary.lawful α) (Binary.determined α) h hr hend

/-- The state is one family of trees only, so `Supports` talks about the trees the program has. -/
theorem C15_owner_unique_nary {W : World (NNode α)} {ts us : Nat → Option (Option (Tree (Addr × α)))}
    (O : Owned (Nary.shape α) W ts) (O' : Owned (Nary.shape α) W us) : ts = us := OwnedBut.unique (Nary.determined α) O O'
theorem C15_owner_unique_binary {W : World (BNode α)} {ts us : Nat → Option (BTree (Addr × α))}
    (O : Owned (Binary.shape α) W ts) (O' : Owned (Binary.shape α) W us) : ts = us := OwnedBut.unique (Binary.determined α) O O'

/-! ### Examples -/

open Samples in
example : ∃ W' t', nworld.newCopy (Nary.kind Nat) 2 0 = Res.ok W' ∧ t'.map Tree.vals = some deep.vals ∧
    ∃ ts, Owned (Nary.shape Nat) W' ts ∧ ts 0 = some (some deep) ∧ ts 2 = some t' := by
  obtain ⟨ts, O, h0, _, h2⟩ := nstate
  obtain ⟨W', t', e, O', hv, _⟩ := C13_copy_construct_nary O h2 h0
  exact ⟨W', t', e, hv, _, O', by simp [upd, h0], by simp [upd]⟩

open Samples in
example : ∃ W' t', bworld.assignCopy (Binary.kind Nat) 1 0 = Res.ok W' ∧ t'.vals = bin.vals ∧
    ∃ ts, Owned (Binary.shape Nat) W' ts ∧ ts 0 = some bin ∧ ts 1 = some t' := by
  obtain ⟨ts, O, h0, h1, _⟩ := bstate
  obtain ⟨W', t', e, O', hv, _⟩ := C13_copy_assign_binary O h1 h0
  exact ⟨W', t', e, hv, _, O', by simp [upd, h0], by simp [upd]⟩

open Samples in
/-- Self assignment. -/
example : ∃ W' t', nworld.assignCopy (Nary.kind Nat) 0 0 = Res.ok W' ∧ t'.map Tree.vals = some deep.vals ∧
    ∃ ts, Owned (Nary.shape Nat) W' ts ∧ ts 0 = some t' := by
  obtain ⟨ts, O, h0, h1, _⟩ := nstate
  obtain ⟨W', t', e, O', hv, _⟩ := C13_copy_assign_nary O h0 h0
  exact ⟨W', t', e, hv, _, O', by simp [upd]⟩

open Samples in
example : ∃ W' ts, bworld.newMove 2 0 = Res.ok W' ∧ Owned (Binary.shape Nat) W' ts ∧ ts 2 = some bin ∧ ts 0 = some .nil := by
  obtain ⟨ts, O, h0, _, h2⟩ := bstate
  obtain ⟨W', e, O', _⟩ := C14_move_construct_binary O h2 h0
  exact ⟨W', _, e, O', by simp [upd], by simp [upd]⟩

open Samples in
example : ∃ W' ts, nworld.assignMove (Nary.kind Nat) 1 0 = Res.ok W' ∧ Owned (Nary.shape Nat) W' ts ∧ ts 1 = some (some deep) ∧
    ts 0 = some none := by
  obtain ⟨ts, O, h0, h1, _⟩ := nstate
  obtain ⟨W', e, O', _⟩ := C14_move_assign_nary O h1 h0
  exact ⟨W', _, e, O', by simp [upd], by simp [upd]⟩

open Samples in
example : ∃ W' ts, nworld.swap 1 0 = Res.ok W' ∧ Owned (Nary.shape Nat) W' ts ∧ ts 1 = some (some deep) ∧ ts 0 = some none := by
  obtain ⟨ts, O, h0, h1, _⟩ := nstate
  obtain ⟨W', e, O', _⟩ := C14_swap_nary O h1 h0
  exact ⟨W', _, e, O', by simp [upd], by simp [upd]⟩

open Samples in
example : ∃ W', nworld.clear (Nary.kind Nat) 0 = Res.ok W' ∧ W'.heap.cells 4 = none := by
  obtain ⟨ts, O, h0, h1, _⟩ := nstate
  obtain ⟨W', e, _, h, _⟩ := C16_clear_nary O h0
  exact ⟨W', e, by rw [h]; rfl⟩

open Samples in
example : ∃ W' ts, bworld.destroy (Binary.kind Nat) 0 = Res.ok W' ∧ Owned (Binary.shape Nat) W' ts ∧ ts 0 = none := by
  obtain ⟨ts, O, h0, h1, _⟩ := bstate
  obtain ⟨W', e, O', _⟩ := C16_destroy_binary O h0
  exact ⟨W', _, e, O', by simp [upd]⟩

example := C15_no_memory_error_nary Samples.nhist_supported
example := C15_no_memory_error_binary Samples.bhist_supported

/-! ### The calls that do commit memory errors -/

/-- nary `erase` of a first child that has a sibling dereferences a null pointer. -/
theorem C59_erase_first_child_defect :
    start.run (Nary.kind Nat) [.newLit 0 (node 1 [node 2 [], node 3 []]), .erase 0 ⟨⟨some 1, []⟩, some 0⟩] = Res.ub := rfl

/-- nary `erase` of an only child dereferences a null pointer. -/
theorem C59_erase_only_child_defect :
    start.run (Nary.kind Nat) [.newLit 0 (node 1 [node 2 []]), .erase 0 ⟨⟨some 1, []⟩, some 0⟩] = Res.ub := rfl

/-- nary `erase` of a last child, then adding a child at the back, then destroying the tree: the new node is still
allocated although no tree object exists, a leak. -/
theorem C59_erase_last_child_defect :
    ∃ W as, start.run (Nary.kind Nat) [.newLit 0 (node 1 [node 2 [], node 3 []]), .erase 0 ⟨⟨some 2, []⟩, some 0⟩,
      .insertChild false Policy.preOrder 0 ⟨⟨some 0, []⟩, some 0⟩ (.value 5), .destroy 0] = Res.ok (W, as) ∧
      W.vars 0 = none ∧ (W.heap.cells 3).map NNode.value = some 5 := ⟨_, _, rfl, rfl, rfl⟩

/-- `insert_over` with a value at the end of a non-empty tree throws and leaks the node it made. -/
theorem C59_insert_over_end_leak_nary_defect :
    ∃ W as, start.run (Nary.kind Nat) [.newLit 0 (node 1 []),
      .insertOver true true Policy.preOrder 0 ⟨⟨none, []⟩, some 0⟩ (.value 5), .destroy 0] = Res.ok (W, as) ∧
      as = [.unit, .iter .threw, .unit] ∧ W.vars 0 = none ∧ (W.heap.cells 1).map NNode.value = some 5 :=
  ⟨_, _, rfl, rfl, rfl, rfl⟩

theorem C59_insert_over_end_leak_binary_defect :
    ∃ W as, start.run (Binary.kind Nat) [.newLit 0 (node (some 1) []),
      .insertOver true true Policy.preOrder 0 ⟨⟨none, []⟩, some 0⟩ (.value 5), .destroy 0] = Res.ok (W, as) ∧
      as = [.unit, .iter .threw, .unit] ∧ W.vars 0 = none ∧ (W.heap.cells 1).map BNode.value = some 5 :=
  ⟨_, _, rfl, rfl, rfl, rfl⟩

/-- `insert_child` of a moved tree at `end()` throws; the nodes of the moved tree have been freed but its object still
refers to them, so that its destruction frees them again. -/
theorem C59_insert_child_move_throw_nary_defect :
    (∃ W as, start.run (Nary.kind Nat) [.newLit 0 (node 1 []), .newLit 1 (node 2 []),
      .insertChild true Policy.preOrder 0 ⟨⟨none, []⟩, some 0⟩ (.moveOf 1)] = Res.ok (W, as) ∧
      as = [.unit, .unit, .iter .threw]) ∧
    start.run (Nary.kind Nat) [.newLit 0 (node 1 []), .newLit 1 (node 2 []),
      .insertChild true Policy.preOrder 0 ⟨⟨none, []⟩, some 0⟩ (.moveOf 1), .destroy 1] = Res.ub :=
  ⟨⟨_, _, rfl, rfl⟩, rfl⟩

/-- The same when the binary node at the position has two children. -/
theorem C59_insert_child_move_throw_binary_defect :
    start.run (Binary.kind Nat) [.newLit 0 (node (some 1) [node (some 2) [], node (some 3) []]), .newLit 1 (node (some 4) []),
      .insertChild true Policy.preOrder 0 ⟨⟨some 0, []⟩, some 0⟩ (.moveOf 1), .destroy 1] = Res.ub := rfl
