import Verif.Proof.Spill
import Verif.Props.Faults
/-!
# C65: programs that go on after an insertion at `end()` of a tree that is not empty

Such an insertion throws and loses the nodes it made (`C65_insert_over_leaks_nary_defect`). `OwnedBut G S W ts` (Spec/World.lean):
the program state `W` is exactly the family of trees `ts` and, besides, the blocks `G`, which belong to no tree. `SupportsL` and
`TraceL` are in Spec/Spill.lean.
-/
open Tree World

variable {α : Type}

namespace Generic
variable {ν lit T V C : Type} {K : Kind ν α lit} {S : Shape K T V C} {ts : Nat → Option T} {W : World ν} {G : Addr → Prop} {M : Makers K}

theorem goesOn (L : Lawful S) (D : Determined S) (F : Faithful M) {l : List (Op α lit)} (h : SupportsL S start l) :
    ∃ W as G ts n, start.run K l = Res.ok (W, as) ∧ as.length = l.length ∧
      TraceL S start (fun _ => False) (fun _ => none) (l.zip as) W G ts n ∧ OwnedBut G S W ts ∧
      ((∀ x, W.vars x = none) → ∃ left : List Addr, left.Nodup ∧ left.length = n ∧ ∀ a, a ∈ left ↔ (W.heap.cells a).isSome) := by
  obtain ⟨W, as, G, ts, n, h1, h2, Tr, O⟩ := runL_trace L F D l start _ _ (start_owned L) h
  refine ⟨W, as, G, ts, n, h1, h2, Tr, O, fun hend => ?_⟩
  obtain ⟨zs, h1, h2, h3⟩ := Tr.count [] List.nodup_nil (by simp)
  refine ⟨zs, h1, by simpa using h3, fun a => ⟨fun ha => O.lost a ((h2 a).mp ha), fun ha => ?_⟩⟩
  rcases O.noLeakBut a ha with ⟨z, t, hz, _⟩ | hz
  · rw [dead O (hend z)] at hz; cases hz
  · exact (h2 a).mpr hz

theorem forGood (L : Lawful S) (D : Determined S) (F : Faithful M) (O : OwnedBut G S W ts) {op : Op α lit} {m : Nat}
    (hs : Spills S ts op m) : ∃ W1, ∃ lost : List Addr, W.step K op = Res.ok (W1, .iter .threw) ∧ lost.Nodup ∧ lost.length = m ∧
      (∀ a ∈ lost, W.heap.cells a = none) ∧
      ∀ l W2 as, SupportsL S W1 l → W1.run K l = Res.ok (W2, as) → ∀ a ∈ lost, (W2.heap.cells a).isSome := by
  obtain ⟨W1, e, O1, _⟩ := spill_step L F O hs
  refine ⟨W1, List.range' W.heap.next m, e, List.nodup_range', by simp, fun a ha => ?_, fun l W2 as hl hr a ha => ?_⟩
  · rw [List.mem_range'_1] at ha
    exact O.wf a ha.1
  · obtain ⟨W2', as', G', ts', n, h5, _, Tr, O2⟩ := runL_trace L F D l W1 _ _ O1 hl
    rw [hr] at h5; cases h5
    rw [List.mem_range'_1] at ha
    exact O2.lost _ (Tr.mono _ (Or.inr ha))

end Generic

/-- Missing for the full property: the nodes the insertions at `end()` made are lost. Otherwise such an insertion does no harm: a
program that makes supported calls and insertions at `end()` of trees that are not empty, in any order, runs to the end without
undefined behaviour; every supported call has its effect and every such insertion throws and changes no tree, no node and no
count (`TraceL`). When all tree objects are gone, exactly the nodes made by the insertions that threw are left. -/
theorem C65_programs_go_on_nary_partial {l : List (Op α (Tree α))} (h : SupportsL (Nary.shape α) start l) :
    ∃ W as G ts n, start.run (Nary.kind α) l = Res.ok (W, as) ∧ as.length = l.length ∧
      TraceL (Nary.shape α) start (fun _ => False) (fun _ => none) (l.zip as) W G ts n ∧ OwnedBut G (Nary.shape α) W ts ∧
      ((∀ x, W.vars x = none) → ∃ left : List Addr, left.Nodup ∧ left.length = n ∧ ∀ a, a ∈ left ↔ (W.heap.cells a).isSome) :=
  Generic.goesOn (Nary.lawful α) (Nary.determined α) (Nary.faithful α) h

theorem C65_programs_go_on_binary_partial {l : List (Op α (Lit α))} (h : SupportsL (Binary.shape α) start l) :
    ∃ W as G ts n, start.run (Binary.kind α) l = Res.ok (W, as) ∧ as.length = l.length ∧
      TraceL (Binary.shape α) start (fun _ => False) (fun _ => none) (l.zip as) W G ts n ∧ OwnedBut G (Binary.shape α) W ts ∧
      ((∀ x, W.vars x = none) → ∃ left : List Addr, left.Nodup ∧ left.length = n ∧ ∀ a, a ∈ left ↔ (W.heap.cells a).isSome) :=
  Generic.goesOn (Binary.lawful α) (Binary.determined α) (Binary.faithful α) h

/-- The leak is for good: the call obtains `m` nodes, as many as the inserted tree has, and whatever the program does later, they
are never given back. -/
theorem C65_lost_for_good_nary_defect {G : Addr → Prop} {W : World (NNode α)} {ts : Nat → Option (Option (Tree (Addr × α)))}
    (O : OwnedBut G (Nary.shape α) W ts) {op : Op α (Tree α)} {m : Nat} (hs : Spills (Nary.shape α) ts op m) :
    ∃ W1, ∃ lost : List Addr, W.step (Nary.kind α) op = Res.ok (W1, .iter .threw) ∧ lost.Nodup ∧ lost.length = m ∧
      (∀ a ∈ lost, W.heap.cells a = none) ∧
      ∀ l W2 as, SupportsL (Nary.shape α) W1 l → W1.run (Nary.kind α) l = Res.ok (W2, as) → ∀ a ∈ lost, (W2.heap.cells a).isSome :=
  Generic.forGood (Nary.lawful α) (Nary.determined α) (Nary.faithful α) O hs

theorem C65_lost_for_good_binary_defect {G : Addr → Prop} {W : World (BNode α)} {ts : Nat → Option (BTree (Addr × α))}
    (O : OwnedBut G (Binary.shape α) W ts) {op : Op α (Lit α)} {m : Nat} (hs : Spills (Binary.shape α) ts op m) :
    ∃ W1, ∃ lost : List Addr, W.step (Binary.kind α) op = Res.ok (W1, .iter .threw) ∧ lost.Nodup ∧ lost.length = m ∧
      (∀ a ∈ lost, W.heap.cells a = none) ∧
      ∀ l W2 as, SupportsL (Binary.shape α) W1 l → W1.run (Binary.kind α) l = Res.ok (W2, as) → ∀ a ∈ lost, (W2.heap.cells a).isSome :=
  Generic.forGood (Binary.lawful α) (Binary.determined α) (Binary.faithful α) O hs

/-! ### Examples -/

namespace Samples

section
variable {ν lit T V C : Type} {K : Kind ν α lit} {S : Shape K T V C} {ts : Nat → Option T} {W : World ν} {G : Addr → Prop} {M : Makers K}

/-- The state after a call. -/
def nextL (K : Kind ν α lit) (W : World ν) (op : Op α lit) : World ν :=
  match W.step K op with
  | .ok (W', _) => W'
  | _ => W

theorem supportsL_next (L : Lawful S) (F : Faithful M) (O : OwnedBut G S W ts) {op : Op α lit} {l : List (Op α lit)}
    (hl : Legal S W.heap ts op ∨ ∃ m, Spills S ts op m)
    (go : ∀ G1 ts1, OwnedBut G1 S (nextL K W op) ts1 → SupportsL S (nextL K W op) l) : SupportsL S W (op :: l) := by
  refine ⟨⟨G, ts, O, hl⟩, fun W1 o e => ?_⟩
  have h1 : nextL K W op = W1 := by simp [nextL, e]
  have h2 : ∃ G1 ts1, OwnedBut G1 S W1 ts1 := by
    rcases hl with hl | ⟨m, hs⟩
    · obtain ⟨W1', o', ts1, e1, O1, _⟩ := step_spec L O op hl
      rw [e] at e1; cases e1
      exact ⟨_, _, O1⟩
    · obtain ⟨W1', e1, O1, _⟩ := spill_step L F O hs
      rw [e] at e1; cases e1
      exact ⟨_, _, O1⟩
  obtain ⟨G1, ts1, O1⟩ := h2
  rw [← h1] at O1 ⊢
  exact go G1 ts1 O1
end

/-- Build 1(2,3); insert a copy of it over its own `end()`; insert a child before 2; insert 9 over `end()`; destroy. -/
def nspills : List (Op Nat (Tree Nat)) :=
  [.newLit 0 (node 1 [node 2 [], node 3 []]), .insertOver true true Policy.preOrder 0 ⟨⟨none, []⟩, some 0⟩ (.copyOf 0),
   .insertChild true Policy.preOrder 0 ⟨⟨some 1, []⟩, some 0⟩ (.value 7),
   .insertOver true true Policy.postOrder 0 ⟨⟨none, []⟩, some 0⟩ (.value 9), .destroy 0]

theorem nspills_supported : SupportsL (Nary.shape Nat) start nspills := by
  have L := Nary.lawful Nat
  have F := Nary.faithful Nat
  refine supportsL_next L F (start_owned L) (Or.inl ⟨rfl, trivial⟩) ?_
  intro G1 ts1 O1
  have h1 : ts1 0 = some (some (node (0,1) [node (1,2) [], node (2,3) []])) :=
    pin (Nary.determined Nat) O1 rfl ((Nary.shape_rep _ _).mpr (by decide)) rfl
  refine supportsL_next L F O1 (Or.inr ⟨3, _, _, _, _, _, _, _, rfl, h1, (fun h => nomatch h), rfl, live O1 rfl, (fun _ h => nomatch h), _, h1, rfl⟩) ?_
  intro G2 ts2 O2
  have h2 : ts2 0 = some (some (node (0,1) [node (1,2) [], node (2,3) []])) :=
    pin (Nary.determined Nat) O2 rfl ((Nary.shape_rep _ _).mpr (by decide)) rfl
  refine supportsL_next L F O2 (Or.inl ⟨_, h2, trivial, Or.inr (Or.inl ⟨_, _, nary_at preOrder_mem
    [⟨(0,1), [], [node (2,3) []]⟩] (node (1,2) []) rfl rfl rfl rfl, Or.inl rfl⟩)⟩) ?_
  intro G3 ts3 O3
  have h3 : ts3 0 = some (some (node (0,1) [node (1,2) [node (6,7) []], node (2,3) []])) :=
    pin (Nary.determined Nat) O3 rfl ((Nary.shape_rep _ _).mpr (by decide)) rfl
  refine supportsL_next L F O3 (Or.inr ⟨1, _, _, _, _, _, _, _, rfl, h3, (fun h => nomatch h), rfl, trivial, (fun _ h => nomatch h), rfl⟩) ?_
  intro G4 ts4 O4
  refine supportsL_next L F O4 (Or.inl (live O4 rfl)) ?_
  intros; trivial

/-- Build 1(-,3); insert the literal 7(8) over `end()`; destroy. -/
def bspills : List (Op Nat (Lit Nat)) :=
  [.newLit 0 (node (some 1) [node none [], node (some 3) []]),
   .insertOver false true Policy.preOrder 0 ⟨⟨none, []⟩, some 0⟩ (.lit (node (some 7) [node (some 8) []])), .destroy 0]

theorem bspills_supported : SupportsL (Binary.shape Nat) start bspills := by
  have L := Binary.lawful Nat
  have F := Binary.faithful Nat
  refine supportsL_next L F (start_owned L) (Or.inl ⟨rfl, rfl⟩) ?_
  intro G1 ts1 O1
  have h1 : ts1 0 = some (.node (0,1) .nil (.node (1,3) .nil .nil)) :=
    pin (Binary.determined Nat) O1 rfl (show Binary.Rep _ _ by decide) rfl
  refine supportsL_next L F O1 (Or.inr ⟨2, _, _, _, _, _, _, _, rfl, h1, (fun h => nomatch h), rfl, rfl, (fun _ h => nomatch h),
    .node (0,7) (.node (0,8) .nil .nil) .nil, rfl, rfl⟩) ?_
  intro G2 ts2 O2
  refine supportsL_next L F O2 (Or.inl (live O2 rfl)) ?_
  intros; trivial

/-- The state and the answers at the end. -/
def endL {ν lit : Type} (K : Kind ν α lit) (l : List (Op α lit)) : World ν :=
  match start.run K l with
  | .ok p => p.1
  | _ => start

end Samples

open Samples in
/-- Four nodes are left: three of the copy and the value 9. -/
example : ∃ W as, start.run (Nary.kind Nat) nspills = Res.ok (W, as) ∧ (∀ x, W.vars x = none) ∧
    ∃ left : List Addr, left.Nodup ∧ left.length = 4 ∧ ∀ a, a ∈ left ↔ (W.heap.cells a).isSome := by
  obtain ⟨W, as, G, ts, n, e, _, Tr, O, h⟩ := C65_programs_go_on_nary_partial nspills_supported
  have h1 : endL (Nary.kind Nat) nspills = W := by simp [endL, e]
  have hv : ∀ x, W.vars x = none := by
    have : ∀ x, (endL (Nary.kind Nat) nspills).vars x = none
      | 0 => rfl
      | n + 1 => rfl
    rwa [h1] at this
  have hn : W.heap.next = 8 := by
    have : (endL (Nary.kind Nat) nspills).heap.next = 8 := by decide +kernel
    rwa [h1] at this
  have hc : ∀ a, a < 8 → (W.heap.cells a).isSome = decide (a ∈ [3, 4, 5, 7]) := by
    have : ∀ a, a < 8 → ((endL (Nary.kind Nat) nspills).heap.cells a).isSome = decide (a ∈ [3, 4, 5, 7]) := by decide +kernel
    rwa [h1] at this
  obtain ⟨left, h1, h2, h3⟩ := h hv
  refine ⟨W, as, e, hv, left, h1, ?_, h3⟩
  have : left.Perm [3, 4, 5, 7] := (List.perm_ext_iff_of_nodup h1 (by decide)).mpr fun a => by
    rw [h3]
    by_cases ha : a < 8
    · rw [hc a ha]; exact decide_eq_true_iff
    · rw [O.wf a (by rw [hn]; exact Nat.le_of_not_lt ha)]
      simp only [List.mem_cons, List.not_mem_nil, or_false]
      constructor
      · intro h; cases h
      · grind
  exact this.length_eq

open Samples in
/-- The two nodes of the literal are left. -/
example : ∃ W as, start.run (Binary.kind Nat) bspills = Res.ok (W, as) ∧ (∀ x, W.vars x = none) ∧
    ∃ left : List Addr, left.Nodup ∧ left.length = 2 ∧ ∀ a, a ∈ left ↔ (W.heap.cells a).isSome := by
  obtain ⟨W, as, G, ts, n, e, _, Tr, O, h⟩ := C65_programs_go_on_binary_partial bspills_supported
  have h1 : endL (Binary.kind Nat) bspills = W := by simp [endL, e]
  have hv : ∀ x, W.vars x = none := by
    have : ∀ x, (endL (Binary.kind Nat) bspills).vars x = none
      | 0 => rfl
      | n + 1 => rfl
    rwa [h1] at this
  have hn : W.heap.next = 4 := by
    have : (endL (Binary.kind Nat) bspills).heap.next = 4 := by decide +kernel
    rwa [h1] at this
  have hc : ∀ a, a < 4 → (W.heap.cells a).isSome = decide (a ∈ [2, 3]) := by
    have : ∀ a, a < 4 → ((endL (Binary.kind Nat) bspills).heap.cells a).isSome = decide (a ∈ [2, 3]) := by decide +kernel
    rwa [h1] at this
  obtain ⟨left, h1, h2, h3⟩ := h hv
  refine ⟨W, as, e, hv, left, h1, ?_, h3⟩
  have : left.Perm [2, 3] := (List.perm_ext_iff_of_nodup h1 (by decide)).mpr fun a => by
    rw [h3]
    by_cases ha : a < 4
    · rw [hc a ha]; exact decide_eq_true_iff
    · rw [O.wf a (by rw [hn]; exact Nat.le_of_not_lt ha)]
      simp only [List.mem_cons, List.not_mem_nil, or_false]
      constructor
      · intro h; cases h
      · grind
  exact this.length_eq

open Samples in
/-- A copy of a tree of seven nodes inserted over its own `end()`. -/
example : ∃ W1, ∃ lost : List Addr, nworld.step (Nary.kind Nat) (.insertOver true true Policy.preOrder 0 ⟨⟨none, []⟩, some 0⟩ (.copyOf 0)) =
    Res.ok (W1, .iter .threw) ∧ lost.length = 7 ∧ ∀ a ∈ lost, (W1.heap.cells a).isSome := by
  obtain ⟨ts, O, h0, _, _⟩ := nstate
  obtain ⟨W1, lost, e, _, h1, _, h2⟩ := C65_lost_for_good_nary_defect O (m := 7)
    ⟨true, true, Policy.preOrder, 0, ⟨⟨none, []⟩, some 0⟩, .copyOf 0, _, rfl, h0, (fun h => nomatch h), rfl, by simp [SrcOk, h0], (fun _ h => nomatch h), _, h0, rfl⟩
  exact ⟨W1, lost, e, h1, h2 [] W1 [] trivial rfl⟩

open Samples in
example : ∃ W1, ∃ lost : List Addr, bworld.step (Binary.kind Nat) (.insertOver true true Policy.inOrder 0 ⟨⟨none, []⟩, some 0⟩ (.value 4)) =
    Res.ok (W1, .iter .threw) ∧ lost.length = 1 ∧ ∀ a ∈ lost, (W1.heap.cells a).isSome := by
  obtain ⟨ts, O, h0, _, _⟩ := bstate
  obtain ⟨W1, lost, e, _, h1, _, h2⟩ := C65_lost_for_good_binary_defect O (m := 1)
    ⟨true, true, Policy.inOrder, 0, ⟨⟨none, []⟩, some 0⟩, .value 4, _, rfl, h0, (by simp [bin, Binary.shape]), rfl, trivial, (fun _ h => nomatch h), rfl⟩
  exact ⟨W1, lost, e, h1, h2 [] W1 [] trivial rfl⟩
