import Verif.Proof.GenBin
import Verif.Proof.GenNary
import Verif.Props.SampleWorlds
/-!
# C101, C102: generative_navigator

A program holds a pair of pointers: one into the target tree, one into the generated tree, at first the node `a` of the target
where the navigator starts and the only node `b` of the generated tree. It moves the pair by any sequence of moves
(`Gen.run`). The specification is in `Spec/Generative.lean`: a walk over the positions of the part of the target that the predicate
accepts (`visible`), and the copy of the visited positions (`Copies`).
-/

variable {α : Type}

/-! ## C101: as long as the moves are sound, the pair stays at the same position of both trees, and the generated tree is the copy
of the visited nodes -/

/-- Binary trees. `X` holds the target, which the navigator enters at `a`; `Y` holds the generated tree. Every other tree, and the
target, are unchanged; nothing is leaked. -/
theorem C101_binary {W : World (BNode α)} {ts : Nat → Option (BTree (Addr × α))} (O : Owned (Binary.shape α) W ts) {X Y : Nat}
    (hXY : X ≠ Y) {gs : List (BTree.Frame (Addr × α))} {a b : Addr} {v : α} {l r : BTree (Addr × α)}
    (hX : ts X = some (BTree.plug gs (.node (a, v) l r))) (hY : ts Y = some (.node (b, v) .nil .nil)) (test : α → Bool) (ms : List Move)
    (hm : Walked.Sounds (BTree.visible test (.node (a, v) l r)).move (BTree.genSound test (.node (a, v) l r)) ms ⟨[[]], []⟩) :
    ∃ h' x g u w, (Binary.gen α).run test a W.heap a b ms = Res.ok (h', x, g) ∧
      w = Walked.run (BTree.visible test (.node (a, v) l r)).move ms ⟨[[]], []⟩ ∧
      Owned (Binary.shape α) (W.setHeap h') (upd ts Y (some u)) ∧
      (BTree.visible test (.node (a, v) l r)).addrAt w.pos = some x ∧ u.addrAt w.pos = some g ∧
      (BTree.visible test (.node (a, v) l r)).Copies w.seen u := by
  obtain ⟨O1, M⟩ := (owned_match (Binary.lawful α)).mp O
  have I : Binary.GInv (fun _ => False) test ts Y (.node (a, v) l r) W.heap (.node (b, v) .nil .nil) ⟨[[]], []⟩ a b (some b) := by
    refine ⟨?_, ?_, ?_, rfl, rfl, rfl⟩
    · rw [show upd ts Y (some (BTree.node (b, v) .nil .nil)) = ts by funext z; simp only [upd]; split <;> simp_all]
      exact O1
    · intro p
      rcases List.eq_nil_or_concat p with rfl | ⟨q, c, rfl⟩
      · simp [BTree.valAt, BTree.at?, BTree.visible, BTree.keep, BTree.label?]
      · rw [List.concat_eq_append, BTree.valAt, BTree.at_last]
        cases c <;> simp [BTree.left, BTree.right, BTree.label?]
    · simp [BTree.at?, BTree.visible, BTree.keep]
  obtain ⟨h', x, g, e, u, I'⟩ := Binary.gen_run hX hXY (root := a) rfl ms I hm
  refine ⟨h', x, g, u, _, e, rfl, (owned_match (Binary.lawful α)).mpr ⟨I'.own, ?_⟩, I'.hx, I'.hg, I'.copies⟩
  intro z
  by_cases hz : z = Y
  · subst hz
    rw [upd_same]
    obtain ⟨rc, h1, h2, h3⟩ := (hY ▸ M z : Match _ _ (some _)).get
    show Match _ (W.vars z) _
    rw [h1]
    refine Match.some ?_ ?_
    · rw [h2, Binary.shape_ptr', Binary.shape_ptr', I'.top]; rfl
    · rw [h3, Binary.shape_ptr', Binary.shape_ptr', I'.top]; rfl
  · rw [upd_other _ _ hz]; exact M z

/-- Nary trees. -/
theorem C101_nary {W : World (NNode α)} {ts : Nat → Option (Option (Tree (Addr × α)))} (O : Owned (Nary.shape α) W ts) {X Y : Nat}
    (hXY : X ≠ Y) {gs : List (Tree.Frame (Addr × α))} {a b : Addr} {v : α} {cs : List (Tree (Addr × α))}
    (hX : ts X = some (some (Tree.plug gs (.node (a, v) cs)))) (hY : ts Y = some (some (.node (b, v) []))) (test : α → Bool) (ms : List Move)
    (hm : Walked.Sounds (Tree.visible test (.node (a, v) cs)).move (Tree.genSound test (.node (a, v) cs)) ms ⟨[[]], []⟩) :
    ∃ h' x g u w, (Nary.gen α).run test a W.heap a b ms = Res.ok (h', x, g) ∧
      w = Walked.run (Tree.visible test (.node (a, v) cs)).move ms ⟨[[]], []⟩ ∧
      Owned (Nary.shape α) (W.setHeap h') (upd ts Y (some (some u))) ∧
      (Tree.visible test (.node (a, v) cs)).addrAt w.pos = some x ∧ u.addrAt w.pos = some g ∧
      (Tree.visible test (.node (a, v) cs)).Copies w.seen u := by
  obtain ⟨O1, M⟩ := (owned_match (Nary.lawful α)).mp O
  have I : Nary.GInv (fun _ => False) test ts Y (.node (a, v) cs) W.heap (.node (b, v) []) ⟨[[]], []⟩ a b b := by
    refine ⟨?_, ?_, ?_, ?_, rfl, rfl⟩
    · rw [show upd ts Y (some (some (Tree.node (b, v) []))) = ts by funext z; simp only [upd]; split <;> simp_all]
      exact O1
    · intro p
      rcases List.eq_nil_or_concat p with rfl | ⟨q, c, rfl⟩
      · simp [Tree.valAt, Tree.at?, Tree.visible]
      · rw [List.concat_eq_append, Tree.valAt, Tree.at_last]
        simp
    · simp [Tree.at?, Tree.visible]
    · simp [Tree.addrAt, Tree.at?, Tree.visible]
  obtain ⟨h', x, g, e, u, I'⟩ := Nary.gen_run hX hXY ms I hm
  refine ⟨h', x, g, u, _, e, rfl, (owned_match (Nary.lawful α)).mpr ⟨I'.own, ?_⟩, I'.hx, I'.hg, I'.copies⟩
  intro z
  by_cases hz : z = Y
  · subst hz
    rw [upd_same]
    obtain ⟨rc, h1, h2, h3⟩ := (hY ▸ M z : Match _ _ (some _)).get
    show Match _ (W.vars z) _
    rw [h1]
    refine Match.some ?_ ?_
    · rw [h2, Nary.shape_ptr, Nary.shape_ptr, Option.map_some, Option.map_some, I'.top]; rfl
    · rw [h3, Nary.shape_ptr, Nary.shape_ptr, Option.map_some, Option.map_some, I'.top]; rfl
  · rw [upd_other _ _ hz]; exact M z

/-! ## Which programs make sound moves only -/

/-- On binary trees every program that uses only `get_parent`, `get_left_child`, `get_right_child` and `get_next_sibling`. -/
theorem C101_sound_binary (test : α → Bool) (t : BTree (Addr × α)) (ms : List Move)
    (hms : ∀ m ∈ ms, m = .parent ∨ m = .left ∨ m = .right ∨ m = .next) (w : Walked (List Bool)) :
    Walked.Sounds (t.visible test).move (t.genSound test) ms w := by
  induction ms generalizing w with
  | nil => trivial
  | cons m ms ih =>
    refine ⟨?_, ih (fun x hx => hms x (by simp [hx])) _⟩
    rcases hms m (by simp) with rfl | rfl | rfl | rfl <;> trivial

/-- On nary trees, if the predicate accepts all nodes, every program that uses only `get_parent`, `get_first_child`,
`get_next_sibling` and `get_prev_sibling`. -/
theorem C101_sound_nary (test : α → Bool) (t : Tree (Addr × α)) (ht : ∀ x ∈ t.pre, test x.2 = true) (ms : List Move)
    (hms : ∀ m ∈ ms, m = .parent ∨ m = .first ∨ m = .next ∨ m = .prev) :
    Walked.Sounds (t.visible test).move (t.genSound test) ms ⟨[[]], []⟩ := by
  suffices key : ∀ (w : Walked (List Nat)), (∀ p ∈ w.seen, (t.visible test).at? p ≠ none) → (t.visible test).at? w.pos ≠ none →
      Walked.Sounds (t.visible test).move (t.genSound test) ms w from key _ (by simp [Tree.at?]) (by simp [Tree.at?])
  have all : ∀ p u, t.whole test p = some u → ∀ c ∈ u.children, test c.label.2 = true := by
    intro p u hu c hc
    obtain ⟨fs, hf⟩ := Tree.whole_plug hu
    refine ht _ ?_
    rw [← hf, Tree.pre_plug]
    obtain ⟨l, r, e⟩ := List.append_of_mem hc
    obtain ⟨a, cs⟩ := u
    simp only [Tree.children_node] at e
    subst e
    have := Tree.label_mem_pre c
    simp [this]
  induction ms with
  | nil => exact fun _ _ _ => trivial
  | cons m ms ih =>
    intro w hs hp
    have hp' : ∃ u, t.whole test w.pos = some u := by
      rw [Tree.visible_at] at hp
      cases e : t.whole test w.pos with
      | none => simp [e] at hp
      | some u => exact ⟨u, rfl⟩
    refine ⟨?_, ?_⟩
    · obtain ⟨seen, p⟩ := w
      obtain ⟨u, hu⟩ := hp'
      rcases hms m (by simp) with rfl | rfl | rfl | rfl
      · trivial
      · refine Or.inr ⟨u, hu, fun c hc => all p u hu c ?_⟩
        exact List.mem_of_mem_head? hc
      · cases p with
        | nil => trivial
        | cons i p =>
          by_cases hm : (i + 1) :: p ∈ seen
          · obtain ⟨v, l, r, h1, h2, h3⟩ := Tree.whole_cons hu
            cases r with
            | nil =>
              exfalso
              have := hs _ hm
              rw [ne_eq, ← Tree.addrAt_none, Nary.kept_next h1 h2 h3] at this
              simp [Nary.firstKept] at this
            | cons d r => exact Or.inr ⟨v, l, u, d, r, h1, h2, h3, all p v h1 d (by simp [h2])⟩
          · exact Or.inl hm
      · cases p with
        | nil => trivial
        | cons i p =>
          obtain ⟨v, l, r, h1, h2, h3⟩ := Tree.whole_cons hu
          exact ⟨v, l, u, r, h1, h2, h3, fun d hd => all p v h1 d (by
            rw [h2]; exact List.mem_append_left _ (List.mem_of_getLast? hd))⟩
    · refine ih (fun x hx => hms x (by simp [hx])) _ ?_ ?_
      · simp only [Walked.step]
        split
        · next q hq =>
          intro p hp'
          rcases List.mem_cons.mp hp' with rfl | h
          · exact Option.isSome_iff_ne_none.mp (Nary.move_some (Option.isSome_iff_ne_none.mpr hp) hq)
          · exact hs p h
        · exact hs
      · simp only [Walked.step]
        split
        · next q hq => exact Option.isSome_iff_ne_none.mp (Nary.move_some (Option.isSome_iff_ne_none.mpr hp) hq)
        · exact hp

/-! ## When everything has been visited -/

/-- Then the generated tree has the values of the accepted part of the target. -/
theorem C101_full_binary {t u : BTree (Addr × α)} {seen : List (List Bool)} (C : t.Copies seen u)
    (hs : ∀ p, t.at? p ≠ .nil → p ∈ seen) : u.vals = t.vals := by
  have h : ∀ p, u.valAt p = t.valAt p := by
    intro p
    rw [C p]
    split
    · rfl
    · next hn =>
      symm
      rw [BTree.valAt_none]
      exact Classical.byContradiction fun h => hn (hs p h)
  clear C hs
  induction u generalizing t with
  | nil =>
    have := h []
    cases t <;> simp [BTree.valAt, BTree.at?, BTree.label?] at this
    rfl
  | node a l r ihl ihr =>
    have h0 := h []
    cases t with
    | nil => simp [BTree.valAt, BTree.at?, BTree.label?] at h0
    | node b l' r' =>
      simp [BTree.valAt, BTree.at?, BTree.label?] at h0
      have h1 : l.vals = l'.vals := ihl (fun p => by simpa [BTree.valAt, BTree.at_last, BTree.left] using h (p ++ [true]))
      have h2 : r.vals = r'.vals := ihr (fun p => by simpa [BTree.valAt, BTree.at_last, BTree.right] using h (p ++ [false]))
      simp only [BTree.vals, BTree.map] at h1 h2 ⊢
      rw [h0, h1, h2]

theorem C101_full_nary {t u : Tree (Addr × α)} {seen : List (List Nat)} (C : t.Copies seen u)
    (hs : ∀ p, t.at? p ≠ none → p ∈ seen) : u.vals = t.vals := by
  have h : ∀ p, u.valAt p = t.valAt p := by
    intro p
    rw [C p]
    split
    · rfl
    · next hn =>
      symm
      rw [Tree.valAt_none]
      exact Classical.byContradiction fun h => hn (hs p h)
  clear C hs
  induction u using Tree.ind generalizing t with
  | h a cs ih =>
    obtain ⟨b, ds⟩ := t
    have h0 := h []
    simp [Tree.valAt, Tree.at?] at h0
    have key : cs.map Tree.vals = ds.map Tree.vals := by
      apply List.ext_getElem?
      intro i
      simp only [List.getElem?_map]
      cases e : cs[i]? with
      | none =>
        cases e' : ds[i]? with
        | none => rfl
        | some d =>
          have := h [i]
          simp [Tree.valAt, Tree.at?, e, e'] at this
      | some c =>
        cases e' : ds[i]? with
        | none =>
          have := h [i]
          simp [Tree.valAt, Tree.at?, e, e'] at this
        | some d =>
          simp only [Option.map_some, Option.some.injEq]
          refine ih c (List.mem_of_getElem? e) (fun p => ?_)
          have := h (p ++ [i])
          simpa [Tree.valAt, Tree.at_last, e, e'] using this
    simp only [Tree.vals, Tree.map_node, Tree.mapL_eq] at key ⊢
    have key' : cs.map (Tree.map Prod.snd) = ds.map (Tree.map Prod.snd) := key
    rw [h0, key']

/-! ## Examples -/

namespace Samples
open Tree World

/-- `nary_tree<int> x0 = n(1)(n(2)(n(5), n(6)(n(7))), n(3), n(4)), x1 = n(1);` -/
def ngops : List (Op Nat (Tree Nat)) :=
  [.newLit 0 (node 1 [node 2 [node 5 [], node 6 [node 7 []]], node 3 [], node 4 []]), .newLit 1 (node 1 [])]
def ngworld : World (NNode Nat) := after (Nary.kind Nat) ngops

theorem ngstate : ∃ ts, Owned (Nary.shape Nat) ngworld ts ∧ ts 0 = some (some deep) ∧ ts 1 = some (some (node (7, 1) [])) := by
  have L := Nary.lawful Nat
  have hs : Supports (Nary.shape Nat) start ngops := by
    refine supports_next L (start_owned L) ⟨rfl, trivial⟩ ?_
    intro ts1 O1
    refine supports_next L O1 ⟨dead O1 rfl, trivial⟩ ?_
    intros; trivial
  obtain ⟨W, as, ts, h1, _, _, O⟩ := history_trace L (Nary.determined Nat) ngops (start_owned L) hs
  cases h1
  exact ⟨ts, O, pin (Nary.determined Nat) O rfl ((Nary.shape_rep _ _).mpr (by decide)) rfl,
    pin (Nary.determined Nat) O rfl ((Nary.shape_rep _ _).mpr (by decide)) rfl⟩

/-- `binary_tree<int> x0 = n(1)(n(2)(n(), n(4)), n(3)(n(5))), x1 = n(1);` -/
def bgops : List (Op Nat (Lit Nat)) :=
  [.newLit 0 (node (some 1) [node (some 2) [node none [], node (some 4) []], node (some 3) [node (some 5) []]]), .newLit 1 (node (some 1) [])]
def bgworld : World (BNode Nat) := after (Binary.kind Nat) bgops

theorem bgstate : ∃ ts, Owned (Binary.shape Nat) bgworld ts ∧ ts 0 = some bin ∧ ts 1 = some (.node (5, 1) .nil .nil) := by
  have L := Binary.lawful Nat
  have hs : Supports (Binary.shape Nat) start bgops := by
    refine supports_next L (start_owned L) ⟨rfl, rfl⟩ ?_
    intro ts1 O1
    refine supports_next L O1 ⟨dead O1 rfl, rfl⟩ ?_
    intros; trivial
  obtain ⟨W, as, ts, h1, _, _, O⟩ := history_trace L (Binary.determined Nat) bgops (start_owned L) hs
  cases h1
  exact ⟨ts, O, pin (Binary.determined Nat) O rfl (show Binary.Rep _ _ by decide) rfl,
    pin (Binary.determined Nat) O rfl (show Binary.Rep _ _ by decide) rfl⟩

/-- Without the node 5: to 2, to 6 (5 is skipped), to 7, back to 2, to 3, back to 2, to 6 no more, to the root. -/
def nwalk : List Move := [.first, .first, .first, .parent, .parent, .next, .prev, .parent, .next]

example : Walked.Sounds (deep.visible (· != 5)).move (deep.genSound (· != 5)) nwalk ⟨[[]], []⟩ := by
  refine ⟨Or.inl (by decide), Or.inl (by decide), Or.inl (by decide), trivial, trivial, Or.inl (by decide), ?_, trivial, trivial, trivial⟩
  exact ⟨deep, [node (1, 2) [node (4, 5) [], node (5, 6) [node (6, 7) []]]], node (2, 3) [], [node (3, 4) []], rfl, rfl, ⟨by decide, by decide⟩, by decide⟩

example : (Walked.run (deep.visible (· != 5)).move nwalk ⟨[[]], []⟩).seen = [[], [0], [1], [0], [0, 0], [0, 0, 0], [0, 0], [0], []] := by decide
example : (Walked.run (deep.visible (· != 5)).move nwalk ⟨[[]], []⟩).pos = [] := by decide

/-- In the state `ngworld` the walk is possible and ends at the two roots. -/
example : ∃ h', (Nary.gen Nat).run (· != 5) 0 ngworld.heap 0 7 nwalk = Res.ok (h', 0, 7) ∧
    ∃ u, Nary.Rep h' u ∧ u.vals = node 1 [node 2 [node 6 [node 7 []]], node 3 []] := by
  refine ⟨_, by rfl, node (7, 1) [node (8, 2) [node (9, 6) [node (10, 7) []]], node (11, 3) []], by decide, rfl⟩

/-- Without the node 4: to 2, not to 4, to 3, to 5, to the root, to 2. -/
def bwalk : List Move := [.left, .last, .next, .first, .parent, .parent, .first]

example : Walked.Sounds (bin.visible (· != 4)).move (bin.genSound (· != 4)) bwalk ⟨[[]], []⟩ :=
  ⟨trivial, Or.inr (Or.inr ⟨by decide, Or.inr (by decide)⟩), trivial, Or.inr (Or.inr (by decide)), trivial, trivial, Or.inr (Or.inl (by decide)), trivial⟩

example : ∃ h' u, (Binary.gen Nat).run (· != 4) 0 bgworld.heap 0 5 bwalk = Res.ok (h', 1, 6) ∧
    Binary.Rep h' u ∧ u.vals = .node 1 (.node 2 .nil .nil) (.node 3 (.node 5 .nil .nil) .nil) := by
  refine ⟨_, .node (5, 1) (.node (6, 2) .nil .nil) (.node (7, 3) (.node (8, 5) .nil .nil) .nil), by rfl, by decide, rfl⟩

end Samples

/-! ## C102: other moves go wrong -/

open Samples

/-- `get_first_child` after the right child has been visited pairs the left child with the copy of the right child. -/
theorem C102_first_binary_defect : ∃ h', (Binary.gen Nat).run (fun _ => true) 0 bgworld.heap 0 5 [.right, .parent, .first] = Res.ok (h', 1, 6) ∧
    (h'.cells 1).map BNode.value = some 2 ∧ (h'.cells 6).map BNode.value = some 3 := ⟨_, by rfl, by decide, by decide⟩

/-- `get_last_child` after the left child has been visited pairs the right child with the copy of the left child. -/
theorem C102_last_binary_defect : ∃ h', (Binary.gen Nat).run (fun _ => true) 0 bgworld.heap 0 5 [.left, .parent, .last] = Res.ok (h', 3, 6) ∧
    (h'.cells 3).map BNode.value = some 3 ∧ (h'.cells 6).map BNode.value = some 2 := ⟨_, by rfl, by decide, by decide⟩

/-- If the left child is rejected, a second `get_first_child` fails an assertion (and with assertions off replaces a node). -/
theorem C102_again_binary_defect : (Binary.gen Nat).run (· != 2) 0 bgworld.heap 0 5 [.first, .parent, .first] = Res.ub := by rfl

/-- `get_prev_sibling` does not end if the previous sibling is rejected. -/
theorem C102_prev_binary_defect : (Binary.gen Nat).run (· != 2) 0 bgworld.heap 0 5 [.right, .prev] = Res.diverge := by rfl

/-- Nary trees: the copies of the children are in the order of the visits, so after `get_last_child` the first child is paired with
the copy of the last one. -/
theorem C102_first_nary_defect : ∃ h', (Nary.gen Nat).run (fun _ => true) 0 ngworld.heap 0 7 [.last, .parent, .first] = Res.ok (h', 1, 8) ∧
    (h'.cells 1).map NNode.value = some 2 ∧ (h'.cells 8).map NNode.value = some 4 := ⟨_, by rfl, by decide, by decide⟩

/-- If the first child is rejected, a second `get_first_child` makes a second copy. -/
theorem C102_again_nary_defect : ∃ h' u, (Nary.gen Nat).run (· != 2) 0 ngworld.heap 0 7 [.first, .parent, .first] = Res.ok (h', 2, 9) ∧
    Nary.Rep h' u ∧ u.vals = .node 1 [.node 3 [], .node 3 []] :=
  ⟨_, .node (7, 1) [.node (8, 3) [], .node (9, 3) []], by rfl, by decide, rfl⟩

theorem C102_prev_nary_defect : (Nary.gen Nat).run (· != 2) 0 ngworld.heap 0 7 [.first, .prev] = Res.diverge := by rfl
