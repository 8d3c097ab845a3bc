import Verif.Props.Pattern
import Verif.Proof.StarWorld
/-!
# C40, C41, C72: patterns with `star`

`Pat.Fits` (Spec/Pattern.lean) says when a pattern matches at the root of a tree, `Placed` where its matchers are placed. `solid`:
no matcher of the pattern can match nothing. `single`: every `star` that is not possessive has one argument. `SearchedIn`
(Spec/Searched.lean): the trees the pattern object was used for earlier have not been changed since.
-/
open Tree World Pat
variable {α : Type}

/-! ## C40: a search with `star` ends, and what it reports is there -/

theorem C40_search_nary {W : World (NNode α)} {ts : Nat → Option (Option (Tree (Addr × α)))} {x : Nat} {t : Option (Tree (Addr × α))}
    (O : Owned (Nary.shape α) W ts) (hx : ts x = some t) {p : Pat α} (hp : p.solid) (hn : p.ids.Nodup) (s : Pattern.State) :
    ∃ ok s', W.search (Nary.kind α) NNode.value p s x = Res.ok (ok, s') ∧ s'.typed = (s.typed || ok) ∧
      (ok = true → ∃ T, t = some T ∧ Fits Prod.snd p T ∧ Placed Prod.snd Prod.fst s'.marks p T) ∧
      (ok = false → s'.marks p.id = none) := by
  obtain ⟨ok, s', e, h1, h2, -, -, h3⟩ := search_star (Nary.rosy α) (Nary.lawful α) O hx hp hn s
  refine ⟨ok, s', e, h1, fun hok => ?_, fun hok => (h3 hok).1⟩
  obtain ⟨T, h4, h5⟩ := h2 hok
  cases t with
  | none => cases h4
  | some T' => cases h4; exact ⟨T, rfl, placed_fits _ _ h5, h5⟩

theorem C40_search_binary {W : World (BNode α)} {ts : Nat → Option (BTree (Addr × α))} {x : Nat} {t : BTree (Addr × α)}
    (O : Owned (Binary.shape α) W ts) (hx : ts x = some t) {p : Pat α} (hp : p.solid) (hn : p.ids.Nodup) (s : Pattern.State) :
    ∃ ok s', W.search (Binary.kind α) BNode.value p s x = Res.ok (ok, s') ∧ s'.typed = (s.typed || ok) ∧
      (ok = true → ∃ T, t.toRose = [T] ∧ Fits Prod.snd p T ∧ Placed Prod.snd Prod.fst s'.marks p T) ∧
      (ok = false → s'.marks p.id = none) := by
  obtain ⟨ok, s', e, h1, h2, -, -, h3⟩ := search_star (Binary.rosy α) (Binary.lawful α) O hx hp hn s
  refine ⟨ok, s', e, h1, fun hok => ?_, fun hok => (h3 hok).1⟩
  obtain ⟨T, h4, h5⟩ := h2 hok
  exact ⟨T, h4, placed_fits _ _ h5, h5⟩

/-- The same for a view: the node `s` anywhere inside a tree of the heap. -/
theorem C40_view_nary {h : NHeap α} {gs : List (Frame (Addr × α))} {s : Tree (Addr × α)} (hw : h.WF) (H : Nary.Rep h (plug gs s))
    {p : Pat α} (hp : p.solid) (hn : p.ids.Nodup) (m : Memo) :
    ∃ ok m', Search.search (Nary.nav h) (fun a => do pure (← h.read a).value) h.fuel (some s.addr) p m = Res.ok (ok, m') ∧
      (ok = true → Fits Prod.snd p s ∧ Placed Prod.snd Prod.fst m'.marks p s) := by
  have hsz := Nary.size_le hw H
  obtain ⟨ok, m', e, -, -, h2, -⟩ := Search.search_spec (Nary.starable H) (fuel := h.fuel) (by simp only [Heap.fuel]; omega) hp hn m rfl
  exact ⟨ok, m', e, fun hok => ⟨placed_fits _ _ (h2 hok), h2 hok⟩⟩

theorem C40_view_binary {h : BHeap α} {gs : List (BTree.Frame (Addr × α))} {a : Addr × α} {l r : BTree (Addr × α)} (hw : h.WF)
    (H : Binary.Rep h (BTree.plug gs (.node a l r))) {p : Pat α} (hp : p.solid) (hn : p.ids.Nodup) (m : Memo) :
    ∃ ok m' T, (BTree.node a l r).toRose = [T] ∧
      Search.search (Binary.nav h) (fun a => do pure (← h.read a).value) h.fuel (some a.1) p m = Res.ok (ok, m') ∧
      (ok = true → Fits Prod.snd p T ∧ Placed Prod.snd Prod.fst m'.marks p T) := by
  have hT := binary_toRose_plug gs a l r
  have hsz := Binary.size_le hw H
  have hszT := Binary.size_of_toRose hT
  obtain ⟨ok, m', e, -, -, h2, -⟩ := Search.search_spec (Binary.starable H hT) (fuel := h.fuel)
    (by rw [hszT]; simp only [Heap.fuel]; omega) hp hn m rfl
  rw [Tree.addr, label_node] at e
  exact ⟨ok, m', _, rfl, e, fun hok => ⟨placed_fits _ _ (h2 hok), h2 hok⟩⟩

/-! ## C41, C72: a search with `star` finds what is there -/

theorem C41_exact_nary {W : World (NNode α)} {ts : Nat → Option (Option (Tree (Addr × α)))} {x : Nat} {t : Option (Tree (Addr × α))}
    (O : Owned (Nary.shape α) W ts) (hx : ts x = some t) {p : Pat α} (hp : p.solid) (hs : p.single) (hn : p.ids.Nodup)
    {s : Pattern.State} (hused : SearchedIn (Nary.shape α) NNode.value ts p s) :
    ∃ ok s', W.search (Nary.kind α) NNode.value p s x = Res.ok (ok, s') ∧ (ok = true ↔ ∃ T, t = some T ∧ Fits Prod.snd p T) := by
  obtain ⟨ok, s', e, h⟩ := search_star_exact (Nary.rosy α) (Nary.lawful α) O hx hp hs hn hused
  refine ⟨ok, s', e, h.trans ?_⟩
  cases t <;> simp

theorem C41_exact_binary {W : World (BNode α)} {ts : Nat → Option (BTree (Addr × α))} {x : Nat} {t : BTree (Addr × α)}
    (O : Owned (Binary.shape α) W ts) (hx : ts x = some t) {p : Pat α} (hp : p.solid) (hs : p.single) (hn : p.ids.Nodup)
    {s : Pattern.State} (hused : SearchedIn (Binary.shape α) BNode.value ts p s) :
    ∃ ok s', W.search (Binary.kind α) BNode.value p s x = Res.ok (ok, s') ∧ (ok = true ↔ ∃ T, t.toRose = [T] ∧ Fits Prod.snd p T) :=
  search_star_exact (Binary.rosy α) (Binary.lawful α) O hx hp hs hn hused

namespace Samples
def star (q : Quantifier) (i : Nat) (test : Nat → Bool) (ps : List (Pat Nat)) : Pat Nat := .node i (.star q) test ps
def any (i : Nat) (ps : List (Pat Nat)) : Pat Nat := .node i .one (fun _ => true) ps
def anyStar (i : Nat) (ps : List (Pat Nat)) : Pat Nat := star .default i (fun _ => true) ps
def worldOf (t : Tree Nat) : World (NNode Nat) := after (Nary.kind Nat) [.newLit 0 t]
end Samples
open Samples

/-- `star()(one(), one(4))` is not found in `1(2(3, 4))`, although `3` and `4` are reached through `2`: `one()` takes `2`, there is
nothing after it for `one(4)`, and with the iterator at its end the search does not try to go below `2` (matcher.hpp 244). -/
theorem C72_two_arguments_defect :
    Fits (fun v : Nat => v) (anyStar 0 [any 1 [], one 2 4 []]) (node 1 [node 2 [node 3 [], node 4 []]]) ∧
    ∃ s, (worldOf (node 1 [node 2 [node 3 [], node 4 []]])).search (Nary.kind Nat) NNode.value (anyStar 0 [any 1 [], one 2 4 []]) unused 0 =
      Res.ok (false, s) := by
  refine ⟨?_, fail_of_test (by decide +kernel)⟩
  simp only [anyStar, star, any, one, Fits, FitsL]
  refine Or.inl ⟨trivial, fun _ => ?_, by simp⟩
  refine ⟨node 3 [], [node 4 []], .into rfl (.refl _), by simp [Fits, FitsL], node 4 [], [], .refl _, by simp [Fits, FitsL], trivial⟩

/-- `star()(opt(9), one(4))` is not found in `1(2(4(5, 6)))`, while `star()(one(4))` is. -/
theorem C72_null_argument_defect :
    (∃ s, (worldOf (node 1 [node 2 [node 4 [node 5 [], node 6 []]]])).search (Nary.kind Nat) NNode.value
      (anyStar 0 [opt 1 9 [], one 2 4 []]) unused 0 = Res.ok (false, s)) ∧
    (∃ s, (worldOf (node 1 [node 2 [node 4 [node 5 [], node 6 []]]])).search (Nary.kind Nat) NNode.value
      (anyStar 0 [one 2 4 []]) unused 0 = Res.ok (true, s)) :=
  ⟨fail_of_test (by decide +kernel), ok_of_test (by decide +kernel)⟩

namespace Samples
/-- `star()(one(2)(one(3)))` -/
def pair : Pat Nat := anyStar 0 [one 1 2 [one 2 3 []]]
/-- The tree `1(2(3))` in `x0`; then `insert_over` the `3` of `2(3)`: `1(2(2(3)))`. -/
def chain : List (Op Nat (Tree Nat)) := [.newLit 0 (node 1 [node 2 [node 3 []]])]
def longer : List (Op Nat (Tree Nat)) :=
  chain ++ [.insertOver true false Policy.preOrder 0 ⟨⟨some 2, []⟩, some 0⟩ (.lit (node 2 [node 3 []]))]
/-- A search of `x0` in the first state and one in the second. -/
def searchTwice (W W' : World (NNode Nat)) (p : Pat Nat) : Res (Bool × Bool) := do
  let (a, s) ← W.search (Nary.kind Nat) NNode.value p unused 0
  let (b, _) ← W'.search (Nary.kind Nat) NNode.value p s 0
  pure (a, b)
end Samples

/-- `star()(one(2)(one(3)))` is found in `1(2(3))`; after the `3` has been replaced by `2(3)` the same pattern object is not found,
while a new one is. -/
theorem C72_used_pattern_defect :
    searchTwice (after (Nary.kind Nat) chain) (after (Nary.kind Nat) longer) pair = Res.ok (true, false) ∧
    Nary.Rep (after (Nary.kind Nat) longer).heap (node (0,1) [node (1,2) [node (3,2) [node (4,3) []]]]) ∧
    ∃ s, (after (Nary.kind Nat) longer).search (Nary.kind Nat) NNode.value pair unused 0 = Res.ok (true, s) := by
  refine ⟨?_, by decide +kernel, ok_of_test (by decide +kernel)⟩
  obtain ⟨x, e, h⟩ := Res.ok_and (r := searchTwice (after (Nary.kind Nat) chain) (after (Nary.kind Nat) longer) pair)
    (P := fun x => x = (true, false)) (by decide +kernel)
  rw [e, h]

/-! ## The hypotheses are met -/
namespace Samples
/-- `one(1)(star()(one(7)), star<POSSESSIVE>(9)(opt(8)(cpt(one(4)))))` -/
def starPat (n : Nat) : Pat Nat :=
  one 0 1 [anyStar 1 [one 2 7 []], star .possessive 3 (· == 9) [.node 4 (.opt .default) (· == 8) [cpt 5 (one 6 n [])]]]
theorem starPat_solid (n : Nat) : (starPat n).solid := by simp [starPat, star, anyStar, one, cpt, solid, solidL]
theorem starPat_single (n : Nat) : (starPat n).single := by
  intro i q f ps h hq
  simp [starPat, star, anyStar, one, cpt, Pat.pre, Pat.preL] at h
  rcases h with ⟨_, _, _, h⟩ | ⟨_, h, _⟩
  · simp [h]
  · exact absurd h hq
/-- `star<RELUCTANT>(1)(one(3)(one(5)))` -/
def bstarPat (n : Nat) : Pat Nat := star .reluctant 0 (· == 1) [one 1 3 [one 2 n []]]
theorem bstarPat_solid (n : Nat) : (bstarPat n).solid := by simp [bstarPat, star, one, solid, solidL]
theorem bstarPat_single (n : Nat) : (bstarPat n).single := by
  intro i q f ps h hq
  simp [bstarPat, star, one, Pat.pre, Pat.preL] at h
  simp [h]
end Samples

/-- Searched twice, with a match and after that without; the pattern has been used for a tree that is unchanged. -/
example : ∃ ts s s', Owned (Nary.shape Nat) nworld ts ∧ ts 0 = some (some deep) ∧ (starPat 4).solid ∧ (starPat 4).single ∧
    (starPat 4).ids.Nodup ∧ nworld.search (Nary.kind Nat) NNode.value (starPat 4) unused 0 = Res.ok (true, s) ∧
    SearchedIn (Nary.shape Nat) NNode.value ts (starPat 4) unused ∧ SearchedIn (Nary.shape Nat) NNode.value ts (starPat 4) s ∧
    nworld.search (Nary.kind Nat) NNode.value (starPat 3) unused 0 = Res.ok (true, s') := by
  obtain ⟨ts, O, h0, _⟩ := nstate
  obtain ⟨s, e⟩ : ∃ s', nworld.search (Nary.kind Nat) NNode.value (starPat 4) unused 0 = Res.ok (true, s') := ok_of_test (by decide +kernel)
  obtain ⟨s', e'⟩ : ∃ s', nworld.search (Nary.kind Nat) NNode.value (starPat 3) unused 0 = Res.ok (true, s') := ok_of_test (by decide +kernel)
  have hn : SearchedIn (Nary.shape Nat) NNode.value ts (starPat 4) unused := .new _ (fun _ => rfl)
  exact ⟨ts, s, s', O, h0, starPat_solid 4, starPat_single 4, by decide, e, hn, .search hn O rfl e, e'⟩
example : ∃ s, nworld.search (Nary.kind Nat) NNode.value (starPat 9) unused 0 = Res.ok (false, s) := fail_of_test (by decide +kernel)
example : ∃ ts s s', Owned (Binary.shape Nat) bworld ts ∧ ts 0 = some bin ∧ (bstarPat 5).solid ∧ (bstarPat 5).single ∧
    (bstarPat 5).ids.Nodup ∧ bworld.search (Binary.kind Nat) BNode.value (bstarPat 5) unused 0 = Res.ok (true, s) ∧
    SearchedIn (Binary.shape Nat) BNode.value ts (bstarPat 5) s ∧
    bworld.search (Binary.kind Nat) BNode.value (bstarPat 6) unused 0 = Res.ok (false, s') := by
  obtain ⟨ts, O, h0, _⟩ := bstate
  obtain ⟨s, e⟩ : ∃ s', bworld.search (Binary.kind Nat) BNode.value (bstarPat 5) unused 0 = Res.ok (true, s') := ok_of_test (by decide +kernel)
  obtain ⟨s', e'⟩ : ∃ s', bworld.search (Binary.kind Nat) BNode.value (bstarPat 6) unused 0 = Res.ok (false, s') := fail_of_test (by decide +kernel)
  exact ⟨ts, s, s', O, h0, bstarPat_solid 5, bstarPat_single 5, by decide, e, .search (.new _ (fun _ => rfl)) O rfl e, e'⟩
