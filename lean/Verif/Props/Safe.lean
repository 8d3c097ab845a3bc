import Verif.Props.Star
import Verif.Props.Endless
import Verif.Proof.SafeWorld
import Verif.Proof.YieldsWorld
/-!
# C44: a search makes no invalid access; C45, C75: when it ends

C36 and C40 say that a search ends for patterns without `star` and for patterns in which nothing can match nothing. Here: any pattern.
`fuel` bounds the iterations of every loop of the model: a statement for every `fuel` says that no prefix of a run makes an invalid
access, whether the run ends or not. `settled` (Spec/Pattern.lean): no argument of a `star` that is not possessive can match nothing.
-/
open Tree World Pat
variable {α : Type}

/-! ## C44: no search makes an invalid access -/

theorem C44_safe_nary {W : World (NNode α)} {ts : Nat → Option (Option (Tree (Addr × α)))} {x : Nat} {t : Option (Tree (Addr × α))}
    (O : Owned (Nary.shape α) W ts) (hx : ts x = some t) (p : Pat α) (s : Pattern.State) :
    W.search (Nary.kind α) NNode.value p s x ≠ Res.ub ∧
      ∀ ok s', W.search (Nary.kind α) NNode.value p s x = Res.ok (ok, s') →
        ∀ i ∈ p.ids, ∀ a, s'.marks i = some a → a ∈ (Nary.shape α).addrs t := by
  refine search_sane (Nary.rosy α) (Nary.lawful α) O hx (fun A h => ?_) (fun _ _ => rfl) p s
  cases t with
  | none => cases h
  | some T => cases h; exact Nary.wired (O.rep x _ hx _ rfl)

theorem C44_safe_binary {W : World (BNode α)} {ts : Nat → Option (BTree (Addr × α))} {x : Nat} {t : BTree (Addr × α)}
    (O : Owned (Binary.shape α) W ts) (hx : ts x = some t) (p : Pat α) (s : Pattern.State) :
    W.search (Binary.kind α) BNode.value p s x ≠ Res.ub ∧
      ∀ ok s', W.search (Binary.kind α) BNode.value p s x = Res.ok (ok, s') →
        ∀ i ∈ p.ids, ∀ a, s'.marks i = some a → a ∈ t.addrs := by
  have h := search_sane (Binary.rosy α) (Binary.lawful α) O hx (fun A h => Binary.wired (O.rep x _ hx) h) (fun _ _ => rfl) p s
  rw [Binary.shape_addrs] at h
  exact h

/-- The subtree at any node of a tree: the tree itself or a view. -/
theorem C44_safe_view_nary {h : NHeap α} {gs : List (Frame (Addr × α))} {s : Tree (Addr × α)} (H : Nary.Rep h (plug gs s))
    (p : Pat α) (m : Memo) (fuel : Nat) :
    Search.search (Nary.nav h) (fun a => do pure (← h.read a).value) fuel (some s.addr) p m ≠ Res.ub ∧
      ∀ ok m', Search.search (Nary.nav h) (fun a => do pure (← h.read a).value) fuel (some s.addr) p m = Res.ok (ok, m') →
        ∀ i ∈ p.ids, ∀ a, m'.marks i = some a → a ∈ (plug gs s).addrs := by
  have hs := Search.search_safe (fuel := fuel) (Nary.wired H).steady p m (root := some s.addr) (by rintro _ ⟨⟩; exact ⟨gs, s, rfl, rfl⟩)
  exact ⟨hs.1, fun ok m' e i hi a ha => (hs.2 _ e i hi a ha).mem⟩

theorem C44_safe_view_binary {h : BHeap α} {gs : List (BTree.Frame (Addr × α))} {a : Addr × α} {l r : BTree (Addr × α)}
    (H : Binary.Rep h (BTree.plug gs (.node a l r))) (p : Pat α) (m : Memo) (fuel : Nat) :
    Search.search (Binary.nav h) (fun a => do pure (← h.read a).value) fuel (some a.1) p m ≠ Res.ub ∧
      ∀ ok m', Search.search (Binary.nav h) (fun a => do pure (← h.read a).value) fuel (some a.1) p m = Res.ok (ok, m') →
        ∀ i ∈ p.ids, ∀ b, m'.marks i = some b → b ∈ (BTree.plug gs (.node a l r)).addrs := by
  have hT := binary_toRose_plug gs a l r
  have hs := Search.search_safe (fuel := fuel) (Binary.wired H hT).steady p m (root := some a.1) (by rintro _ ⟨⟩; exact ⟨_, _, rfl, rfl⟩)
  exact ⟨hs.1, fun ok m' e i hi b hb => Has.mem_binary hT (hs.2 _ e i hi b hb)⟩

/-! ## C45, C75: when a search ends -/

theorem C45_ends_nary {W : World (NNode α)} {ts : Nat → Option (Option (Tree (Addr × α)))} {x : Nat} {t : Option (Tree (Addr × α))}
    (O : Owned (Nary.shape α) W ts) (hx : ts x = some t) {p : Pat α} (hp : p.formed) (hs : p.settled) (hn : p.ids.Nodup)
    (s : Pattern.State) :
    ∃ ok s', W.search (Nary.kind α) NNode.value p s x = Res.ok (ok, s') ∧
      ∀ i ∈ p.ids, ∀ a, s'.marks i = some a → a ∈ (Nary.shape α).addrs t := by
  refine search_ending (Nary.rosy α) (Nary.lawful α) O hx (fun A h => ?_) (fun _ _ => rfl) hp hs hn s
  cases t with
  | none => cases h
  | some T =>
    cases h
    have H := O.rep x _ hx A rfl
    have := Nary.size_le O.wf H
    exact ⟨Nary.wired H, by simp only [Heap.fuel]; omega⟩

theorem C45_ends_binary {W : World (BNode α)} {ts : Nat → Option (BTree (Addr × α))} {x : Nat} {t : BTree (Addr × α)}
    (O : Owned (Binary.shape α) W ts) (hx : ts x = some t) {p : Pat α} (hp : p.formed) (hs : p.settled) (hn : p.ids.Nodup)
    (s : Pattern.State) :
    ∃ ok s', W.search (Binary.kind α) BNode.value p s x = Res.ok (ok, s') ∧
      ∀ i ∈ p.ids, ∀ a, s'.marks i = some a → a ∈ t.addrs := by
  have h := search_ending (Binary.rosy α) (Binary.lawful α) O hx (fun A h => by
    have H := O.rep x _ hx
    have h1 := Binary.size_le O.wf H
    have h2 := Binary.size_of_toRose h
    exact ⟨Binary.wired H h, by simp only [Heap.fuel]; omega⟩) (fun _ _ => rfl) hp hs hn s
  rw [Binary.shape_addrs] at h
  exact h

theorem C45_ends_view_nary {h : NHeap α} {gs : List (Frame (Addr × α))} {s : Tree (Addr × α)} (hw : h.WF)
    (H : Nary.Rep h (plug gs s)) {p : Pat α} (hp : p.formed) (hs : p.settled) (hn : p.ids.Nodup) (m : Memo) :
    ∃ ok m', Search.search (Nary.nav h) (fun a => do pure (← h.read a).value) h.fuel (some s.addr) p m = Res.ok (ok, m') := by
  have hsz := Nary.size_le hw H
  obtain ⟨⟨ok, m'⟩, e, -⟩ := Search.Ending.search_ends (fuel := h.fuel) (Nary.wired H).ranked (by simp only [Heap.fuel]; omega) (fine_of hp hs) hn m
    (root := some s.addr) (by rintro _ ⟨⟩; exact ⟨gs, s, rfl, rfl⟩)
  exact ⟨ok, m', e⟩

theorem C45_ends_view_binary {h : BHeap α} {gs : List (BTree.Frame (Addr × α))} {a : Addr × α} {l r : BTree (Addr × α)} (hw : h.WF)
    (H : Binary.Rep h (BTree.plug gs (.node a l r))) {p : Pat α} (hp : p.formed) (hs : p.settled) (hn : p.ids.Nodup) (m : Memo) :
    ∃ ok m', Search.search (Binary.nav h) (fun a => do pure (← h.read a).value) h.fuel (some a.1) p m = Res.ok (ok, m') := by
  have hT := binary_toRose_plug gs a l r
  have h1 := Binary.size_le hw H
  have h2 := Binary.size_of_toRose hT
  obtain ⟨⟨ok, m'⟩, e, -⟩ := Search.Ending.search_ends (fuel := h.fuel) (Binary.wired H hT).ranked (by simp only [Heap.fuel]; omega) (fine_of hp hs) hn m
    (root := some a.1) (by rintro _ ⟨⟩; exact ⟨_, _, rfl, rfl⟩)
  exact ⟨ok, m', e⟩

/-- The classes of patterns of C36 and C40 are settled. -/
theorem C45_starless_settled {p : Pat α} (h : p.starless) : p.settled := fun i q f ps hm _ _ _ => (h i q f ps hm).elim

theorem C45_solid_settled {p : Pat α} (h : p.solid) : p.formed ∧ p.settled := by
  have hm := Pat.solid_mem h
  refine ⟨fun i f ps hq => ?_, fun i q f ps hq _ a ha hs => ?_⟩
  · have := hm _ hq
    simp only [solid] at this
    exact this.1
  · have h1 := hm _ hq
    simp only [solid] at h1
    have h2 := solidL_mem h1.2 a ha
    rw [skippable_iff, matchesNull_solid a h2] at hs
    cases hs

/-! ## A search that does not end, and one that leaves its view -/
open Samples

namespace Samples
/-- `opt()` -/
def anyOpt (i : Nat) : Pat Nat := .node i (.opt .default) (fun _ => true) []
/-- `one(1)(one(11)(star(1)(opt(), one(5)(opt(), one(7))), one(12)))` -/
def wanderer : Pat Nat :=
  one 0 1 [one 1 11 [star .default 2 (· == 1) [anyOpt 3, one 4 5 [anyOpt 5, one 6 7 []]], one 7 12 []]]
/-- `1(11(1(8, 5(8, 7))), 11(1(8, 5)), 11(1, 12))` -/
def maze : Tree Nat :=
  node 1 [node 11 [node 1 [node 8 [], node 5 [node 8 [], node 7 []]]], node 11 [node 1 [node 8 [], node 5 []]], node 11 [node 1 [], node 12 []]]
/-- `1(maze, 5(8, 7))` -/
def garden : World (NNode Nat) := worldOf (node 1 [maze, node 5 [node 8 [], node 7 []]])
/-- `maze` in `garden` with its addresses. -/
def mazeAt : Tree (Addr × Nat) :=
  node (1, 1) [node (5, 11) [node (13, 1) [node (14, 8) [], node (15, 5) [node (16, 8) [], node (17, 7) []]]],
    node (6, 11) [node (10, 1) [node (11, 8) [], node (12, 5) []]], node (7, 11) [node (8, 1) [], node (9, 12) []]]
end Samples

/-- A new pattern object, a tree of 14 nodes: however long the search runs, it does not end. -/
theorem C75_endless_defect :
    wanderer.formed ∧ wanderer.ids.Nodup ∧
    (∃ ts, Owned (Nary.shape Nat) (worldOf maze) ts ∧ ∃ T, ts 0 = some (some T) ∧ T.addr = 0 ∧ T.map Prod.snd = maze) ∧
    ∀ fuel, Search.search ((Nary.kind Nat).nav (worldOf maze).heap) (fun a => do pure (NNode.value (← (worldOf maze).heap.read a))) fuel
      (some 0) wanderer unused.memo = Res.diverge := by
  refine ⟨?_, by decide, ?_, Endless.endless⟩
  · intro i f ps h
    simp [wanderer, one, star, anyOpt, Pat.pre, Pat.preL] at h
  · obtain ⟨W, as, ts, h1, _, _, O⟩ := history_trace (Nary.lawful Nat) (Nary.determined Nat) [.newLit 0 maze] (start_owned (Nary.lawful Nat))
      (supports_next (Nary.lawful Nat) (start_owned (Nary.lawful Nat)) ⟨rfl, trivial⟩ (fun _ _ => trivial))
    cases h1
    exact ⟨ts, O, _, pin (Nary.determined Nat) O rfl ((Nary.shape_rep _ _).mpr (show Nary.Rep _ (node (0, 1) [
      node (1, 11) [node (9, 1) [node (10, 8) [], node (11, 5) [node (12, 8) [], node (13, 7) []]]],
      node (2, 11) [node (6, 1) [node (7, 8) [], node (8, 5) []]], node (3, 11) [node (4, 1) [], node (5, 12) []]]) by decide)) rfl, rfl, rfl⟩

/-- The same pattern in a view of `maze`, inside a larger tree: the search succeeds, with a node outside the view. -/
theorem C75_view_defect :
    Nary.Rep garden.heap (plug [⟨(0, 1), [], [node (2, 5) [node (3, 8) [], node (4, 7) []]]⟩] mazeAt) ∧ mazeAt.map Prod.snd = maze ∧
    ∃ m, Search.search (Nary.nav garden.heap) (fun a => do pure (← garden.heap.read a).value) garden.heap.fuel (some mazeAt.addr) wanderer
        unused.memo = Res.ok (true, m) ∧ m.marks 4 = some 2 ∧ 2 ∉ mazeAt.addrs := by
  refine ⟨by decide +kernel, rfl, ?_⟩
  obtain ⟨⟨ok, m⟩, e, h1, h2⟩ := Res.ok_and (r := Search.search (Nary.nav garden.heap) (fun a => do pure (← garden.heap.read a).value) garden.heap.fuel
    (some 1) wanderer unused.memo) (P := fun x => x.1 = true ∧ x.2.marks 4 = some 2) (by decide +kernel)
  refine ⟨m, ?_, h2, by decide⟩
  simp only at h1
  rw [h1] at e
  exact e

/-! ## The hypotheses are met -/
namespace Samples
/-- `one(1)(star()(one(7)), star<POSSESSIVE>(2)(opt()), opt(), cpt(star()))`: of neither of the classes of C36 and C40. -/
def calm : Pat Nat :=
  one 0 1 [anyStar 1 [one 2 7 []], star .possessive 3 (· == 2) [anyOpt 4], anyOpt 5, cpt 6 (anyStar 7 [])]
theorem calm_formed : calm.formed := by
  intro i f ps h
  simp [calm, one, star, anyStar, anyOpt, cpt, Pat.pre, Pat.preL] at h
  simp [h]
theorem calm_settled : calm.settled := by
  intro i q f ps h hq a ha
  simp [calm, one, star, anyStar, anyOpt, cpt, Pat.pre, Pat.preL] at h
  rcases h with ⟨_, _, _, h⟩ | ⟨_, h, _⟩ | ⟨_, _, _, h⟩
  · subst h; simp at ha; subst ha; simp [skippable]
  · exact absurd h hq
  · subst h; simp at ha
end Samples

example : ∃ ts s s', Owned (Nary.shape Nat) nworld ts ∧ ts 0 = some (some deep) ∧ calm.formed ∧ calm.settled ∧ calm.ids.Nodup ∧
    nworld.search (Nary.kind Nat) NNode.value calm unused 0 = Res.ok (true, s) ∧
    nworld.search (Nary.kind Nat) NNode.value calm unused 1 = Res.ok (false, s') := by
  obtain ⟨ts, O, h0, _⟩ := nstate
  obtain ⟨s, e⟩ : ∃ s', nworld.search (Nary.kind Nat) NNode.value calm unused 0 = Res.ok (true, s') := ok_of_test (by decide +kernel)
  obtain ⟨s', e'⟩ : ∃ s', nworld.search (Nary.kind Nat) NNode.value calm unused 1 = Res.ok (false, s') := fail_of_test (by decide +kernel)
  exact ⟨ts, s, s', O, h0, calm_formed, calm_settled, by decide, e, e'⟩
example : ∃ ts s', Owned (Binary.shape Nat) bworld ts ∧ ts 0 = some bin ∧ calm.formed ∧ calm.settled ∧ calm.ids.Nodup ∧
    bworld.search (Binary.kind Nat) BNode.value calm unused 0 = Res.ok (false, s') := by
  obtain ⟨ts, O, h0, _⟩ := bstate
  obtain ⟨s', e'⟩ : ∃ s', bworld.search (Binary.kind Nat) BNode.value calm unused 0 = Res.ok (false, s') := fail_of_test (by decide +kernel)
  exact ⟨ts, s', O, h0, calm_formed, calm_settled, by decide, e'⟩
/-- A search of the view at the node `2` of `deep` with a pattern that is not settled. -/
example : ∃ s, Nary.Rep nworld.heap (plug [⟨(0, 1), [], [node (2, 3) [], node (3, 4) []]⟩] (node (1, 2) [node (4, 5) [], node (5, 6) [node (6, 7) []]])) ∧
    ¬ (anyStar 0 [anyOpt 1, one 2 7 []]).settled ∧
    Search.search (Nary.nav nworld.heap) (fun a => do pure (← nworld.heap.read a).value) nworld.heap.fuel (some 1)
      (anyStar 0 [anyOpt 1, one 2 7 []]) unused.memo = Res.ok (true, s) := by
  obtain ⟨s, e⟩ : ∃ s', Search.search (Nary.nav nworld.heap) (fun a => do pure (← nworld.heap.read a).value) nworld.heap.fuel (some 1)
      (anyStar 0 [anyOpt 1, one 2 7 []]) unused.memo = Res.ok (true, s') := ok_of_test (by decide +kernel)
  refine ⟨s, by decide, fun h => ?_, e⟩
  exact h 0 .default (fun _ => true) [anyOpt 1, one 2 7 []] (by simp [anyStar, star, Pat.pre]) (by simp) (anyOpt 1) (by simp) (by simp [anyOpt, skippable, skippableL])
