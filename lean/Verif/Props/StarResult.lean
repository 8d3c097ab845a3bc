import Verif.Props.Star
import Verif.Proof.YieldsBin
/-!
# C42, C73: the results of patterns with `star`

`Pat.Yields` and `Tree.Kept` (Spec/Yields.lean) say what the tree built from a match consists of. `solid`: no matcher of the
pattern can match nothing. `thin`: every reluctant `star` has one argument.
-/
open Tree World Pat
variable {α : Type}

/-- After a successful search of the tree `T` of `x`, in any state in which `x` still holds it, `assign_result` makes `y` (which
may be `x`) a tree of new nodes, the one of the match. Nothing else changes. -/
theorem C42_result_nary {W W2 : World (NNode α)} {ts ts2 : Nat → Option (Option (Tree (Addr × α)))} {x y : Nat} {T : Tree (Addr × α)}
    {u : Option (Tree (Addr × α))} (O : Owned (Nary.shape α) W ts) (hx : ts x = some (some T)) {p : Pat α} (hp : p.solid) (ht : p.thin)
    (hn : p.ids.Nodup) {s s' : Pattern.State} (hsearch : W.search (Nary.kind α) NNode.value p s x = Res.ok (true, s'))
    (O2 : Owned (Nary.shape α) W2 ts2) (hx2 : ts2 x = some (some T)) (hy : ts2 y = some u) :
    ∃ W' c n, W2.assignResult (Nary.kind α) NNode.value (Nary.builder α) p s' y = Res.ok (true, W') ∧
      Owned (Nary.shape α) W' (upd ts2 y (some (some n))) ∧ n.vals = c.vals ∧ Tree.Part c T ∧
      Yields Prod.snd Prod.fst s'.marks p T c ∧ (∀ a ∈ n.addrs, W2.heap.cells a = none) ∧
      (∀ z, z ≠ y → W'.vars z = W2.vars z) := by
  obtain ⟨ok, s1, e, h1, h2, -⟩ := search_star (Nary.rosy α) (Nary.lawful α) O hx hp hn s
  cases hsearch.symm.trans e
  obtain ⟨A, hA, hP⟩ := h2 rfl
  simp at hA
  subst hA
  exact Nary.assignYield_spec O2 hx2 hy hp ht (by rw [h1]; simp) (gs := []) rfl hP

theorem C42_result_binary {W W2 : World (BNode α)} {ts ts2 : Nat → Option (BTree (Addr × α))} {x y : Nat} {t u : BTree (Addr × α)}
    (O : Owned (Binary.shape α) W ts) (hx : ts x = some t) {p : Pat α} (hp : p.solid) (ht : p.thin)
    (hn : p.ids.Nodup) {s s' : Pattern.State} (hsearch : W.search (Binary.kind α) BNode.value p s x = Res.ok (true, s'))
    (O2 : Owned (Binary.shape α) W2 ts2) (hx2 : ts2 x = some t) (hy : ts2 y = some u) :
    ∃ W' c n T C, W2.assignResult (Binary.kind α) BNode.value (Binary.builder α) p s' y = Res.ok (true, W') ∧
      Owned (Binary.shape α) W' (upd ts2 y (some n)) ∧ n.vals = c.vals ∧ BTree.Part c t ∧ t.toRose = [T] ∧ c.toRose = [C] ∧
      Yields Prod.snd Prod.fst s'.marks p T C ∧ (∀ a ∈ n.addrs, W2.heap.cells a = none) ∧
      (∀ z, z ≠ y → W'.vars z = W2.vars z) := by
  obtain ⟨ok, s1, e, h1, h2, -⟩ := search_star (Binary.rosy α) (Binary.lawful α) O hx hp hn s
  cases hsearch.symm.trans e
  obtain ⟨A, hA, hP⟩ := h2 rfl
  obtain ⟨W', c, b, gs, n, C, k1, k2, k3, k4, k5, k6, k7, k8, k9, k10, k11, k12⟩ :=
    Binary.assignYield_spec O2 hx2 hA hy hp ht (by rw [h1]; simp) (fs := []) rfl hP
  simp at k5
  subst k5
  subst k4
  exact ⟨W', c, n, A, C, k1, k2, k3, k7, hA, k8, k10, k11, k12⟩

/-- The same for `assign_mark` with the number `k` of a capture: the node `v` it remembers and what is below. -/
theorem C42_mark_nary {W W2 : World (NNode α)} {ts ts2 : Nat → Option (Option (Tree (Addr × α)))} {x y k : Nat} {T : Tree (Addr × α)}
    {u : Option (Tree (Addr × α))} (O : Owned (Nary.shape α) W ts) (hx : ts x = some (some T)) {p q : Pat α} (hp : p.solid) (ht : p.thin)
    (hn : p.ids.Nodup) {s s' : Pattern.State} (hsearch : W.search (Nary.kind α) NNode.value p s x = Res.ok (true, s'))
    (hq : (p.pre.filter (fun q => q.kind = .cpt))[k - 1]? = some q)
    (O2 : Owned (Nary.shape α) W2 ts2) (hx2 : ts2 x = some (some T)) (hy : ts2 y = some u) :
    ∃ W' c n fs v, W2.assignMark (Nary.kind α) NNode.value (Nary.builder α) p s' k y = Res.ok (true, W') ∧
      Owned (Nary.shape α) W' (upd ts2 y (some (some n))) ∧ n.vals = c.vals ∧ plug fs v = T ∧ s'.marks q.id = some v.label.1 ∧ Tree.Part c v ∧
      Yields Prod.snd Prod.fst s'.marks q v c ∧ (∀ a ∈ n.addrs, W2.heap.cells a = none) ∧
      (∀ z, z ≠ y → W'.vars z = W2.vars z) := by
  obtain ⟨ok, s1, e, h1, h2, -⟩ := search_star (Nary.rosy α) (Nary.lawful α) O hx hp hn s
  cases hsearch.symm.trans e
  obtain ⟨A, hA, hP⟩ := h2 rfl
  simp at hA
  subst hA
  have hmem : q ∈ p.pre := (List.mem_filter.mp (List.mem_of_getElem? hq)).1
  obtain ⟨fs, v, hv, hF⟩ := placed_sub p T hP q hmem
  obtain ⟨W', c, n, k1, k2, k3, k4, k5, k6, k7⟩ :=
    Nary.assignYield_spec O2 hx2 hy (solid_mem hp q hmem) (thin_mem ht q hmem) (by rw [h1]; simp) hv hF
  refine ⟨W', c, n, fs, v, ?_, k2, k3, hv, placed_mark hF, k4, k5, k6, k7⟩
  rw [World.assignMark, captures_pre, hq]
  exact k1

theorem C42_mark_binary {W W2 : World (BNode α)} {ts ts2 : Nat → Option (BTree (Addr × α))} {x y k : Nat} {t u : BTree (Addr × α)}
    (O : Owned (Binary.shape α) W ts) (hx : ts x = some t) {p q : Pat α} (hp : p.solid) (ht : p.thin)
    (hn : p.ids.Nodup) {s s' : Pattern.State} (hsearch : W.search (Binary.kind α) BNode.value p s x = Res.ok (true, s'))
    (hq : (p.pre.filter (fun q => q.kind = .cpt))[k - 1]? = some q)
    (O2 : Owned (Binary.shape α) W2 ts2) (hx2 : ts2 x = some t) (hy : ts2 y = some u) :
    ∃ W' c n fs v V C, W2.assignMark (Binary.kind α) BNode.value (Binary.builder α) p s' k y = Res.ok (true, W') ∧
      Owned (Binary.shape α) W' (upd ts2 y (some n)) ∧ n.vals = c.vals ∧ BTree.plug fs v = t ∧ s'.marks q.id = v.addr? ∧ BTree.Part c v ∧
      v.toRose = [V] ∧ c.toRose = [C] ∧ Yields Prod.snd Prod.fst s'.marks q V C ∧ (∀ a ∈ n.addrs, W2.heap.cells a = none) ∧
      (∀ z, z ≠ y → W'.vars z = W2.vars z) := by
  obtain ⟨ok, s1, e, h1, h2, -⟩ := search_star (Binary.rosy α) (Binary.lawful α) O hx hp hn s
  cases hsearch.symm.trans e
  obtain ⟨A, hA, hP⟩ := h2 rfl
  have hmem : q ∈ p.pre := (List.mem_filter.mp (List.mem_of_getElem? hq)).1
  obtain ⟨fs, v, hv, hF⟩ := placed_sub p A hP q hmem
  obtain ⟨W', c, b, gs, n, C, k1, k2, k3, k4, k5, k6, k7, k8, k9, k10, k11, k12⟩ :=
    Binary.assignYield_spec O2 hx2 hA hy (solid_mem hp q hmem) (thin_mem ht q hmem) (by rw [h1]; simp) hv hF
  refine ⟨W', c, n, gs, b, v, C, ?_, k2, k3, k4, ?_, k7, k6, k8, k10, k11, k12⟩
  · rw [World.assignMark, captures_pre, hq]
    exact k1
  · rw [placed_mark hF]
    cases b with
    | nil => cases k6
    | node a l r => cases k6; rfl

open Samples
theorem starPat_thin (n : Nat) : (starPat n).thin := by
  intro i f ps h
  simp [starPat, star, anyStar, one, cpt, Pat.pre, Pat.preL] at h
theorem bstarPat_thin (n : Nat) : (bstarPat n).thin := by
  intro i f ps h
  simp [bstarPat, star, one, Pat.pre, Pat.preL] at h
  simp [h]

namespace Samples
/-- `cpt(star<q>(v)(cpt(one(5)), one(4)))` for the values `v` below 3 and above 5. -/
def twoArgs (q : Quantifier) : Pat Nat := cpt 0 (star q 1 (fun v => v < 3 || 5 < v) [cpt 2 (one 3 5 []), one 4 4 []])
theorem twoArgs_solid (q : Quantifier) : (twoArgs q).solid := by simp [twoArgs, star, one, cpt, solid, solidL]
theorem twoArgs_thin {q : Quantifier} (h : q ≠ .reluctant) : (twoArgs q).thin := by
  intro i f ps h'
  simp [twoArgs, star, one, cpt, Pat.pre, Pat.preL] at h'
  exact absurd h'.2.1.symm h
end Samples

/-- Searched in `x0`, the result assigned to `x1`, and to `x0` itself. -/
example : ∃ ts s, Owned (Nary.shape Nat) nworld ts ∧ ts 0 = some (some deep) ∧ ts 1 = some none ∧ (starPat 4).solid ∧ (starPat 4).thin ∧
    (starPat 4).ids.Nodup ∧ nworld.search (Nary.kind Nat) NNode.value (starPat 4) unused 0 = Res.ok (true, s) ∧
    ((starPat 4).pre.filter (fun q => q.kind = .cpt)).length = 1 := by
  obtain ⟨ts, O, h0, h1, _⟩ := nstate
  obtain ⟨s, e⟩ : ∃ s', nworld.search (Nary.kind Nat) NNode.value (starPat 4) unused 0 = Res.ok (true, s') := ok_of_test (by decide +kernel)
  exact ⟨ts, s, O, h0, h1, starPat_solid 4, starPat_thin 4, by decide, e, by decide⟩
/-- Two arguments: each quantifier but `reluctant`. -/
example : ∃ ts, ∃ s : Quantifier → Pattern.State, Owned (Nary.shape Nat) nworld ts ∧ ts 0 = some (some deep) ∧ ∀ q, q ≠ .reluctant →
    (twoArgs q).solid ∧ (twoArgs q).thin ∧ (twoArgs q).ids.Nodup ∧
      nworld.search (Nary.kind Nat) NNode.value (twoArgs q) unused 0 = Res.ok (true, s q) := by
  obtain ⟨ts, O, h0, h1, _⟩ := nstate
  have : ∀ q, ∃ s, nworld.search (Nary.kind Nat) NNode.value (twoArgs q) unused 0 = Res.ok (true, s) := by
    intro q
    cases q <;> exact ok_of_test (by decide +kernel)
  exact ⟨ts, fun q => (this q).choose, O, h0, fun q hq => ⟨twoArgs_solid q, twoArgs_thin hq, by cases q <;> decide, (this q).choose_spec⟩⟩
example : ∃ ts s, Owned (Binary.shape Nat) bworld ts ∧ ts 0 = some bin ∧ (bstarPat 5).solid ∧ (bstarPat 5).thin ∧
    (bstarPat 5).ids.Nodup ∧ bworld.search (Binary.kind Nat) BNode.value (bstarPat 5) unused 0 = Res.ok (true, s) := by
  obtain ⟨ts, O, h0, _⟩ := bstate
  obtain ⟨s, e⟩ : ∃ s', bworld.search (Binary.kind Nat) BNode.value (bstarPat 5) unused 0 = Res.ok (true, s') := ok_of_test (by decide +kernel)
  exact ⟨ts, s, O, h0, bstarPat_solid 5, bstarPat_thin 5, by decide, e⟩

/-! ## Where the claim fails -/

namespace Samples
/-- `star<RELUCTANT>()(one(3), one(4))` -/
def reluctantTwo : Pat Nat := star .reluctant 0 (fun _ => true) [one 1 3 [], one 2 4 []]
end Samples

/-- `star<RELUCTANT>()(one(3), one(4))` in `1(2(3, 4))`: the result is `1(2(3), 2(4))`, which is not a part of the tree: the top
node of the way to an argument is not remembered (multi_matcher.hpp 190-203). -/
theorem C73_copies_defect : ∃ W' n, searchAssign (Nary.kind Nat) NNode.value (Nary.builder Nat)
      (after (Nary.kind Nat) [.newLit 0 (node 1 [node 2 [node 3 [], node 4 []]]), .newEmpty 1]) reluctantTwo = Res.ok (true, W') ∧
    W'.vars 1 = some ⟨some n.addr, 0, 0, some n.addr⟩ ∧ Nary.Rep W'.heap n ∧
    n.vals = node 1 [node 2 [node 3 []], node 2 [node 4 []]] ∧ ¬ Tree.Part n.vals (node 1 [node 2 [node 3 [], node 4 []]]) := by
  obtain ⟨⟨b, W'⟩, e, rfl, h1, h2⟩ := Res.ok_and (r := searchAssign (Nary.kind Nat) NNode.value (Nary.builder Nat)
      (after (Nary.kind Nat) [.newLit 0 (node 1 [node 2 [node 3 [], node 4 []]]), .newEmpty 1]) reluctantTwo)
    (P := fun x => x.1 = true ∧ x.2.vars 1 = some ⟨some 4, 0, 0, some 4⟩ ∧
      Nary.Rep x.2.heap (node (4, 1) [node (6, 2) [node (5, 3) []], node (8, 2) [node (7, 4) []]]))
    (by decide +kernel)
  refine ⟨W', node (4, 1) [node (6, 2) [node (5, 3) []], node (8, 2) [node (7, 4) []]], e, h1, h2, rfl, ?_⟩
  clear e h1 h2
  simp [Tree.vals, Tree.map, Tree.mapL, Tree.Part, Tree.PartL, List.cons_eq_append_iff, or_imp, forall_and]
  rintro _ _ _ - - rfl - _ _ _ - - _ _ _ h
  simp at h

/-- The same in the binary tree `1(2(3, 4))`: the two copies of `2` are both to be the left child of `1`; an assertion fails
(binary_node.hpp 265-271). -/
theorem C73_binary_defect :
    searchAssign (Binary.kind Nat) BNode.value (Binary.builder Nat)
      (after (Binary.kind Nat) [.newLit 0 (node (some 1) [node (some 2) [node (some 3) [], node (some 4) []]]), .newEmpty 1]) reluctantTwo =
    Res.ub := ub_of_test (by decide +kernel)

/-- A reluctant `star` with an argument that matched nothing, `star<RELUCTANT>()(one(3), opt(9))` in `1(2(3))`: the search
succeeds, the result is computed from a null pointer (multi_matcher.hpp 204-209). -/
theorem C73_null_defect :
    (∃ s, (worldOf (node 1 [node 2 [node 3 []]])).search (Nary.kind Nat) NNode.value
      (star .reluctant 0 (fun _ => true) [one 1 3 [], opt 2 9 []]) unused 0 = Res.ok (true, s)) ∧
    searchAssign (Nary.kind Nat) NNode.value (Nary.builder Nat)
      (after (Nary.kind Nat) [.newLit 0 (node 1 [node 2 [node 3 []]]), .newEmpty 1]) (star .reluctant 0 (fun _ => true) [one 1 3 [], opt 2 9 []]) =
    Res.ub := ⟨ok_of_test (by decide +kernel), ub_of_test (by decide +kernel)⟩
