import Verif.Props.Star
import Verif.Proof.TookWorld
/-!
# C105, C106: which nodes a pattern with `star` remembers

`Pat.Took` (Spec/Took.lean): every argument has taken the first subtree it matches, in the order in which it is looked for.
`Pat.sharp`: no argument of a `star` that is not possessive matches at a node the `star` accepts. `solid`, `single`, `SearchedIn`
as for C41.
-/
open Tree World Pat
variable {α : Type}

/-! ## C105: the first match -/

theorem C105_first_nary {W : World (NNode α)} {ts : Nat → Option (Option (Tree (Addr × α)))} {x : Nat} {t : Option (Tree (Addr × α))}
    (O : Owned (Nary.shape α) W ts) (hx : ts x = some t) {p : Pat α} (hp : p.solid) (hs : p.single) (hn : p.ids.Nodup)
    {s s' : Pattern.State} (hused : SearchedIn (Nary.shape α) NNode.value ts p s)
    (hsearch : W.search (Nary.kind α) NNode.value p s x = Res.ok (true, s')) :
    ∃ T, t = some T ∧ Took Prod.snd Prod.fst s'.marks p T := by
  obtain ⟨T, h1, h2⟩ := search_took (Nary.rosy α) (Nary.lawful α) O hx hp hs hn hused hsearch
  cases t with
  | none => cases h1
  | some T' => cases h1; exact ⟨T, rfl, h2⟩

theorem C105_first_binary {W : World (BNode α)} {ts : Nat → Option (BTree (Addr × α))} {x : Nat} {t : BTree (Addr × α)}
    (O : Owned (Binary.shape α) W ts) (hx : ts x = some t) {p : Pat α} (hp : p.solid) (hs : p.single) (hn : p.ids.Nodup)
    {s s' : Pattern.State} (hused : SearchedIn (Binary.shape α) BNode.value ts p s)
    (hsearch : W.search (Binary.kind α) BNode.value p s x = Res.ok (true, s')) :
    ∃ T, t.toRose = [T] ∧ Took Prod.snd Prod.fst s'.marks p T :=
  search_took (Binary.rosy α) (Binary.lawful α) O hx hp hs hn hused hsearch

/-- For a pattern object not used before with a `star` (no `subtree_cut`) the same for a view: the node `s` anywhere inside a tree. -/
theorem C105_view_nary {h : NHeap α} {gs : List (Frame (Addr × α))} {s : Tree (Addr × α)} (hw : h.WF) (H : Nary.Rep h (plug gs s))
    {p : Pat α} (hp : p.solid) (hs : p.single) (hn : p.ids.Nodup) {m m' : Memo} (hnew : ∀ i, m.cuts i = none)
    (hsearch : Search.search (Nary.nav h) (fun a => do pure (← h.read a).value) h.fuel (some s.addr) p m = Res.ok (true, m')) :
    Took Prod.snd Prod.fst m'.marks p s := by
  have hsz := Nary.size_le hw H
  exact Search.search_took (R := fun _ _ => True) (Nary.starable H) (fuel := h.fuel) (by simp only [Heap.fuel]; omega) hp hn rfl
    (fun i q f ps hm hq => ⟨hs i q f ps hm hq, by simp [hnew], by simp [hnew]⟩) hsearch

theorem C105_view_binary {h : BHeap α} {gs : List (BTree.Frame (Addr × α))} {a : Addr × α} {l r : BTree (Addr × α)} (hw : h.WF)
    (H : Binary.Rep h (BTree.plug gs (.node a l r))) {p : Pat α} (hp : p.solid) (hs : p.single) (hn : p.ids.Nodup) {m m' : Memo}
    (hnew : ∀ i, m.cuts i = none)
    (hsearch : Search.search (Binary.nav h) (fun a => do pure (← h.read a).value) h.fuel (some a.1) p m = Res.ok (true, m')) :
    ∃ T, (BTree.node a l r).toRose = [T] ∧ Took Prod.snd Prod.fst m'.marks p T := by
  have hT := binary_toRose_plug gs a l r
  have hsz := Binary.size_le hw H
  have hszT := Binary.size_of_toRose hT
  refine ⟨_, rfl, ?_⟩
  exact Search.search_took (R := fun _ _ => True) (Binary.starable H hT) (fuel := h.fuel) (by rw [hszT]; simp only [Heap.fuel]; omega) hp hn rfl
    (fun i q f ps hm hq => ⟨hs i q f ps hm hq, by simp [hnew], by simp [hnew]⟩) hsearch

/-- A new pattern `star(…)(a)` whose `star` accepts the value of the searched node looks below it first: when `a` matches a node reached
there, the first of them is the one it takes. -/
theorem C105_descends_nary {h : NHeap α} {gs : List (Frame (Addr × α))} {s : Tree (Addr × α)} (hw : h.WF) (H : Nary.Rep h (plug gs s))
    {i : Nat} {q : Quantifier} {f : α → Bool} {a : Pat α} (hq : q ≠ .possessive) (hp : (Pat.node i (.star q) f [a]).solid)
    (hs : (Pat.node i (.star q) f [a]).single) (hn : (Pat.node i (.star q) f [a]).ids.Nodup) {m : Memo} (hnew : ∀ j, m.cuts j = none)
    (hroot : f s.label.2 = true) {u : Tree (Addr × α)} {r : List (Tree (Addr × α))}
    (hfirst : Tree.First (fun b : Addr × α => f b.2) (Fits Prod.snd a) s.children u r) (hfit : Fits Prod.snd a u) :
    ∃ m', Search.search (Nary.nav h) (fun a => do pure (← h.read a).value) h.fuel (some s.addr) (Pat.node i (.star q) f [a]) m =
      Res.ok (true, m') ∧ m'.marks i = some s.addr ∧ m'.marks a.id = some u.addr ∧ Took Prod.snd Prod.fst m'.marks a u := by
  have hsz := Nary.size_le hw H
  obtain ⟨m', e, h1, h2⟩ := Search.search_descends (Nary.starable H) (fuel := h.fuel) (by simp only [Heap.fuel]; omega) hq hp hs hn
    (gs := gs) (u := s) rfl hnew hroot (by simp only [FitsS, and_true]; exact ⟨u, r, hfirst.opens, hfit⟩)
  simp only [TookS, and_true] at h2
  obtain ⟨u', r', h3, h4⟩ := h2
  obtain ⟨rfl, rfl⟩ := hfirst.unique hfit h3 (took_fits _ _ h4)
  exact ⟨m', e, h1, took_mark h4, h4⟩

theorem C105_descends_binary {h : BHeap α} {gs : List (BTree.Frame (Addr × α))} {b : Addr × α} {l r : BTree (Addr × α)} (hw : h.WF)
    (H : Binary.Rep h (BTree.plug gs (.node b l r)))
    {i : Nat} {q : Quantifier} {f : α → Bool} {a : Pat α} (hq : q ≠ .possessive) (hp : (Pat.node i (.star q) f [a]).solid)
    (hs : (Pat.node i (.star q) f [a]).single) (hn : (Pat.node i (.star q) f [a]).ids.Nodup) {m : Memo} (hnew : ∀ j, m.cuts j = none)
    (hroot : f b.2 = true) {u : Tree (Addr × α)} {v : List (Tree (Addr × α))}
    (hfirst : Tree.First (fun c : Addr × α => f c.2) (Fits Prod.snd a) (l.toRose ++ r.toRose) u v) (hfit : Fits Prod.snd a u) :
    ∃ m', Search.search (Binary.nav h) (fun a => do pure (← h.read a).value) h.fuel (some b.1) (Pat.node i (.star q) f [a]) m =
      Res.ok (true, m') ∧ m'.marks i = some b.1 ∧ m'.marks a.id = some u.addr ∧ Took Prod.snd Prod.fst m'.marks a u := by
  have hT := binary_toRose_plug gs b l r
  have hsz := Binary.size_le hw H
  have hszT := Binary.size_of_toRose hT
  obtain ⟨m', e, h1, h2⟩ := Search.search_descends (Binary.starable H hT) (fuel := h.fuel) (by rw [hszT]; simp only [Heap.fuel]; omega) hq hp hs hn
    rfl hnew hroot (by simp only [FitsS, and_true]; exact ⟨u, v, hfirst.opens, hfit⟩)
  simp only [TookS, and_true] at h2
  obtain ⟨u', r', h3, h4⟩ := h2
  obtain ⟨rfl, rfl⟩ := hfirst.unique hfit h3 (took_fits _ _ h4)
  exact ⟨m', e, h1, took_mark h4, h4⟩

/-! ## C106: nothing else decides -/

/-- What two searches of the same tree with the same sharp pattern remember is the same, whatever either pattern object was used for. -/
theorem C106_same_nodes_nary_partial {W W' : World (NNode α)} {ts ts' : Nat → Option (Option (Tree (Addr × α)))} {x x' : Nat}
    {t : Option (Tree (Addr × α))} (O : Owned (Nary.shape α) W ts) (O' : Owned (Nary.shape α) W' ts') (hx : ts x = some t)
    (hx' : ts' x' = some t) {p : Pat α} (hp : p.solid) (hs : p.single) (hsh : p.sharp) (hn : p.ids.Nodup) {s1 s2 s1' s2' : Pattern.State}
    (h1 : SearchedIn (Nary.shape α) NNode.value ts p s1) (h2 : SearchedIn (Nary.shape α) NNode.value ts' p s2)
    (e1 : W.search (Nary.kind α) NNode.value p s1 x = Res.ok (true, s1')) (e2 : W'.search (Nary.kind α) NNode.value p s2 x' = Res.ok (true, s2')) :
    ∀ i ∈ p.ids, s1'.marks i = s2'.marks i := by
  obtain ⟨T, h3, h4⟩ := C105_first_nary O hx hp hs hn h1 e1
  obtain ⟨T', h5, h6⟩ := C105_first_nary O' hx' hp hs hn h2 e2
  cases h3.symm.trans h5
  exact took_unique p hsh hp T h4 h6

theorem C106_same_nodes_binary_partial {W W' : World (BNode α)} {ts ts' : Nat → Option (BTree (Addr × α))} {x x' : Nat}
    {t : BTree (Addr × α)} (O : Owned (Binary.shape α) W ts) (O' : Owned (Binary.shape α) W' ts') (hx : ts x = some t)
    (hx' : ts' x' = some t) {p : Pat α} (hp : p.solid) (hs : p.single) (hsh : p.sharp) (hn : p.ids.Nodup) {s1 s2 s1' s2' : Pattern.State}
    (h1 : SearchedIn (Binary.shape α) BNode.value ts p s1) (h2 : SearchedIn (Binary.shape α) BNode.value ts' p s2)
    (e1 : W.search (Binary.kind α) BNode.value p s1 x = Res.ok (true, s1')) (e2 : W'.search (Binary.kind α) BNode.value p s2 x' = Res.ok (true, s2')) :
    ∀ i ∈ p.ids, s1'.marks i = s2'.marks i := by
  obtain ⟨T, h3, h4⟩ := C105_first_binary O hx hp hs hn h1 e1
  obtain ⟨T', h5, h6⟩ := C105_first_binary O' hx' hp hs hn h2 e2
  cases h3.symm.trans h5
  exact took_unique p hsh hp T h4 h6

open Samples
namespace Samples
/-- `one(5)(star()(one(7)), one(8))` -/
def inner : Pat Nat := one 1 5 [anyStar 2 [one 3 7 []], one 4 8 []]
/-- `1(5(2(5(7(7), 8))))` -/
def outerTree : Tree Nat := node 1 [node 5 [node 2 [node 5 [node 7 [node 7 []], node 8 []]]]]
/-- What the pattern remembers for the matchers below `n` after a search of `x0`. -/
def remembers (p : Pat Nat) (t : Tree Nat) (n : Nat) : Res (Bool × List Ptr) := do
  let (b, s) ← (worldOf t).search (Nary.kind Nat) NNode.value p unused 0
  pure (b, (List.range n).map s.marks)
end Samples

/-- `one(5)(star()(one(7)), one(8))` in `5(7(7), 8)`: the `star` is the upper `7` and `one(7)` the lower one. As the argument of a
`star()` that takes this node of `1(5(2(5(7(7), 8))))`, the inner `star` and `one(7)` are both the upper `7`: before, below the upper
`5`, it was reached from the `2`, and the search does not go below the node remembered then (multi_matcher.hpp 51-67, 278). -/
theorem C106_inner_star_defect :
    remembers inner (node 5 [node 7 [node 7 []], node 8 []]) 5 = Res.ok (true, [none, some 0, some 1, some 3, some 2]) ∧
    Nary.Rep (worldOf (node 5 [node 7 [node 7 []], node 8 []])).heap (node (0,5) [node (1,7) [node (3,7) []], node (2,8) []]) ∧
    remembers (anyStar 0 [inner]) outerTree 5 = Res.ok (true, [some 0, some 3, some 4, some 4, some 5]) ∧
    Nary.Rep (worldOf outerTree).heap (node (0,1) [node (1,5) [node (2,2) [node (3,5) [node (4,7) [node (6,7) []], node (5,8) []]]]]) ∧
    (anyStar 0 [inner]).solid ∧ (anyStar 0 [inner]).single ∧ (anyStar 0 [inner]).ids.Nodup := by
  refine ⟨?_, by decide +kernel, ?_, by decide +kernel, by simp [inner, anyStar, star, one, solid, solidL], ?_, by decide⟩
  · obtain ⟨x, e, h⟩ := Res.ok_and (r := remembers inner (node 5 [node 7 [node 7 []], node 8 []]) 5)
      (P := fun x => x = (true, [none, some 0, some 1, some 3, some 2])) (by decide +kernel)
    rw [e, h]
  · obtain ⟨x, e, h⟩ := Res.ok_and (r := remembers (anyStar 0 [inner]) outerTree 5)
      (P := fun x => x = (true, [some 0, some 3, some 4, some 4, some 5])) (by decide +kernel)
    rw [e, h]
  · intro i q f ps h hq
    simp [inner, anyStar, star, one, Pat.pre, Pat.preL] at h
    rcases h with ⟨_, _, _, h⟩ | ⟨_, _, _, h⟩ <;> simp [h]

namespace Samples
/-- Searches of the view of the node `1` of `1(7(7))` with `star()(one(7))`: after a search of the whole tree, and with a new pattern. -/
def viewTwice : Res ((Bool × List Ptr) × (Bool × List Ptr)) := do
  let W := worldOf (node 1 [node 7 [node 7 []]])
  let p := anyStar 0 [one 1 7 []]
  let view := fun m => Search.search (Nary.nav W.heap) (fun a => do pure (← W.heap.read a).value) W.heap.fuel (some 1) p m
  let (_, s) ← W.search (Nary.kind Nat) NNode.value p unused 0
  let (a, m) ← view s.memo
  let (b, m') ← view unused.memo
  pure ((a, [m.marks 0, m.marks 1]), (b, [m'.marks 0, m'.marks 1]))
end Samples

/-- After a search of `1(7(7))` with `star()(one(7))`, a search of the view of the upper `7` says that `one(7)` is the upper `7`; with
a new pattern it is the lower one. -/
theorem C106_used_pattern_defect : viewTwice = Res.ok ((true, [some 1, some 1]), (true, [some 1, some 2])) ∧
    Nary.Rep (worldOf (node 1 [node 7 [node 7 []]])).heap (node (0,1) [node (1,7) [node (2,7) []]]) := by
  refine ⟨?_, by decide +kernel⟩
  obtain ⟨x, e, h⟩ := Res.ok_and (r := viewTwice) (P := fun x => x = ((true, [some 1, some 1]), (true, [some 1, some 2])))
    (by decide +kernel)
  rw [e, h]

/-! ## The hypotheses are met -/
namespace Samples
/-- `star(v)(one(n))` for the values `v` other than `n`. -/
def toFirst (n : Nat) : Pat Nat := star .default 0 (· != n) [one 1 n []]
theorem toFirst_solid (n : Nat) : (toFirst n).solid := by simp [toFirst, star, one, solid, solidL]
theorem toFirst_single (n : Nat) : (toFirst n).single := by
  intro i q f ps h hq
  simp [toFirst, star, one, Pat.pre, Pat.preL] at h
  simp [h]
theorem toFirst_sharp (n : Nat) : (toFirst n).sharp := by
  intro i q f ps h hq a ha t hf
  simp [toFirst, star, one, Pat.pre, Pat.preL] at h
  obtain ⟨_, _, rfl, rfl⟩ := h
  simp at ha
  subst ha
  simp [Fits] at hf
  simp [hf.1]
end Samples

example : ∃ ts s s', Owned (Nary.shape Nat) nworld ts ∧ ts 0 = some (some deep) ∧ (starPat 4).solid ∧ (starPat 4).single ∧
    (starPat 4).ids.Nodup ∧ nworld.search (Nary.kind Nat) NNode.value (starPat 4) unused 0 = Res.ok (true, s) ∧
    SearchedIn (Nary.shape Nat) NNode.value ts (starPat 4) s ∧
    nworld.search (Nary.kind Nat) NNode.value (starPat 4) s 0 = Res.ok (true, s') := by
  obtain ⟨ts, O, h0, h1, _⟩ := nstate
  obtain ⟨s, e⟩ : ∃ s', nworld.search (Nary.kind Nat) NNode.value (starPat 4) unused 0 = Res.ok (true, s') := ok_of_test (by decide +kernel)
  have H : SearchedIn (Nary.shape Nat) NNode.value ts (starPat 4) s := .search (.new unused fun _ => rfl) O rfl e
  obtain ⟨ok, s', e', h⟩ := C41_exact_nary O h0 (starPat_solid 4) (starPat_single 4) (by decide) H
  have hF := (C105_first_nary O h0 (starPat_solid 4) (starPat_single 4) (by decide) (.new unused fun _ => rfl) e)
  obtain ⟨T, hT, hF⟩ := hF
  cases h.mpr ⟨T, hT, took_fits _ _ hF⟩
  exact ⟨ts, s, s', O, h0, starPat_solid 4, starPat_single 4, by decide, e, H, e'⟩

/-- Sharp patterns, searched with a match. -/
example : ∃ ts s, Owned (Nary.shape Nat) nworld ts ∧ ts 0 = some (some deep) ∧ (toFirst 7).solid ∧ (toFirst 7).single ∧ (toFirst 7).sharp ∧
    (toFirst 7).ids.Nodup ∧ nworld.search (Nary.kind Nat) NNode.value (toFirst 7) unused 0 = Res.ok (true, s) ∧
    SearchedIn (Nary.shape Nat) NNode.value ts (toFirst 7) s := by
  obtain ⟨ts, O, h0, h1, _⟩ := nstate
  obtain ⟨s, e⟩ : ∃ s', nworld.search (Nary.kind Nat) NNode.value (toFirst 7) unused 0 = Res.ok (true, s') := ok_of_test (by decide +kernel)
  exact ⟨ts, s, O, h0, toFirst_solid 7, toFirst_single 7, toFirst_sharp 7, by simp [toFirst, star, one, ids, Pat.pre, Pat.preL, Pat.id], e,
    .search (.new unused fun _ => rfl) O rfl e⟩
example : ∃ ts s, Owned (Binary.shape Nat) bworld ts ∧ ts 0 = some bin ∧ (toFirst 5).solid ∧ (toFirst 5).single ∧ (toFirst 5).sharp ∧
    (toFirst 5).ids.Nodup ∧ bworld.search (Binary.kind Nat) BNode.value (toFirst 5) unused 0 = Res.ok (true, s) ∧
    SearchedIn (Binary.shape Nat) BNode.value ts (toFirst 5) s := by
  obtain ⟨ts, O, h0, h1, _⟩ := bstate
  obtain ⟨s, e⟩ : ∃ s', bworld.search (Binary.kind Nat) BNode.value (toFirst 5) unused 0 = Res.ok (true, s') := ok_of_test (by decide +kernel)
  exact ⟨ts, s, O, h0, toFirst_solid 5, toFirst_single 5, toFirst_sharp 5, by simp [toFirst, star, one, ids, Pat.pre, Pat.preL, Pat.id], e,
    .search (.new unused fun _ => rfl) O rfl e⟩

/-- `star()(one(7))` for the node `2` of `deep`: the `7` below it is reached through the `6`. -/
example : ∃ (gs : List (Frame (Addr × Nat))) (s u : Tree (Addr × Nat)) (r : List (Tree (Addr × Nat))), deepHeap.WF ∧ Nary.Rep deepHeap (plug gs s) ∧
    gs ≠ [] ∧ (anyStar 0 [one 1 7 []]).solid ∧ (anyStar 0 [one 1 7 []]).single ∧ (anyStar 0 [one 1 7 []]).ids.Nodup ∧
    Tree.First (fun _ => true) (Fits Prod.snd (one 1 7 [])) s.children u r ∧ Fits Prod.snd (one 1 7 []) u := by
  refine ⟨[⟨(0, 1), [], [node (2, 3) [], node (3, 4) []]⟩], node (1, 2) [node (4, 5) [], node (5, 6) [node (6, 7) []]], node (6, 7) [], [],
    deep_wf, deep_rep, by simp, by simp [anyStar, star, one, solid, solidL], ?_, by simp [anyStar, star, one, ids, Pat.pre, Pat.preL, Pat.id],
    .into (by simp [one, Fits]) rfl (.into (by simp [one, Fits]) rfl .here), by simp [one, Fits, FitsL]⟩
  intro i q f ps h hq
  simp [anyStar, star, one, Pat.pre, Pat.preL] at h
  simp [h]
