import Verif.Props.Compare
import Verif.Proof.Refresh
/-!
# C56: update_size_arity()

The remembered counts may be wrong (C62), and then `==` is (C63). Whatever happened before, after `update_size_arity()` they are right, and they stay right
until the nodes of the tree are changed (writing values is no such change): `Refreshed` (Spec/Refresh.lean).
-/
open Tree World

variable {α : Type}

namespace Generic
variable {ν lit T V C : Type} {K : Kind ν α lit} {S : Shape K T V C} {W : World ν} {ts : Nat → Option T} {x y : Nat}

theorem counts_now (L : Lawful S) (O : Owned S W ts) {t : T} {r : TreeRec} (hx : ts x = some t) (hr : W.vars x = some r) (hc : CacheOk S r t) :
    (∃ W', W.size K x = Res.ok (W', S.size t)) ∧ ∃ W', W.arity K x = Res.ok (W', S.arity t) :=
  ⟨⟨_, by rw [(size_spec L O hx hr).1, sizeAns_ok L hc]⟩, ⟨_, by rw [(arity_spec L O hx hr).1, arityAns_ok L hc]⟩⟩

theorem refreshed_counts (L : Lawful S) (D : Determined S) {ops : List (Op α lit)} (h : Supports S start ops) (hx : Refreshed ops x) :
    ∃ W as ts t, start.run K ops = Res.ok (W, as) ∧ Owned S W ts ∧ ts x = some t ∧
      (∃ W', W.size K x = Res.ok (W', S.size t)) ∧ ∃ W', W.arity K x = Res.ok (W', S.arity t) := by
  obtain ⟨W, as, ts, r, t, h1, O, h2, h3, h4⟩ := refreshed L D (start_owned L) h hx
  exact ⟨W, as, ts, t, h1, O, h2, counts_now L O h2 h3 h4⟩

theorem refreshed_equal (L : Lawful S) (D : Determined S) {eqv : α → α → Bool} {E : V → V → Bool} (c : Compares S eqv E)
    {ops : List (Op α lit)} (h : Supports S start ops) (hx : Refreshed ops x) (hy : Refreshed ops y) :
    ∃ W as ts t u W', start.run K ops = Res.ok (W, as) ∧ Owned S W ts ∧ ts x = some t ∧ ts y = some u ∧ Owned S W' ts ∧
      W.eq K eqv x y = Res.ok (W', E (S.vals t) (S.vals u)) ∧ W.ne K eqv x y = Res.ok (W', !E (S.vals t) (S.vals u)) := by
  obtain ⟨W, as, ts, r, t, h1, O, h2, h3, h4⟩ := refreshed L D (start_owned L) h hx
  obtain ⟨W2, as2, ts2, q, u, k1, O2, k2, k3, k4⟩ := refreshed L D (start_owned L) h hy
  rw [h1] at k1; cases k1
  have e := OwnedBut.unique D O2 O
  subst e
  obtain ⟨W', b, e, O', _, hb⟩ := eq_exact L c.nodes c.nil (fun t u h => (c.sizes t u h).2.2) O h2 k2
  have hb' : b = E (S.vals t) (S.vals u) := by
    rw [Bool.eq_iff_iff, hb]
    simp only [sizeNow, arityNow, h2, k2, h3, k3, Option.bind_some, Option.map_some, sizeAns_ok L h4, arityAns_ok L h4, sizeAns_ok L k4,
      arityAns_ok L k4, Option.some.injEq]
    exact ⟨fun h => h.2.2, fun h => ⟨(c.sizes t u h).1, (c.sizes t u h).2.1, h⟩⟩
  subst hb'
  exact ⟨W, as, ts2, t, u, W', h1, O, h2, k2, O', e, by simp [World.ne, e]⟩

end Generic

/-- After any supported history in which `update_size_arity()` was called on `x` and no later call changed the nodes of `x`, `size()` is the number of nodes and
`arity()` the greatest number of children. -/
theorem C56_counts_nary {ops : List (Op α (Tree α))} {x : Nat} (h : Supports (Nary.shape α) start ops) (hx : Refreshed ops x) :
    ∃ W as ts t, start.run (Nary.kind α) ops = Res.ok (W, as) ∧ Owned (Nary.shape α) W ts ∧ ts x = some t ∧
      (∃ W', W.size (Nary.kind α) x = Res.ok (W', (Nary.shape α).size t)) ∧
      ∃ W', W.arity (Nary.kind α) x = Res.ok (W', (Nary.shape α).arity t) :=
  Generic.refreshed_counts (Nary.lawful α) (Nary.determined α) h hx

theorem C56_counts_binary {ops : List (Op α (Lit α))} {x : Nat} (h : Supports (Binary.shape α) start ops) (hx : Refreshed ops x) :
    ∃ W as ts t, start.run (Binary.kind α) ops = Res.ok (W, as) ∧ Owned (Binary.shape α) W ts ∧ ts x = some t ∧
      (∃ W', W.size (Binary.kind α) x = Res.ok (W', (Binary.shape α).size t)) ∧
      ∃ W', W.arity (Binary.kind α) x = Res.ok (W', (Binary.shape α).arity t) :=
  Generic.refreshed_counts (Binary.lawful α) (Binary.determined α) h hx

/-- If this holds for two objects, `==` is structural equality and `!=` its negation, whatever the history. -/
theorem C56_equality_nary (eqv : α → α → Bool) {ops : List (Op α (Tree α))} {x y : Nat} (h : Supports (Nary.shape α) start ops)
    (hx : Refreshed ops x) (hy : Refreshed ops y) :
    ∃ W as ts t u W', start.run (Nary.kind α) ops = Res.ok (W, as) ∧ Owned (Nary.shape α) W ts ∧ ts x = some t ∧ ts y = some u ∧
      Owned (Nary.shape α) W' ts ∧
      W.eq (Nary.kind α) eqv x y = Res.ok (W', Nary.same eqv (t.map Tree.vals) (u.map Tree.vals)) ∧
      W.ne (Nary.kind α) eqv x y = Res.ok (W', !Nary.same eqv (t.map Tree.vals) (u.map Tree.vals)) :=
  Generic.refreshed_equal (Nary.lawful α) (Nary.determined α) (Nary.compares eqv) h hx hy

theorem C56_equality_binary (eqv : α → α → Bool) {ops : List (Op α (Lit α))} {x y : Nat} (h : Supports (Binary.shape α) start ops)
    (hx : Refreshed ops x) (hy : Refreshed ops y) :
    ∃ W as ts t u W', start.run (Binary.kind α) ops = Res.ok (W, as) ∧ Owned (Binary.shape α) W ts ∧ ts x = some t ∧ ts y = some u ∧
      Owned (Binary.shape α) W' ts ∧
      W.eq (Binary.kind α) eqv x y = Res.ok (W', BTree.eqBy eqv t.vals u.vals) ∧
      W.ne (Binary.kind α) eqv x y = Res.ok (W', !BTree.eqBy eqv t.vals u.vals) :=
  Generic.refreshed_equal (Binary.lawful α) (Binary.determined α) (Binary.compares eqv) h hx hy

/-- The call itself is always supported and changes nothing but what the object remembers: no tree, no node, no other object. -/
theorem C56_no_effect_nary {W : World (NNode α)} {ts : Nat → Option (Option (Tree (Addr × α)))} {x : Nat} (O : Owned (Nary.shape α) W ts)
    (hx : (ts x).isSome) : ∃ W', W.step (Nary.kind α) (.updateCounts x) = Res.ok (W', .unit) ∧ Owned (Nary.shape α) W' ts ∧ W'.heap = W.heap ∧
      ∀ z, z ≠ x → W'.vars z = W.vars z := by
  obtain ⟨t, hx⟩ := Option.isSome_iff_exists.mp hx
  obtain ⟨r, hr, _⟩ := O.get (Nary.lawful α) hx
  obtain ⟨e, O'⟩ := updateCounts_spec (Nary.lawful α) O hx hr
  exact ⟨_, by simp [World.step, e], O', rfl, fun z hz => upd_other _ _ hz⟩

theorem C56_no_effect_binary {W : World (BNode α)} {ts : Nat → Option (BTree (Addr × α))} {x : Nat} (O : Owned (Binary.shape α) W ts)
    (hx : (ts x).isSome) : ∃ W', W.step (Binary.kind α) (.updateCounts x) = Res.ok (W', .unit) ∧ Owned (Binary.shape α) W' ts ∧ W'.heap = W.heap ∧
      ∀ z, z ≠ x → W'.vars z = W.vars z := by
  obtain ⟨t, hx⟩ := Option.isSome_iff_exists.mp hx
  obtain ⟨r, hr, _⟩ := O.get (Binary.lawful α) hx
  obtain ⟨e, O'⟩ := updateCounts_spec (Binary.lawful α) O hx hr
  exact ⟨_, by simp [World.step, e], O', rfl, fun z hz => upd_other _ _ hz⟩

/-! ### Examples: the histories of `C63_nary_defect` and `C63_binary_defect`, refreshed (the first with a value written afterwards) -/

namespace Samples

def nrefresh : List (Op Nat (Tree Nat)) :=
  [.newLit 0 (node 1 []), .insertChild true Policy.preOrder 0 ⟨⟨some 0, []⟩, some 0⟩ (.lit (node 8 [node 3 [], node 4 []])),
   .updateCounts 0, .write 0 ⟨⟨some 1, []⟩, some 0⟩ 2, .newLit 1 (node 1 [node 2 [node 3 [], node 4 []]]), .updateCounts 1, .newCopy 2 0, .size 0]

theorem nrefresh_supported : Supports (Nary.shape Nat) start nrefresh := by
  have L := Nary.lawful Nat
  have D := Nary.determined Nat
  refine supports_next L (start_owned L) ⟨rfl, trivial⟩ fun ts1 O1 => ?_
  have h1 : ts1 0 = some (some (node (0,1) [])) := pin D O1 rfl ((Nary.shape_rep _ _).mpr (by decide)) rfl
  refine supports_next L O1 ⟨_, h1, trivial, Or.inr (Or.inl ⟨_, _, nary_at preOrder_mem [] (node (0,1) []) rfl rfl rfl rfl,
    Or.inl rfl⟩)⟩ fun ts2 O2 => ?_
  refine supports_next L O2 (live O2 rfl) fun ts3 O3 => ?_
  have h3 : ts3 0 = some (some (node (0,1) [node (1,8) [node (2,3) [], node (3,4) []]])) := pin D O3 rfl ((Nary.shape_rep _ _).mpr (by decide)) rfl
  refine supports_next L O3 ⟨_, [⟨(0,1), [], []⟩], some (node (1,8) [node (2,3) [], node (3,4) []]), h3, rfl, nofun, rfl⟩ fun ts3 O3 => ?_
  refine supports_next L O3 ⟨dead O3 rfl, trivial⟩ fun ts4 O4 => ?_
  refine supports_next L O4 (live O4 rfl) fun ts5 O5 => ?_
  refine supports_next L O5 ⟨dead O5 rfl, live O5 rfl⟩ fun ts6 O6 => ?_
  exact supports_next L O6 (live O6 rfl) fun _ _ => trivial

theorem nrefresh_refreshed : Refreshed nrefresh 0 ∧ Refreshed nrefresh 1 :=
  ⟨⟨nrefresh.take 2, nrefresh.drop 3, rfl, by simp [nrefresh, Op.changes]⟩,
   ⟨nrefresh.take 5, nrefresh.drop 6, rfl, by simp [nrefresh, Op.changes]⟩⟩

/-- The hypotheses of `C56_counts_nary` and `C56_equality_nary` are met, and this time the answers are right: 4 nodes, equal. -/
example : Supports (Nary.shape Nat) start nrefresh ∧ Refreshed nrefresh 0 ∧ Refreshed nrefresh 1 ∧
    (∃ W', (after (Nary.kind Nat) nrefresh).size (Nary.kind Nat) 0 = Res.ok (W', 4)) ∧
    ∃ W', (after (Nary.kind Nat) nrefresh).eq (Nary.kind Nat) (· == ·) 0 1 = Res.ok (W', true) :=
  ⟨nrefresh_supported, nrefresh_refreshed.1, nrefresh_refreshed.2, ⟨_, rfl⟩, ⟨_, by cbv⟩⟩

def brefresh : List (Op Nat (Lit Nat)) :=
  [.newLit 0 (node (some 1) [node (some 2) [], node none [], node (some 3) []]), .newLit 1 (node (some 1) [node (some 2) []]),
   .updateCounts 0, .updateCounts 1]

theorem brefresh_supported : Supports (Binary.shape Nat) start brefresh := by
  have L := Binary.lawful Nat
  refine supports_next L (start_owned L) ⟨rfl, rfl⟩ fun ts1 O1 => ?_
  refine supports_next L O1 ⟨dead O1 rfl, rfl⟩ fun ts2 O2 => ?_
  refine supports_next L O2 (live O2 rfl) fun ts3 O3 => ?_
  exact supports_next L O3 (live O3 rfl) fun _ _ => trivial

example : Supports (Binary.shape Nat) start brefresh ∧ Refreshed brefresh 0 ∧ Refreshed brefresh 1 ∧
    ∃ W', (after (Binary.kind Nat) brefresh).eq (Binary.kind Nat) (· == ·) 0 1 = Res.ok (W', true) :=
  ⟨brefresh_supported, ⟨brefresh.take 2, brefresh.drop 3, rfl, by simp [brefresh, Op.changes]⟩,
   ⟨brefresh.take 3, [], rfl, by simp⟩, _, rfl⟩

example : ∃ ts W', Owned (Nary.shape Nat) nworld ts ∧ (ts 0).isSome ∧ nworld.step (Nary.kind Nat) (.updateCounts 0) = Res.ok (W', .unit) :=
  let ⟨ts, O, h, _⟩ := nstate
  ⟨ts, _, O, by simp [h], rfl⟩
end Samples
