import Verif.Props.Counts
import Verif.Proof.Compare
/-!
# C22-C24, C63, C64: equality, conversion from binary trees, literals

Structural equality is `Nary.same` (Spec/Compare.lean) for nary trees and `BTree.eqBy` (Spec/Tree.lean) for binary trees,
for any equality `eqv` of the values. The comparison of the library first compares `size()` and `arity()`, which may be wrong
(C20, C21): the answer `true` is always right, the answer `false` is right in the histories in which the counts are.
-/
open Tree World

variable {α : Type}

namespace Generic
variable {ν lit T V C : Type} {K : Kind ν α lit} {S : Shape K T V C} {ts : Nat → Option T} {W : World ν} {t u : T} {x y : Nat}

/-- The comparison of nodes of this kind compares trees by `E`. -/
structure Compares (S : Shape K T V C) (eqv : α → α → Bool) (E : V → V → Bool) : Prop where
  nodes : ∀ (h : Heap ν) t u a b, h.WF → S.Rep h t → S.Rep h u → S.ptr t = some a → S.ptr u = some b →
    K.eq eqv h.fuel h a h b = Res.ok (E (S.vals t) (S.vals u))
  nil : E (S.vals S.nil) (S.vals S.nil) = true
  sizes : ∀ t u, E (S.vals t) (S.vals u) = true → S.size t = S.size u ∧ S.arity t = S.arity u ∧ (t = S.nil ↔ u = S.nil)

theorem compared (L : Lawful S) (D : Determined S) {eqv : α → α → Bool} {E : V → V → Bool} (c : Compares S eqv E)
    {ops : List (Op α lit)} (h : Supports S start ops) :
    ∃ W as ts, start.run K ops = Res.ok (W, as) ∧ Owned S W ts ∧ ∀ x y t u, ts x = some t → ts y = some u →
      ∃ W' b, W.eq K eqv x y = Res.ok (W', b) ∧ Owned S W' ts ∧ (b = true → E (S.vals t) (S.vals u) = true) := by
  obtain ⟨W, as, ts, h1, _, _, O⟩ := history_trace L D ops (start_owned L) h
  refine ⟨W, as, ts, h1, O, fun x y t u hx hy => ?_⟩
  obtain ⟨W', b, e, O', _, hb, _⟩ := eq_total L c.nodes c.nil c.sizes O hx hy
  exact ⟨W', b, e, O', hb⟩

theorem compared_exactly (L : Lawful S) (D : Determined S) {eqv : α → α → Bool} {E : V → V → Bool} (c : Compares S eqv E)
    {ops : List (Op α lit)} (h : Supports S start ops) (hk : KeepsCounts S start ops) :
    ∃ W as ts, start.run K ops = Res.ok (W, as) ∧ Owned S W ts ∧ ∀ x y t u, ts x = some t → ts y = some u →
      ∃ W', W.eq K eqv x y = Res.ok (W', E (S.vals t) (S.vals u)) ∧ Owned S W' ts := by
  obtain ⟨W, as, ts, h1, O, hC⟩ := history_counts L D ops (start_owned L) start_cached h hk
  refine ⟨W, as, ts, h1, O, fun x y t u hx hy => ?_⟩
  obtain ⟨W', b, e, O', _, _, hb⟩ := eq_total L c.nodes c.nil c.sizes O hx hy
  exact ⟨W', by rw [e, (hb hC).1], O'⟩

/-- `x == y` is true in the state `W`. -/
def Equal (K : Kind ν α lit) (eqv : α → α → Bool) (W : World ν) (x y : Nat) : Prop := ∃ W', W.eq K eqv x y = Res.ok (W', true)

theorem equal_iff (L : Lawful S) {eqv : α → α → Bool} {E : V → V → Bool} (c : Compares S eqv E) (O : Owned S W ts)
    (hx : ts x = some t) (hy : ts y = some u) : Equal K eqv W x y ↔
      sizeNow S W ts x = sizeNow S W ts y ∧ arityNow S W ts x = arityNow S W ts y ∧ E (S.vals t) (S.vals u) = true := by
  obtain ⟨W', b, e, _, _, hb⟩ := eq_exact L c.nodes c.nil (fun t u h => (c.sizes t u h).2.2) O hx hy
  rw [← hb]
  constructor
  · rintro ⟨W2, e2⟩
    rw [e] at e2; cases e2; rfl
  · rintro rfl
    exact ⟨W', e⟩

theorem equivalence (L : Lawful S) {eqv : α → α → Bool} {E : V → V → Bool} (c : Compares S eqv E)
    (hr : ∀ v, E v v = true) (hs : ∀ v w, E v w = E w v) (ht : ∀ v w z, E v w = true → E w z = true → E v z = true)
    (O : Owned S W ts) : (∀ x, (ts x).isSome → Equal K eqv W x x) ∧
      (∀ x y, (ts x).isSome → (ts y).isSome → Equal K eqv W x y → Equal K eqv W y x) ∧
      (∀ x y z, (ts x).isSome → (ts y).isSome → (ts z).isSome → Equal K eqv W x y → Equal K eqv W y z → Equal K eqv W x z) := by
  refine ⟨fun x hx => ?_, fun x y hx hy => ?_, fun x y z hx hy hz => ?_⟩
  · obtain ⟨t, hx⟩ := Option.isSome_iff_exists.mp hx
    exact (equal_iff L c O hx hx).mpr ⟨rfl, rfl, hr _⟩
  · obtain ⟨t, hx⟩ := Option.isSome_iff_exists.mp hx
    obtain ⟨u, hy⟩ := Option.isSome_iff_exists.mp hy
    rw [equal_iff L c O hx hy, equal_iff L c O hy hx]
    rintro ⟨h1, h2, h3⟩
    exact ⟨h1.symm, h2.symm, by rw [hs]; exact h3⟩
  · obtain ⟨t, hx⟩ := Option.isSome_iff_exists.mp hx
    obtain ⟨u, hy⟩ := Option.isSome_iff_exists.mp hy
    obtain ⟨v, hz⟩ := Option.isSome_iff_exists.mp hz
    rw [equal_iff L c O hx hy, equal_iff L c O hy hz, equal_iff L c O hx hz]
    rintro ⟨h1, h2, h3⟩ ⟨k1, k2, k3⟩
    exact ⟨h1.trans k1, h2.trans k2, ht _ _ _ h3 k3⟩

/-- Comparing two trees does not change what later comparisons answer, nor any tree. -/
theorem pure_eq (L : Lawful S) {eqv : α → α → Bool} {E : V → V → Bool} (c : Compares S eqv E) (O : Owned S W ts)
    {W' : World ν} {b : Bool} (hx : (ts x).isSome) (hy : (ts y).isSome) (h : W.eq K eqv x y = Res.ok (W', b)) :
    W'.heap = W.heap ∧ Owned S W' ts ∧ ∀ z w, (ts z).isSome → (ts w).isSome → (Equal K eqv W' z w ↔ Equal K eqv W z w) := by
  obtain ⟨t, hx⟩ := Option.isSome_iff_exists.mp hx
  obtain ⟨u, hy⟩ := Option.isSome_iff_exists.mp hy
  obtain ⟨W1, b1, e, O1, f, hb⟩ := eq_exact L c.nodes c.nil (fun t u h => (c.sizes t u h).2.2) O hx hy
  rw [e] at h; cases h
  refine ⟨f.heap, O1, fun z w hz hw => ?_⟩
  obtain ⟨_, hz⟩ := Option.isSome_iff_exists.mp hz
  obtain ⟨_, hw⟩ := Option.isSome_iff_exists.mp hw
  rw [equal_iff L c O hz hw, equal_iff L c O1 hz hw, f.size, f.size, f.arity, f.arity]

/-- `==` and the answers `size()` and `arity()` give. -/
theorem compared_answers (L : Lawful S) {eqv : α → α → Bool} {E : V → V → Bool} (c : Compares S eqv E) (O : Owned S W ts)
    (hx : ts x = some t) (hy : ts y = some u) {Wa Wb Wc Wd : World ν} {m n k l : Nat}
    (h1 : W.size K x = Res.ok (Wa, m)) (h2 : W.size K y = Res.ok (Wb, n))
    (h3 : W.arity K x = Res.ok (Wc, k)) (h4 : W.arity K y = Res.ok (Wd, l)) :
    Equal K eqv W x y ↔ m = n ∧ k = l ∧ E (S.vals t) (S.vals u) = true := by
  obtain ⟨_, _, e1, _, _, f1⟩ := size_now L O hx
  obtain ⟨_, _, e2, _, _, f2⟩ := size_now L O hy
  obtain ⟨_, _, e3, _, _, f3⟩ := arity_now L O hx
  obtain ⟨_, _, e4, _, _, f4⟩ := arity_now L O hy
  cases e1.symm.trans h1
  cases e2.symm.trans h2
  cases e3.symm.trans h3
  cases e4.symm.trans h4
  rw [equal_iff L c O hx hy, f1, f2, f3, f4, Option.some.injEq, Option.some.injEq]

end Generic
open Generic (Equal)

theorem Nary.compares (eqv : α → α → Bool) : Generic.Compares (Nary.shape α) eqv (Nary.same eqv) :=
  ⟨fun h t u a b => Nary.kind_eq eqv h t u a b, rfl, fun t u h => Nary.same_sizes t u h⟩
theorem Binary.compares (eqv : α → α → Bool) : Generic.Compares (Binary.shape α) eqv (BTree.eqBy eqv) :=
  ⟨fun h t u a b => Binary.kind_eq eqv h t u a b, rfl, fun t u h => Binary.eqBy_sizes t u h⟩

/-! ## C22 -/

/-- After every supported history `x == y` answers without undefined behaviour, and `true` only for equal trees. -/
theorem C22_true_is_right_nary (eqv : α → α → Bool) {ops : List (Op α (Tree α))} (h : Supports (Nary.shape α) start ops) :
    ∃ W as ts, start.run (Nary.kind α) ops = Res.ok (W, as) ∧ Owned (Nary.shape α) W ts ∧
      ∀ x y t u, ts x = some t → ts y = some u → ∃ W' b, W.eq (Nary.kind α) eqv x y = Res.ok (W', b) ∧
        Owned (Nary.shape α) W' ts ∧ (b = true → Nary.same eqv (t.map Tree.vals) (u.map Tree.vals) = true) :=
  Generic.compared (Nary.lawful α) (Nary.determined α) (Nary.compares eqv) h

theorem C22_true_is_right_binary (eqv : α → α → Bool) {ops : List (Op α (Lit α))} (h : Supports (Binary.shape α) start ops) :
    ∃ W as ts, start.run (Binary.kind α) ops = Res.ok (W, as) ∧ Owned (Binary.shape α) W ts ∧
      ∀ x y t u, ts x = some t → ts y = some u → ∃ W' b, W.eq (Binary.kind α) eqv x y = Res.ok (W', b) ∧
        Owned (Binary.shape α) W' ts ∧ (b = true → BTree.eqBy eqv t.vals u.vals = true) :=
  Generic.compared (Binary.lawful α) (Binary.determined α) (Binary.compares eqv) h

/-- After every supported history that keeps the counts right, `x == y` is structural equality. -/
theorem C22_structural_nary (eqv : α → α → Bool) {ops : List (Op α (Tree α))} (h : Supports (Nary.shape α) start ops)
    (hk : KeepsCounts (Nary.shape α) start ops) :
    ∃ W as ts, start.run (Nary.kind α) ops = Res.ok (W, as) ∧ Owned (Nary.shape α) W ts ∧
      ∀ x y t u, ts x = some t → ts y = some u → ∃ W',
        W.eq (Nary.kind α) eqv x y = Res.ok (W', Nary.same eqv (t.map Tree.vals) (u.map Tree.vals)) ∧ Owned (Nary.shape α) W' ts :=
  Generic.compared_exactly (Nary.lawful α) (Nary.determined α) (Nary.compares eqv) h hk

theorem C22_structural_binary (eqv : α → α → Bool) {ops : List (Op α (Lit α))} (h : Supports (Binary.shape α) start ops)
    (hk : KeepsCounts (Binary.shape α) start ops) :
    ∃ W as ts, start.run (Binary.kind α) ops = Res.ok (W, as) ∧ Owned (Binary.shape α) W ts ∧
      ∀ x y t u, ts x = some t → ts y = some u → ∃ W',
        W.eq (Binary.kind α) eqv x y = Res.ok (W', BTree.eqBy eqv t.vals u.vals) ∧ Owned (Binary.shape α) W' ts :=
  Generic.compared_exactly (Binary.lawful α) (Binary.determined α) (Binary.compares eqv) h hk

/-- The same when the values are compared by equality: `x == y` iff the trees of values are equal, `x != y` iff they differ. -/
theorem C22_same_values_nary [DecidableEq α] {W : World (NNode α)} {ts : Nat → Option (Option (Tree (Addr × α)))} {x y : Nat}
    {t u : Option (Tree (Addr × α))} (O : Owned (Nary.shape α) W ts) (hC : Cached (Nary.shape α) W ts) (hx : ts x = some t)
    (hy : ts y = some u) :
    ∃ W' b, W.eq (Nary.kind α) (fun a b => decide (a = b)) x y = Res.ok (W', b) ∧ (b = true ↔ t.map Tree.vals = u.map Tree.vals) ∧
      W.ne (Nary.kind α) (fun a b => decide (a = b)) x y = Res.ok (W', !b) := by
  have c := Nary.compares (α := α) (fun a b => decide (a = b))
  obtain ⟨W', b, e, _, _, _, hb⟩ := eq_total (Nary.lawful α) c.nodes c.nil c.sizes O hx hy
  refine ⟨W', b, e, ?_, by simp [World.ne, e]⟩
  rw [(hb hC).1]
  exact Nary.same_eq _ _

theorem C22_same_values_binary [DecidableEq α] {W : World (BNode α)} {ts : Nat → Option (BTree (Addr × α))} {x y : Nat}
    {t u : BTree (Addr × α)} (O : Owned (Binary.shape α) W ts) (hC : Cached (Binary.shape α) W ts) (hx : ts x = some t)
    (hy : ts y = some u) :
    ∃ W' b, W.eq (Binary.kind α) (fun a b => decide (a = b)) x y = Res.ok (W', b) ∧ (b = true ↔ t.vals = u.vals) ∧
      W.ne (Binary.kind α) (fun a b => decide (a = b)) x y = Res.ok (W', !b) := by
  have c := Binary.compares (α := α) (fun a b => decide (a = b))
  obtain ⟨W', b, e, _, _, _, hb⟩ := eq_total (Binary.lawful α) c.nodes c.nil c.sizes O hx hy
  refine ⟨W', b, e, ?_, by simp [World.ne, e]⟩
  rw [(hb hC).1]
  exact BTree.eqBy_eq _ _

/-- `==` is an equivalence relation on the trees of a state, even with wrong counts, if `==` of the values is one. -/
theorem C22_equivalence_nary {eqv : α → α → Bool} (hr : ∀ a, eqv a a = true) (hs : ∀ a b, eqv a b = eqv b a)
    (ht : ∀ a b c, eqv a b = true → eqv b c = true → eqv a c = true) {W : World (NNode α)}
    {ts : Nat → Option (Option (Tree (Addr × α)))} (O : Owned (Nary.shape α) W ts) :
    (∀ x, (ts x).isSome → Equal (Nary.kind α) eqv W x x) ∧
    (∀ x y, (ts x).isSome → (ts y).isSome → Equal (Nary.kind α) eqv W x y → Equal (Nary.kind α) eqv W y x) ∧
    (∀ x y z, (ts x).isSome → (ts y).isSome → (ts z).isSome →
      Equal (Nary.kind α) eqv W x y → Equal (Nary.kind α) eqv W y z → Equal (Nary.kind α) eqv W x z) :=
  Generic.equivalence (Nary.lawful α) (Nary.compares eqv) (Nary.same_refl hr) (Nary.same_symm hs) (Nary.same_trans ht) O

theorem C22_equivalence_binary {eqv : α → α → Bool} (hr : ∀ a, eqv a a = true) (hs : ∀ a b, eqv a b = eqv b a)
    (ht : ∀ a b c, eqv a b = true → eqv b c = true → eqv a c = true) {W : World (BNode α)}
    {ts : Nat → Option (BTree (Addr × α))} (O : Owned (Binary.shape α) W ts) :
    (∀ x, (ts x).isSome → Equal (Binary.kind α) eqv W x x) ∧
    (∀ x y, (ts x).isSome → (ts y).isSome → Equal (Binary.kind α) eqv W x y → Equal (Binary.kind α) eqv W y x) ∧
    (∀ x y z, (ts x).isSome → (ts y).isSome → (ts z).isSome →
      Equal (Binary.kind α) eqv W x y → Equal (Binary.kind α) eqv W y z → Equal (Binary.kind α) eqv W x z) :=
  Generic.equivalence (Binary.lawful α) (Binary.compares eqv) (BTree.eqBy_refl hr) (BTree.eqBy_symm hs) (BTree.eqBy_trans ht) O

/-- Comparing changes no node, no tree, and no later comparison. -/
theorem C22_no_effect_nary {eqv : α → α → Bool} {W W' : World (NNode α)} {ts : Nat → Option (Option (Tree (Addr × α)))} {x y : Nat}
    {b : Bool} (O : Owned (Nary.shape α) W ts) (hx : (ts x).isSome) (hy : (ts y).isSome)
    (h : W.eq (Nary.kind α) eqv x y = Res.ok (W', b)) : W'.heap = W.heap ∧ Owned (Nary.shape α) W' ts ∧
      ∀ z w, (ts z).isSome → (ts w).isSome → (Equal (Nary.kind α) eqv W' z w ↔ Equal (Nary.kind α) eqv W z w) :=
  Generic.pure_eq (Nary.lawful α) (Nary.compares eqv) O hx hy h

theorem C22_no_effect_binary {eqv : α → α → Bool} {W W' : World (BNode α)} {ts : Nat → Option (BTree (Addr × α))} {x y : Nat}
    {b : Bool} (O : Owned (Binary.shape α) W ts) (hx : (ts x).isSome) (hy : (ts y).isSome)
    (h : W.eq (Binary.kind α) eqv x y = Res.ok (W', b)) : W'.heap = W.heap ∧ Owned (Binary.shape α) W' ts ∧
      ∀ z w, (ts z).isSome → (ts w).isSome → (Equal (Binary.kind α) eqv W' z w ↔ Equal (Binary.kind α) eqv W z w) :=
  Generic.pure_eq (Binary.lawful α) (Binary.compares eqv) O hx hy h

/-- In every state, also with wrong counts: `x == y` iff the structure and values are the same and `size()` and `arity()` give
the same answers for both. -/
theorem C22_exact_nary {eqv : α → α → Bool} {W Wa Wb Wc Wd : World (NNode α)} {ts : Nat → Option (Option (Tree (Addr × α)))} {x y : Nat}
    {t u : Option (Tree (Addr × α))} {m n k l : Nat} (O : Owned (Nary.shape α) W ts) (hx : ts x = some t) (hy : ts y = some u)
    (h1 : W.size (Nary.kind α) x = Res.ok (Wa, m)) (h2 : W.size (Nary.kind α) y = Res.ok (Wb, n))
    (h3 : W.arity (Nary.kind α) x = Res.ok (Wc, k)) (h4 : W.arity (Nary.kind α) y = Res.ok (Wd, l)) :
    Equal (Nary.kind α) eqv W x y ↔ m = n ∧ k = l ∧ Nary.same eqv (t.map Tree.vals) (u.map Tree.vals) = true :=
  Generic.compared_answers (Nary.lawful α) (Nary.compares eqv) O hx hy h1 h2 h3 h4

theorem C22_exact_binary {eqv : α → α → Bool} {W Wa Wb Wc Wd : World (BNode α)} {ts : Nat → Option (BTree (Addr × α))} {x y : Nat}
    {t u : BTree (Addr × α)} {m n k l : Nat} (O : Owned (Binary.shape α) W ts) (hx : ts x = some t) (hy : ts y = some u)
    (h1 : W.size (Binary.kind α) x = Res.ok (Wa, m)) (h2 : W.size (Binary.kind α) y = Res.ok (Wb, n))
    (h3 : W.arity (Binary.kind α) x = Res.ok (Wc, k)) (h4 : W.arity (Binary.kind α) y = Res.ok (Wd, l)) :
    Equal (Binary.kind α) eqv W x y ↔ m = n ∧ k = l ∧ BTree.eqBy eqv t.vals u.vals = true :=
  Generic.compared_answers (Binary.lawful α) (Binary.compares eqv) O hx hy h1 h2 h3 h4

example : ∃ ts W1 W2 W3 W4, Owned (Nary.shape Nat) Samples.nworld ts ∧ ts 0 = some (some Samples.deep) ∧
    Samples.nworld.size (Nary.kind Nat) 0 = Res.ok (W1, 7) ∧ Samples.nworld.size (Nary.kind Nat) 1 = Res.ok (W2, 0) ∧
    Samples.nworld.arity (Nary.kind Nat) 0 = Res.ok (W3, 3) ∧ Samples.nworld.arity (Nary.kind Nat) 1 = Res.ok (W4, 0) := by
  obtain ⟨ts, O, h0, _⟩ := Samples.nstate
  exact ⟨ts, _, _, _, _, O, h0, rfl, rfl, rfl, rfl⟩

/-- After a supported history two trees have the same values, but `x0 == x1` is false. -/
def Denied {ν lit T V C : Type} {K : Kind ν Nat lit} (S : Shape K T V C) (ops : List (Op Nat lit)) : Prop :=
  Supports S start ops ∧ ∃ W as ts t u, start.run K ops = Res.ok (W, as) ∧ Owned S W ts ∧ ts 0 = some t ∧ ts 1 = some u ∧
    S.vals t = S.vals u ∧ ∃ W', W.eq K (fun a b => decide (a = b)) 0 1 = Res.ok (W', false)

/-- A tree grown by `insert_child_front` of a literal is not equal to the same tree written down:
`x0 = n(1); x0.insert_child_front(x0.begin(), n(2)(n(3), n(4))); x1 = n(1)(n(2)(n(3), n(4)));` -/
theorem C63_nary_defect : Denied (Nary.shape Nat)
    [.newLit 0 (node 1 []),
     .insertChild true Policy.preOrder 0 ⟨⟨some 0, []⟩, some 0⟩ (.lit (node 2 [node 3 [], node 4 []])),
     .newLit 1 (node 1 [node 2 [node 3 [], node 4 []]])] := by
  have L := Nary.lawful Nat
  have D := Nary.determined Nat
  have hs : Supports (Nary.shape Nat) start [.newLit 0 (node 1 []),
     .insertChild true Policy.preOrder 0 ⟨⟨some 0, []⟩, some 0⟩ (.lit (node 2 [node 3 [], node 4 []])),
     .newLit 1 (node 1 [node 2 [node 3 [], node 4 []]])] := by
    refine supports_next L (start_owned L) ⟨rfl, trivial⟩ fun ts1 O1 => ?_
    have h1 : ts1 0 = some (some (node (0,1) [])) := pin D O1 rfl ((Nary.shape_rep _ _).mpr (by decide)) rfl
    refine supports_next L O1 ⟨_, h1, trivial, Or.inr (Or.inl ⟨_, _, nary_at preOrder_mem [] (node (0,1) []) rfl rfl rfl rfl,
      Or.inl rfl⟩)⟩ fun ts2 O2 => ?_
    exact supports_next L O2 ⟨dead O2 rfl, trivial⟩ fun _ _ => trivial
  obtain ⟨ts, O⟩ := ended L D hs rfl
  exact ⟨hs, _, _, ts, _, _, rfl, O,
    pin D O rfl (t := some (node (0,1) [node (1,2) [node (2,3) [], node (3,4) []]])) ((Nary.shape_rep _ _).mpr (by decide)) rfl,
    pin D O rfl (t := some (node (4,1) [node (5,2) [node (6,3) [], node (7,4) []]])) ((Nary.shape_rep _ _).mpr (by decide)) rfl,
    rfl, _, rfl⟩

/-- A binary tree made from a literal with a third slot is not equal to the tree it is. -/
theorem C63_binary_defect : Denied (Binary.shape Nat)
    [.newLit 0 (node (some 1) [node (some 2) [], node none [], node (some 3) []]), .newLit 1 (node (some 1) [node (some 2) []])] := by
  have L := Binary.lawful Nat
  have D := Binary.determined Nat
  have hs : Supports (Binary.shape Nat) start [.newLit 0 (node (some 1) [node (some 2) [], node none [], node (some 3) []]),
      .newLit 1 (node (some 1) [node (some 2) []])] := by
    refine supports_next L (start_owned L) ⟨rfl, rfl⟩ fun ts1 O1 => ?_
    exact supports_next L O1 ⟨dead O1 rfl, rfl⟩ fun _ _ => trivial
  obtain ⟨ts, O⟩ := ended L D hs rfl
  exact ⟨hs, _, _, ts, _, _, rfl, O,
    pin D O rfl (t := .node (0,1) (.node (1,2) .nil .nil) .nil) (show Binary.Rep _ _ by decide) rfl,
    pin D O rfl (t := .node (2,1) (.node (3,2) .nil .nil) .nil) (show Binary.Rep _ _ by decide) rfl, rfl, _, rfl⟩

/-! ## C23 -/

/-- `nary_tree<T> x(y)` for a binary tree `y`: the same values, each node's children in their order. The binary tree is unchanged,
all nodes are new, no other tree changes. -/
theorem C23_construct {W : World (NNode α)} {B : World (BNode α)} {ts : Nat → Option (Option (Tree (Addr × α)))}
    {bs : Nat → Option (BTree (Addr × α))} {x y : Nat} {t : BTree (Addr × α)} (O : Owned (Nary.shape α) W ts)
    (OB : Owned (Binary.shape α) B bs) (hx : ts x = none) (hy : bs y = some t) :
    ∃ W' B' n, newBinary W B x y = Res.ok (W', B') ∧ Owned (Nary.shape α) W' (upd ts x (some n)) ∧
      n.map Tree.vals = t.vals.toNary ∧ Fresh (Nary.shape α) W.heap n ∧ Owned (Binary.shape α) B' bs ∧
      (Cached (Nary.shape α) W ts → Cached (Binary.shape α) B bs →
        Cached (Nary.shape α) W' (upd ts x (some n)) ∧ Cached (Binary.shape α) B' bs) :=
  newBinary_spec O OB hx hy

/-- `x = y` for an nary tree `x` and a binary tree `y`; the old nodes of `x` are released. -/
theorem C23_assign {W : World (NNode α)} {B : World (BNode α)} {ts : Nat → Option (Option (Tree (Addr × α)))}
    {bs : Nat → Option (BTree (Addr × α))} {x y : Nat} {t : BTree (Addr × α)} {u : Option (Tree (Addr × α))}
    (O : Owned (Nary.shape α) W ts) (OB : Owned (Binary.shape α) B bs) (hx : ts x = some u) (hy : bs y = some t) :
    ∃ W' B' n, assignBinary W B x y = Res.ok (W', B') ∧ Owned (Nary.shape α) W' (upd ts x (some n)) ∧
      n.map Tree.vals = t.vals.toNary ∧ Fresh (Nary.shape α) W.heap n ∧ Owned (Binary.shape α) B' bs ∧
      (Cached (Nary.shape α) W ts → Cached (Binary.shape α) B bs →
        Cached (Nary.shape α) W' (upd ts x (some n)) ∧ Cached (Binary.shape α) B' bs) :=
  assignBinary_spec O OB hx hy

/-- `x == y` for an nary and a binary tree is defined, and true only if `y` converts to a tree equal to `x`. -/
theorem C23_compare_true {W : World (NNode α)} {B : World (BNode α)} {ts : Nat → Option (Option (Tree (Addr × α)))}
    {bs : Nat → Option (BTree (Addr × α))} {x y : Nat} {t : Option (Tree (Addr × α))} {u : BTree (Addr × α)} (eqv : α → α → Bool)
    (O : Owned (Nary.shape α) W ts) (OB : Owned (Binary.shape α) B bs) (hx : ts x = some t) (hy : bs y = some u) :
    ∃ W' B' b, eqBinary eqv W B x y = Res.ok (W', B', b) ∧ Owned (Nary.shape α) W' ts ∧ Owned (Binary.shape α) B' bs ∧
      (b = true → Nary.same eqv (t.map Tree.vals) u.vals.toNary = true) := by
  obtain ⟨W', B', b, e, h1, h2, h3, _⟩ := eqBinary_total eqv O OB hx hy
  exact ⟨W', B', b, e, h1, h2, h3⟩

/-- … and exactly then, if the counts are right. -/
theorem C23_compare {W : World (NNode α)} {B : World (BNode α)} {ts : Nat → Option (Option (Tree (Addr × α)))}
    {bs : Nat → Option (BTree (Addr × α))} {x y : Nat} {t : Option (Tree (Addr × α))} {u : BTree (Addr × α)} (eqv : α → α → Bool)
    (O : Owned (Nary.shape α) W ts) (OB : Owned (Binary.shape α) B bs) (hC : Cached (Nary.shape α) W ts)
    (hB : Cached (Binary.shape α) B bs) (hx : ts x = some t) (hy : bs y = some u) :
    ∃ W' B', eqBinary eqv W B x y = Res.ok (W', B', Nary.same eqv (t.map Tree.vals) u.vals.toNary) ∧
      Owned (Nary.shape α) W' ts ∧ Owned (Binary.shape α) B' bs := by
  obtain ⟨W', B', b, e, h1, h2, _, h3⟩ := eqBinary_total eqv O OB hx hy
  exact ⟨W', B', by rw [e, (h3 hC hB).1]; rfl, h1, h2⟩

/-- An nary tree constructed from a binary tree is equal to it. -/
theorem C23_construct_equal {W : World (NNode α)} {B : World (BNode α)} {ts : Nat → Option (Option (Tree (Addr × α)))}
    {bs : Nat → Option (BTree (Addr × α))} {x y : Nat} {t : BTree (Addr × α)} {eqv : α → α → Bool} (hr : ∀ a, eqv a a = true)
    (O : Owned (Nary.shape α) W ts) (OB : Owned (Binary.shape α) B bs) (hC : Cached (Nary.shape α) W ts)
    (hB : Cached (Binary.shape α) B bs) (hx : ts x = none) (hy : bs y = some t) :
    ∃ W' B', newBinary W B x y = Res.ok (W', B') ∧ ∃ W2 B2, eqBinary eqv W' B' x y = Res.ok (W2, B2, true) := by
  obtain ⟨W', B', n, e, O', hv, _, OB', hc⟩ := newBinary_spec O OB hx hy
  obtain ⟨hC', hB'⟩ := hc hC hB
  obtain ⟨W2, B2, b, e2, _, _, _, h3⟩ := eqBinary_total eqv O' OB' (upd_same _ _ _) hy
  have : b = true := by rw [(h3 hC' hB').1, hv]; exact Nary.same_refl hr _
  exact ⟨W', B', e, W2, B2, by rw [e2, this]⟩

/-! ## C24 -/

/-- `nary_tree<T> x = n(v)(…)`: the tree written, its counts, equal to the literal and to no other one (a literal with empty
slots is no tree's equal). -/
theorem C24_new_nary {W : World (NNode α)} {ts : Nat → Option (Option (Tree (Addr × α)))} {x : Nat} (l : Tree α)
    (O : Owned (Nary.shape α) W ts) (hx : ts x = none) :
    ∃ W' n, W.newLit (Nary.kind α) x l = Res.ok W' ∧ Owned (Nary.shape α) W' (upd ts x (some (some n))) ∧ n.vals = l ∧
      (∃ W2, W'.size (Nary.kind α) x = Res.ok (W2, l.size)) ∧ (∃ W2, W'.arity (Nary.kind α) x = Res.ok (W2, l.arity)) ∧
      (∀ (eqv : α → α → Bool) (l' : Lit α), l'.label.isSome →
        ∃ W2, Nary.treeEqLit eqv W' x l' = Res.ok (W2, l.eqBy (Nary.sameSlot eqv) l')) ∧
      W'.eqNone x = Res.ok false := by
  have L := Nary.lawful α
  obtain ⟨h', n, e, O', hv, hn, _⟩ := newLit_spec L O hx (l := l) trivial
  cases n with
  | none => exact absurd rfl hn
  | some n =>
  have hv' : n.vals = l := by simpa [Nary.shape] using hv
  have hsz := L.litSize l (some n) trivial trivial hv
  have h1 : (Nary.shape α).size (some n) = l.size := by rw [Nary.shape_size, ← hv']; simp [Tree.vals, size_map]
  have h2 : (Nary.shape α).arity (some n) = l.arity := by rw [Nary.shape_arity, ← hv']; simp [Tree.vals, arity_map]
  rw [h1, h2] at hsz
  have hc : CacheOk (Nary.shape α) ⟨(Nary.shape α).ptr (some n), (Nary.kind α).litSize l, (Nary.kind α).litArity l, (Nary.shape α).ptr (some n)⟩ (some n) :=
    ⟨Or.inr (hsz.1.symm.trans h1.symm), Or.inr (hsz.2.symm.trans h2.symm)⟩
  have s1 := (size_spec L O' (upd_same _ _ _) (upd_same _ _ _)).1
  have s2 := (arity_spec L O' (upd_same _ _ _) (upd_same _ _ _)).1
  refine ⟨_, n, e, O', hv', ⟨_, by rw [s1, sizeAns_ok L hc, h1]⟩, ⟨_, by rw [s2, arityAns_ok L hc, h2]⟩, fun eqv l' hl' => ?_, ?_⟩
  · obtain ⟨W2, b, e2, _, _, hb⟩ := Nary.treeEqLit_exact eqv hl' O' (upd_same _ _ _)
    suffices hbb : b = l.eqBy (Nary.sameSlot eqv) l' from ⟨W2, by rw [e2, hbb]⟩
    rw [Bool.eq_iff_iff, hb]
    have hE : Nary.same (Nary.sameSlot eqv) ((Nary.shape α).vals (some n)) (some l') = l.eqBy (Nary.sameSlot eqv) l' := by
      rw [← hv']; rfl
    rw [hE]
    refine ⟨fun h => h.2.2, fun h => ?_⟩
    have hh := Nary.sameLit_sizes (eqv := eqv) (l := l') (some n) (by unfold Nary.sameLit; rw [hE]; exact h)
    simp only [sizeNow, arityNow, upd_same, Option.bind_some, Option.map_some, sizeAns_ok L hc, arityAns_ok L hc, hh]
    exact ⟨trivial, trivial, h⟩
  · simp [World.eqNone, World.get, upd_same, Nary.shape_ptr]

/-- In particular: compared by `==` of the values, equal to exactly the literal it was made from. -/
theorem C24_only_itself_nary [DecidableEq α] (l l' : Tree α) :
    l.eqBy (Nary.sameSlot (fun a b => decide (a = b))) (Lit.full l') = true ↔ l = l' := by
  rw [(Nary.full_eqBy _).1]
  exact Tree.eqBy_eq.1 l l'

/-- `binary_tree<T> x = n(v)(…)` for a literal with at most two slots per node. -/
theorem C24_new_binary {W : World (BNode α)} {ts : Nat → Option (BTree (Addr × α))} {x : Nat} (l : Lit α) (hl : l.label.isSome)
    (hv : l.valid) (h2 : l.atMostTwo) (O : Owned (Binary.shape α) W ts) (hx : ts x = none) :
    ∃ W' n, W.newLit (Binary.kind α) x l = Res.ok W' ∧ Owned (Binary.shape α) W' (upd ts x (some n)) ∧ n.vals = l.toB ∧
      (∃ W2, W'.size (Binary.kind α) x = Res.ok (W2, l.toB.size)) ∧
      (∃ W2, W'.arity (Binary.kind α) x = Res.ok (W2, arityL l.toB.toRose)) ∧
      (∀ (eqv : α → α → Bool) (l' : Lit α), l'.label.isSome → l'.valid → l'.atMostTwo →
        ∃ W2, Binary.treeEqLit eqv W' x l' = Res.ok (W2, BTree.eqBy eqv l.toB l'.toB)) ∧
      W'.eqNone x = Res.ok false := by
  have L := Binary.lawful α
  obtain ⟨h', n, e, O', hv', hn, _⟩ := newLit_spec L O hx (l := l) hl
  have hv'' : n.vals = l.toB := hv'
  have hsz := L.litSize l n hl ⟨hv, h2⟩ hv'
  have h3 : (Binary.shape α).size n = l.toB.size := by rw [Binary.shape_size, ← hv'']; simp [BTree.vals]
  have h4 : (Binary.shape α).arity n = arityL l.toB.toRose := by rw [(Binary.sizes_vals n).2, hv'']
  have hc : CacheOk (Binary.shape α) ⟨(Binary.shape α).ptr n, (Binary.kind α).litSize l, (Binary.kind α).litArity l, (Binary.shape α).ptr n⟩ n :=
    ⟨Or.inr hsz.1.symm, Or.inr hsz.2.symm⟩
  have s1 := (size_spec L O' (upd_same _ _ _) (upd_same _ _ _)).1
  have s2 := (arity_spec L O' (upd_same _ _ _) (upd_same _ _ _)).1
  refine ⟨_, n, e, O', hv'', ⟨_, by rw [s1, sizeAns_ok L hc, h3]⟩, ⟨_, by rw [s2, arityAns_ok L hc, h4]⟩, fun eqv l' k1 k2 k3 => ?_, ?_⟩
  · obtain ⟨W2, b, e2, _, _, hb⟩ := Binary.treeEqLit_exact eqv k1 k3 O' (upd_same _ _ _)
    suffices hbb : b = BTree.eqBy eqv l.toB l'.toB from ⟨W2, by rw [e2, hbb]⟩
    rw [Bool.eq_iff_iff, hb, hv'']
    refine ⟨fun h => h.2.2, fun h => ?_⟩
    obtain ⟨_, q1, q2⟩ := Binary.toB_rose l' k2 k3
    have hh := Tree.eqBy_sizes.2 _ _ (BTree.eqBy_rose _ _ h)
    simp only [sizeNow, arityNow, upd_same, Option.bind_some, Option.map_some, sizeAns_ok L hc, arityAns_ok L hc,
      (Binary.sizes_vals n).1, (Binary.sizes_vals n).2, hv'']
    exact ⟨by rw [← q1, hh.2.1], by rw [← q2, hh.2.2], h⟩
  · obtain ⟨a, ha⟩ := L.ptr_of_ne hn
    simp [World.eqNone, World.get, upd_same, ha]

/-- Assigning a literal gives the same tree as constructing from it; the old nodes are released. -/
theorem C24_assign_nary {W : World (NNode α)} {ts : Nat → Option (Option (Tree (Addr × α)))} {x : Nat} {t : Option (Tree (Addr × α))}
    (l : Tree α) (O : Owned (Nary.shape α) W ts) (hx : ts x = some t) :
    ∃ W' n, W.assignLit (Nary.kind α) x l = Res.ok W' ∧ Owned (Nary.shape α) W' (upd ts x (some (some n))) ∧ n.vals = l ∧
      (∃ W2, W'.size (Nary.kind α) x = Res.ok (W2, l.size)) ∧ ∃ W2, W'.arity (Nary.kind α) x = Res.ok (W2, l.arity) := by
  have L := Nary.lawful α
  obtain ⟨h', n, e, O', hv, hn, _⟩ := assignLit_spec L O hx (l := l) trivial
  cases n with
  | none => exact absurd rfl hn
  | some n =>
  have hv' : n.vals = l := by simpa [Nary.shape] using hv
  have hsz := L.litSize l (some n) trivial trivial hv
  have h1 : (Nary.shape α).size (some n) = l.size := by rw [Nary.shape_size, ← hv']; simp [Tree.vals, size_map]
  have h2 : (Nary.shape α).arity (some n) = l.arity := by rw [Nary.shape_arity, ← hv']; simp [Tree.vals, arity_map]
  have hc : CacheOk (Nary.shape α) ⟨(Nary.shape α).ptr (some n), (Nary.kind α).litSize l, (Nary.kind α).litArity l, (Nary.shape α).ptr (some n)⟩ (some n) :=
    ⟨Or.inr hsz.1.symm, Or.inr hsz.2.symm⟩
  have s1 := (size_spec L O' (upd_same _ _ _) (upd_same _ _ _)).1
  have s2 := (arity_spec L O' (upd_same _ _ _) (upd_same _ _ _)).1
  exact ⟨_, n, e, O', hv', ⟨_, by rw [s1, sizeAns_ok L hc, h1]⟩, ⟨_, by rw [s2, arityAns_ok L hc, h2]⟩⟩

theorem C24_assign_binary {W : World (BNode α)} {ts : Nat → Option (BTree (Addr × α))} {x : Nat} {t : BTree (Addr × α)} (l : Lit α)
    (hl : l.label.isSome) (hv : l.valid) (h2 : l.atMostTwo) (O : Owned (Binary.shape α) W ts) (hx : ts x = some t) :
    ∃ W' n, W.assignLit (Binary.kind α) x l = Res.ok W' ∧ Owned (Binary.shape α) W' (upd ts x (some n)) ∧ n.vals = l.toB ∧
      (∃ W2, W'.size (Binary.kind α) x = Res.ok (W2, l.toB.size)) ∧
      ∃ W2, W'.arity (Binary.kind α) x = Res.ok (W2, arityL l.toB.toRose) := by
  have L := Binary.lawful α
  obtain ⟨h', n, e, O', hv', hn, _⟩ := assignLit_spec L O hx (l := l) hl
  have hv'' : n.vals = l.toB := hv'
  have hsz := L.litSize l n hl ⟨hv, h2⟩ hv'
  have h3 : (Binary.shape α).size n = l.toB.size := by rw [Binary.shape_size, ← hv'']; simp [BTree.vals]
  have h4 : (Binary.shape α).arity n = arityL l.toB.toRose := by rw [(Binary.sizes_vals n).2, hv'']
  have hc : CacheOk (Binary.shape α) ⟨(Binary.shape α).ptr n, (Binary.kind α).litSize l, (Binary.kind α).litArity l, (Binary.shape α).ptr n⟩ n :=
    ⟨Or.inr hsz.1.symm, Or.inr hsz.2.symm⟩
  have s1 := (size_spec L O' (upd_same _ _ _) (upd_same _ _ _)).1
  have s2 := (arity_spec L O' (upd_same _ _ _) (upd_same _ _ _)).1
  exact ⟨_, n, e, O', hv'', ⟨_, by rw [s1, sizeAns_ok L hc, h3]⟩, ⟨_, by rw [s2, arityAns_ok L hc, h4]⟩⟩

/-- Comparing any tree with a literal, or with the empty literal `n()`, in any state whose counts are right. -/
theorem C24_compare_nary {W : World (NNode α)} {ts : Nat → Option (Option (Tree (Addr × α)))} {x : Nat}
    {t : Option (Tree (Addr × α))} (eqv : α → α → Bool) {l : Lit α} (hl : l.label.isSome) (O : Owned (Nary.shape α) W ts)
    (hC : Cached (Nary.shape α) W ts) (hx : ts x = some t) :
    (∃ W', Nary.treeEqLit eqv W x l = Res.ok (W', Nary.same (Nary.sameSlot eqv) (t.map Tree.vals) (some l)) ∧ Owned (Nary.shape α) W' ts) ∧
    ∃ b, W.eqNone x = Res.ok b ∧ (b = true ↔ t = none) := by
  obtain ⟨W', b, e, O', _, _, hb⟩ := Nary.treeEqLit_total eqv hl O hx
  exact ⟨⟨W', by rw [e, (hb hC).1]; rfl, O'⟩, eqNone_spec (Nary.lawful α) O hx⟩

theorem C24_compare_binary {W : World (BNode α)} {ts : Nat → Option (BTree (Addr × α))} {x : Nat} {t : BTree (Addr × α)}
    (eqv : α → α → Bool) {l : Lit α} (hl : l.label.isSome) (hv : l.valid) (h2 : l.atMostTwo) (O : Owned (Binary.shape α) W ts)
    (hC : Cached (Binary.shape α) W ts) (hx : ts x = some t) :
    (∃ W', Binary.treeEqLit eqv W x l = Res.ok (W', BTree.eqBy eqv t.vals l.toB) ∧ Owned (Binary.shape α) W' ts) ∧
    ∃ b, W.eqNone x = Res.ok b ∧ (b = true ↔ t = .nil) := by
  obtain ⟨W', b, e, O', _, _, hb⟩ := Binary.treeEqLit_total eqv hl hv h2 O hx
  exact ⟨⟨W', by rw [e, (hb hC).1], O'⟩, eqNone_spec (Binary.lawful α) O hx⟩

/-- A binary tree made from a literal with a third slot lacks that node, and differs from the literal:
`binary_tree<int> x = n(1)(n(2), n(), n(3));` has two nodes, and `x == n(1)(n(2), n(), n(3))` is false. -/
theorem C64_third_slot_defect : ∃ W ts, start.run (Binary.kind Nat)
      [.newLit 0 (node (some 1) [node (some 2) [], node none [], node (some 3) []])] = Res.ok (W, [.unit]) ∧
    Owned (Binary.shape Nat) W ts ∧ ts 0 = some (.node (0,1) (.node (1,2) .nil .nil) .nil) ∧
    ∃ W', Binary.treeEqLit (fun a b => decide (a = b)) W 0 (node (some 1) [node (some 2) [], node none [], node (some 3) []]) =
      Res.ok (W', false) := by
  have L := Binary.lawful Nat
  have D := Binary.determined Nat
  have hs : Supports (Binary.shape Nat) start [.newLit 0 (node (some 1) [node (some 2) [], node none [], node (some 3) []])] :=
    supports_next L (start_owned L) ⟨rfl, rfl⟩ fun ts1 O1 => trivial
  obtain ⟨ts, O⟩ := ended L D hs rfl
  exact ⟨_, ts, rfl, O, pin D O rfl (show Binary.Rep _ _ by decide) rfl, _, rfl⟩

/-! ## The hypotheses are met -/

theorem Samples.ncached : ∃ ts, Owned (Nary.shape Nat) nworld ts ∧ Cached (Nary.shape Nat) nworld ts ∧ ts 0 = some (some deep) ∧ ts 1 = some none ∧ ts 2 = none := by
  obtain ⟨ts, O, h0, h1, h2⟩ := nstate
  refine ⟨ts, O, fun x r t hr ht => ?_, h0, h1, h2⟩
  match x with
  | 0 => rw [h0] at ht; cases ht; cases hr; exact ⟨Or.inr rfl, Or.inr rfl⟩
  | 1 => rw [h1] at ht; cases ht; cases hr; exact ⟨Or.inl rfl, Or.inl rfl⟩
  | x + 2 => cases hr

theorem Samples.bcached : ∃ ts, Owned (Binary.shape Nat) bworld ts ∧ Cached (Binary.shape Nat) bworld ts ∧ ts 0 = some bin ∧ ts 1 = some .nil ∧ ts 2 = none := by
  obtain ⟨ts, O, h0, h1, h2⟩ := bstate
  refine ⟨ts, O, fun x r t hr ht => ?_, h0, h1, h2⟩
  match x with
  | 0 => rw [h0] at ht; cases ht; cases hr; exact ⟨Or.inr rfl, Or.inr rfl⟩
  | 1 => rw [h1] at ht; cases ht; cases hr; exact ⟨Or.inl rfl, Or.inl rfl⟩
  | x + 2 => cases hr

open Samples

example := C22_true_is_right_nary (fun a b : Nat => decide (a = b)) nhist_supported
example := C22_true_is_right_binary (fun a b : Nat => decide (a = b)) bhist_supported
example := C22_structural_nary (fun a b : Nat => decide (a = b)) ncare_supported
  (Generic.careful_keeps (Nary.lawful Nat) (Nary.determined Nat) ncare_careful (start_owned (Nary.lawful Nat)) Generic.start_cached
    ncare_supported ncare_small)
example := C22_structural_binary (fun a b : Nat => decide (a = b)) bcare_supported
  (Generic.careful_keeps (Binary.lawful Nat) (Binary.determined Nat) bcare_careful (start_owned (Binary.lawful Nat)) Generic.start_cached
    bcare_supported bcare_small)
example : ∃ W' b, nworld.eq (Nary.kind Nat) (fun a b => decide (a = b)) 0 1 = Res.ok (W', b) ∧ (b = true ↔ some deep.vals = none) := by
  obtain ⟨ts, O, hC, h0, h1, _⟩ := ncached
  obtain ⟨W', b, e, hb, _⟩ := C22_same_values_nary O hC h0 h1
  exact ⟨W', b, e, hb⟩
example : ∃ W' b, bworld.eq (Binary.kind Nat) (fun a b => decide (a = b)) 0 1 = Res.ok (W', b) ∧ (b = true ↔ bin.vals = .nil) := by
  obtain ⟨ts, O, hC, h0, h1, _⟩ := bcached
  obtain ⟨W', b, e, hb, _⟩ := C22_same_values_binary O hC h0 h1
  exact ⟨W', b, e, hb⟩
example : Equal (Nary.kind Nat) (fun a b => decide (a = b)) nworld 0 0 := by
  obtain ⟨ts, O, hC, h0, h1, _⟩ := ncached
  exact (C22_equivalence_nary (by simp) (fun a b => by simp [eq_comm]) (fun a b c => by simp; intro h1 h2; exact h1.trans h2) O).1 0 (by simp [h0])
example : Equal (Binary.kind Nat) (fun a b => decide (a = b)) bworld 0 0 := by
  obtain ⟨ts, O, hC, h0, h1, _⟩ := bcached
  exact (C22_equivalence_binary (by simp) (fun a b => by simp [eq_comm]) (fun a b c => by simp; intro h1 h2; exact h1.trans h2) O).1 0 (by simp [h0])
example : ∃ W' b, nworld.eq (Nary.kind Nat) (fun a b => decide (a = b)) 0 1 = Res.ok (W', b) ∧ W'.heap = nworld.heap := by
  obtain ⟨ts, O, hC, h0, h1, _⟩ := ncached
  exact ⟨_, _, rfl, (C22_no_effect_nary (x := 0) (y := 1) (eqv := fun a b => decide (a = b)) O (by simp [h0]) (by simp [h1]) rfl).1⟩
example : ∃ W' b, bworld.eq (Binary.kind Nat) (fun a b => decide (a = b)) 0 0 = Res.ok (W', b) ∧ W'.heap = bworld.heap := by
  obtain ⟨ts, O, hC, h0, h1, _⟩ := bcached
  exact ⟨_, _, rfl, (C22_no_effect_binary (x := 0) (y := 0) (eqv := fun a b => decide (a = b)) O (by simp [h0]) (by simp [h0]) rfl).1⟩

/-- The sample binary tree `n(1)(n(2)(n(), n(4)), n(3)(n(5)))` converts to `n(1)(n(2)(n(4)), n(3)(n(5)))`. -/
example : bin.vals.toNary = some (node 1 [node 2 [node 4 []], node 3 [node 5 []]]) := rfl
example : ∃ W' B', newBinary nworld bworld 2 0 = Res.ok (W', B') ∧ ∃ W2 B2, eqBinary (fun a b => decide (a = b)) W' B' 2 0 = Res.ok (W2, B2, true) := by
  obtain ⟨ts, O, hC, h0, h1, h2⟩ := ncached
  obtain ⟨bs, OB, hB, k0, _, _⟩ := bcached
  exact C23_construct_equal (by simp) O OB hC hB h2 k0
example : ∃ W' B', ∃ n : Option (Tree (Addr × Nat)), assignBinary nworld bworld 0 0 = Res.ok (W', B') ∧ n.map Tree.vals = bin.vals.toNary := by
  obtain ⟨ts, O, h0, h1, h2⟩ := nstate
  obtain ⟨bs, OB, k0, _, _⟩ := bstate
  obtain ⟨W', B', n, e, _, hv, _⟩ := C23_assign O OB h0 k0
  exact ⟨W', B', n, e, hv⟩
example : ∃ W' B', ∃ n : Option (Tree (Addr × Nat)), newBinary nworld bworld 2 0 = Res.ok (W', B') ∧ n.map Tree.vals = bin.vals.toNary := by
  obtain ⟨ts, O, h0, h1, h2⟩ := nstate
  obtain ⟨bs, OB, k0, _, _⟩ := bstate
  obtain ⟨W', B', n, e, _, hv, _⟩ := C23_construct O OB h2 k0
  exact ⟨W', B', n, e, hv⟩
example : ∃ W' B', eqBinary (fun a b => decide (a = b)) nworld bworld 0 0 = Res.ok (W', B', false) := by
  obtain ⟨ts, O, hC, h0, h1, h2⟩ := ncached
  obtain ⟨bs, OB, hB, k0, _, _⟩ := bcached
  obtain ⟨W', B', e, _⟩ := C23_compare (fun a b => decide (a = b)) O OB hC hB h0 k0
  exact ⟨W', B', e⟩
example : ∃ W' B' b, eqBinary (fun a b => decide (a = b)) nworld bworld 0 0 = Res.ok (W', B', b) := by
  obtain ⟨ts, O, h0, h1, h2⟩ := nstate
  obtain ⟨bs, OB, k0, _, _⟩ := bstate
  obtain ⟨W', B', b, e, _⟩ := C23_compare_true (fun a b => decide (a = b)) O OB h0 k0
  exact ⟨W', B', b, e⟩

example : ∃ W', ∃ n : Tree (Addr × Nat), nworld.newLit (Nary.kind Nat) 2 (node 1 [node 2 [], node 3 []]) = Res.ok W' ∧ n.vals = node 1 [node 2 [], node 3 []] := by
  obtain ⟨ts, O, h0, h1, h2⟩ := nstate
  obtain ⟨W', n, e, _, hv, _⟩ := C24_new_nary (node 1 [node 2 [], node 3 []]) O h2
  exact ⟨W', n, e, hv⟩
example : ∃ W', ∃ n : BTree (Addr × Nat), bworld.newLit (Binary.kind Nat) 2 (node (some 1) [node none [], node (some 3) []]) = Res.ok W' ∧
    n.vals = .node 1 .nil (.node 3 .nil .nil) := by
  obtain ⟨ts, O, h0, h1, h2⟩ := bstate
  obtain ⟨W', n, e, _, hv, _⟩ := C24_new_binary (node (some 1) [node none [], node (some 3) []]) rfl
    (by simp [Lit.valid, Lit.validL]) (by simp [Lit.atMostTwo, Lit.atMostTwoL]) O h2
  exact ⟨W', n, e, hv⟩
example : ∃ W', ∃ n : Tree (Addr × Nat), nworld.assignLit (Nary.kind Nat) 0 (node 1 [node 2 [], node 3 []]) = Res.ok W' ∧ n.vals = node 1 [node 2 [], node 3 []] := by
  obtain ⟨ts, O, h0, h1, h2⟩ := nstate
  obtain ⟨W', n, e, _, hv, _⟩ := C24_assign_nary (node 1 [node 2 [], node 3 []]) O h0
  exact ⟨W', n, e, hv⟩
example : ∃ W', ∃ n : BTree (Addr × Nat), bworld.assignLit (Binary.kind Nat) 0 (node (some 1) [node none [], node (some 3) []]) = Res.ok W' ∧
    n.vals = .node 1 .nil (.node 3 .nil .nil) := by
  obtain ⟨ts, O, h0, h1, h2⟩ := bstate
  obtain ⟨W', n, e, _, hv, _⟩ := C24_assign_binary (node (some 1) [node none [], node (some 3) []]) rfl
    (by simp [Lit.valid, Lit.validL]) (by simp [Lit.atMostTwo, Lit.atMostTwoL]) O h0
  exact ⟨W', n, e, hv⟩
example : ∃ W', Nary.treeEqLit (fun a b => decide (a = b)) nworld 0
    (node (some 1) [node (some 2) [node (some 5) [], node (some 6) [node (some 7) []]], node (some 3) [], node (some 4) []]) = Res.ok (W', true) := by
  obtain ⟨ts, O, hC, h0, h1, h2⟩ := ncached
  obtain ⟨⟨W', e, _⟩, _⟩ := C24_compare_nary (fun a b => decide (a = b))
    (l := node (some 1) [node (some 2) [node (some 5) [], node (some 6) [node (some 7) []]], node (some 3) [], node (some 4) []]) rfl O hC h0
  exact ⟨W', e⟩
example : ∃ W', Binary.treeEqLit (fun a b => decide (a = b)) bworld 0
    (node (some 1) [node (some 2) [node none [], node (some 4) []], node (some 3) [node (some 5) []]]) = Res.ok (W', true) := by
  obtain ⟨ts, O, hC, h0, h1, h2⟩ := bcached
  obtain ⟨⟨W', e, _⟩, _⟩ := C24_compare_binary (fun a b => decide (a = b))
    (l := node (some 1) [node (some 2) [node none [], node (some 4) []], node (some 3) [node (some 5) []]]) rfl
    (by simp [Lit.valid, Lit.validL]) (by simp [Lit.atMostTwo, Lit.atMostTwoL]) O hC h0
  exact ⟨W', e⟩
