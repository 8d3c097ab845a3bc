import Verif.Props.Compare
import Verif.Props.View
/-!
# C107: the other comparison operators

For two trees of one kind, an nary and a binary tree, a tree and a literal, a tree and the empty literal, and two views: `a == b`,
`b == a`, `a != b` and `b != a` are four operators of the library. They are defined in the same states, the order of the operands
does not matter, `!=` is the opposite of `==`, and all say what C22-C24, C39 say of `==`.
-/
open Tree World

variable {α : Type}

namespace Generic
variable {ν lit T V C : Type} {K : Kind ν α lit} {S : Shape K T V C} {ts : Nat → Option T} {W : World ν} {t u : T} {x y : Nat}

/-- The four comparisons of two trees of one kind. -/
theorem fourWays (L : Lawful S) {eqv : α → α → Bool} {E : V → V → Bool} (c : Compares S eqv E) (hs : ∀ v w, E v w = E w v)
    (O : Owned S W ts) (hx : ts x = some t) (hy : ts y = some u) :
    ∃ W1 W2 b, W.eq K eqv x y = Res.ok (W1, b) ∧ W.eq K eqv y x = Res.ok (W2, b) ∧ W.ne K eqv x y = Res.ok (W1, !b) ∧
      W.ne K eqv y x = Res.ok (W2, !b) ∧ Owned S W1 ts ∧ Owned S W2 ts ∧ (b = true → E (S.vals t) (S.vals u) = true) ∧
      (Cached S W ts → b = E (S.vals t) (S.vals u)) := by
  obtain ⟨W1, b, e1, O1, _, hb, hc⟩ := eq_total L c.nodes c.nil c.sizes O hx hy
  obtain ⟨W2, b', e2, O2, _, _, _⟩ := eq_total L c.nodes c.nil c.sizes O hy hx
  have h1 := equal_iff L c O hx hy
  have h2 := equal_iff L c O hy hx
  have k1 : Equal K eqv W x y ↔ b = true := ⟨fun ⟨_, e⟩ => by rw [e1] at e; cases e; rfl, fun hb => ⟨W1, by rw [e1, hb]⟩⟩
  have k2 : Equal K eqv W y x ↔ b' = true := ⟨fun ⟨_, e⟩ => by rw [e2] at e; cases e; rfl, fun hb => ⟨W2, by rw [e2, hb]⟩⟩
  have : b = true ↔ b' = true := by
    rw [← k1, ← k2, h1, h2, hs (S.vals u)]
    exact ⟨fun ⟨p, q, r⟩ => ⟨p.symm, q.symm, r⟩, fun ⟨p, q, r⟩ => ⟨p.symm, q.symm, r⟩⟩
  cases Bool.eq_iff_iff.mpr this
  exact ⟨W1, W2, b, e1, e2, by simp [World.ne, e1], by simp [World.ne, e2], O1, O2, hb, fun hC => (hc hC).1⟩

end Generic

/-! ## trees of one kind -/

/-- `x == y`, `y == x`, `x != y`, `y != x` for two nary trees in any state: one answer `b` and its opposite; `b` is structural
equality if the counts are right, and implies it in any case. -/
theorem C107_trees_nary {eqv : α → α → Bool} (hs : ∀ a b, eqv a b = eqv b a) {W : World (NNode α)}
    {ts : Nat → Option (Option (Tree (Addr × α)))} {x y : Nat} {t u : Option (Tree (Addr × α))} (O : Owned (Nary.shape α) W ts)
    (hx : ts x = some t) (hy : ts y = some u) :
    ∃ W1 W2 b, W.eq (Nary.kind α) eqv x y = Res.ok (W1, b) ∧ W.eq (Nary.kind α) eqv y x = Res.ok (W2, b) ∧
      W.ne (Nary.kind α) eqv x y = Res.ok (W1, !b) ∧ W.ne (Nary.kind α) eqv y x = Res.ok (W2, !b) ∧
      Owned (Nary.shape α) W1 ts ∧ Owned (Nary.shape α) W2 ts ∧
      (b = true → Nary.same eqv (t.map Tree.vals) (u.map Tree.vals) = true) ∧
      (Cached (Nary.shape α) W ts → b = Nary.same eqv (t.map Tree.vals) (u.map Tree.vals)) :=
  Generic.fourWays (Nary.lawful α) (Nary.compares eqv) (Nary.same_symm hs) O hx hy

theorem C107_trees_binary {eqv : α → α → Bool} (hs : ∀ a b, eqv a b = eqv b a) {W : World (BNode α)}
    {ts : Nat → Option (BTree (Addr × α))} {x y : Nat} {t u : BTree (Addr × α)} (O : Owned (Binary.shape α) W ts)
    (hx : ts x = some t) (hy : ts y = some u) :
    ∃ W1 W2 b, W.eq (Binary.kind α) eqv x y = Res.ok (W1, b) ∧ W.eq (Binary.kind α) eqv y x = Res.ok (W2, b) ∧
      W.ne (Binary.kind α) eqv x y = Res.ok (W1, !b) ∧ W.ne (Binary.kind α) eqv y x = Res.ok (W2, !b) ∧
      Owned (Binary.shape α) W1 ts ∧ Owned (Binary.shape α) W2 ts ∧
      (b = true → BTree.eqBy eqv t.vals u.vals = true) ∧
      (Cached (Binary.shape α) W ts → b = BTree.eqBy eqv t.vals u.vals) :=
  Generic.fourWays (Binary.lawful α) (Binary.compares eqv) (BTree.eqBy_symm hs) O hx hy

/-! ## an nary and a binary tree -/

/-- `x == y`, `y == x`, `x != y`, `y != x` for an nary tree `x` and a binary tree `y`. -/
theorem C107_mixed (eqv : α → α → Bool) {W : World (NNode α)} {B : World (BNode α)} {ts : Nat → Option (Option (Tree (Addr × α)))}
    {bs : Nat → Option (BTree (Addr × α))} {x y : Nat} {t : Option (Tree (Addr × α))} {u : BTree (Addr × α)}
    (O : Owned (Nary.shape α) W ts) (OB : Owned (Binary.shape α) B bs) (hx : ts x = some t) (hy : bs y = some u) :
    ∃ W' B' b, eqBinary eqv W B x y = Res.ok (W', B', b) ∧ binaryEq eqv W B y x = Res.ok (W', B', b) ∧
      neBinary eqv W B x y = Res.ok (W', B', !b) ∧ binaryNe eqv W B y x = Res.ok (W', B', !b) ∧
      Owned (Nary.shape α) W' ts ∧ Owned (Binary.shape α) B' bs ∧
      (b = true → Nary.same eqv (t.map Tree.vals) u.vals.toNary = true) ∧
      (Cached (Nary.shape α) W ts → Cached (Binary.shape α) B bs → b = Nary.same eqv (t.map Tree.vals) u.vals.toNary) := by
  obtain ⟨W', B', b, e, h1, h2, h3, h4⟩ := eqBinary_total eqv O OB hx hy
  exact ⟨W', B', b, e, e, by simp [neBinary, e], by simp [binaryNe, e], h1, h2, h3, fun hC hB => (h4 hC hB).1⟩

/-! ## a tree and a literal -/

/-- `x == l`, `l == x`, `x != l`, `l != x` for an nary tree and a literal `n(v)(…)`. -/
theorem C107_literal_nary (eqv : α → α → Bool) {W : World (NNode α)} {ts : Nat → Option (Option (Tree (Addr × α)))} {x : Nat}
    {t : Option (Tree (Addr × α))} {l : Lit α} (hl : l.label.isSome) (O : Owned (Nary.shape α) W ts) (hx : ts x = some t) :
    ∃ W' b, Nary.treeEqLit eqv W x l = Res.ok (W', b) ∧ Nary.litEqTree eqv W l x = Res.ok (W', b) ∧
      Nary.treeNeLit eqv W x l = Res.ok (W', !b) ∧ Nary.litNeTree eqv W l x = Res.ok (W', !b) ∧ Owned (Nary.shape α) W' ts ∧
      (b = true → Nary.same (Nary.sameSlot eqv) (t.map Tree.vals) (some l) = true) ∧
      (Cached (Nary.shape α) W ts → b = Nary.same (Nary.sameSlot eqv) (t.map Tree.vals) (some l)) := by
  obtain ⟨W', b, e, O', _, h1, h2⟩ := Nary.treeEqLit_total eqv hl O hx
  exact ⟨W', b, e, e, by simp [Nary.treeNeLit, e], by simp [Nary.litNeTree, e], O', h1, fun hC => (h2 hC).1⟩

theorem C107_literal_binary (eqv : α → α → Bool) {W : World (BNode α)} {ts : Nat → Option (BTree (Addr × α))} {x : Nat}
    {t : BTree (Addr × α)} {l : Lit α} (hl : l.label.isSome) (hv : l.valid) (h2 : l.atMostTwo) (O : Owned (Binary.shape α) W ts)
    (hx : ts x = some t) :
    ∃ W' b, Binary.treeEqLit eqv W x l = Res.ok (W', b) ∧ Binary.litEqTree eqv W l x = Res.ok (W', b) ∧
      Binary.treeNeLit eqv W x l = Res.ok (W', !b) ∧ Binary.litNeTree eqv W l x = Res.ok (W', !b) ∧
      Owned (Binary.shape α) W' ts ∧ (b = true → BTree.eqBy eqv t.vals l.toB = true) ∧
      (Cached (Binary.shape α) W ts → b = BTree.eqBy eqv t.vals l.toB) := by
  obtain ⟨W', b, e, O', _, h1, h2⟩ := Binary.treeEqLit_total eqv hl hv h2 O hx
  exact ⟨W', b, e, e, by simp [Binary.treeNeLit, e], by simp [Binary.litNeTree, e], O', h1, fun hC => (h2 hC).1⟩

/-- `x == n()`, `n() == x`: the tree is empty; `x != n()`, `n() != x`: it is not. -/
theorem C107_none_nary {W : World (NNode α)} {ts : Nat → Option (Option (Tree (Addr × α)))} {x : Nat} {t : Option (Tree (Addr × α))}
    (O : Owned (Nary.shape α) W ts) (hx : ts x = some t) :
    W.eqNone x = Res.ok t.isNone ∧ W.noneEq x = Res.ok t.isNone ∧ W.neNone x = Res.ok t.isSome ∧ W.noneNe x = Res.ok t.isSome := by
  obtain ⟨b, e, hb⟩ := eqNone_spec (Nary.lawful α) O hx
  have hb : b = true ↔ t = none := hb
  have h : b = t.isNone := by cases t <;> cases b <;> simp_all
  subst h
  exact ⟨e, e, by cases t <;> simp_all [neNone], by cases t <;> simp_all [noneNe]⟩

theorem C107_none_binary {W : World (BNode α)} {ts : Nat → Option (BTree (Addr × α))} {x : Nat} {t : BTree (Addr × α)}
    (O : Owned (Binary.shape α) W ts) (hx : ts x = some t) :
    ∃ b, (b = true ↔ t = .nil) ∧ W.eqNone x = Res.ok b ∧ W.noneEq x = Res.ok b ∧ W.neNone x = Res.ok (!b) ∧
      W.noneNe x = Res.ok (!b) := by
  obtain ⟨b, e, hb⟩ := eqNone_spec (Binary.lawful α) O hx
  exact ⟨b, hb, e, e, by simp [neNone, e], by simp [noneNe, e]⟩

/-! ## views -/

/-- Two views of binary trees. -/
theorem C107_views_binary {eqv : α → α → Bool} (hs : ∀ a b, eqv a b = eqv b a) {h : BHeap α} (hw : h.WF)
    {c d : List (BTree.Frame (Addr × α))} {s u : BTree (Addr × α)} (H : Binary.Rep h (BTree.plug c s))
    (H' : Binary.Rep h (BTree.plug d u)) {v w : TreeRec} (Sv : Shows (Binary.shape α) v s) (Sw : Shows (Binary.shape α) w u) :
    ∃ v1 w1 v2 w2, View.eq (Binary.kind α) eqv h v w = Res.ok (v1, w1, BTree.eqBy eqv s.vals u.vals) ∧
      View.eq (Binary.kind α) eqv h w v = Res.ok (w2, v2, BTree.eqBy eqv s.vals u.vals) ∧
      View.ne (Binary.kind α) eqv h v w = Res.ok (v1, w1, !BTree.eqBy eqv s.vals u.vals) ∧
      View.ne (Binary.kind α) eqv h w v = Res.ok (w2, v2, !BTree.eqBy eqv s.vals u.vals) := by
  obtain ⟨v1, w1, e1, _⟩ := C39_eq_binary eqv hw H H' Sv Sw
  obtain ⟨w2, v2, e2, _⟩ := C39_eq_binary eqv hw H' H Sw Sv
  rw [BTree.eqBy_symm hs] at e2
  exact ⟨v1, w1, v2, w2, e1, e2, by simp [View.ne, e1], by simp [View.ne, e2]⟩

/-- A view `v` of a whole nary tree or of a last child (`hc`, see C70) and a view `w` of binary nodes. -/
theorem C107_views_mixed (eqv : α → α → Bool) {h : NHeap α} {hb : BHeap α} (hw : h.WF) (hwb : hb.WF) {c : List (Frame (Addr × α))}
    {d : List (BTree.Frame (Addr × α))} {s : Tree (Addr × α)} {u : BTree (Addr × α)} {U : Tree (Addr × α)}
    (H : Nary.Rep h (plug c s)) (H' : Binary.Rep hb (BTree.plug d u)) (hU : u.toNary = some U) {v w : TreeRec}
    (Sv : Shows (Nary.shape α) v (some s)) (Sw : Shows (Binary.shape α) w u) (hc : Nary.after c = []) :
    ∃ v' w', View.eqBinary eqv h hb v w = Res.ok (v', w', s.vals.eqBy eqv U.vals) ∧
      View.binaryEq eqv h hb w v = Res.ok (v', w', s.vals.eqBy eqv U.vals) ∧
      View.neBinary eqv h hb v w = Res.ok (v', w', !s.vals.eqBy eqv U.vals) ∧
      View.binaryNe eqv h hb w v = Res.ok (v', w', !s.vals.eqBy eqv U.vals) := by
  obtain ⟨v', w', e⟩ := C70_eq_mixed_partial eqv hw hwb H H' hU Sv Sw hc
  exact ⟨v', w', e, e, by simp [View.neBinary, e], by simp [View.binaryNe, e]⟩

/-! ## the hypotheses are met -/

open Samples

example : ∃ W1 W2 b, nworld.eq (Nary.kind Nat) (fun a b => decide (a = b)) 0 1 = Res.ok (W1, b) ∧
    nworld.ne (Nary.kind Nat) (fun a b => decide (a = b)) 1 0 = Res.ok (W2, !b) := by
  obtain ⟨ts, O, hC, h0, h1, _⟩ := ncached
  obtain ⟨W1, W2, b, e1, _, _, e4, _⟩ := C107_trees_nary (eqv := fun a b => decide (a = b)) (fun a b => by simp [eq_comm]) O h0 h1
  exact ⟨W1, W2, b, e1, e4⟩
example : ∃ W1 W2 b, bworld.eq (Binary.kind Nat) (fun a b => decide (a = b)) 0 0 = Res.ok (W1, b) ∧
    bworld.ne (Binary.kind Nat) (fun a b => decide (a = b)) 0 0 = Res.ok (W2, !b) := by
  obtain ⟨ts, O, h0, h1, _⟩ := bstate
  obtain ⟨W1, W2, b, e1, _, _, e4, _⟩ := C107_trees_binary (eqv := fun a b => decide (a = b)) (fun a b => by simp [eq_comm]) O h0 h0
  exact ⟨W1, W2, b, e1, e4⟩
/-- The sample nary tree (arity three) and the sample binary tree differ. -/
example : ∃ W' B', binaryNe (fun a b => decide (a = b)) nworld bworld 0 0 = Res.ok (W', B', true) := by
  obtain ⟨ts, O, hC, h0, h1, h2⟩ := ncached
  obtain ⟨bs, OB, hB, k0, _, _⟩ := bcached
  obtain ⟨W', B', b, _, _, _, e, _, _, _, hb⟩ := C107_mixed (fun a b => decide (a = b)) O OB h0 k0
  exact ⟨W', B', by rw [e, hb hC hB]; rfl⟩
example : ∃ W', Nary.litNeTree (fun a b => decide (a = b)) nworld
    (node (some 1) [node (some 2) [node (some 5) [], node (some 6) [node (some 7) []]], node (some 3) [], node (some 4) []]) 0 =
      Res.ok (W', false) := by
  obtain ⟨ts, O, hC, h0, h1, h2⟩ := ncached
  obtain ⟨W', b, _, _, _, e, _, _, hb⟩ := C107_literal_nary (fun a b => decide (a = b))
    (l := node (some 1) [node (some 2) [node (some 5) [], node (some 6) [node (some 7) []]], node (some 3) [], node (some 4) []]) rfl O h0
  exact ⟨W', by rw [e, hb hC]; rfl⟩
example : ∃ W', Binary.treeNeLit (fun a b => decide (a = b)) bworld 0
    (node (some 1) [node (some 2) [node none [], node (some 4) []], node (some 3) [node (some 5) []]]) = Res.ok (W', false) := by
  obtain ⟨ts, O, hC, h0, h1, h2⟩ := bcached
  obtain ⟨W', b, _, _, e, _, _, _, hb⟩ := C107_literal_binary (fun a b => decide (a = b))
    (l := node (some 1) [node (some 2) [node none [], node (some 4) []], node (some 3) [node (some 5) []]]) rfl
    (by simp [Lit.valid, Lit.validL]) (by simp [Lit.atMostTwo, Lit.atMostTwoL]) O h0
  exact ⟨W', by rw [e, hb hC]; rfl⟩
example : nworld.neNone 0 = Res.ok true := by
  obtain ⟨ts, O, h0, h1, h2⟩ := nstate
  exact (C107_none_nary O h0).2.2.1
example : ∃ b, bworld.noneNe 0 = Res.ok (!b) := by
  obtain ⟨ts, O, h0, h1, h2⟩ := bstate
  obtain ⟨b, _, _, _, _, e⟩ := C107_none_binary O h0
  exact ⟨b, e⟩
example : ∃ v' w', View.ne (Binary.kind Nat) (fun a b => a == b) btwins.heap ⟨some 1, 0, 0, some 1⟩ ⟨some 3, 0, 0, some 3⟩ =
    Res.ok (v', w', false) := by
  obtain ⟨v', w', _, _, _, _, e, _⟩ := C107_views_binary (eqv := fun a b => a == b) (fun _ _ => BEq.comm) btwin_wf (c := btwinL) (d := btwinR)
    (s := .node (1,2) (.node (2,3) .nil .nil) .nil) (u := .node (3,2) (.node (4,3) .nil .nil) .nil) btwin_rep btwin_rep
    (bshows_inner rfl) (bshows_inner rfl)
  exact ⟨v', w', e⟩
example : ∃ v' w', View.binaryNe (fun a b => a == b) twins.heap btwins.heap ⟨some 1, 0, 0, some 1⟩ ⟨some 2, 0, 0, some 2⟩ =
    Res.ok (v', w', false) := by
  obtain ⟨v', w', _, _, _, e⟩ := C107_views_mixed (fun a b => a == b) twin_wf btwin_wf (c := twinR) (d := btwinL)
    (s := node (2,2) [node (3,3) []]) (u := .node (1,2) (.node (2,3) .nil .nil) .nil) twin_rep btwin_rep rfl (shows_inner rfl)
    (bshows_inner rfl) rfl
  exact ⟨v', w', e⟩
