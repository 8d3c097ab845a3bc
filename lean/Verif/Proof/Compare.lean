import Verif.Model.Compare
import Verif.Proof.Same
import Verif.Proof.Convert
import Verif.Proof.LawfulBin
import Verif.Proof.Caches
/-! Comparison of trees. -/
open Tree World

section
variable {ν α lit T V C : Type} {K : Kind ν α lit} {S : Shape K T V C} {ts : Nat → Option T} {W : World ν} {t u : T} {x y : Nat}
  {r : TreeRec} (L : Lawful S)
include L

theorem size_query (O : Owned S W ts) (hx : ts x = some t) : ∃ W1 n, W.size K x = Res.ok (W1, n) ∧ Owned S W1 ts ∧
    W1.heap = W.heap ∧ (Cached S W ts → n = S.size t ∧ Cached S W1 ts) := by
  obtain ⟨r, hr, _⟩ := O.get L hx
  obtain ⟨e, O1⟩ := size_spec L O hx hr
  refine ⟨_, _, e, O1, rfl, fun hC => ⟨sizeAns_ok L (hC x r t hr hx), ?_⟩⟩
  have := Cached.upd (x := x) (hp := W.heap) hC (o := some t) (p := some { r with size := sizeAns S r t }) (by
    rintro _ _ ⟨⟩ ⟨⟩
    exact ⟨Or.inr (sizeAns_ok L (hC x r t hr hx)), (hC x r t hr hx).2⟩)
  rwa [← hx, upd_self] at this

theorem arity_query (O : Owned S W ts) (hx : ts x = some t) : ∃ W1 n, W.arity K x = Res.ok (W1, n) ∧ Owned S W1 ts ∧
    W1.heap = W.heap ∧ (Cached S W ts → n = S.arity t ∧ Cached S W1 ts) := by
  obtain ⟨r, hr, _⟩ := O.get L hx
  obtain ⟨e, O1⟩ := arity_spec L O hx hr
  refine ⟨_, _, e, O1, rfl, fun hC => ⟨arityAns_ok L (hC x r t hr hx), ?_⟩⟩
  have := Cached.upd (x := x) (hp := W.heap) hC (o := some t) (p := some { r with arity := arityAns S r t }) (by
    rintro _ _ ⟨⟩ ⟨⟩
    exact ⟨(hC x r t hr hx).1, Or.inr (arityAns_ok L (hC x r t hr hx))⟩)
  rwa [← hx, upd_self] at this

theorem eq_total {eqv : α → α → Bool} {E : V → V → Bool}
    (hE : ∀ (h : Heap ν) t u a b, h.WF → S.Rep h t → S.Rep h u → S.ptr t = some a → S.ptr u = some b →
      K.eq eqv h.fuel h a h b = Res.ok (E (S.vals t) (S.vals u)))
    (hnil : E (S.vals S.nil) (S.vals S.nil) = true)
    (hs : ∀ t u, E (S.vals t) (S.vals u) = true → S.size t = S.size u ∧ S.arity t = S.arity u ∧ (t = S.nil ↔ u = S.nil))
    (O : Owned S W ts) (hx : ts x = some t) (hy : ts y = some u) :
    ∃ W' b, W.eq K eqv x y = Res.ok (W', b) ∧ Owned S W' ts ∧ W'.heap = W.heap ∧ (b = true → E (S.vals t) (S.vals u) = true) ∧
      (Cached S W ts → b = E (S.vals t) (S.vals u) ∧ Cached S W' ts) := by
  obtain ⟨rx, hrx, gx, px, _⟩ := O.get L hx
  obtain ⟨ry, hry, gy, py, _⟩ := O.get L hy
  have nx : rx.root.isNone = true ↔ t = S.nil := by rw [px, Option.isNone_iff_eq_none, L.ptr_none_iff]
  have ny : ry.root.isNone = true ↔ u = S.nil := by rw [py, Option.isNone_iff_eq_none, L.ptr_none_iff]
  have hns := hs t u
  simp only [World.eq, gx, gy, Res.ok_bind]
  by_cases hne : rx.root.isNone = ry.root.isNone
  rotate_left
  · rw [if_pos (by simpa using hne)]
    refine ⟨W, false, rfl, O, rfl, by simp, fun hC => ⟨?_, hC⟩⟩
    cases hb : E (S.vals t) (S.vals u)
    · rfl
    · exact absurd (Bool.eq_iff_iff.mpr (nx.trans ((hns hb).2.2.trans ny.symm))) hne
  rw [if_neg (by simpa using hne)]
  obtain ⟨W1, n1, e1, O1, f1, c1⟩ := size_query L O hx
  obtain ⟨W2, n2, e2, O2, f2, c2⟩ := size_query L O1 hy
  simp only [e1, e2, Res.ok_bind]
  by_cases hn : n1 = n2
  rotate_left
  · rw [if_pos (by simpa using hn)]
    refine ⟨W2, false, rfl, O2, by rw [f2, f1], by simp, fun hC => ⟨?_, (c2 (c1 hC).2).2⟩⟩
    cases hb : E (S.vals t) (S.vals u)
    · rfl
    · exact absurd ((c1 hC).1.trans ((hns hb).1.trans (c2 (c1 hC).2).1.symm)) hn
  rw [if_neg (by simpa using hn)]
  obtain ⟨W3, n3, e3, O3, f3, c3⟩ := arity_query L O2 hx
  obtain ⟨W4, n4, e4, O4, f4, c4⟩ := arity_query L O3 hy
  have fh : W4.heap = W.heap := by rw [f4, f3, f2, f1]
  have cc : Cached S W ts → n3 = S.arity t ∧ n4 = S.arity u ∧ Cached S W4 ts := fun hC =>
    have h3 := c3 (c2 (c1 hC).2).2
    ⟨h3.1, (c4 h3.2).1, (c4 h3.2).2⟩
  simp only [e3, e4, Res.ok_bind]
  by_cases hm : n3 = n4
  rotate_left
  · rw [if_pos (by simpa using hm)]
    refine ⟨W4, false, rfl, O4, fh, by simp, fun hC => ⟨?_, (cc hC).2.2⟩⟩
    cases hb : E (S.vals t) (S.vals u)
    · rfl
    · exact absurd ((cc hC).1.trans ((hns hb).2.1.trans (cc hC).2.1.symm)) hm
  rw [if_neg (by simpa using hm)]
  cases hpx : rx.root with
  | none =>
    have ht : t = S.nil := nx.mp (by simp [hpx])
    have hu : u = S.nil := ny.mp (by rw [← hne]; simp [hpx])
    subst ht hu
    exact ⟨W4, true, rfl, O4, fh, fun _ => hnil, fun hC => ⟨hnil.symm, (cc hC).2.2⟩⟩
  | some a =>
    cases hpy : ry.root with
    | none => rw [hpx, hpy] at hne; cases hne
    | some b =>
      have := hE W4.heap t u a b O4.wf (O4.rep x t hx) (O4.rep y u hy) (px.symm.trans hpx) (py.symm.trans hpy)
      simp only [deref, Res.ok_bind, this, Res.pure_eq]
      exact ⟨W4, _, rfl, O4, fh, id, fun hC => ⟨rfl, (cc hC).2.2⟩⟩

omit L in
/-- The answer `size()` would give now. -/
def sizeNow (S : Shape K T V C) (W : World ν) (ts : Nat → Option T) (x : Nat) : Option Nat :=
  (W.vars x).bind fun r => (ts x).map fun t => sizeAns S r t
omit L in
/-- The answer `arity()` would give now. -/
def arityNow (S : Shape K T V C) (W : World ν) (ts : Nat → Option T) (x : Nat) : Option Nat :=
  (W.vars x).bind fun r => (ts x).map fun t => arityAns S r t

/-- Nothing but the answers to `size()` and `arity()`, which stay the same, was touched. -/
structure SameNow (S : Shape K T V C) (W W' : World ν) (ts : Nat → Option T) : Prop where
  heap : W'.heap = W.heap
  size : ∀ z, sizeNow S W' ts z = sizeNow S W ts z
  arity : ∀ z, arityNow S W' ts z = arityNow S W ts z

omit L in
theorem SameNow.refl (W : World ν) : SameNow S W W ts := ⟨rfl, fun _ => rfl, fun _ => rfl⟩
omit L in
theorem SameNow.trans {W1 W2 W3 : World ν} (h1 : SameNow S W1 W2 ts) (h2 : SameNow S W2 W3 ts) : SameNow S W1 W3 ts :=
  ⟨h2.heap.trans h1.heap, fun z => (h2.size z).trans (h1.size z), fun z => (h2.arity z).trans (h1.arity z)⟩

theorem size_now {Z : Addr → Prop} (O : OwnedBut Z S W ts) (hx : ts x = some t) : ∃ W1 n, W.size K x = Res.ok (W1, n) ∧ OwnedBut Z S W1 ts ∧
    SameNow S W W1 ts ∧ sizeNow S W ts x = some n := by
  obtain ⟨r, hr, _⟩ := O.get L hx
  obtain ⟨e, O1⟩ := size_spec L O hx hr
  refine ⟨_, _, e, O1, ⟨rfl, fun z => ?_, fun z => ?_⟩, by simp [sizeNow, hr, hx]⟩
  · by_cases h : z = x
    · subst h; simp only [sizeNow, upd_same, hr, hx, Option.bind_some, Option.map_some, Option.some.injEq]
      unfold sizeAns; split <;> simp_all
    · simp [sizeNow, upd_other _ _ h]
  · by_cases h : z = x
    · subst h; simp [arityNow, upd_same, hr, hx, arityAns]
    · simp [arityNow, upd_other _ _ h]

theorem arity_now {Z : Addr → Prop} (O : OwnedBut Z S W ts) (hx : ts x = some t) : ∃ W1 n, W.arity K x = Res.ok (W1, n) ∧ OwnedBut Z S W1 ts ∧
    SameNow S W W1 ts ∧ arityNow S W ts x = some n := by
  obtain ⟨r, hr, _⟩ := O.get L hx
  obtain ⟨e, O1⟩ := arity_spec L O hx hr
  refine ⟨_, _, e, O1, ⟨rfl, fun z => ?_, fun z => ?_⟩, by simp [arityNow, hr, hx]⟩
  · by_cases h : z = x
    · subst h; simp [sizeNow, upd_same, hr, hx, sizeAns]
    · simp [sizeNow, upd_other _ _ h]
  · by_cases h : z = x
    · subst h; simp only [arityNow, upd_same, hr, hx, Option.bind_some, Option.map_some, Option.some.injEq]
      unfold arityAns; split <;> simp_all
    · simp [arityNow, upd_other _ _ h]

/-- What `==` answers, also when the remembered counts are wrong. -/
theorem eq_exact {eqv : α → α → Bool} {E : V → V → Bool}
    (hE : ∀ (h : Heap ν) t u a b, h.WF → S.Rep h t → S.Rep h u → S.ptr t = some a → S.ptr u = some b →
      K.eq eqv h.fuel h a h b = Res.ok (E (S.vals t) (S.vals u)))
    (hnil : E (S.vals S.nil) (S.vals S.nil) = true)
    (hs : ∀ t u, E (S.vals t) (S.vals u) = true → (t = S.nil ↔ u = S.nil))
    (O : Owned S W ts) (hx : ts x = some t) (hy : ts y = some u) :
    ∃ W' b, W.eq K eqv x y = Res.ok (W', b) ∧ Owned S W' ts ∧ SameNow S W W' ts ∧
      (b = true ↔ sizeNow S W ts x = sizeNow S W ts y ∧ arityNow S W ts x = arityNow S W ts y ∧ E (S.vals t) (S.vals u) = true) := by
  obtain ⟨rx, hrx, gx, px, _⟩ := O.get L hx
  obtain ⟨ry, hry, gy, py, _⟩ := O.get L hy
  have nx : rx.root.isNone = true ↔ t = S.nil := by rw [px, Option.isNone_iff_eq_none, L.ptr_none_iff]
  have ny : ry.root.isNone = true ↔ u = S.nil := by rw [py, Option.isNone_iff_eq_none, L.ptr_none_iff]
  have hns := hs t u
  simp only [World.eq, gx, gy, Res.ok_bind]
  by_cases hne : rx.root.isNone = ry.root.isNone
  rotate_left
  · rw [if_pos (by simpa using hne)]
    refine ⟨W, false, rfl, O, .refl W, ⟨fun h => (by cases h), fun h => ?_⟩⟩
    exact absurd (Bool.eq_iff_iff.mpr (nx.trans ((hns h.2.2).trans ny.symm))) hne
  rw [if_neg (by simpa using hne)]
  obtain ⟨W1, n1, e1, O1, f1, c1⟩ := size_now L O hx
  obtain ⟨W2, n2, e2, O2, f2, c2⟩ := size_now L O1 hy
  rw [f1.size] at c2
  simp only [e1, e2, Res.ok_bind]
  by_cases hn : n1 = n2
  rotate_left
  · rw [if_pos (by simpa using hn)]
    refine ⟨W2, false, rfl, O2, f1.trans f2, ⟨fun h => (by cases h), fun h => ?_⟩⟩
    rw [c1, c2] at h
    exact absurd (Option.some.inj h.1) hn
  rw [if_neg (by simpa using hn)]
  obtain ⟨W3, n3, e3, O3, f3, c3⟩ := arity_now L O2 hx
  obtain ⟨W4, n4, e4, O4, f4, c4⟩ := arity_now L O3 hy
  rw [f3.arity, f2.arity, f1.arity] at c4
  rw [f2.arity, f1.arity] at c3
  have ff := ((f1.trans f2).trans f3).trans f4
  simp only [e3, e4, Res.ok_bind]
  by_cases hm : n3 = n4
  rotate_left
  · rw [if_pos (by simpa using hm)]
    refine ⟨W4, false, rfl, O4, ff, ⟨fun h => (by cases h), fun h => ?_⟩⟩
    rw [c3, c4] at h
    exact absurd (Option.some.inj h.2.1) hm
  rw [if_neg (by simpa using hm)]
  rw [c1, c2, c3, c4, hn, hm]
  cases hpx : rx.root with
  | none =>
    have ht : t = S.nil := nx.mp (by simp [hpx])
    have hu : u = S.nil := ny.mp (by rw [← hne]; simp [hpx])
    subst ht hu
    exact ⟨W4, true, rfl, O4, ff, by simp [hnil]⟩
  | some a =>
    cases hpy : ry.root with
    | none => rw [hpx, hpy] at hne; cases hne
    | some b =>
      have := hE W4.heap t u a b O4.wf (O4.rep x t hx) (O4.rep y u hy) (px.symm.trans hpx) (py.symm.trans hpy)
      simp only [deref, Res.ok_bind, this, Res.pure_eq]
      exact ⟨W4, _, rfl, O4, ff, by simp⟩

/-- Comparison with a literal. -/
theorem eqWith_total {cmp : Heap ν → Addr → Res Bool} {n k : Nat} {E : V → Bool}
    (hE : ∀ (h : Heap ν) t a, h.WF → S.Rep h t → S.ptr t = some a → cmp h a = Res.ok (E (S.vals t)))
    (hnil : E (S.vals S.nil) = false) (hs : ∀ t, E (S.vals t) = true → S.size t = n ∧ S.arity t = k)
    (O : Owned S W ts) (hx : ts x = some t) :
    ∃ W' b, W.eqWith K cmp n k x = Res.ok (W', b) ∧ Owned S W' ts ∧ W'.heap = W.heap ∧ (b = true → E (S.vals t) = true) ∧
      (Cached S W ts → b = E (S.vals t) ∧ Cached S W' ts) := by
  obtain ⟨rx, hrx, gx, px, _⟩ := O.get L hx
  have hns := hs t
  simp only [World.eqWith, gx, Res.ok_bind]
  obtain ⟨W1, n1, e1, O1, f1, c1⟩ := size_query L O hx
  simp only [e1, Res.ok_bind]
  by_cases hn : n1 = n
  rotate_left
  · rw [if_pos (by simpa using hn)]
    refine ⟨W1, false, rfl, O1, f1, by simp, fun hC => ⟨?_, (c1 hC).2⟩⟩
    cases hb : E (S.vals t)
    · rfl
    · exact absurd ((c1 hC).1.trans (hns hb).1) hn
  rw [if_neg (by simpa using hn)]
  obtain ⟨W3, n3, e3, O3, f3, c3⟩ := arity_query L O1 hx
  have fh : W3.heap = W.heap := by rw [f3, f1]
  simp only [e3, Res.ok_bind]
  by_cases hm : n3 = k
  rotate_left
  · rw [if_pos (by simpa using hm)]
    refine ⟨W3, false, rfl, O3, fh, by simp, fun hC => ⟨?_, (c3 (c1 hC).2).2⟩⟩
    cases hb : E (S.vals t)
    · rfl
    · exact absurd ((c3 (c1 hC).2).1.trans (hns hb).2) hm
  rw [if_neg (by simpa using hm)]
  cases hpx : rx.root with
  | none =>
    have ht : t = S.nil := L.ptr_none_iff.mp (px.symm.trans hpx)
    subst ht
    exact ⟨W3, false, rfl, O3, fh, by simp, fun hC => ⟨hnil.symm, (c3 (c1 hC).2).2⟩⟩
  | some a =>
    have := hE W3.heap t a O3.wf (O3.rep x t hx) (px.symm.trans hpx)
    simp only [this, Res.ok_bind, Res.pure_eq]
    exact ⟨W3, _, rfl, O3, fh, id, fun hC => ⟨rfl, (c3 (c1 hC).2).2⟩⟩

theorem eqWith_exact {cmp : Heap ν → Addr → Res Bool} {n k : Nat} {E : V → Bool}
    (hE : ∀ (h : Heap ν) t a, h.WF → S.Rep h t → S.ptr t = some a → cmp h a = Res.ok (E (S.vals t)))
    (hnil : E (S.vals S.nil) = false)
    (O : Owned S W ts) (hx : ts x = some t) :
    ∃ W' b, W.eqWith K cmp n k x = Res.ok (W', b) ∧ Owned S W' ts ∧ SameNow S W W' ts ∧
      (b = true ↔ sizeNow S W ts x = some n ∧ arityNow S W ts x = some k ∧ E (S.vals t) = true) := by
  obtain ⟨rx, hrx, gx, px, _⟩ := O.get L hx
  simp only [World.eqWith, gx, Res.ok_bind]
  obtain ⟨W1, n1, e1, O1, f1, c1⟩ := size_now L O hx
  simp only [e1, Res.ok_bind]
  by_cases hn : n1 = n
  rotate_left
  · rw [if_pos (by simpa using hn)]
    refine ⟨W1, false, rfl, O1, f1, ⟨fun h => (by cases h), fun h => ?_⟩⟩
    rw [c1] at h
    exact absurd (Option.some.inj h.1) hn
  rw [if_neg (by simpa using hn)]
  obtain ⟨W3, n3, e3, O3, f3, c3⟩ := arity_now L O1 hx
  rw [f1.arity] at c3
  simp only [e3, Res.ok_bind]
  by_cases hm : n3 = k
  rotate_left
  · rw [if_pos (by simpa using hm)]
    refine ⟨W3, false, rfl, O3, f1.trans f3, ⟨fun h => (by cases h), fun h => ?_⟩⟩
    rw [c3] at h
    exact absurd (Option.some.inj h.2.1) hm
  rw [if_neg (by simpa using hm), c1, c3, hn, hm]
  cases hpx : rx.root with
  | none =>
    have ht : t = S.nil := L.ptr_none_iff.mp (px.symm.trans hpx)
    subst ht
    exact ⟨W3, false, rfl, O3, f1.trans f3, by simp [hnil]⟩
  | some a =>
    have := hE W3.heap t a O3.wf (O3.rep x t hx) (px.symm.trans hpx)
    simp only [this, Res.ok_bind, Res.pure_eq]
    exact ⟨W3, _, rfl, O3, f1.trans f3, by simp⟩

theorem eqNone_spec (O : Owned S W ts) (hx : ts x = some t) : ∃ b, W.eqNone x = Res.ok b ∧ (b = true ↔ t = S.nil) := by
  obtain ⟨rx, hrx, gx, px, _⟩ := O.get L hx
  exact ⟨rx.root.isNone, by simp [World.eqNone, gx], by rw [px, Option.isNone_iff_eq_none, L.ptr_none_iff]⟩

end

/-! ### both kinds -/

namespace Nary
variable {α : Type}

theorem kind_eq (eqv : α → α → Bool) (h : NHeap α) (t u : Option (Tree (Addr × α))) (a b : Addr) (hw : h.WF) (H : (shape α).Rep h t)
    (H' : (shape α).Rep h u) (ha : (shape α).ptr t = some a) (hb : (shape α).ptr u = some b) :
    (kind α).eq eqv h.fuel h a h b = Res.ok (same eqv ((shape α).vals t) ((shape α).vals u)) := by
  cases t with
  | none => simp [shape_ptr] at ha
  | some t =>
  cases u with
  | none => simp [shape_ptr] at hb
  | some u =>
  rw [shape_rep] at H H'
  simp only [shape_ptr, Option.map_some, Option.some.injEq] at ha hb
  subst ha hb
  have hf : sizeL [t] ≤ h.fuel := by have := size_le hw H; simp [sizeL, Heap.fuel]; omega
  have := eq_spec eqv h h.fuel t u [] [] hf rfl (par := none) (prev := none) (par' := none) (prev' := none)
    (by simpa using H.1) (by simpa using H'.1)
  show Nary.eq eqv h.fuel h t.addr h u.addr = _
  rw [this]
  simp [eqByL, same, shape, valsL]

theorem same_sizes {eqv : α → α → Bool} (t u : Option (Tree (Addr × α))) (h : same eqv ((shape α).vals t) ((shape α).vals u) = true) :
    (shape α).size t = (shape α).size u ∧ (shape α).arity t = (shape α).arity u ∧ (t = (shape α).nil ↔ u = (shape α).nil) := by
  cases t <;> cases u <;> simp [shape, same, shape_size, shape_arity] at h ⊢
  rename_i t u
  have := Tree.eqBy_sizes.1 _ _ h
  simpa [vals, Tree.size_map, Tree.arity_map, Shape.size, Shape.arity, sizeL, arityL, addrTree] using this

end Nary

namespace Binary
variable {α : Type}

theorem shape_ptr' (t : BTree (Addr × α)) : (shape α).ptr t = t.addr? := by
  cases t <;> simp [Shape.ptr, shape, BTree.addrTree, BTree.map, BTree.addr?, BTree.label?]

theorem kind_eq (eqv : α → α → Bool) (h : BHeap α) (t u : BTree (Addr × α)) (a b : Addr) (hw : h.WF) (H : (shape α).Rep h t)
    (H' : (shape α).Rep h u) (ha : (shape α).ptr t = some a) (hb : (shape α).ptr u = some b) :
    (kind α).eq eqv h.fuel h a h b = Res.ok (BTree.eqBy eqv ((shape α).vals t) ((shape α).vals u)) := by
  rw [shape_ptr'] at ha hb
  have hf : t.size ≤ h.fuel := by have := size_le hw H; simp [Heap.fuel]; omega
  exact eq_spec eqv h t u h.fuel hf H.1 H'.1 ha hb

theorem shape_size' (t : BTree (Addr × α)) : (shape α).size t = sizeL t.toRose := by
  simp only [Shape.size, shape, BTree.addrTree, BTree.toRose_map]
  generalize t.toRose = l
  induction l with
  | nil => rfl
  | cons a l ih => simp [sizeL, ih, Tree.size_map]

theorem sizes_vals (t : BTree (Addr × α)) : (shape α).size t = sizeL t.vals.toRose ∧ (shape α).arity t = arityL t.vals.toRose := by
  rw [shape_size', shape_arity]
  simp only [BTree.vals, BTree.toRose_map]
  constructor
  · generalize t.toRose = l
    induction l with
    | nil => rfl
    | cons a l ih => simp [sizeL, ih, Tree.size_map]
  · simp only [arityL_eq_foldr, List.map_map]
    congr 1
    apply List.map_congr_left
    intro a _; simp [arity_map]

theorem eqBy_sizes {eqv : α → α → Bool} (t u : BTree (Addr × α)) (h : BTree.eqBy eqv ((shape α).vals t) ((shape α).vals u) = true) :
    (shape α).size t = (shape α).size u ∧ (shape α).arity t = (shape α).arity u ∧ (t = (shape α).nil ↔ u = (shape α).nil) := by
  have h1 := Tree.eqBy_sizes.2 _ _ (BTree.eqBy_rose _ _ h)
  rw [(sizes_vals t).1, (sizes_vals t).2, (sizes_vals u).1, (sizes_vals u).2]
  refine ⟨h1.2.1, h1.2.2, ?_⟩
  cases t <;> cases u <;> simp_all [shape, BTree.vals, BTree.map, BTree.eqBy]

end Binary

/-! ### literals -/

namespace Nary
variable {α : Type}

theorem eqBy_full (eqv : α → α → Bool) :
    (∀ (t : Tree α) (u : Lit α), t.eqBy (sameSlot eqv) u = true → ∃ u', u = Lit.full u' ∧ t.eqBy eqv u' = true) ∧
    (∀ (ts : List (Tree α)) (us : List (Lit α)), eqByL (sameSlot eqv) ts us = true →
      ∃ us', us = mapL some us' ∧ eqByL eqv ts us' = true) := by
  apply Tree.eqBy.mutual_induct (β := α) (γ := Option α)
    (motive_1 := fun t u => t.eqBy (sameSlot eqv) u = true → ∃ u', u = Lit.full u' ∧ t.eqBy eqv u' = true)
    (motive_2 := fun ts us => eqByL (sameSlot eqv) ts us = true → ∃ us', us = mapL some us' ∧ eqByL eqv ts us' = true)
  · intro a cs b ds ih h
    simp only [eqBy, Bool.and_eq_true] at h
    obtain ⟨us, rfl, h2⟩ := ih h.2
    cases b with
    | none => simp [sameSlot] at h
    | some b => exact ⟨node b us, by simp [Lit.full, map], by simpa [eqBy, h2, sameSlot] using h.1⟩
  · intro _; exact ⟨[], by simp [mapL, eqByL]⟩
  · intro t ts u us h1 h2 h
    simp only [eqByL, Bool.and_eq_true] at h
    obtain ⟨u', rfl, e1⟩ := h1 h.1
    obtain ⟨us', rfl, e2⟩ := h2 h.2
    exact ⟨u' :: us', by simp [mapL, Lit.full], by simp [eqByL, e1, e2]⟩
  · intro t ts h; simp [eqByL] at h
  · intro t ts h; simp [eqByL] at h

theorem full_eqBy (eqv : α → α → Bool) :
    (∀ (t u : Tree α), t.eqBy (sameSlot eqv) (Lit.full u) = t.eqBy eqv u) ∧
    (∀ (ts us : List (Tree α)), eqByL (sameSlot eqv) ts (mapL some us) = eqByL eqv ts us) := by
  apply Tree.eqBy.mutual_induct (β := α) (γ := α)
    (motive_1 := fun t u => t.eqBy (sameSlot eqv) (Lit.full u) = t.eqBy eqv u)
    (motive_2 := fun ts us => eqByL (sameSlot eqv) ts (mapL some us) = eqByL eqv ts us)
  · intro a cs b ds ih; simp [Lit.full, map, eqBy, ih, sameSlot]
  · simp [mapL, eqByL]
  · intro t ts u us h1 h2; simp only [Lit.full] at h1; simp only [mapL, eqByL, h1, h2]
  · intro t ts; simp [mapL, eqByL]
  · intro t ts; simp [mapL, eqByL]

/-- A tree and a literal. -/
def sameLit (eqv : α → α → Bool) (v : Option (Tree α)) (l : Lit α) : Bool := same (sameSlot eqv) v (some l)

theorem cmpLit (eqv : α → α → Bool) (l : Lit α) (hl : l.label.isSome) (h : NHeap α) (t : Option (Tree (Addr × α))) (a : Addr) (hw : h.WF)
    (H : (shape α).Rep h t) (ha : (shape α).ptr t = some a) :
    eqLit eqv h.fuel h a l [] = Res.ok (sameLit eqv ((shape α).vals t) l) := by
  cases t with
  | none => simp [shape_ptr] at ha
  | some t =>
  rw [shape_rep] at H
  simp only [shape_ptr, Option.map_some, Option.some.injEq] at ha
  subst ha
  have hf : sizeL [t] ≤ h.fuel := by have := size_le hw H; simp [sizeL, Heap.fuel]; omega
  have e : slotEq eqv = sameSlot eqv := by funext v o; cases o <;> simp [slotEq, sameSlot]
  rw [eqLit_spec eqv h.fuel t l [] [] hl hf (by simp [validCount]) (par := none) (prev := none) (by simpa using H.1), e]
  simp [eqByL, same, sameLit, shape, valsL]

theorem sameLit_sizes {eqv : α → α → Bool} {l : Lit α} (t : Option (Tree (Addr × α))) (h : sameLit eqv ((shape α).vals t) l = true) :
    (shape α).size t = l.subtreeSize ∧ (shape α).arity t = l.subtreeArity := by
  cases t with
  | none => simp [shape, sameLit, same] at h
  | some t =>
    have h' : t.vals.eqBy (sameSlot eqv) l = true := h
    obtain ⟨u, rfl, e⟩ := (eqBy_full eqv).1 _ _ h'
    have := Tree.eqBy_sizes.1 _ _ e
    rw [shape_size, shape_arity, (full_sizes u).1, (full_sizes u).2]
    simpa [vals, Tree.size_map, Tree.arity_map] using this

theorem treeEqLit_exact {W : World (NNode α)} {ts x t} (eqv : α → α → Bool) {l : Lit α} (hl : l.label.isSome)
    (O : Owned (shape α) W ts) (hx : ts x = some t) :
    ∃ W' b, treeEqLit eqv W x l = Res.ok (W', b) ∧ Owned (shape α) W' ts ∧ SameNow (shape α) W W' ts ∧
      (b = true ↔ sizeNow (shape α) W ts x = some l.subtreeSize ∧ arityNow (shape α) W ts x = some l.subtreeArity ∧
        same (sameSlot eqv) ((shape α).vals t) (some l) = true) :=
  eqWith_exact (lawful α) (E := fun v => sameLit eqv v l) (fun h t a hw H ha => cmpLit eqv l hl h t a hw H ha) (by rfl) O hx

theorem treeEqLit_total {W : World (NNode α)} {ts x t} (eqv : α → α → Bool) {l : Lit α} (hl : l.label.isSome)
    (O : Owned (shape α) W ts) (hx : ts x = some t) :
    ∃ W' b, treeEqLit eqv W x l = Res.ok (W', b) ∧ Owned (shape α) W' ts ∧ W'.heap = W.heap ∧
      (b = true → same (sameSlot eqv) ((shape α).vals t) (some l) = true) ∧
      (Cached (shape α) W ts → b = same (sameSlot eqv) ((shape α).vals t) (some l) ∧ Cached (shape α) W' ts) :=
  eqWith_total (lawful α) (E := fun v => sameLit eqv v l) (fun h t a hw H ha => cmpLit eqv l hl h t a hw H ha) (by rfl)
    (fun t h => sameLit_sizes t h) O hx

end Nary

namespace Binary
variable {α : Type}

theorem treeEqLit_exact {W : World (BNode α)} {ts x t} (eqv : α → α → Bool) {l : Lit α} (hl : l.label.isSome)
    (h2 : l.atMostTwo) (O : Owned (shape α) W ts) (hx : ts x = some t) :
    ∃ W' b, treeEqLit eqv W x l = Res.ok (W', b) ∧ Owned (shape α) W' ts ∧ SameNow (shape α) W W' ts ∧
      (b = true ↔ sizeNow (shape α) W ts x = some l.subtreeSize ∧ arityNow (shape α) W ts x = some l.subtreeArity ∧
        BTree.eqBy eqv t.vals l.toB = true) := by
  refine eqWith_exact (lawful α) (E := fun v => BTree.eqBy eqv v l.toB) (fun h t a hw H ha => ?_) ?_ O hx
  · rw [shape_ptr'] at ha
    exact eqLit_spec eqv t l h.fuel (by have := size_le hw H; simp [Heap.fuel]; omega) h2 hl H.1 ha
  · obtain ⟨v, l', r', e⟩ := toB_isSome hl
    rw [e]; rfl

theorem treeEqLit_total {W : World (BNode α)} {ts x t} (eqv : α → α → Bool) {l : Lit α} (hl : l.label.isSome) (hv : l.valid)
    (h2 : l.atMostTwo) (O : Owned (shape α) W ts) (hx : ts x = some t) :
    ∃ W' b, treeEqLit eqv W x l = Res.ok (W', b) ∧ Owned (shape α) W' ts ∧ W'.heap = W.heap ∧
      (b = true → BTree.eqBy eqv t.vals l.toB = true) ∧
      (Cached (shape α) W ts → b = BTree.eqBy eqv t.vals l.toB ∧ Cached (shape α) W' ts) := by
  refine eqWith_total (lawful α) (E := fun v => BTree.eqBy eqv v l.toB) (fun h t a hw H ha => ?_) ?_ (fun t h => ?_) O hx
  · rw [shape_ptr'] at ha
    exact eqLit_spec eqv t l h.fuel (by have := size_le hw H; simp [Heap.fuel]; omega) h2 hl H.1 ha
  · obtain ⟨v, l', r', e⟩ := toB_isSome hl
    rw [e]; rfl
  · obtain ⟨_, h3, h4⟩ := toB_rose l hv h2
    have := Tree.eqBy_sizes.2 _ _ (BTree.eqBy_rose _ _ h)
    rw [(sizes_vals t).1, (sizes_vals t).2, ← h3, ← h4]
    exact this.2

end Binary

/-! ### conversion -/

namespace World
variable {α : Type}
open Nary (same)

theorem toNary_vals (t : BTree (Addr × α)) : t.vals.toNary = t.toNary.map Tree.vals := by
  simp [BTree.toNary, BTree.vals, BTree.toRose_map, vals]
  rfl

theorem fromBinary_spec {W : World (NNode α)} {B : World (BNode α)} {ts bs} {y : Nat} {t : BTree (Addr × α)}
    (O : Owned (Nary.shape α) W ts) (OB : Owned (Binary.shape α) B bs) (hy : bs y = some t) :
    ∃ h' B' n s a, fromBinary W B y = Res.ok (W.setHeap h', B', (Nary.shape α).ptr n, s, a) ∧
      Own (fun _ => False) (Nary.shape α) h' ts n ∧ n.map Tree.vals = t.vals.toNary ∧ Owned (Binary.shape α) B' bs ∧
      (Cached (Binary.shape α) B bs → s = (Nary.shape α).size n ∧ a = (Nary.shape α).arity n ∧ Cached (Binary.shape α) B' bs) := by
  obtain ⟨r, hr, gr, pr, _⟩ := OB.get (Binary.lawful α) hy
  obtain ⟨O1, M⟩ := (owned_match (Nary.lawful α)).mp O
  obtain ⟨B1, s, e1, OB1, f1, c1⟩ := size_query (Binary.lawful α) OB hy
  obtain ⟨B2, a, e2, OB2, f2, c2⟩ := arity_query (Binary.lawful α) OB1 hy
  have hcnt : ∀ n : Option (Tree (Addr × α)), n.map Tree.vals = t.vals.toNary →
      (Binary.shape α).size t = (Nary.shape α).size n ∧ (Binary.shape α).arity t = (Nary.shape α).arity n := by
    intro n hn
    rw [(Binary.sizes_vals t).1, (Binary.sizes_vals t).2, Nary.shape_size, Nary.shape_arity]
    cases t with
    | nil => cases n <;> simp_all [BTree.toNary, BTree.vals, BTree.map, sizeL, arityL]
    | node p l r =>
      cases n with
      | none => simp [BTree.toNary, BTree.vals, BTree.map] at hn
      | some n =>
        simp only [BTree.toNary, BTree.vals, BTree.map, BTree.toRose_node, List.head?_cons, Option.map_some, Option.some.injEq] at hn
        simp only [BTree.vals, BTree.map, BTree.toRose_node, ← hn, sizeL, arityL, Option.elim_some]
        simp [vals, Tree.size_map, Tree.arity_map]
  simp only [fromBinary, gr, Res.ok_bind]
  cases t with
  | nil =>
    have hp : r.root = none := by rw [pr]; rfl
    simp only [hp, Res.pure_eq, Res.ok_bind, e1, e2]
    refine ⟨W.heap, B2, none, s, a, rfl, O1, rfl, OB2, fun hC => ?_⟩
    have h := hcnt none rfl
    exact ⟨(c1 hC).1.trans h.1, (c2 (c1 hC).2).1.trans h.2, (c2 (c1 hC).2).2⟩
  | node p l r' =>
    have hp : r.root = some p.1 := by rw [pr, Binary.shape_ptr']; rfl
    have hT : (BTree.node p l r').toRose = [Tree.node p (l.toRose ++ r'.toRose)] := rfl
    have hsz := Binary.size_le OB.wf (OB.rep y _ hy)
    have hsz' : (Tree.node p (l.toRose ++ r'.toRose)).size ≤ B.heap.fuel := by
      have e := Binary.shape_size' (BTree.node p l r')
      rw [Binary.shape_size, hT] at e
      simp only [sizeL] at e
      simp only [Heap.fuel]; omega
    obtain ⟨h', t', e, H, hv, G⟩ := Nary.ofBinary_root (OB.rep y _ hy) hT O1.wf B.heap.fuel hsz'
    have e' : Nary.ofBinary B.heap.fuel B.heap p.1 W.heap none none = Res.ok (h', t'.addr) := e
    have hn : (some t').map Tree.vals = (BTree.node p l r').vals.toNary := by
      rw [toNary_vals]; simp only [Option.map_some, hv]; rfl
    simp only [hp, e', Res.pure_eq, Res.ok_bind, e1, e2]
    refine ⟨h', B2, some t', s, a, ?_, O1.grow (Nary.lawful α) (by simpa [Nary.shape_addrs] using G) ((Nary.shape_rep _ _).mpr H), hn, OB2, fun hC => ?_⟩
    · simp [Nary.shape_ptr]
    · have h := hcnt (some t') hn
      exact ⟨(c1 hC).1.trans h.1, (c2 (c1 hC).2).1.trans h.2, (c2 (c1 hC).2).2⟩

theorem newBinary_spec {W : World (NNode α)} {B : World (BNode α)} {ts bs} {x y : Nat} {t : BTree (Addr × α)}
    (O : Owned (Nary.shape α) W ts) (OB : Owned (Binary.shape α) B bs) (hx : ts x = none) (hy : bs y = some t) :
    ∃ W' B' n, newBinary W B x y = Res.ok (W', B') ∧ Owned (Nary.shape α) W' (upd ts x (some n)) ∧
      (Nary.shape α).vals n = t.vals.toNary ∧ Fresh (Nary.shape α) W.heap n ∧ Owned (Binary.shape α) B' bs ∧
      (Cached (Nary.shape α) W ts → Cached (Binary.shape α) B bs →
        Cached (Nary.shape α) W' (upd ts x (some n)) ∧ Cached (Binary.shape α) B' bs) := by
  obtain ⟨h', B', n, s, a, e, O2, hv, OB2, hc⟩ := fromBinary_spec O OB hy
  obtain ⟨O1, M⟩ := (owned_match (Nary.lawful α)).mp O
  refine ⟨⟨h', upd W.vars x (some ⟨(Nary.shape α).ptr n, s, a, (Nary.shape α).ptr n⟩)⟩, B', n, ?_,
    (owned_match (Nary.lawful α)).mpr ⟨O2.name (Nary.lawful α) hx, match_upd (fun z _ => M z) (.some rfl rfl)⟩, hv, loose_fresh O O2, OB2, ?_⟩
  · simp [newBinary, e, put_eq]
  · intro hC hB
    obtain ⟨h1, h2, h3⟩ := hc hB
    exact ⟨Cached.upd hC (by rintro _ _ ⟨⟩ ⟨⟩; exact ⟨Or.inr h1, Or.inr h2⟩), h3⟩

theorem assignBinary_spec {W : World (NNode α)} {B : World (BNode α)} {ts bs} {x y : Nat} {t : BTree (Addr × α)} {u}
    (O : Owned (Nary.shape α) W ts) (OB : Owned (Binary.shape α) B bs) (hx : ts x = some u) (hy : bs y = some t) :
    ∃ W' B' n, assignBinary W B x y = Res.ok (W', B') ∧ Owned (Nary.shape α) W' (upd ts x (some n)) ∧
      (Nary.shape α).vals n = t.vals.toNary ∧ Fresh (Nary.shape α) W.heap n ∧ Owned (Binary.shape α) B' bs ∧
      (Cached (Nary.shape α) W ts → Cached (Binary.shape α) B bs →
        Cached (Nary.shape α) W' (upd ts x (some n)) ∧ Cached (Binary.shape α) B' bs) := by
  obtain ⟨h', B', n, s, a, e, O2, hv, OB2, hc⟩ := fromBinary_spec O OB hy
  obtain ⟨O1, M⟩ := (owned_match (Nary.lawful α)).mp O
  obtain ⟨rx, h1, h2, h3, _⟩ := O.get (Nary.lawful α) hx
  obtain ⟨e2, O3⟩ := TreeOps.assign_spec (Nary.lawful α) (rs := s) (ra := a) O2 hx h3
  refine ⟨⟨h'.freeAll ((Nary.shape α).addrs u), upd W.vars x (some ⟨(Nary.shape α).ptr n, s, a, (Nary.shape α).ptr n⟩)⟩, B', n, ?_,
    (owned_match (Nary.lawful α)).mpr ⟨O3, match_upd (fun z _ => M z) (.some rfl rfl)⟩, hv, loose_fresh O O2, OB2, ?_⟩
  · simp [assignBinary, e, World.get, h1, e2, setHeap, put_eq']
  · intro hC hB
    obtain ⟨h1, h2, h3⟩ := hc hB
    exact ⟨Cached.upd hC (by rintro _ _ ⟨⟩ ⟨⟩; exact ⟨Or.inr h1, Or.inr h2⟩), h3⟩

theorem eqBinary_total {W : World (NNode α)} {B : World (BNode α)} {ts bs} {x y : Nat} {t : Option (Tree (Addr × α))}
    {u : BTree (Addr × α)} (eqv : α → α → Bool) (O : Owned (Nary.shape α) W ts) (OB : Owned (Binary.shape α) B bs)
    (hx : ts x = some t) (hy : bs y = some u) :
    ∃ W' B' b, eqBinary eqv W B x y = Res.ok (W', B', b) ∧ Owned (Nary.shape α) W' ts ∧ Owned (Binary.shape α) B' bs ∧
      (b = true → same eqv ((Nary.shape α).vals t) u.vals.toNary = true) ∧
      (Cached (Nary.shape α) W ts → Cached (Binary.shape α) B bs → b = same eqv ((Nary.shape α).vals t) u.vals.toNary ∧
        Cached (Nary.shape α) W' ts ∧ Cached (Binary.shape α) B' bs) := by
  have L := Nary.lawful α
  have LB := Binary.lawful α
  obtain ⟨rx, hrx, gx, px, _⟩ := O.get L hx
  obtain ⟨ry, hry, gy, py, _⟩ := OB.get LB hy
  have nx : rx.root.isNone = true ↔ t = (Nary.shape α).nil := by rw [px, Option.isNone_iff_eq_none, L.ptr_none_iff]
  have ny : ry.root.isNone = true ↔ u = (Binary.shape α).nil := by rw [py, Option.isNone_iff_eq_none, LB.ptr_none_iff]
  have hns : same eqv ((Nary.shape α).vals t) u.vals.toNary = true → (Nary.shape α).size t = (Binary.shape α).size u ∧
      (Nary.shape α).arity t = (Binary.shape α).arity u ∧ (t = (Nary.shape α).nil ↔ u = (Binary.shape α).nil) := by
    intro hh
    rw [(Binary.sizes_vals u).1, (Binary.sizes_vals u).2, Nary.shape_size, Nary.shape_arity]
    cases t <;> cases u <;> simp_all [Nary.shape, Binary.shape, BTree.vals, BTree.map, BTree.toNary, same, sizeL, arityL]
    have := Tree.eqBy_sizes.1 _ _ hh
    simpa [vals, Tree.size_map, Tree.arity_map] using this
  generalize hE : same eqv ((Nary.shape α).vals t) u.vals.toNary = E at *
  simp only [World.eqBinary, gx, gy, Res.ok_bind]
  by_cases hne : rx.root.isNone = ry.root.isNone
  rotate_left
  · rw [if_pos (by simpa using hne)]
    refine ⟨W, B, false, rfl, O, OB, by simp, fun hC hB => ⟨?_, hC, hB⟩⟩
    cases hb : E
    · rfl
    · exact absurd (Bool.eq_iff_iff.mpr (nx.trans ((hns hb).2.2.trans ny.symm))) hne
  rw [if_neg (by simpa using hne)]
  obtain ⟨W1, n1, e1, O1, f1, c1⟩ := size_query L O hx
  obtain ⟨B1, n2, e2, O2, f2, c2⟩ := size_query LB OB hy
  simp only [e1, e2, Res.ok_bind]
  by_cases hn : n1 = n2
  rotate_left
  · rw [if_pos (by simpa using hn)]
    refine ⟨W1, B1, false, rfl, O1, O2, by simp, fun hC hB => ⟨?_, (c1 hC).2, (c2 hB).2⟩⟩
    cases hb : E
    · rfl
    · exact absurd ((c1 hC).1.trans ((hns hb).1.trans (c2 hB).1.symm)) hn
  rw [if_neg (by simpa using hn)]
  obtain ⟨W3, n3, e3, O3, f3, c3⟩ := arity_query L O1 hx
  obtain ⟨B4, n4, e4, O4, f4, c4⟩ := arity_query LB O2 hy
  simp only [e3, e4, Res.ok_bind]
  by_cases hm : n3 = n4
  rotate_left
  · rw [if_pos (by simpa using hm)]
    refine ⟨W3, B4, false, rfl, O3, O4, by simp, fun hC hB => ⟨?_, (c3 (c1 hC).2).2, (c4 (c2 hB).2).2⟩⟩
    cases hb : E
    · rfl
    · exact absurd ((c3 (c1 hC).2).1.trans ((hns hb).2.1.trans (c4 (c2 hB).2).1.symm)) hm
  rw [if_neg (by simpa using hm)]
  cases hpx : rx.root with
  | none =>
    have ht : t = (Nary.shape α).nil := nx.mp (by simp [hpx])
    have hu : u = (Binary.shape α).nil := ny.mp (by rw [← hne]; simp [hpx])
    subst ht hu
    have hE' : E = true := by rw [← hE]; rfl
    exact ⟨W3, B4, true, rfl, O3, O4, fun _ => hE', fun hC hB => ⟨hE'.symm, (c3 (c1 hC).2).2, (c4 (c2 hB).2).2⟩⟩
  | some a =>
    cases hpy : ry.root with
    | none => rw [hpx, hpy] at hne; cases hne
    | some b =>
      have : Nary.eqBinary eqv W3.heap.fuel W3.heap a B4.heap b = Res.ok E := by
        cases t with
        | none => rw [px, Nary.shape_ptr] at hpx; cases hpx
        | some t =>
        cases u with
        | nil => rw [py] at hpy; cases hpy
        | node p l r =>
        have hT : (BTree.node p l r).toRose = [Tree.node p (l.toRose ++ r.toRose)] := rfl
        have H := (Nary.shape_rep _ _).mp (O3.rep x _ hx)
        have ha : t.addr = a := by rw [px, Nary.shape_ptr] at hpx; simpa using hpx
        have hb : p.1 = b := by rw [py, Binary.shape_ptr'] at hpy; simpa [BTree.addr?, BTree.label?] using hpy
        have := Nary.eqBinary_spec eqv (O4.rep y _ hy) hT W3.heap.fuel t (Tree.node p (l.toRose ++ r.toRose)) [] (fs := []) rfl
          (by have := Nary.size_le O3.wf H; simp [sizeL, Heap.fuel]; omega) rfl (par := none) (prev := none) (by simpa using H.1)
        rw [← ha, ← hb, ← hE]
        refine Eq.trans this ?_
        rw [toNary_vals]
        simp [same, Nary.shape, BTree.toNary, Nary.valsL, Nary.sibs, eqByL]
      simp only [deref, Res.ok_bind, this, Res.pure_eq]
      exact ⟨W3, B4, _, rfl, O3, O4, id, fun hC hB => ⟨rfl, (c3 (c1 hC).2).2, (c4 (c2 hB).2).2⟩⟩

end World
