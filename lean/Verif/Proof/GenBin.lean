import Verif.Model.Generative
import Verif.Spec.Generative
import Verif.Proof.Multi
import Verif.Proof.MakesBin
import Verif.Proof.WorldInsert
/-! The generative navigator on binary trees. -/

set_option linter.unusedSimpArgs false

namespace BTree
variable {α β : Type}

/-- The position of the hole. -/
def holePath (fs : List (Frame β)) : List Bool := fs.map Frame.holeLeft

theorem at_append (t : BTree β) (p q : List Bool) : t.at? (p ++ q) = (t.at? q).at? p := by
  induction p with
  | nil => rfl
  | cons b p ih => simp [at?, ih]

theorem at_hole (fs : List (Frame β)) (s : BTree β) : (plug fs s).at? (holePath fs) = s := by
  induction fs generalizing s with
  | nil => rfl
  | cons f fs ih =>
    simp only [holePath, List.map_cons, at?, plug]
    have := ih (f.fill s)
    simp only [holePath] at this
    rw [this]
    obtain ⟨a, b, o⟩ := f
    cases b <;> simp [Frame.fill, left, right]

@[simp] theorem at_nil (p : List Bool) : (nil : BTree β).at? p = nil := by
  induction p with
  | nil => rfl
  | cons b p ih => cases b <;> simp [at?, ih, left, right]

theorem at_last (t : BTree β) (b : Bool) (p : List Bool) : t.at? (p ++ [b]) = (if b then t.left else t.right).at? p := by
  rw [at_append]; simp [at?]

/-- Off the hole the labels do not depend on what is in the hole. -/
theorem at_off (fs : List (Frame β)) (p : List Bool) : (∃ q, p = q ++ holePath fs) ∨
    ∃ o, ∀ s, ((plug fs s).at? p).label? = o := by
  induction fs generalizing p with
  | nil => exact Or.inl ⟨p, by simp [holePath]⟩
  | cons f fs ih =>
    rcases ih p with ⟨q, rfl⟩ | ⟨o, h⟩
    · have key : ∀ s, (plug (f :: fs) s).at? (q ++ holePath fs) = (f.fill s).at? q := by
        intro s; rw [at_append]; simp only [plug]; rw [at_hole]
      rcases List.eq_nil_or_concat q with rfl | ⟨q', b, rfl⟩
      · refine Or.inr ⟨some f.label, fun s => ?_⟩
        rw [key]
        obtain ⟨a, b, o⟩ := f
        cases b <;> simp [Frame.fill, at?, label?]
      · rw [List.concat_eq_append] at key ⊢
        by_cases hb : b = f.holeLeft
        · subst hb; exact Or.inl ⟨q', by simp [holePath]⟩
        · refine Or.inr ⟨((f.other).at? q').label?, fun s => ?_⟩
          rw [key, at_last]
          obtain ⟨a, c, o⟩ := f
          cases b <;> cases c <;> simp [Frame.fill, left, right] at hb ⊢
    · exact Or.inr ⟨o, fun s => h _⟩

theorem visible_at {test : α → Bool} {s : BTree (Addr × α)} {p : List Bool} {x : Addr} (h : (s.visible test).addrAt p = some x) :
    ∃ v l r, s.at? p = node (x, v) l r ∧ (s.visible test).at? p = node (x, v) (only (fun x => test x.2) (keep (fun x => test x.2) l))
      (only (fun x => test x.2) (keep (fun x => test x.2) r)) := by
  induction p generalizing x with
  | nil =>
    cases s with
    | nil => simp [addrAt, visible, keep, at?] at h
    | node a l r =>
      obtain ⟨a, v⟩ := a
      simp [addrAt, visible, keep, at?] at h
      subst h
      exact ⟨v, l, r, rfl, rfl⟩
  | cons b p ih =>
    have : ∃ y, (s.visible test).addrAt p = some y := by
      simp only [addrAt, at?] at h ⊢
      cases e : (s.visible test).at? p with
      | nil => cases b <;> simp [e, left, right] at h
      | node a l r => simp
    obtain ⟨y, hy⟩ := this
    obtain ⟨v, l, r, e1, e2⟩ := ih hy
    simp only [addrAt, at?, e1, e2, left, right] at h ⊢
    have key : ∀ u : BTree (Addr × α), (only (fun x => test x.2) (keep (fun x => test x.2) u)).addr? = some x →
        ∃ v l r, u = node (x, v) l r ∧ only (fun x => test x.2) (keep (fun x => test x.2) u) =
          node (x, v) (only (fun x => test x.2) (keep (fun x => test x.2) l)) (only (fun x => test x.2) (keep (fun x => test x.2) r)) := by
      intro u hu
      cases u with
      | nil => simp [keep, only] at hu
      | node a l r =>
        obtain ⟨a, v⟩ := a
        simp only [keep, only] at hu ⊢
        split at hu
        · simp at hu; subst hu; next hh => exact ⟨v, l, r, rfl, by simp [hh]⟩
        · simp at hu
    cases b
    · simpa using key r (by simpa using h)
    · simpa using key l (by simpa using h)

theorem check_none {t : BTree β} {p : List Bool} : t.check p = none ↔ t.at? p = nil := by
  unfold check; cases t.at? p <;> simp [label?]
theorem check_some {t : BTree β} {p q : List Bool} : t.check p = some q ↔ q = p ∧ t.at? p ≠ nil := by
  unfold check; cases t.at? p <;> simp [label?, eq_comm]
theorem addrAt_none {t : BTree (Addr × α)} {p : List Bool} : t.addrAt p = none ↔ t.at? p = nil := by
  unfold addrAt; cases t.at? p <;> simp
theorem valAt_none {t : BTree (Addr × α)} {p : List Bool} : t.valAt p = none ↔ t.at? p = nil := by
  unfold valAt; cases t.at? p <;> simp [label?]

theorem Copies.at_nil {t u : BTree (Addr × α)} {seen} (C : t.Copies seen u) (p : List Bool) :
    u.at? p = nil ↔ (p ∈ seen → t.at? p = nil) := by
  rw [← valAt_none, ← valAt_none, C p]
  split <;> simp [*]

end BTree

namespace Binary
open BTree
variable {α : Type} {h : BHeap α} {test : α → Bool}

/-- Moves inside a subtree. -/
theorem step_sub {gs : List (Frame (Addr × α))} {s : BTree (Addr × α)} (H : Rep h (plug gs s)) {p : List Bool} {a : Addr}
    (hs : s.addrAt p = some a) {m : Move} (hm : p ≠ [] ∨ (m ≠ .parent ∧ m ≠ .prev ∧ m ≠ .next)) :
    step h m a = Res.ok ((s.move m p).bind s.addrAt) := by
  have e : ∀ q, (plug gs s).at? (q ++ holePath gs) = s.at? q := by intro q; rw [at_append, at_hole]
  have ea : ∀ q, (plug gs s).addrAt (q ++ holePath gs) = s.addrAt q := by intro q; simp only [addrAt, e]
  have ec : ∀ q, (plug gs s).check (q ++ holePath gs) = (s.check q).map (· ++ holePath gs) := by
    intro q; simp only [check, e]; split <;> rfl
  have h1 := step_at H (p := p ++ holePath gs) (a := a) (by rw [ea]; exact hs) m
  rw [h1]
  congr 1
  have hmv : (plug gs s).move m (p ++ holePath gs) = (s.move m p).map (· ++ holePath gs) := by
    have e1 := ec (true :: p); have e2 := ec (false :: p)
    simp only [List.cons_append] at e1 e2
    match m, p, hm with
    | .left, p, _ => simp only [BTree.move, e1]
    | .right, p, _ => simp only [BTree.move, e2]
    | .first, p, _ => simp only [BTree.move, e1, e2]; cases s.check (true :: p) <;> simp
    | .last, p, _ => simp only [BTree.move, e1, e2]; cases s.check (false :: p) <;> simp
    | .child i, p, _ =>
      simp only [BTree.move, e1, e2]
      cases s.check (true :: p) <;> cases s.check (false :: p) <;> simp [List.reduceOption]
      all_goals (match i with | 0 => rfl | 1 => rfl | _ + 2 => rfl)
    | .parent, [], hm => simp at hm
    | .prev, [], hm => simp at hm
    | .next, [], hm => simp at hm
    | .parent, b :: p, _ => simp [BTree.move]
    | .prev, b :: p, _ =>
      have e3 := ec (true :: p)
      simp only [List.cons_append] at e3
      cases b <;> simp [BTree.move, e3]
    | .next, b :: p, _ =>
      have e3 := ec (false :: p)
      simp only [List.cons_append] at e3
      cases b <;> simp [BTree.move, e3]
  rw [hmv]
  cases s.move m p <;> simp [ea]

theorem accepts_spec {gs : List (Frame (Addr × α))} {s : BTree (Addr × α)} (H : Rep h (plug gs s)) {p : List Bool} {y : Addr} {v : α}
    {l r : BTree (Addr × α)} (hs : s.at? p = node (y, v) l r) : (Binary.gen α).accepts test h y = Res.ok (test v) := by
  obtain ⟨fs, hf, _⟩ := BTree.at_plug (t := s) (p := p) (by simp [hs, label?])
  rw [← hf, ← plug_append, hs] at H
  have hc := H.cell
  simp only at hc
  simp only [Gen.accepts, Heap.read_of hc, Res.ok_bind]
  rfl


theorem root_path {s : BTree (Addr × α)} {gs : List (Frame (Addr × α))} (H : Rep h (plug gs s)) {b : Bool} {p : List Bool} {x root : Addr}
    (hx : s.addrAt (b :: p) = some x) (hr : s.addr? = some root) : x ≠ root := by
  obtain ⟨fs, hf, hk⟩ := BTree.at_plug (t := s) (p := b :: p) (by
    simp only [addrAt] at hx; cases e : s.at? (b :: p) <;> simp_all [label?])
  rcases hk with ⟨h1, _⟩ | ⟨f, fs', rfl, _, _⟩
  · cases h1
  · have hN := H.nodup_focus
    intro e
    subst e
    exact absurd rfl (addr_ne_of_plug_cons hf hN hx hr)

/-- The children of a visible node. -/
theorem child_cases {s : BTree (Addr × α)} {q : List Bool} {x : Addr} (hx : (s.visible test).addrAt q = some x) (b : Bool) :
    (s.at? (b :: q) = nil ∧ (s.visible test).at? (b :: q) = nil) ∨
    ∃ y v l r, s.at? (b :: q) = node (y, v) l r ∧ ((test v = true ∧ ∃ l' r', (s.visible test).at? (b :: q) = node (y, v) l' r') ∨
      (test v = false ∧ (s.visible test).at? (b :: q) = nil)) := by
  obtain ⟨v, l, r, e1, e2⟩ := visible_at hx
  have key : ∀ u : BTree (Addr × α), (u = nil ∧ only (fun x => test x.2) (keep (fun x => test x.2) u) = nil) ∨
      ∃ y v l r, u = node (y, v) l r ∧ ((test v = true ∧ ∃ l' r', only (fun x => test x.2) (keep (fun x => test x.2) u) = node (y, v) l' r') ∨
      (test v = false ∧ only (fun x => test x.2) (keep (fun x => test x.2) u) = nil)) := by
    intro u
    cases u with
    | nil => exact Or.inl ⟨rfl, rfl⟩
    | node a l r =>
      refine Or.inr ⟨a.1, a.2, l, r, rfl, ?_⟩
      cases e : test a.2 <;> simp [keep, only, e]
  cases b
  · simpa [at?, e1, e2, left, right] using key r
  · simpa [at?, e1, e2, left, right] using key l

/-- A getter leads to the position `o` of both trees, if there is one. -/
def Ans (k U : BTree (Addr × α)) (o : Option (List Bool)) (res : Res (Ptr × Ptr)) : Prop :=
  ∃ p, res = Res.ok (o.bind k.addrAt, p) ∧ ∀ q, o = some q → p = U.addrAt q

section
variable {gs : List (Frame (Addr × α))} {s U : BTree (Addr × α)} {root : Addr}
variable (H : Rep h (plug gs s)) (HU : Rep h U)
include H HU

theorem both_spec {p : List Bool} {x : Addr} (hx : s.addrAt p = some x) {g : Addr} (hg : U.addrAt p = some g) {m : Move}
    (hm : p ≠ [] ∨ (m ≠ .parent ∧ m ≠ .prev ∧ m ≠ .next)) :
    (Binary.gen α).both h m x (some g) = Res.ok ((s.move m p).bind s.addrAt, (U.move m p).bind U.addrAt) := by
  have e1 := step_sub H hx hm
  have e2 := step_at HU hg m
  simp only [Gen.both, Multi.callOn, Binary.gen, e1, e2, Res.ok_bind, Res.pure_eq]

omit HU in
theorem both_none {p : List Bool} {x : Addr} (hx : s.addrAt p = some x) {m : Move}
    (hm : p ≠ [] ∨ (m ≠ .parent ∧ m ≠ .prev ∧ m ≠ .next)) :
    (Binary.gen α).both h m x none = Res.ok ((s.move m p).bind s.addrAt, none) := by
  have e1 := step_sub H hx hm
  simp only [Gen.both, Multi.callOn, Binary.gen, e1, Res.ok_bind, Res.pure_eq]

theorem side_spec {q : List Bool} {x g : Addr} (hx : (s.visible test).addrAt q = some x) (hg : U.addrAt q = some g) (b : Bool) :
    Ans (s.visible test) U ((s.visible test).check (b :: q))
      ((Binary.gen α).getSide test (if b then .left else .right) h x (some g)) := by
  have hs : s.addrAt q = some x := by
    obtain ⟨v, l, r, e1, _⟩ := visible_at hx; simp [addrAt, e1]
  have hb := both_spec H HU hs hg (m := if b then .left else .right) (Or.inr (by cases b <;> simp))
  have hm : ∀ t : BTree (Addr × α), (t.move (if b then .left else .right) q).bind t.addrAt = t.addrAt (b :: q) := by
    intro t; cases b <;> simp [BTree.move, check_bind, addrAt]
  rw [hm, hm] at hb
  simp only [Gen.getSide, hb, Res.ok_bind]
  rcases child_cases hx b with ⟨h1, h2⟩ | ⟨y, v, l, r, h1, h2⟩
  · rw [show (s.visible test).check (b :: q) = none from check_none.mpr h2]
    exact ⟨U.addrAt (b :: q), by simp [addrAt, h1], by simp⟩
  · rw [show s.addrAt (b :: q) = some y by simp [addrAt, h1]]
    simp only [accepts_spec H h1, Res.ok_bind]
    rcases h2 with ⟨h2, l', r', h3⟩ | ⟨h2, h3⟩
    · rw [show (s.visible test).check (b :: q) = some (b :: q) from check_some.mpr ⟨rfl, by simp [h3]⟩]
      exact ⟨U.addrAt (b :: q), by simp [h2, addrAt, h3], by simp⟩
    · rw [show (s.visible test).check (b :: q) = none from check_none.mpr h3]
      exact ⟨none, by simp [h2], by simp⟩

theorem next_spec (hr : s.addr? = some root) {q : List Bool} {b : Bool} {x y : Addr} (hx : (s.visible test).addrAt q = some x) (hy : s.addrAt (b :: q) = some y)
    {p : Ptr} (hp : (p = U.addrAt (b :: q) ∧ p.isSome) ∨ (p = none ∧ U.at? (false :: q) = nil)) :
    Ans (s.visible test) U ((s.visible test).move .next (b :: q)) ((Binary.gen α).getNext test root h y p) := by
  have hb : (Binary.gen α).plain root h .next y p = Res.ok ((s.move .next (b :: q)).bind s.addrAt, if b then U.addrAt (false :: q) else none) := by
    simp only [Gen.plain, root_path H hy hr, if_false]
    rcases hp with ⟨h1, h2⟩ | ⟨rfl, h2⟩
    · obtain ⟨g, rfl⟩ := Option.isSome_iff_exists.mp h2
      rw [both_spec H HU hy h1.symm (Or.inl (by simp))]
      cases b <;> simp [BTree.move, check_bind, addrAt]
    · rw [both_none H hy (Or.inl (by simp))]
      cases b <;> simp [addrAt, h2]
  simp only [Gen.getNext, hb, Res.ok_bind]
  have hfuel : ∃ n, h.fuel = n + 2 := ⟨2 * h.next, by simp [Heap.fuel]⟩
  obtain ⟨n, hn⟩ := hfuel
  rw [hn]
  cases b
  · exact ⟨none, by simp [BTree.move, Gen.nextLoop], by simp [BTree.move]⟩
  · simp only [BTree.move, check_bind, if_true]
    rcases child_cases hx false with ⟨h1, h2⟩ | ⟨z, v, l, r, h1, h2⟩
    · rw [show (s.visible test).check (false :: q) = none from check_none.mpr h2]
      exact ⟨U.addrAt (false :: q), by simp [h1, Gen.nextLoop], by simp⟩
    · rw [h1]
      simp only [addr?_node, Gen.nextLoop, accepts_spec H h1, Res.ok_bind]
      rcases h2 with ⟨h2, l', r', h3⟩ | ⟨h2, h3⟩
      · rw [show (s.visible test).check (false :: q) = some (false :: q) from check_some.mpr ⟨rfl, by simp [h3]⟩]
        exact ⟨U.addrAt (false :: q), by simp [h2, addrAt, h3], by simp⟩
      · rw [show (s.visible test).check (false :: q) = none from check_none.mpr h3]
        have hz : s.addrAt (false :: q) = some z := by simp [addrAt, h1]
        have hb2 : (Binary.gen α).plain root h .next z (U.addrAt (false :: q)) = Res.ok (none, none) := by
          simp only [Gen.plain, root_path H hz hr, if_false]
          cases e : U.addrAt (false :: q) with
          | none => rw [both_none H hz (Or.inl (by simp))]; simp [BTree.move]
          | some g => rw [both_spec H HU hz e (Or.inl (by simp))]; simp [BTree.move]
        simp only [h2, hb2, Res.ok_bind, Bool.false_eq_true, if_false]
        exact ⟨none, by simp [Gen.nextLoop], by simp⟩

theorem prev_spec (hr : s.addr? = some root) {q : List Bool} {b : Bool} {x y : Addr} (hx : (s.visible test).addrAt q = some x) (hy : s.addrAt (b :: q) = some y)
    {p : Ptr} (hp : (p = U.addrAt (b :: q) ∧ p.isSome) ∨ (p = none ∧ U.at? (true :: q) = nil))
    (hok : b = false → s.check (true :: q) = (s.visible test).check (true :: q)) :
    Ans (s.visible test) U ((s.visible test).move .prev (b :: q)) ((Binary.gen α).getPrev test root h y p) := by
  have hb : (Binary.gen α).plain root h .prev y p = Res.ok ((s.move .prev (b :: q)).bind s.addrAt, if b then none else U.addrAt (true :: q)) := by
    simp only [Gen.plain, root_path H hy hr, if_false]
    rcases hp with ⟨h1, h2⟩ | ⟨rfl, h2⟩
    · obtain ⟨g, rfl⟩ := Option.isSome_iff_exists.mp h2
      rw [both_spec H HU hy h1.symm (Or.inl (by simp))]
      cases b <;> simp [BTree.move, check_bind, addrAt]
    · rw [both_none H hy (Or.inl (by simp))]
      cases b <;> simp [addrAt, h2]
  simp only [Gen.getPrev, hb, Res.ok_bind]
  have hfuel : ∃ n, h.fuel = n + 2 := ⟨2 * h.next, by simp [Heap.fuel]⟩
  obtain ⟨n, hn⟩ := hfuel
  rw [hn]
  cases b
  · simp only [BTree.move, check_bind, if_true]
    rcases child_cases hx true with ⟨h1, h2⟩ | ⟨z, v, l, r, h1, h2⟩
    · rw [show (s.visible test).check (true :: q) = none from check_none.mpr h2]
      exact ⟨U.addrAt (true :: q), by simp [h1, Gen.prevLoop], by simp⟩
    · rw [h1]
      simp only [addr?_node, Gen.prevLoop, accepts_spec H h1, Res.ok_bind]
      rcases h2 with ⟨h2, l', r', h3⟩ | ⟨h2, h3⟩
      · rw [show (s.visible test).check (true :: q) = some (true :: q) from check_some.mpr ⟨rfl, by simp [h3]⟩]
        exact ⟨U.addrAt (true :: q), by simp [h2, addrAt, h3], by simp⟩
      · exfalso
        have := hok rfl
        rw [check_none.mpr h3, check_none, h1] at this
        cases this
  · exact ⟨none, by simp [BTree.move, Gen.prevLoop], by simp [BTree.move]⟩

theorem first_spec (hr : s.addr? = some root) {seen : List (List Bool)} (C : (s.visible test).Copies seen U)
    (hV : ∀ p ∈ seen, (s.visible test).at? p ≠ nil) {q : List Bool} {x g : Addr} (hx : (s.visible test).addrAt q = some x) (hg : U.addrAt q = some g) (hok : s.genSound test .first ⟨seen, q⟩) :
    Ans (s.visible test) U ((s.visible test).move .first q) ((Binary.gen α).getFirst test root h x (some g)) := by
  have hs : s.addrAt q = some x := by
    obtain ⟨v, l, r, e1, _⟩ := visible_at hx; simp [addrAt, e1]
  have hb := both_spec H HU hs hg (m := .first) (Or.inr (by simp))
  simp only [Gen.getFirst, hb, Res.ok_bind]
  simp only [genSound] at hok
  have c1 := child_cases hx true
  have c2 := child_cases hx false
  have n1 := C.at_nil (true :: q)
  have n2 := C.at_nil (false :: q)
  simp only [BTree.move]
  rcases c1 with ⟨h1, h1'⟩ | ⟨y, v, l, r, h1, h1'⟩
  · -- no left child
    have u1 : U.at? (true :: q) = nil := n1.mpr (fun _ => h1')
    rw [check_none.mpr h1, check_none.mpr u1, check_none.mpr h1']
    simp only [Option.none_or, check_bind]
    rcases c2 with ⟨h2, h2'⟩ | ⟨z, w, l2, r2, h2, h2'⟩
    · rw [h2, check_none.mpr h2']
      exact ⟨_, by simp; rfl, by simp⟩
    · rw [h2]
      simp only [addr?_node, accepts_spec H h2, Res.ok_bind]
      rcases h2' with ⟨h3, l', r', h4⟩ | ⟨h3, h4⟩
      · rw [show (s.visible test).check (false :: q) = some (false :: q) from check_some.mpr ⟨rfl, by simp [h4]⟩]
        exact ⟨U.addrAt (false :: q), by simp [h3, addrAt, h4], by simp⟩
      · have u2 : U.at? (false :: q) = nil := n2.mpr (fun _ => h4)
        have := next_spec (test := test) H HU hr (b := false) hx (y := z) (by simp [addrAt, h2]) (p := (U.at? (false :: q)).addr?)
          (Or.inr ⟨by simp [u2], u2⟩)
        rw [check_none.mpr h4]
        simpa [h3, BTree.move] using this
  · -- a left child
    rw [show s.check (true :: q) = some (true :: q) from check_some.mpr ⟨rfl, by simp [h1]⟩]
    have hok : true :: q ∈ seen ∨ false :: q ∉ seen := by
      rcases hok with h | h
      · rw [check_none, h1] at h; cases h
      · exact h
    simp only [Option.some_or, Option.bind_some, show s.addrAt (true :: q) = some y by simp [addrAt, h1], accepts_spec H h1, Res.ok_bind]
    rcases h1' with ⟨h3, l', r', h4⟩ | ⟨h3, h4⟩
    · rw [show (s.visible test).check (true :: q) = some (true :: q) from check_some.mpr ⟨rfl, by simp [h4]⟩]
      refine ⟨U.addrAt (true :: q), ?_, by simp⟩
      have : ((U.check (true :: q)).or (U.check (false :: q))).bind U.addrAt = U.addrAt (true :: q) := by
        by_cases hm : true :: q ∈ seen
        · have : U.at? (true :: q) ≠ nil := by rw [ne_eq, n1]; simp [hm, h4]
          rw [show U.check (true :: q) = some (true :: q) from check_some.mpr ⟨rfl, this⟩]; simp
        · have u1 : U.at? (true :: q) = nil := n1.mpr (fun h => absurd h hm)
          have u2 : U.at? (false :: q) = nil := n2.mpr (fun h => by grind)
          rw [check_none.mpr u1, check_none.mpr u2]; simp [addrAt, u1]
      simp [h3, this, addrAt, h4]
    · have u1 : U.at? (true :: q) = nil := n1.mpr (fun _ => h4)
      rw [check_none.mpr u1, check_none.mpr h4]
      have u2 : U.at? (false :: q) = nil := by
        rcases hok with hm | hm
        · exact absurd h4 (hV _ hm)
        · exact n2.mpr (fun h => absurd h hm)
      rw [check_none.mpr u2]
      have := next_spec (test := test) H HU hr (b := true) hx (y := y) (by simp [addrAt, h1]) (p := none)
          (Or.inr ⟨rfl, u2⟩)
      simpa [h3, BTree.move] using this

theorem last_spec (hr : s.addr? = some root) {seen : List (List Bool)} (C : (s.visible test).Copies seen U)
    (hV : ∀ p ∈ seen, (s.visible test).at? p ≠ nil) {q : List Bool} {x g : Addr} (hx : (s.visible test).addrAt q = some x)
    (hg : U.addrAt q = some g) (hok : s.genSound test .last ⟨seen, q⟩) :
    Ans (s.visible test) U ((s.visible test).move .last q) ((Binary.gen α).getLast test root h x (some g)) := by
  have hs : s.addrAt q = some x := by
    obtain ⟨v, l, r, e1, _⟩ := visible_at hx; simp [addrAt, e1]
  have hb := both_spec H HU hs hg (m := .last) (Or.inr (by simp))
  simp only [Gen.getLast, hb, Res.ok_bind]
  simp only [genSound] at hok
  have c1 := child_cases hx false
  have c2 := child_cases hx true
  have n1 := C.at_nil (false :: q)
  have n2 := C.at_nil (true :: q)
  simp only [BTree.move]
  rcases c1 with ⟨h1, h1'⟩ | ⟨y, v, l, r, h1, h1'⟩
  · -- no right child
    have u1 : U.at? (false :: q) = nil := n1.mpr (fun _ => h1')
    rw [check_none.mpr h1, check_none.mpr u1, check_none.mpr h1']
    simp only [Option.none_or, check_bind]
    rcases c2 with ⟨h2, h2'⟩ | ⟨z, w, l2, r2, h2, h2'⟩
    · rw [h2, check_none.mpr h2']
      exact ⟨_, by simp; rfl, by simp⟩
    · rw [h2]
      simp only [addr?_node, accepts_spec H h2, Res.ok_bind]
      rcases h2' with ⟨h3, l', r', h4⟩ | ⟨h3, h4⟩
      · rw [show (s.visible test).check (true :: q) = some (true :: q) from check_some.mpr ⟨rfl, by simp [h4]⟩]
        exact ⟨U.addrAt (true :: q), by simp [h3, addrAt, h4], by simp⟩
      · have u2 : U.at? (true :: q) = nil := n2.mpr (fun _ => h4)
        have := prev_spec (test := test) H HU hr (b := true) hx (y := z) (by simp [addrAt, h2]) (p := (U.at? (true :: q)).addr?)
          (Or.inr ⟨by simp [u2], u2⟩) (by simp)
        rw [check_none.mpr h4]
        simpa [h3, BTree.move] using this
  · -- a right child
    rw [show s.check (false :: q) = some (false :: q) from check_some.mpr ⟨rfl, by simp [h1]⟩]
    have hok : false :: q ∈ seen ∨ (true :: q ∉ seen ∧ ((s.visible test).check (false :: q) ≠ none ∨
        s.check (true :: q) = (s.visible test).check (true :: q))) := by
      rcases hok with h | h
      · rw [check_none, h1] at h; cases h
      · exact h
    simp only [Option.some_or, Option.bind_some, show s.addrAt (false :: q) = some y by simp [addrAt, h1], accepts_spec H h1, Res.ok_bind]
    rcases h1' with ⟨h3, l', r', h4⟩ | ⟨h3, h4⟩
    · rw [show (s.visible test).check (false :: q) = some (false :: q) from check_some.mpr ⟨rfl, by simp [h4]⟩]
      refine ⟨U.addrAt (false :: q), ?_, by simp⟩
      have : ((U.check (false :: q)).or (U.check (true :: q))).bind U.addrAt = U.addrAt (false :: q) := by
        by_cases hm : false :: q ∈ seen
        · have : U.at? (false :: q) ≠ nil := by rw [ne_eq, n1]; simp [hm, h4]
          rw [show U.check (false :: q) = some (false :: q) from check_some.mpr ⟨rfl, this⟩]; simp
        · have u1 : U.at? (false :: q) = nil := n1.mpr (fun h => absurd h hm)
          have u2 : U.at? (true :: q) = nil := n2.mpr (fun h => by grind)
          rw [check_none.mpr u1, check_none.mpr u2]; simp [addrAt, u1]
      simp [h3, this, addrAt, h4]
    · have u1 : U.at? (false :: q) = nil := n1.mpr (fun _ => h4)
      rw [check_none.mpr u1, check_none.mpr h4]
      have hok : true :: q ∉ seen ∧ s.check (true :: q) = (s.visible test).check (true :: q) := by
        rcases hok with hm | ⟨hm, ho⟩
        · exact absurd h4 (hV _ hm)
        · exact ⟨hm, ho.resolve_left (fun h => h (check_none.mpr h4))⟩
      have u2 : U.at? (true :: q) = nil := n2.mpr (fun h => absurd h hok.1)
      rw [check_none.mpr u2]
      have := prev_spec (test := test) H HU hr (b := false) hx (y := y) (by simp [addrAt, h1]) (p := none)
          (Or.inr ⟨rfl, u2⟩) (fun _ => hok.2)
      simpa [h3, BTree.move] using this
end

/-- A leaf put into an empty slot is one more copied node. -/
theorem slotted_at {fs : List (Frame (Addr × α))} {a : Addr × α} {L R : BTree (Addr × α)} {b : Bool} {y : Addr} {v : α}
    (hL : b = true → L = nil) (hR : b = false → R = nil) (p : List Bool) :
    (plug fs (slotted a L R b (node (y, v) nil nil))).valAt p =
      if p = b :: holePath fs then some v else (plug fs (node a L R)).valAt p := by
  rcases at_off fs p with ⟨q, rfl⟩ | ⟨o, ho⟩
  · simp only [valAt, at_append, at_hole]
    rcases List.eq_nil_or_concat q with rfl | ⟨q', c, rfl⟩
    · have : ([] : List Bool) ++ holePath fs ≠ b :: holePath fs := by
        intro e; have := congrArg List.length e; simp at this
      rw [if_neg this]
      cases b <;> simp [slotted, at?, label?]
    · rw [List.concat_eq_append, at_last, at_last]
      have hiff : (q' ++ [c] ++ holePath fs = b :: holePath fs) ↔ (q' = [] ∧ c = b) := by
        constructor
        · intro e
          have := congrArg List.length e
          simp at this
          subst this
          simpa using e
        · rintro ⟨rfl, rfl⟩; rfl
      have hnil : ∀ q : List Bool, ((node (y, v) nil nil : BTree (Addr × α)).at? q) = if q = [] then node (y, v) nil nil else nil := by
        intro q
        rcases List.eq_nil_or_concat q with rfl | ⟨q', c, rfl⟩
        · rfl
        · rw [List.concat_eq_append, at_last]
          cases c <;> simp [left, right]
      simp only [hiff]
      cases b <;> cases c <;> simp [slotted, left, right]
      · rw [hR rfl, hnil]; split <;> simp [label?, *]
      · rw [hL rfl, hnil]; split <;> simp [label?, *]
  · have : ¬ p = b :: holePath fs := by
      rintro rfl
      have h1 := ho (node a nil nil)
      have h2 := ho (node a (node a nil nil) (node a nil nil))
      rw [← h2] at h1
      simp only [at?, at_hole, left, right] at h1
      cases b <;> simp [label?] at h1
    simp only [this, if_false, valAt, ho]


theorem at_plug_hole {β : Type} {t : BTree β} {p : List Bool} (hne : t.at? p ≠ nil) : ∃ fs, plug fs (t.at? p) = t ∧ holePath fs = p := by
  induction p with
  | nil => exact ⟨[], rfl, rfl⟩
  | cons b p ih =>
    simp only [at?] at hne ⊢
    cases e : t.at? p with
    | nil => cases b <;> simp [e, left, right] at hne
    | node a l r =>
      obtain ⟨fs, h1, h2⟩ := ih (by simp [e])
      rw [e] at h1
      cases b
      · exact ⟨⟨a, false, l⟩ :: fs, by simp [plug, Frame.fill, right, h1], by simp only [holePath, List.map_cons]; simpa [holePath] using h2⟩
      · exact ⟨⟨a, true, r⟩ :: fs, by simp [plug, Frame.fill, left, h1], by simp only [holePath, List.map_cons]; simpa [holePath] using h2⟩

theorem shape_addrs' (t : BTree (Addr × α)) : (shape α).addrs t = t.addrs := by
  show Tree.preL t.addrTree.toRose = t.addrs
  rw [preL_toRose, addrTree, pre_map, addrs]

theorem left_at {gs : List (Frame (Addr × α))} {s : BTree (Addr × α)} (H : Rep h (plug gs s)) {b : Bool} {q : List Bool} {y : Addr}
    (hy : s.addrAt (b :: q) = some y) : isLeftChild h y = Res.ok b := by
  obtain ⟨fs, h1, h2⟩ := at_plug_hole (t := s) (p := b :: q) (by intro e; simp [addrAt, e] at hy)
  cases fs with
  | nil => simp [holePath] at h2
  | cons f fs =>
    simp [holePath] at h2
    cases e : s.at? (b :: q) with
    | nil => simp [addrAt, e] at hy
    | node a l r =>
      simp [addrAt, e] at hy
      rw [e] at h1
      obtain ⟨fl, fb, fo⟩ := f
      simp at h2
      rw [h2.1] at h1
      rw [← h1, ← plug_append] at H
      rw [← hy]
      exact isLeftChild_spec (by simpa using H)

/-- The heap holds the trees `ts` with `U` under the name `Y`, which is the copy that belongs to the walk, and the pair of pointers
is at the current position. -/
structure GInv (Z : Addr → Prop) (test : α → Bool) (ts : Nat → Option (BTree (Addr × α))) (Y : Nat) (s : BTree (Addr × α)) (h : BHeap α)
    (U : BTree (Addr × α)) (w : Walked (List Bool)) (x g : Addr) (tp : Ptr) : Prop where
  own : Own Z (shape α) h (upd ts Y (some U)) .nil
  copies : (s.visible test).Copies w.seen U
  vis : ∀ p ∈ w.seen, (s.visible test).at? p ≠ nil
  hx : (s.visible test).addrAt w.pos = some x
  hg : U.addrAt w.pos = some g
  top : U.addr? = tp

section
variable {Z : Addr → Prop} {ts : Nat → Option (BTree (Addr × α))} {X Y : Nat} {gs : List (Frame (Addr × α))} {s U : BTree (Addr × α)}
  {w : Walked (List Bool)} {x g : Addr} {tp : Ptr}

theorem generate_spec (hX : ts X = some (plug gs s)) (hXY : X ≠ Y) (I : GInv Z test ts Y s h U w x g tp) {b : Bool} {q : List Bool} {y r : Addr}
    (hy : (s.visible test).addrAt (b :: q) = some y) (hr : U.addrAt q = some r) {above : Res Addr} (ha : above = Res.ok r) :
    ∃ h' U' g', (Binary.gen α).generate h above (some y, U.addrAt (b :: q)) = Res.ok (h', some (y, g')) ∧
      GInv Z test ts Y s h' U' ⟨(b :: q) :: w.seen, b :: q⟩ y g' tp := by
  obtain ⟨v, l, r', e1, e2⟩ := visible_at hy
  have hv : (s.visible test).valAt (b :: q) = some v := by simp [valAt, e2, label?]
  have hvis : ∀ p ∈ (b :: q) :: w.seen, (s.visible test).at? p ≠ nil := by
    intro p hp
    rcases List.mem_cons.mp hp with rfl | hp
    · simp [e2]
    · exact I.vis p hp
  have H : Rep h (plug gs s) := I.own.rep X _ (by rw [upd_other _ _ hXY]; exact hX)
  have HU : Rep h U := I.own.rep Y _ (upd_same _ _ _)
  cases e : U.addrAt (b :: q) with
  | some g' =>
    refine ⟨h, U, g', rfl, I.own, ?_, hvis, hy, e, I.top⟩
    intro p
    rw [I.copies p]
    have hm : b :: q ∈ w.seen := by
      refine Classical.byContradiction fun hn => ?_
      have := (I.copies.at_nil (b :: q)).mpr (fun h => absurd h hn)
      rw [addrAt, this] at e
      cases e
    by_cases hp : p = b :: q
    · subst hp; simp [hm]
    · simp [hp]
  | none =>
    have hs : s.addrAt (b :: q) = some y := by simp [addrAt, e1]
    have hcy : ∃ n, h.cells y = some n ∧ n.value = v := by
      obtain ⟨fs, h1, _⟩ := at_plug_hole (t := s) (p := b :: q) (by simp [e1])
      rw [← h1, ← plug_append, e1] at H
      exact ⟨_, H.cell, rfl⟩
    obtain ⟨n, hn, hnv⟩ := hcy
    -- the new leaf
    have G := alloc_grown (Binary.lawful α) I.own.wf v
    have O1 := I.own.grow (Binary.lawful α) G ((Binary.lawful α).leaf h v I.own.wf)
    have hleaf : (shape α).single h.next v = node (h.next, v) nil nil := rfl
    rw [hleaf] at O1
    have H1 : Rep (h.alloc ((Binary.kind α).leaf v)).1 (plug gs s) := O1.rep X _ (by rw [upd_other _ _ hXY]; exact hX)
    have HU1 : Rep (h.alloc ((Binary.kind α).leaf v)).1 U := O1.rep Y _ (upd_same _ _ _)
    have hd := O1.disjN Y _ (upd_same _ _ _)
    simp only [shape_addrs'] at hd
    obtain ⟨fs, hf1, hf2⟩ := at_plug_hole (t := U) (p := q) (by intro e; simp [addrAt, e] at hr)
    cases eq : U.at? q with
    | nil => simp [addrAt, eq] at hr
    | node a L R =>
    obtain ⟨a, va⟩ := a
    simp [addrAt, eq] at hr
    subst hr
    rw [eq] at hf1
    rw [addrAt_none] at e
    have hL : b = true → L = nil := by rintro rfl; simpa [at?, eq, left] using e
    have hR : b = false → R = nil := by rintro rfl; simpa [at?, eq, right] using e
    rw [← hf1] at HU1 hd
    obtain ⟨h', a1, a2, a3, a4⟩ := attach_at (h := (h.alloc ((Binary.kind α).leaf v)).1) (left_at H1 hs) HU1 hL hR
      (c := node (h.next, v) nil nil) O1.repN (fun z hz => hd z hz) (y := h.next) rfl
    refine ⟨h', plug fs (slotted (a, va) L R b (node (h.next, v) nil nil)), h.next, ?_, ⟨?_, ?_, hvis, hy, ?_, ?_⟩⟩
    · simp only [Gen.generate, Heap.read_of hn, Res.ok_bind, ha]
      show (do let h ← (Binary.builder α).attach (h.alloc ((Binary.kind α).leaf n.value)).1 a h.next y; pure (h, some (y, _))) = _
      rw [hnv, a1]
      rfl
    · have M : ∀ z, z ∈ (plug fs (slotted (a, va) L R b (node (h.next, v) nil nil))).addrs ↔
          z ∈ (plug fs (node (a, va) L R)).addrs ∨ z ∈ (node (h.next, v) nil nil : BTree (Addr × α)).addrs := by
        intro z
        rw [(addrs_plug fs _).mem_iff, (addrs_plug fs _).mem_iff]
        cases b
        · rw [hR rfl]; simp [slotted]; grind
        · rw [hL rfl]; simp [slotted]; grind
      have := O1.modify_aux (Binary.lawful α) (x := Y) (t := U) (t' := plug fs (slotted (a, va) L R b (node (h.next, v) nil nil)))
        (n' := .nil) (upd_same _ _ _) a2 ((Binary.lawful α).rep_nil _) a3
        (by simp only [shape_addrs']; intro z hz1 hz2; exact a4 z (by rw [hf1]; exact hz1) hz2)
        (by simp only [shape_addrs']; intro z; rw [M z, hf1]; simp)
        (by simp only [shape_addrs']; intro z _; simp)
      rwa [show upd (upd ts Y (some U)) Y (some (plug fs (slotted (a, va) L R b (node (h.next, v) nil nil)))) =
        upd ts Y (some (plug fs (slotted (a, va) L R b (node (h.next, v) nil nil)))) from by funext z; simp [upd]; split <;> rfl] at this
    · intro p
      rw [slotted_at hL hR, hf2, hf1]
      by_cases hp : p = b :: q
      · subst hp; simp [hv]
      · rw [if_neg hp, I.copies p]; simp [hp]
    · show (plug fs (slotted (a, va) L R b (node (h.next, v) nil nil))).addrAt (b :: q) = some h.next
      simp only [addrAt, at?, ← hf2, at_hole]
      cases b <;> simp [slotted, left, right]
    · rw [← I.top, ← hf1]
      rcases List.eq_nil_or_concat fs with rfl | ⟨l, f, rfl⟩
      · cases b <;> rfl
      · rw [List.concat_eq_append, plug_append, plug_append]; simp [plug]

theorem parent_at {U : BTree (Addr × α)} {b : Bool} {q : List Bool} {g : Addr} (hg : U.addrAt (b :: q) = some g) : ∃ r, U.addrAt q = some r := by
  simp only [addrAt, at?] at hg ⊢
  cases e : U.at? q with
  | nil => cases b <;> simp [e, left, right] at hg
  | node a l r => simp

theorem gen_move (hX : ts X = some (plug gs s)) (hXY : X ≠ Y) {root : Addr} (hr : s.addr? = some root) (I : GInv Z test ts Y s h U w x g tp) {m : Move}
    (hm : s.genSound test m w) :
    ∃ h' o, (Binary.gen α).move test root h m x g = Res.ok (h', o) ∧
      ∃ U', GInv Z test ts Y s h' U' (w.step (s.visible test).move m) (o.elim x Prod.fst) (o.elim g Prod.snd) tp := by
  have H : Rep h (plug gs s) := I.own.rep X _ (by rw [upd_other _ _ hXY]; exact hX)
  have HU : Rep h U := I.own.rep Y _ (upd_same _ _ _)
  obtain ⟨seen, q⟩ := w
  have hx := I.hx
  have hg := I.hg
  simp only at hx hg
  -- what remains after the navigation
  have fin : ∀ {o : Option (List Bool)} {res : Res (Ptr × Ptr)} {above : Res Addr}, Ans (s.visible test) U o res →
      o = (s.visible test).move m q → (∀ p, o = some p → ∃ b p' r, p = b :: p' ∧ (s.visible test).at? p ≠ nil ∧ U.addrAt p' = some r ∧ above = Res.ok r) →
      ∃ h' o, (res >>= (Binary.gen α).generate h above) = Res.ok (h', o) ∧
        ∃ U', GInv Z test ts Y s h' U' (Walked.step (s.visible test).move m ⟨seen, q⟩) (o.elim x Prod.fst) (o.elim g Prod.snd) tp := by
    rintro o res above ⟨p2, rfl, hp2⟩ ho hpar
    simp only [Res.ok_bind]
    simp only [Walked.step, ← ho]
    cases o with
    | none => exact ⟨h, none, rfl, U, I⟩
    | some p =>
      obtain ⟨b, p', r, rfl, h1, h2, h3⟩ := hpar p rfl
      rw [hp2 _ rfl]
      obtain ⟨y, hy⟩ : ∃ y, (s.visible test).addrAt (b :: p') = some y := by
        cases e : (s.visible test).addrAt (b :: p') with
        | none => exact absurd (addrAt_none.mp e) h1
        | some y => exact ⟨y, rfl⟩
      obtain ⟨h', U', g', e1, e2⟩ := generate_spec hX hXY I hy h2 h3
      exact ⟨h', some (y, g'), by simpa [hy] using e1, U', e2⟩
  have ck : ∀ {p p' : List Bool}, (s.visible test).check p = some p' → p' = p ∧ (s.visible test).at? p ≠ nil := fun h => check_some.mp h
  cases m with
  | left =>
    refine fin (side_spec H HU hx hg true) rfl ?_
    intro p hp
    obtain ⟨rfl, h1⟩ := ck hp
    exact ⟨true, q, g, rfl, h1, hg, rfl⟩
  | right =>
    refine fin (side_spec H HU hx hg false) rfl ?_
    intro p hp
    obtain ⟨rfl, h1⟩ := ck hp
    exact ⟨false, q, g, rfl, h1, hg, rfl⟩
  | first =>
    refine fin (first_spec H HU hr I.copies I.vis hx hg hm) rfl ?_
    intro p hp
    simp only [BTree.move] at hp
    cases e : (s.visible test).check (true :: q) with
    | some p' => obtain ⟨rfl, h1⟩ := ck e; rw [e] at hp; cases hp; exact ⟨true, q, g, rfl, h1, hg, rfl⟩
    | none => rw [e] at hp; obtain ⟨rfl, h1⟩ := ck hp; exact ⟨false, q, g, rfl, h1, hg, rfl⟩
  | last =>
    refine fin (last_spec H HU hr I.copies I.vis hx hg hm) rfl ?_
    intro p hp
    simp only [BTree.move] at hp
    cases e : (s.visible test).check (false :: q) with
    | some p' => obtain ⟨rfl, h1⟩ := ck e; rw [e] at hp; cases hp; exact ⟨false, q, g, rfl, h1, hg, rfl⟩
    | none => rw [e] at hp; obtain ⟨rfl, h1⟩ := ck hp; exact ⟨true, q, g, rfl, h1, hg, rfl⟩
  | child i => exact absurd hm (by simp [genSound])
  | parent =>
    cases q with
    | nil =>
      have : x = root := by
        obtain ⟨v, l, r, e1, _⟩ := visible_at hx
        simp only [at?] at e1
        rw [e1] at hr
        simpa using hr
      refine ⟨h, none, by simp [Gen.move, Gen.plain, this], U, ?_⟩
      simpa [Walked.step, BTree.move] using I
    | cons b q =>
      have hs : s.addrAt (b :: q) = some x := by obtain ⟨v, l, r, e1, _⟩ := visible_at hx; simp [addrAt, e1]
      obtain ⟨x', hx'⟩ := parent_at hx
      obtain ⟨g', hg'⟩ := parent_at hg
      have hs' : s.addrAt q = some x' := by obtain ⟨v, l, r, e1, _⟩ := visible_at hx'; simp [addrAt, e1]
      have hb := both_spec H HU hs hg (m := .parent) (Or.inl (by simp))
      simp only [BTree.move, Option.bind_some, hs', hg'] at hb
      refine ⟨h, some (x', g'), by simp [Gen.move, Gen.plain, root_path H hs hr, hb], U, I.own, ?_, ?_, ?_, ?_, I.top⟩
      · have hm : q ∈ seen := by
          refine Classical.byContradiction fun hn => ?_
          have := (I.copies.at_nil q).mpr (fun h => absurd h hn)
          rw [addrAt, this] at hg'
          cases hg'
        intro p
        rw [I.copies p]
        simp only [Walked.step, BTree.move]
        by_cases hp : p = q
        · subst hp; simp [hm]
        · simp [hp]
      · simp only [Walked.step, BTree.move]
        intro p hp
        rcases List.mem_cons.mp hp with rfl | hp
        · intro e; rw [addrAt_none.mpr e] at hx'; cases hx'
        · exact I.vis p hp
      · simpa [Walked.step, BTree.move] using hx'
      · simpa [Walked.step, BTree.move] using hg'
  | next =>
    cases q with
    | nil =>
      have : x = root := by
        obtain ⟨v, l, r, e1, _⟩ := visible_at hx
        simp only [at?] at e1
        rw [e1] at hr
        simpa using hr
      have hf : ∃ n, h.fuel = n + 1 := ⟨2 * h.next + 1, by simp [Heap.fuel]⟩
      obtain ⟨n, hn⟩ := hf
      refine ⟨h, none, by simp [Gen.move, Gen.getNext, Gen.plain, this, hn, Gen.nextLoop, Gen.generate], U, ?_⟩
      simpa [Walked.step, BTree.move] using I
    | cons b q =>
      have hs : s.addrAt (b :: q) = some x := by obtain ⟨v, l, r, e1, _⟩ := visible_at hx; simp [addrAt, e1]
      obtain ⟨x', hx'⟩ := parent_at hx
      obtain ⟨g', hg'⟩ := parent_at hg
      have hpar : (Binary.gen α).step h .parent g = Res.ok (some g') := by
        have := step_at HU hg .parent
        simpa [BTree.move, hg', Binary.gen] using this
      refine fin (next_spec H HU hr hx' hs (Or.inl ⟨hg.symm, rfl⟩)) rfl ?_
      intro p hp
      cases b
      · simp [BTree.move] at hp
      · obtain ⟨rfl, h1⟩ := ck hp
        exact ⟨false, q, g', rfl, h1, hg', by simp [hpar, deref]⟩
  | prev =>
    cases q with
    | nil =>
      have : x = root := by
        obtain ⟨v, l, r, e1, _⟩ := visible_at hx
        simp only [at?] at e1
        rw [e1] at hr
        simpa using hr
      have hf : ∃ n, h.fuel = n + 1 := ⟨2 * h.next + 1, by simp [Heap.fuel]⟩
      obtain ⟨n, hn⟩ := hf
      refine ⟨h, none, by simp [Gen.move, Gen.getPrev, Gen.plain, this, hn, Gen.prevLoop, Gen.generate], U, ?_⟩
      simpa [Walked.step, BTree.move] using I
    | cons b q =>
      have hs : s.addrAt (b :: q) = some x := by obtain ⟨v, l, r, e1, _⟩ := visible_at hx; simp [addrAt, e1]
      obtain ⟨x', hx'⟩ := parent_at hx
      obtain ⟨g', hg'⟩ := parent_at hg
      have hpar : (Binary.gen α).step h .parent g = Res.ok (some g') := by
        have := step_at HU hg .parent
        simpa [BTree.move, hg', Binary.gen] using this
      refine fin (prev_spec H HU hr hx' hs (Or.inl ⟨hg.symm, rfl⟩) (by rintro rfl; exact hm)) rfl ?_
      intro p hp
      cases b
      · obtain ⟨rfl, h1⟩ := ck hp
        exact ⟨true, q, g', rfl, h1, hg', by simp [hpar, deref]⟩
      · simp [BTree.move] at hp

theorem gen_run (hX : ts X = some (plug gs s)) (hXY : X ≠ Y) {root : Addr} (hr : s.addr? = some root) (ms : List Move)
    {h : BHeap α} {U : BTree (Addr × α)} {w : Walked (List Bool)} {x g : Addr} (I : GInv Z test ts Y s h U w x g tp)
    (hm : Walked.Sounds (s.visible test).move (s.genSound test) ms w) :
    ∃ h' x' g', (Binary.gen α).run test root h x g ms = Res.ok (h', x', g') ∧
      ∃ U', GInv Z test ts Y s h' U' (w.run (s.visible test).move ms) x' g' tp := by
  induction ms generalizing h U w x g with
  | nil => exact ⟨h, x, g, rfl, U, I⟩
  | cons m ms ih =>
    obtain ⟨h', o, e, U', I'⟩ := gen_move hX hXY hr I hm.1
    obtain ⟨h2, x2, g2, e2, U2, I2⟩ := ih I' hm.2
    refine ⟨h2, x2, g2, ?_, U2, I2⟩
    simp only [Gen.run, e, Res.ok_bind]
    cases o with
    | none => exact e2
    | some p => exact e2
end
end Binary
