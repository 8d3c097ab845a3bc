import Verif.Proof.Print
import Verif.Proof.NaryNav
import Verif.Proof.LawfulBin
import Verif.Proof.Erase
import Verif.Proof.Lawful
/-! The trees of the library meet what printing asks. -/
open Tree

namespace BTree
variable {β : Type}
/-- Each label with the mark "right child only". -/
def withGap : BTree β → BTree (β × Bool)
  | nil => nil
  | node a l r => node (a, l.label?.isNone && r.label?.isSome) l.withGap r.withGap

theorem toGaps_eq (t : BTree β) : t.toGaps = t.withGap.toRose := by
  induction t with
  | nil => rfl
  | node a l r ihl ihr => simp [toGaps, withGap, ihl, ihr]

theorem withGap_map (t : BTree β) : t.withGap.map Prod.fst = t := by
  induction t with
  | nil => rfl
  | node a l r ihl ihr => simp [withGap, BTree.map, ihl, ihr]

theorem withGap_label? (t : BTree β) : t.withGap.label?.isSome = t.label?.isSome := by cases t <;> rfl

theorem withGap_at {bs : List (Frame (β × Bool))} {p : β × Bool} {l r : BTree (β × Bool)} {t : BTree β}
    (h : plug bs (node p l r) = t.withGap) : p.2 = (l.label?.isNone && r.label?.isSome) := by
  have key : ∀ (bs : List (Frame (β × Bool))) (x : BTree (β × Bool)) (t : BTree β), plug bs x = t.withGap → ∃ u : BTree β, x = u.withGap := by
    intro bs
    induction bs with
    | nil => intro x t h; exact ⟨t, h⟩
    | cons f bs ih =>
      intro x t h
      obtain ⟨u, hu⟩ := ih _ _ h
      cases u with
      | nil => simp [withGap, Frame.fill] at hu; split at hu <;> cases hu
      | node a l r =>
        simp [withGap, Frame.fill] at hu
        split at hu
        · injection hu with _ h2 _; exact ⟨l, h2⟩
        · injection hu with _ _ h3; exact ⟨r, h3⟩
  obtain ⟨u, hu⟩ := key _ _ _ h
  cases u with
  | nil => cases hu
  | node a l' r' =>
    simp only [withGap, BTree.node.injEq] at hu
    obtain ⟨rfl, rfl, rfl⟩ := hu
    have h1 := withGap_label? l'
    have h2 := withGap_label? r'
    simp only [h2]
    congr 1
    cases l' <;> rfl

theorem toGaps_rose {t : BTree β} {G : Tree (β × Bool)} (h : t.toGaps = [G]) : t.toRose = [G.map Prod.fst] := by
  rw [toGaps_eq] at h
  have := toRose_map Prod.fst t.withGap
  rw [withGap_map, h] at this
  simpa using this
end BTree

section
variable {α : Type}

theorem Nary.printable {h : NHeap α} {gs} {s : Tree (Addr × α)} (H : Nary.Rep h (plug gs s)) (lab : Addr → α → Res (List (Piece α))) (parts : Addr → α → List (Piece α))
    (hl : ∀ a v, lab a v = Res.ok (parts a v)) :
    Printable false (Nary.nav h (some s.addr)) (fun a => do lab a (← (do pure (← h.read a).value))) Prod.fst
      (fun p => parts p.1 p.2) (fun _ => false) s := by
  have N := Nary.nav_spec H
  constructor
  · intro fs u hu
    have H' : Nary.Rep h (plug (fs ++ gs) u) := by rw [plug_append, hu]; exact H
    have := H'.cell
    simp only [addr] at this
    simp [Heap.read_of this, Nary.rec_, hl]
  · intro fs u hu
    have := N.first (fs.map (Frame.map Prod.fst)) (u.map Prod.fst) (by rw [← plug_map, hu]; rfl)
    rw [label_map] at this
    rw [this]
    cases u with
    | node a cs => cases cs <;> simp [Tree.map, mapL, label_map]
  · intro f fs u hu
    have := N.next ((f :: fs).map (Frame.map Prod.fst)) (u.map Prod.fst) (by rw [← plug_map, hu]; rfl)
    rw [label_map] at this
    rw [this]
    obtain ⟨a, ls, rs⟩ := f
    cases rs <;> simp [Frame.map, label_map]
  · intro fs a c cs _; rfl

theorem Binary.printable {h : BHeap α} {gs} {s : BTree (Addr × α)} {x : Addr} {G : Tree ((Addr × α) × Bool)}
    (H : Binary.Rep h (BTree.plug gs s)) (hx : s.addr? = some x) (hG : s.toGaps = [G]) (lab : Addr → α → Res (List (Piece α))) (parts : Addr → α → List (Piece α))
    (hl : ∀ a v, lab a v = Res.ok (parts a v)) :
    Printable true (Binary.nav h (some x)) (fun a => do lab a (← (do pure (← h.read a).value))) (fun p => p.1.1)
      (fun p => parts p.1.1 p.1.2) (fun p => p.2) G := by
  have hT := BTree.toGaps_rose hG
  have hT' : s.addrTree.toRose = [(G.map Prod.fst).map Prod.fst] := by
    rw [BTree.addrTree, BTree.toRose_map, hT]; rfl
  have N := Binary.nav_spec H hx hT'
  have B := Binary.bnav_spec H hx
  rw [BTree.toGaps_eq] at hG
  constructor
  · intro fs u hu
    obtain ⟨bs, p, l, r, h1, h2, rfl⟩ := BTree.plug_toRose hG hu
    have h1' := congrArg (BTree.map Prod.fst) h1
    rw [BTree.withGap_map, BTree.plug_map] at h1'
    have H' : Binary.Rep h (BTree.plug (bs.map (BTree.Frame.map Prod.fst) ++ gs) (.node p.1 (l.map Prod.fst) (r.map Prod.fst))) := by
      rw [BTree.plug_append]
      have : BTree.map Prod.fst (BTree.node p l r) = .node p.1 (l.map Prod.fst) (r.map Prod.fst) := rfl
      rw [← this, h1']; exact H
    simp [Heap.read_of H'.cell, hl]
  · intro fs u hu
    have := N.first ((fs.map (Frame.map Prod.fst)).map (Frame.map Prod.fst)) ((u.map Prod.fst).map Prod.fst) (by rw [← plug_map, ← plug_map, hu])
    rw [label_map, label_map] at this
    rw [this]
    cases u with
    | node a cs => cases cs <;> simp [Tree.map, mapL, label_map]
  · intro f fs u hu
    have := N.next (((f :: fs).map (Frame.map Prod.fst)).map (Frame.map Prod.fst)) ((u.map Prod.fst).map Prod.fst) (by rw [← plug_map, ← plug_map, hu])
    rw [label_map, label_map] at this
    rw [this]
    obtain ⟨a, ls, rs⟩ := f
    cases rs <;> simp [Frame.map, label_map]
  · intro fs p c cs hu
    obtain ⟨bs, q, l, r, h1, h2, h3⟩ := BTree.plug_toRose hG hu
    simp at h3
    obtain ⟨rfl, h3⟩ := h3
    have hgap := BTree.withGap_at h1
    have h1' := congrArg (fun t => (BTree.map Prod.fst t).map Prod.fst) h1
    simp only [BTree.withGap_map, BTree.plug_map, BTree.map] at h1'
    cases l with
    | nil =>
      cases r with
      | nil => simp at h3
      | node d rl rr =>
        simp at h3 hgap
        obtain ⟨rfl, _⟩ := h3
        simp only [label_node, if_true, hgap]
        have := B.isRight (⟨p.1.1, false, .nil⟩ :: (bs.map (BTree.Frame.map Prod.fst)).map (BTree.Frame.map Prod.fst)) d.1.1 ((rl.map Prod.fst).map Prod.fst) ((rr.map Prod.fst).map Prod.fst)
          (by simpa [BTree.plug, BTree.Frame.fill, BTree.map, BTree.addrTree] using h1')
        simpa using this
    | node d ll lr =>
      simp at h3 hgap
      obtain ⟨rfl, _⟩ := h3
      simp only [label_node, if_true, hgap]
      have := B.isRight (⟨p.1.1, true, (r.map Prod.fst).map Prod.fst⟩ :: (bs.map (BTree.Frame.map Prod.fst)).map (BTree.Frame.map Prod.fst)) d.1.1 ((ll.map Prod.fst).map Prod.fst) ((lr.map Prod.fst).map Prod.fst)
        (by simpa [BTree.plug, BTree.Frame.fill, BTree.map, BTree.addrTree] using h1')
      simpa [BTree.label?] using this

theorem printLabel_eq (pos : Addr → Nat) {digits : Nat} (hd : digits < 16) (a : Addr) (v : α) :
    printLabel pos digits a v = Res.ok (if digits > 0 then
      [.value v, .text " @".toList, .hex, .padded digits (pos a &&& ((1 <<< (4 * digits)) - 1))] else [.value v]) := by
  rw [printLabel]
  by_cases h : digits > 0
  · simp [h, show ¬ 4 * digits ≥ 64 by omega]
  · simp [h]

theorem renders_label {β : Type} (disp : Bool → α → List Char) (pos : Addr → Nat) (digits : Nat) (f : β → Addr × α) :
    Shown.Renders disp (fun b : β => if digits > 0 then
      [.value (f b).2, .text " @".toList, .hex, .padded digits (pos (f b).1 &&& ((1 <<< (4 * digits)) - 1))] else [.value (f b).2])
      (fun q => nodeText disp digits q.1 (pos (f q.2).1) (f q.2).2) (decide (0 < digits)) := by
  intro h b
  have e : pos (f b).1 &&& ((1 <<< (4 * digits)) - 1) = pos (f b).1 % 16 ^ digits := by
    rw [Nat.one_shiftLeft, Nat.and_two_pow_sub_one_eq_mod, Nat.pow_mul]
  by_cases hd : digits > 0
  · have : digits ≠ 0 := by omega
    simp [hd, this, render, nodeText, e]
  · have : digits = 0 := by omega
    subst this
    simp [render, nodeText]

theorem printed {β : Type} {bin : Bool} {nav : Nav} {value : Addr → Res α} {P : Prefs} {disp : Bool → α → List Char}
    {pos : Addr → Nat} {f : β → Addr × α} {gap : β → Bool} {t : Tree β} {parts : β → List (Piece α)}
    (H : Printable bin nav (fun a => do printLabel pos P.digits a (← value a)) (fun b => (f b).1) parts gap t)
    (hparts : parts = fun b : β => if P.digits > 0 then
      [.value (f b).2, .text " @".toList, .hex, .padded P.digits (pos (f b).1 &&& ((1 <<< (4 * P.digits)) - 1))] else [.value (f b).2])
    {fuel : Nat} (hf : t.size ≤ fuel) (hex : Bool) (hl : 0 < P.limit) {root : Ptr} (hroot : root = some (f t.label).1) :
    ∃ o, printTree bin nav value fuel P disp pos hex root =
        Res.ok ((Shown.marked hex (hex || decide (0 < P.digits)) o).text (fun q => nodeText disp P.digits q.1 (pos (f q.2).1) (f q.2).2)
          (fun q => gap q.2) P.step 0, hex || decide (0 < P.digits)) ∧ Shown.Of o t ∧
      o.pre = t.pre.take P.limit.toNat := by
  obtain ⟨o, l', e, h1, h2, _⟩ := printNode_spec (step := P.step) H fuel 0 P.limit [] t rfl hf hl
  subst hroot
  refine ⟨o, ?_, h1, h2⟩
  simp only [printTree, e, Res.ok_bind, Res.pure_eq]
  rw [Shown.render_parts (addrs := decide (0 < P.digits)) (by rw [hparts]; exact renders_label disp pos P.digits f)]

theorem printed_nothing {bin : Bool} {nav : Nav} {value : Addr → Res α} {P : Prefs} {disp : Bool → α → List Char}
    {pos : Addr → Nat} {fuel : Nat} (hf : 0 < fuel) (hex : Bool) (hl : P.limit ≤ 0)
    (a : Addr) : printTree bin nav value fuel P disp pos hex (some a) = Res.ok ([], hex) := by
  cases fuel with
  | zero => omega
  | succ n => simp [printTree, printNode, hl, render]
end
