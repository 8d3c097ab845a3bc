import Verif.Model.Print
import Verif.Proof.Nav
import Verif.Proof.BinQuery
/-! `print_node` writes the layout of the first nodes in pre-order. -/
open Tree

namespace Shown
variable {β : Type}
@[simp] theorem pre_node (a : β) (ss m) : (node a ss m).pre = a :: preL ss := by simp [pre]
@[simp] theorem preL_nil : preL ([] : List (Shown β)) = [] := by simp [preL]
@[simp] theorem preL_cons (s : Shown β) (ss) : preL (s :: ss) = s.pre ++ preL ss := by simp [preL]
@[simp] theorem OfL_nil (ts : List (Tree β)) : OfL [] ts := by simp [OfL]
@[simp] theorem OfL_cons (s : Shown β) (ss t ts) : OfL (s :: ss) (t :: ts) ↔ Of s t ∧ OfL ss ts := by simp [OfL]
@[simp] theorem OfL_cons_nil (s : Shown β) (ss) : ¬ OfL (s :: ss) [] := by simp [OfL]
theorem Of_node (a : β) (ss m t) : Of (node a ss m) t ↔ a = t.label ∧ OfL ss t.children ∧ (m = true ↔ ss.length < t.children.length) := by
  simp [Of]

theorem pre_ne_nil (s : Shown β) : s.pre ≠ [] := by cases s; simp

mutual
theorem Of.sub : ∀ {s : Shown β} {t : Tree β}, Of s t → ∀ x ∈ s.pre, x ∈ t.pre
  | node a ss m, t, h => by
    rw [Of_node] at h
    intro x hx
    cases t with
    | node b ts =>
    simp at hx h ⊢
    rcases hx with rfl | hx
    · exact Or.inl h.1
    · exact Or.inr (OfL.sub h.2.1 x hx)
theorem OfL.sub : ∀ {ss : List (Shown β)} {ts : List (Tree β)}, OfL ss ts → ∀ x ∈ preL ss, x ∈ Tree.preL ts
  | [], _, _ => by simp
  | _ :: _, [], h => by simp at h
  | s :: ss, t :: ts, h => by
    simp at h ⊢
    intro x hx
    exact hx.imp (Of.sub h.1 x) (OfL.sub h.2 x)
end

theorem append_split {β : Type} {p q p' q' : List β} {A B : List β} (hA : ∀ x ∈ p, x ∈ A) (hA' : ∀ x ∈ p', x ∈ A)
    (hB : ∀ x ∈ q, x ∈ B) (hB' : ∀ x ∈ q', x ∈ B) (hd : ∀ x ∈ A, x ∉ B) (h : p ++ q = p' ++ q') : p = p' ∧ q = q' := by
  induction p generalizing p' with
  | nil =>
    cases p' with
    | nil => exact ⟨rfl, by simpa using h⟩
    | cons y ys =>
      simp at h
      exact absurd (hB y (by simp [h])) (hd y (hA' y (by simp)))
  | cons x xs ih =>
    cases p' with
    | nil =>
      simp at h
      exact absurd (hB' x (by simp [← h])) (hd x (hA x (by simp)))
    | cons y ys =>
      simp at h
      obtain ⟨rfl, h⟩ := h
      obtain ⟨h1, h2⟩ := ih (fun z hz => hA z (by simp [hz])) (fun z hz => hA' z (by simp [hz])) h
      exact ⟨by rw [h1], h2⟩

mutual
theorem Of.unique : ∀ {t : Tree β} {s s' : Shown β}, t.pre.Nodup → Of s t → Of s' t → s.pre = s'.pre → s = s'
  | .node b ts, .node a ss m, .node a' ss' m', hn, h, h', he => by
    rw [Of_node] at h h'
    simp at h h' he hn
    obtain ⟨rfl, h1, h2⟩ := h
    obtain ⟨rfl, h1', h2'⟩ := h'
    have := OfL.unique hn.2 h1 h1' he.2
    subst this
    have : m = m' := by rw [Bool.eq_iff_iff, h2, h2']
    rw [this]
theorem OfL.unique : ∀ {ts : List (Tree β)} {ss ss' : List (Shown β)}, (Tree.preL ts).Nodup → OfL ss ts → OfL ss' ts → preL ss = preL ss' → ss = ss'
  | _, [], [], _, _, _, _ => rfl
  | _, [], s :: ss, _, _, _, he => by
    have := pre_ne_nil s
    simp [this] at he
  | _, s :: ss, [], _, _, _, he => by
    have := pre_ne_nil s
    simp [this] at he
  | [], _ :: _, _ :: _, _, h, _, _ => by simp at h
  | t :: ts, s :: ss, s' :: ss', hn, h, h', he => by
    simp at h h' he
    simp [List.nodup_append] at hn
    obtain ⟨e1, e2⟩ := append_split (A := t.pre) (B := Tree.preL ts) (Of.sub h.1) (Of.sub h'.1) (OfL.sub h.2) (OfL.sub h'.2)
      (fun x hx hx' => hn.2.2 x hx x hx' rfl) he
    rw [Of.unique hn.1 h.1 h'.1 e1, OfL.unique hn.2.1 h.2 h'.2 e2]
end

mutual
theorem all_of : ∀ t : Tree β, Of (all t) t ∧ (all t).pre = t.pre
  | .node a ts => by
    obtain ⟨h1, h2, h3⟩ := allL_of ts
    simp [all, Of_node, h1, h2, h3]
theorem allL_of : ∀ ts : List (Tree β), OfL (allL ts) ts ∧ preL (allL ts) = Tree.preL ts ∧ (allL ts).length = ts.length
  | [] => by simp [allL]
  | t :: ts => by
    obtain ⟨h1, h2, h3⟩ := allL_of ts
    obtain ⟨h4, h5⟩ := all_of t
    simp [allL, h1, h2, h3, h4, h5]
end

theorem Of.eq_all {t : Tree β} {s : Shown β} (hn : t.pre.Nodup) (h : Of s t) (hp : s.pre = t.pre) : s = all t :=
  Of.unique hn h (all_of t).1 (hp.trans (all_of t).2.symm)

section
variable {α : Type} (name : β → List (Piece α)) (gap : β → Bool) (step : Nat)
mutual
/-- `text` before the stream turns it into characters. -/
def parts (ind : Nat) : Shown β → List (Piece α)
  | node a [] more => [.text (spaces ind), .text "n(".toList] ++ name a ++ [.text ")".toList] ++
      (if more then [.text "(\n".toList] ++ (if gap a then [.text (spaces (ind + step)), .text "n(),\n".toList] else []) ++
        [.text (spaces (ind + 4)), .text "...".toList, .text ")".toList] else [])
  | node a (s :: ss) more => [.text (spaces ind), .text "n(".toList] ++ name a ++ [.text ")".toList] ++ [.text "(\n".toList] ++
      (if gap a then [.text (spaces (ind + step)), .text "n(),\n".toList] else []) ++ parts (ind + step) s ++ partsL (ind + step) ss ++
      (if more then [.text ",\n".toList, .text (spaces (ind + step)), .text "...".toList] else []) ++ [.text ")".toList]
def partsL (ind : Nat) : List (Shown β) → List (Piece α)
  | [] => []
  | s :: ss => [.text ",\n".toList] ++ parts ind s ++ partsL ind ss
end
end

theorem render_append {α : Type} (disp : Bool → α → List Char) (h : Bool) (p q : List (Piece α)) :
    render disp h (p ++ q) =
      ((render disp h p).1 ++ (render disp (render disp h p).2 q).1, (render disp (render disp h p).2 q).2) := by
  induction p generalizing h with
  | nil => simp [render]
  | cons x p ih => cases x <;> simp [render, ih]

section
variable {α : Type} {disp : Bool → α → List Char} {parts' : β → List (Piece α)} {name : Bool × β → List Char} {addrs : Bool}

/-- What is asked of the pieces of one node: they are its text, and put the stream in hexadecimal mode if `addrs`. -/
def Renders (disp : Bool → α → List Char) (parts' : β → List (Piece α)) (name : Bool × β → List Char) (addrs : Bool) : Prop :=
  ∀ h a, render disp h (parts' a) = (name (h, a), h || addrs)

mutual
theorem render_parts (R : Renders disp parts' name addrs) (gap : β → Bool) (step : Nat) : ∀ (h : Bool) (ind : Nat) (s : Shown β),
    render disp h (s.parts parts' gap step ind) =
      ((s.marked h (h || addrs)).text name (fun q => gap q.2) step ind, h || addrs)
  | h, ind, node a [] more => by
    cases more <;> cases hg : gap a <;>
      simp [parts, marked, markedL, text, render_append, render, R h a, hg]
  | h, ind, node a (s :: ss) more => by
    have h1 := render_parts R gap step (h || addrs) (ind + step) s
    have h2 := render_partsL R gap step (h || addrs) (ind + step) ss (by cases h <;> simp)
    simp only [Bool.or_assoc, Bool.or_self] at h1 h2
    cases more <;> cases hg : gap a <;>
      simp [parts, marked, markedL, text, render_append, render, R h a, hg, h1, h2]
theorem render_partsL (R : Renders disp parts' name addrs) (gap : β → Bool) (step : Nat) : ∀ (h : Bool) (ind : Nat) (ss : List (Shown β)),
    (addrs = true → h = true) → render disp h (partsL parts' gap step ind ss) =
      (textL name (fun q => gap q.2) step ind (markedL h ss), h)
  | h, ind, [], _ => by simp [partsL, markedL, textL, render]
  | h, ind, s :: ss, ha => by
    have e : (h || addrs) = h := by cases h <;> cases addrs <;> simp_all
    have h1 := render_parts R gap step h ind s
    have h2 := render_partsL R gap step h ind ss ha
    rw [e] at h1
    simp [partsL, markedL, textL, render_append, render, h1, h2]
end
end

end Shown
open Shown (spaces)

section
variable {β : Type} {bin : Bool} {nav : Nav} {α : Type} {lab : Addr → Res (List (Piece α))} {step : Nat} {t : Tree β} {addr : β → Addr}
  {name : β → List (Piece α)} {gap : β → Bool}

/-- What printing asks about the nodes of `t`. -/
structure Printable (bin : Bool) (nav : Nav) (lab : Addr → Res (List (Piece α))) (addr : β → Addr) (name : β → List (Piece α)) (gap : β → Bool)
    (t : Tree β) : Prop where
  lab : ∀ fs s, plug fs s = t → lab (addr s.label) = Res.ok (name s.label)
  first : ∀ fs s, plug fs s = t → nav.first (addr s.label) = Res.ok (s.children.head?.map (fun c => addr c.label))
  next : ∀ f fs s, plug (f :: fs) s = t → nav.next (addr s.label) = Res.ok (f.rights.head?.map (fun c => addr c.label))
  gap : ∀ fs a c cs, plug fs (.node a (c :: cs)) = t → (if bin then nav.isRight (addr c.label) else pure false) = Res.ok (gap a)

theorem take_cons_toNat {γ : Type} (a : γ) (l : List γ) {n : Int} (h : 0 < n) : (a :: l).take n.toNat = a :: l.take (n - 1).toNat := by
  obtain ⟨k, rfl⟩ : ∃ k : Nat, n = (k : Int) + 1 := ⟨(n - 1).toNat, by omega⟩
  have h1 : ((k : Int) + 1).toNat = k + 1 := by omega
  have h2 : ((k : Int) + 1 - 1).toNat = k := by omega
  rw [h1, h2]; simp

mutual
theorem printNode_spec (H : Printable bin nav lab addr name gap t) : ∀ (fuel ind : Nat) (limit : Int) (fs : List (Frame β)) (s : Tree β),
    plug fs s = t → s.size ≤ fuel → 0 < limit →
    ∃ o limit', printNode bin nav lab step fuel ind limit (addr s.label) = Res.ok (Shown.parts name gap step ind o, limit') ∧
      Shown.Of o s ∧ o.pre = s.pre.take limit.toNat ∧ ((s.size : Int) ≤ limit → limit' = limit - s.size + 1) ∧
      (limit < s.size → limit' ≤ 0)
  | 0, _, _, _, s, _, hs, _ => by have := size_pos s; omega
  | fuel + 1, ind, limit, fs, .node a cs, hp, hs, hl => by
    have h1 := H.lab _ _ hp
    have h2 := H.first _ _ hp
    simp only [label_node, children_node] at h1 h2
    have hl' : ¬ limit ≤ 0 := by omega
    cases cs with
    | nil =>
      refine ⟨.node a [] false, limit, ?_, ?_, ?_, ?_, ?_⟩
      · simp [printNode, hl', h1, h2, Shown.parts]
      · simp [Shown.Of_node, label, children]
      · simp [take_cons_toNat _ _ hl]
      · simp
      · simp; omega
    | cons c cs =>
      have h3 := H.gap _ _ _ _ hp
      simp only [size_node, sizeL_cons] at hs
      have hpc : plug (⟨a, [], cs⟩ :: fs) c = t := by simpa using hp
      by_cases hlim : limit - 1 > 0
      · obtain ⟨o, l1, e1, ho, hpre, ha, hb⟩ := printNode_spec H fuel (ind + step) (limit - 1) _ c hpc (by omega) (by omega)
        have hspc := size_pos c
        obtain ⟨os, m, l2, e2, hos, hm, hpre2, ha2, hb2⟩ := printRest_spec H fuel (ind + step) l1 ⟨a, [], cs⟩ fs c hpc (by simp; omega)
        have hcl : l1 ≤ 0 → os = [] := by
          intro h0
          have : (l1 - 1).toNat = 0 := by omega
          rw [this] at hpre2
          cases os with
          | nil => rfl
          | cons s ss => have := Shown.pre_ne_nil s; simp [this] at hpre2
        refine ⟨.node a (o :: os) m, l2, ?_, ?_, ?_, ?_, ?_⟩
        · cases bin <;> simp only [Bool.false_eq_true, if_false, if_true, Res.pure_eq] at h3 <;>
            simp only [label_node, printNode, if_neg hl', h1, h2, Res.ok_bind, h3, List.head?_cons, Option.map_some, if_pos hlim, e1, e2, Res.pure_eq,
              Shown.parts, Bool.false_eq_true, if_false, if_true]
          · have h3 := Res.ok.inj h3; simp [← h3]
          · simp
        · simp only [Shown.Of_node, label, children, Shown.OfL_cons]
          exact ⟨trivial, ⟨ho, hos⟩, by simpa using hm⟩
        · simp only [Shown.pre_node, Shown.preL_cons, pre_node, preL_cons, take_cons_toNat _ _ hl, hpre, hpre2]
          congr 1
          rw [List.take_append, length_pre]
          congr 2
          by_cases hc : (c.size : Int) ≤ limit - 1
          · rw [ha hc]; omega
          · have := hb (by omega); omega
        · simp only [size_node, sizeL_cons] at *
          intro hle
          have q1 := ha (by omega)
          have q2 := ha2 (by omega)
          omega
        · simp only [size_node, sizeL_cons] at *
          intro hlt
          by_cases hc : (c.size : Int) ≤ limit - 1
          · have q1 := ha hc
            exact hb2 (by omega)
          · have q1 := hb (by omega)
            exact hb2 (by omega)
      · have : limit = 1 := by omega
        subst this
        refine ⟨.node a [] true, 0, ?_, ?_, ?_, ?_, ?_⟩
        · cases bin <;> simp only [Bool.false_eq_true, if_false, if_true, Res.pure_eq] at h3 <;>
            simp only [label_node, printNode, if_neg hl', h1, h2, Res.ok_bind, h3, List.head?_cons, Option.map_some, if_neg hlim, Res.pure_eq,
              Shown.parts, Bool.false_eq_true, if_false, if_true]
          · have h3 := Res.ok.inj h3; simp [← h3]
          · simp
        · simp [Shown.Of_node, label, children]
        · simp
        · have hspc := size_pos c
          simp; omega
        · simp
theorem printRest_spec (H : Printable bin nav lab addr name gap t) : ∀ (fuel ind : Nat) (limit : Int) (f : Frame β) (fs : List (Frame β)) (s : Tree β),
    plug (f :: fs) s = t → sizeL f.rights + 1 ≤ fuel →
    ∃ os more limit', printRest bin nav lab step fuel ind limit (addr s.label) =
        Res.ok (Shown.partsL name gap step ind os ++ (if more then [.text ",\n".toList, .text (spaces ind), .text "...".toList] else []), limit') ∧
      Shown.OfL os f.rights ∧ (more = true ↔ os.length < f.rights.length) ∧
      Shown.preL os = (preL f.rights).take (limit - 1).toNat ∧
      ((sizeL f.rights : Int) + 1 ≤ limit → limit' = limit - sizeL f.rights) ∧
      (limit < sizeL f.rights + 1 → limit' ≤ 0)
  | 0, _, _, _, _, _, _, hs => by omega
  | fuel + 1, ind, limit, ⟨a, ls, rs⟩, fs, s, hp, hs => by
    have h1 := H.next _ _ _ hp
    simp only at h1 hs ⊢
    cases rs with
    | nil =>
      refine ⟨[], false, limit, ?_, ?_, ?_, ?_, ?_, ?_⟩
      · simp [printRest, h1, Shown.partsL]
      · simp
      · simp
      · simp
      · simp
      · simp; omega
    | cons c cs =>
      have hpc : plug (⟨a, ls ++ [s], cs⟩ :: fs) c = t := by simpa using hp
      have hspc := size_pos c
      simp only [sizeL_cons] at hs
      by_cases hlim : limit - 1 > 0
      · obtain ⟨o, l1, e1, ho, hpre, ha, hb⟩ := printNode_spec H fuel ind (limit - 1) _ c hpc (by omega) (by omega)
        obtain ⟨os, m, l2, e2, hos, hm, hpre2, ha2, hb2⟩ := printRest_spec H fuel ind l1 ⟨a, ls ++ [s], cs⟩ fs c hpc (by simp; omega)
        simp only at hm hpre2 ha2 hb2 hos
        refine ⟨o :: os, m, l2, ?_, ?_, ?_, ?_, ?_, ?_⟩
        · simp only [printRest, h1, Res.ok_bind, List.head?_cons, Option.map_some, if_pos hlim, e1, e2, Res.pure_eq, Shown.partsL]
          simp
        · simp [ho, hos]
        · simpa using hm
        · simp only [Shown.preL_cons, preL_cons, hpre, hpre2]
          rw [List.take_append, length_pre]
          congr 2
          by_cases hc : (c.size : Int) ≤ limit - 1
          · rw [ha hc]; omega
          · have := hb (by omega); omega
        · simp only [sizeL_cons]
          intro hle
          have q1 := ha (by omega)
          have q2 := ha2 (by omega)
          omega
        · simp only [sizeL_cons]
          intro hlt
          by_cases hc : (c.size : Int) ≤ limit - 1
          · have q1 := ha hc
            exact hb2 (by omega)
          · have q1 := hb (by omega)
            exact hb2 (by omega)
      · refine ⟨[], true, limit - 1, ?_, ?_, ?_, ?_, ?_, ?_⟩
        · simp only [printRest, h1, Res.ok_bind, List.head?_cons, Option.map_some, if_neg hlim, Res.pure_eq, Shown.partsL]
          simp
        · simp
        · simp
        · have : (limit - 1).toNat = 0 := by omega
          simp [this]
        · simp only [sizeL_cons]; omega
        · omega
end
end
