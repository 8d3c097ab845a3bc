import Verif.Model.Generative
import Verif.Spec.Generative
import Verif.Proof.Multi
import Verif.Proof.Makes
import Verif.Proof.Pruned
import Verif.Proof.WorldInsert
/-! The generative navigator on nary trees. -/

set_option linter.unusedSimpArgs false

namespace Tree
variable {α β : Type} {test : α → Bool}

/-- The position of the hole. -/
def holePath (fs : List (Frame β)) : List Nat := fs.map (fun f => f.lefts.length)

theorem at_append (t : Tree β) (p q : List Nat) : t.at? (p ++ q) = (t.at? q).bind (fun u => u.at? p) := by
  induction p with
  | nil => simp only [List.nil_append]; cases t.at? q <;> simp [at?]
  | cons b p ih =>
    simp only [List.cons_append, at?, ih]
    cases t.at? q <;> simp

theorem at_hole (fs : List (Frame β)) (s : Tree β) : (plug fs s).at? (holePath fs) = some s := by
  induction fs generalizing s with
  | nil => rfl
  | cons f fs ih =>
    simp only [holePath, List.map_cons, at?, plug_cons]
    have := ih (node f.label (f.lefts ++ s :: f.rights))
    simp only [holePath] at this
    rw [this]
    simp

theorem at_last (t : Tree β) (i : Nat) (p : List Nat) : t.at? (p ++ [i]) = t.children[i]?.bind (fun u => u.at? p) := by
  rw [at_append]; simp [at?]

/-- Off the hole the labels do not depend on what is in the hole. -/
theorem at_off (fs : List (Frame β)) (p : List Nat) : (∃ q, p = q ++ holePath fs) ∨
    ∃ o, ∀ s, ((plug fs s).at? p).map label = o := by
  induction fs generalizing p with
  | nil => exact Or.inl ⟨p, by simp [holePath]⟩
  | cons f fs ih =>
    rcases ih p with ⟨q, rfl⟩ | ⟨o, h⟩
    · have key : ∀ s, (plug (f :: fs) s).at? (q ++ holePath fs) = (node f.label (f.lefts ++ s :: f.rights)).at? q := by
        intro s; rw [at_append]; simp only [plug_cons]; rw [at_hole]; rfl
      rcases List.eq_nil_or_concat q with rfl | ⟨q', b, rfl⟩
      · exact Or.inr ⟨some f.label, fun s => by rw [key]; simp [at?]⟩
      · rw [List.concat_eq_append] at key ⊢
        by_cases hb : b = f.lefts.length
        · subst hb; exact Or.inl ⟨q', by simp [holePath]⟩
        · refine Or.inr ⟨(((f.lefts ++ node f.label [] :: f.rights)[b]?).bind (fun u => u.at? q')).map label, fun s => ?_⟩
          rw [key, at_last]
          simp only [children_node]
          have : (f.lefts ++ s :: f.rights)[b]? = (f.lefts ++ node f.label [] :: f.rights)[b]? := by
            simp only [List.getElem?_append, List.getElem?_cons]
            split
            · rfl
            · have : b - f.lefts.length ≠ 0 := by omega
              simp [this]
          rw [this]
    · exact Or.inr ⟨o, fun s => h _⟩

theorem at_plug_hole {t u : Tree β} {p : List Nat} (h : t.at? p = some u) : ∃ fs, plug fs u = t ∧ holePath fs = p := by
  induction p generalizing u with
  | nil => simp [at?] at h; exact ⟨[], by simp [h], rfl⟩
  | cons i p ih =>
    simp only [at?, Option.bind_eq_some_iff] at h
    obtain ⟨w, hw, hu⟩ := h
    obtain ⟨fs, h1, h2⟩ := ih hw
    obtain ⟨hi, hs⟩ := List.getElem?_eq_some_iff.mp hu
    cases w with
    | node a cs =>
    simp only [children_node] at hi hs
    have hc : cs = cs.take i ++ u :: cs.drop (i + 1) := by
      conv => lhs; rw [← List.take_append_drop i cs]
      rw [List.drop_eq_getElem_cons hi, hs]
    refine ⟨⟨a, cs.take i, cs.drop (i + 1)⟩ :: fs, ?_, ?_⟩
    · simp only [plug_cons]; rw [← hc]; exact h1
    · simp [holePath] at h2 ⊢; exact ⟨by omega, h2⟩

/-- A child appended is one more copied node. -/
theorem appended_at {fs : List (Frame (Addr × α))} {a : Addr × α} {cs : List (Tree (Addr × α))} {y : Addr} {v : α} (p : List Nat) :
    (plug fs (node a (cs ++ [node (y, v) []]))).valAt p =
      if p = cs.length :: holePath fs then some v else (plug fs (node a cs)).valAt p := by
  rcases at_off fs p with ⟨q, rfl⟩ | ⟨o, ho⟩
  · simp only [valAt, at_append, at_hole, Option.bind_some]
    rcases List.eq_nil_or_concat q with rfl | ⟨q', c, rfl⟩
    · have : ([] : List Nat) ++ holePath fs ≠ cs.length :: holePath fs := by
        intro e; have := congrArg List.length e; simp at this
      rw [if_neg this]
      simp [at?]
    · rw [List.concat_eq_append, at_last, at_last]
      have hiff : (q' ++ [c] ++ holePath fs = cs.length :: holePath fs) ↔ (q' = [] ∧ c = cs.length) := by
        constructor
        · intro e
          have := congrArg List.length e
          simp at this
          subst this
          simpa using e
        · rintro ⟨rfl, rfl⟩; rfl
      have hnil : ∀ q : List Nat, ((node (y, v) [] : Tree (Addr × α)).at? q) = if q = [] then some (node (y, v) []) else none := by
        intro q
        rcases List.eq_nil_or_concat q with rfl | ⟨q', c, rfl⟩
        · rfl
        · rw [List.concat_eq_append, at_last]
          simp
      simp only [hiff, children_node]
      by_cases hc : c = cs.length
      · subst hc
        simp [hnil]
      · have : (cs ++ [node (y, v) []])[c]? = cs[c]? := by
          simp only [List.getElem?_append]
          split
          · rfl
          · next h => rw [List.getElem?_eq_none (by simp; omega), List.getElem?_eq_none (by omega)]
        simp [hc, this]
  · have : ¬ p = cs.length :: holePath fs := by
      rintro rfl
      have h1 := ho (node a cs)
      have h2 := ho (node a (cs ++ [node (y, v) []]))
      rw [← h2] at h1
      simp [at?, at_hole] at h1
    simp only [this, if_false, valAt]
    have h1 := ho (node a cs)
    have h2 := ho (node a (cs ++ [node (y, v) []]))
    have e : ∀ o : Option (Tree (Addr × α)), o.map (fun s => s.label.2) = (o.map label).map Prod.snd := by intro o; cases o <;> rfl
    rw [e, e, h1, h2]

theorem visible_at (s : Tree (Addr × α)) (p : List Nat) : (s.visible test).at? p = (s.whole test p).map (visible test) := by
  induction p with
  | nil => rfl
  | cons i p ih =>
    simp only [at?, whole, ih]
    cases s.whole test p with
    | none => rfl
    | some u =>
      simp only [Option.map_some, Option.bind_some, visible, children_keep, keepL_eq, List.getElem?_map]
      rfl

theorem label_visible (s : Tree (Addr × α)) : (s.visible test).label = s.label := by cases s; simp [visible]
theorem addr_visible (s : Tree (Addr × α)) : (s.visible test).addr = s.addr := by simp [addr, label_visible]

theorem visible_addrAt (s : Tree (Addr × α)) (p : List Nat) : (s.visible test).addrAt p = (s.whole test p).map addr := by
  simp only [addrAt, visible_at]; cases s.whole test p <;> simp [addr_visible]

theorem visible_valAt (s : Tree (Addr × α)) (p : List Nat) : (s.visible test).valAt p = (s.whole test p).map (fun u => u.label.2) := by
  simp only [valAt, visible_at]; cases s.whole test p <;> simp [label_visible]

theorem ranked_get {cs l r : List (Tree (Addr × α))} {c : Tree (Addr × α)} {i : Nat} (h : cs = l ++ c :: r) (hr : Ranked test i l c) :
    (cs.filter (fun c => test c.label.2))[i]? = some c := by
  subst h
  obtain ⟨rfl, h2⟩ := hr
  simp [h2]

theorem get_ranked {cs : List (Tree (Addr × α))} {c : Tree (Addr × α)} {i : Nat} (h : (cs.filter (fun c => test c.label.2))[i]? = some c) :
    ∃ l r, cs = l ++ c :: r ∧ Ranked test i l c := by
  induction cs generalizing i with
  | nil => simp at h
  | cons d cs ih =>
    cases e : test d.label.2 with
    | false =>
      rw [List.filter_cons_of_neg (by simp [e])] at h
      obtain ⟨l, r, h1, h2, h3⟩ := ih h
      exact ⟨d :: l, r, by simp [h1], by simp [e, h2], h3⟩
    | true =>
      rw [List.filter_cons_of_pos (by simp [e])] at h
      cases i with
      | zero => simp at h; subst h; exact ⟨[], cs, rfl, rfl, e⟩
      | succ i =>
        simp at h
        obtain ⟨l, r, h1, h2, h3⟩ := ih h
        exact ⟨d :: l, r, by simp [h1], by simp [e, h2], h3⟩

theorem whole_cons {s : Tree (Addr × α)} {i : Nat} {p : List Nat} {c : Tree (Addr × α)} (h : s.whole test (i :: p) = some c) :
    ∃ u l r, s.whole test p = some u ∧ u.children = l ++ c :: r ∧ Ranked test i l c := by
  simp only [whole, Option.bind_eq_some_iff] at h
  obtain ⟨u, hu, h⟩ := h
  obtain ⟨l, r, h1, h2⟩ := get_ranked h
  exact ⟨u, l, r, hu, h1, h2⟩

theorem whole_plug {s : Tree (Addr × α)} {p : List Nat} {u : Tree (Addr × α)} (h : s.whole test p = some u) : ∃ fs, plug fs u = s := by
  induction p generalizing u with
  | nil => simp [whole] at h; exact ⟨[], by simp [h]⟩
  | cons i p ih =>
    obtain ⟨w, l, r, h1, h2, _⟩ := whole_cons h
    obtain ⟨fs, hf⟩ := ih h1
    refine ⟨⟨w.label, l, r⟩ :: fs, ?_⟩
    simp only [plug_cons]
    rw [← h2, ← hf]
    cases w; rfl

theorem valAt_none {t : Tree (Addr × α)} {p : List Nat} : t.valAt p = none ↔ t.at? p = none := by
  unfold valAt; cases t.at? p <;> simp
theorem addrAt_none {t : Tree (Addr × α)} {p : List Nat} : t.addrAt p = none ↔ t.at? p = none := by
  unfold addrAt; cases t.at? p <;> simp

theorem Copies.at_none {t u : Tree (Addr × α)} {seen} (C : t.Copies seen u) (p : List Nat) :
    u.at? p = none ↔ (p ∈ seen → t.at? p = none) := by
  rw [← valAt_none, ← valAt_none, C p]
  split <;> simp [*]

end Tree

namespace Nary
open Tree
variable {α : Type} {h : NHeap α} {test : α → Bool}

theorem step_cell {fs : List (Frame (Addr × α))} {c : Tree (Addr × α)} (H : Rep h (plug fs c)) :
    step h .next c.addr = Res.ok (fnext fs) ∧ step h .prev c.addr = Res.ok (fprev fs) ∧ step h .parent c.addr = Res.ok (fpar fs) ∧
    step h .first c.addr = Res.ok (headAddr c.children) ∧ step h .last c.addr = Res.ok (lastAddr c.children) := by
  have hc := H.cell
  simp [step, Heap.read_of hc, rec_]

theorem gen_accepts {fs : List (Frame (Addr × α))} {c : Tree (Addr × α)} (H : Rep h (plug fs c)) :
    (Nary.gen α).accepts test h c.addr = Res.ok (test c.label.2) := by
  have hc := H.cell
  simp only [Gen.accepts, Heap.read_of hc, Res.ok_bind]
  rfl

/-- A getter leads to the position `o` of both trees, if there is one. -/
def Ans (k U : Tree (Addr × α)) (o : Option (List Nat)) (res : Res (Ptr × Ptr)) : Prop :=
  ∃ p, res = Res.ok (o.bind k.addrAt, p) ∧ ∀ q, o = some q → p = U.addrAt q

/-- The first accepted node among siblings. -/
def firstKept (test : α → Bool) (r : List (Tree (Addr × α))) : Ptr := (r.filter (fun c => test c.label.2)).head?.map addr

section
variable {gs fs : List (Frame (Addr × α))} {u : Tree (Addr × α)} {root : Addr}

theorem next_loop {a : Addr × α} {l r : List (Tree (Addr × α))} (H : Rep h (plug gs (node a (l ++ r)))) (hroot : ∀ c ∈ r, c.addr ≠ root)
    {fuel : Nat} (hf : r.length < fuel) :
    (Nary.gen α).nextLoop test root h fuel (headAddr r, none) = Res.ok (firstKept test r, none) := by
  induction r generalizing l fuel with
  | nil => cases fuel with
    | zero => simp at hf
    | succ n => rfl
  | cons c r ih =>
    cases fuel with
    | zero => simp at hf
    | succ n =>
      have H' : Rep h (plug (⟨a, l, r⟩ :: gs) c) := H
      simp only [headAddr_cons, Gen.nextLoop, gen_accepts H', Res.ok_bind]
      cases e : test c.label.2 with
      | true => simp [firstKept, e]
      | false =>
        have h1 : (Nary.gen α).plain root h .next c.addr none = Res.ok (headAddr r, none) := by
          simp only [Gen.plain, hroot c (by simp), if_false, Gen.both, Nary.gen, (step_cell H').1, Res.ok_bind, Multi.callOn, Res.pure_eq, fnext]
        simp only [h1, Res.ok_bind, Bool.false_eq_true, if_false]
        rw [ih (l := l ++ [c]) (by simpa using H) (fun d hd => hroot d (by simp [hd])) (by simpa using hf)]
        simp [firstKept, e]

theorem check_some {t : Tree (Addr × α)} {p q : List Nat} : t.check p = some q ↔ q = p ∧ t.at? p ≠ none := by
  unfold check; cases t.at? p <;> simp [eq_comm]

theorem ans_check {k U : Tree (Addr × α)} {p : List Nat} {res : Res (Ptr × Ptr)} {P : Ptr} (h1 : res = Res.ok (k.addrAt p, P))
    (h2 : k.addrAt p ≠ none → P = U.addrAt p) : Ans k U (k.check p) res := by
  refine ⟨P, by rw [h1, check_bind]; rfl, ?_⟩
  intro q hq
  obtain ⟨rfl, h⟩ := check_some.mp hq
  exact h2 (fun e => h (addrAt_none.mp e))

theorem root_ne {s c : Tree (Addr × α)} {f : Frame (Addr × α)} (H : Rep h (plug gs s)) (hf : plug (f :: fs) c = s) : c.addr ≠ s.addr :=
  addr_ne_of_plug_cons hf H.nodup_focus

theorem length_lt (hw : h.WF) {a : Addr × α} {cs : List (Tree (Addr × α))} (H : Rep h (plug gs (node a cs))) : cs.length < h.fuel := by
  have h1 := size_le hw H
  have h2 := Simple.size_le_plug gs (node a cs)
  have := Simple.length_le_sizeL cs
  simp only [size_node] at h2
  simp only [Heap.fuel]; omega

theorem kept_next {u c : Tree (Addr × α)} {l r : List (Tree (Addr × α))} {i : Nat} {s : Tree (Addr × α)} {p : List Nat}
    (hu : s.whole test p = some u) (hc : u.children = l ++ c :: r) (hr : Ranked test i l c) :
    (s.visible test).addrAt ((i + 1) :: p) = firstKept test r := by
  obtain ⟨rfl, h2⟩ := hr
  rw [visible_addrAt]
  simp only [whole, hu, hc, Option.bind_some, firstKept, List.head?_eq_getElem?, List.filter_append, List.filter_cons, h2, if_true]
  rw [List.getElem?_append_right (by omega)]
  simp

theorem kept_at {u c : Tree (Addr × α)} {l r : List (Tree (Addr × α))} {i : Nat} {s : Tree (Addr × α)} {p : List Nat}
    (hu : s.whole test p = some u) (hc : u.children = l ++ c :: r) (hr : Ranked test i l c) :
    s.whole test (i :: p) = some c := by
  simp only [whole, hu, Option.bind_some]
  exact ranked_get hc hr

section
variable {s U : Tree (Addr × α)} {seen : List (List Nat)} (hw : h.WF) (H : Rep h (plug gs s)) (HU : Rep h U)
include H HU

theorem both_spec {c V : Tree (Addr × α)} {p : List Nat} (hf : plug fs c = s) (hg : U.at? p = some V) {m : Move} {P : Ptr}
    (hm : m ≠ .left ∧ m ≠ .right) (h1 : step h m c.addr = Res.ok P) :
    (Nary.gen α).both h m c.addr (some V.addr) = Res.ok (P, (U.move m p).bind U.addrAt) := by
  have e2 := step_at HU hg hm
  simp only [Gen.both, Multi.callOn, Nary.gen, h1, e2, Res.ok_bind, Res.pure_eq]

include hw

theorem first_spec (C : (s.visible test).Copies seen U) {p : List Nat} {u V : Tree (Addr × α)} (hu : s.whole test p = some u)
    (hg : U.at? p = some V) (hok : s.genSound test .first ⟨seen, p⟩) :
    Ans (s.visible test) U ((s.visible test).move .first p) ((Nary.gen α).getFirst test s.addr h u.addr (some V.addr)) := by
  obtain ⟨fs, hf⟩ := whole_plug hu
  have Hu : Rep h (plug (fs ++ gs) u) := by rw [plug_append, hf]; exact H
  have hb := both_spec H HU hf hg (m := .first) (by simp) (step_cell Hu).2.2.2.1
  simp only [Gen.getFirst, hb, Res.ok_bind]
  have e1 : (U.move .first p).bind U.addrAt = U.addrAt (0 :: p) := by simp only [Tree.move, check_bind]; rfl
  have e2 : (s.visible test).addrAt (0 :: p) = firstKept test u.children := by
    rw [visible_addrAt]; simp [whole, hu, firstKept, List.head?_eq_getElem?]
  rw [e1]
  show Ans _ _ ((s.visible test).check (0 :: p)) _
  obtain ⟨a, cs⟩ := u
  simp only [children_node] at e2 ⊢
  cases cs with
  | nil => exact ans_check (P := U.addrAt (0 :: p)) (by simp [e2, firstKept]) (fun _ => rfl)
  | cons c r =>
    have Hc : Rep h (plug (⟨a, [], r⟩ :: (fs ++ gs)) c) := Hu
    simp only [headAddr_cons, gen_accepts Hc, Res.ok_bind]
    cases e : test c.label.2 with
    | true => exact ans_check (P := U.addrAt (0 :: p)) (by simp [e2, firstKept, e]) (fun _ => rfl)
    | false =>
      have hns : 0 :: p ∉ seen := by
        rcases hok with h | ⟨u', h1, h2⟩
        · exact h
        · rw [hu] at h1
          cases h1
          have := h2 c (by simp)
          rw [e] at this; cases this
      have hU : U.addrAt (0 :: p) = none := addrAt_none.mpr ((C.at_none _).mpr (fun h => absurd h hns))
      have hroot : ∀ d ∈ c :: r, d.addr ≠ s.addr := by
        intro d hd
        obtain ⟨l', r', e'⟩ := List.append_of_mem hd
        exact root_ne (f := ⟨a, l', r'⟩) (fs := fs) H (by rw [plug_cons]; simp only; rw [← e', hf])
      have h1 : (Nary.gen α).plain s.addr h .next c.addr none = Res.ok (headAddr r, none) := by
        simp only [Gen.plain, hroot c (by simp), if_false, Gen.both, Nary.gen, (step_cell Hc).1, Res.ok_bind, Multi.callOn, Res.pure_eq, fnext]
      have hl := length_lt hw Hu
      have h2 := next_loop (test := test) (root := s.addr) (l := [c]) (r := r) (fuel := h.fuel) Hu (fun d hd => hroot d (by simp [hd]))
        (by simp at hl; omega)
      simp only [Bool.false_eq_true, if_false, Gen.getNext, hU, h1, Res.ok_bind, h2]
      exact ans_check (P := none) (by simp [e2, firstKept, e]) (fun _ => hU.symm)

theorem next_spec (C : (s.visible test).Copies seen U) {i : Nat} {p : List Nat} {c V : Tree (Addr × α)} (hc : s.whole test (i :: p) = some c)
    (hg : U.at? (i :: p) = some V) (hok : s.genSound test .next ⟨seen, i :: p⟩) :
    Ans (s.visible test) U ((s.visible test).move .next (i :: p)) ((Nary.gen α).getNext test s.addr h c.addr (some V.addr)) := by
  have e1 : (U.move .next (i :: p)).bind U.addrAt = U.addrAt ((i + 1) :: p) := by simp only [Tree.move, check_bind]; rfl
  show Ans _ _ ((s.visible test).check ((i + 1) :: p)) _
  have key : ∃ u l r, s.whole test p = some u ∧ u.children = l ++ c :: r ∧ Ranked test i l c ∧
      ((i + 1) :: p ∉ seen ∨ ∃ d r', r = d :: r' ∧ test d.label.2 = true) := by
    rcases hok with h | ⟨u, l, c', d, r, h1, h2, h3, h4⟩
    · obtain ⟨u, l, r, h1, h2, h3⟩ := whole_cons hc
      exact ⟨u, l, r, h1, h2, h3, Or.inl h⟩
    · have := kept_at h1 h2 h3
      rw [hc] at this
      cases this
      exact ⟨u, l, d :: r, h1, h2, h3, Or.inr ⟨d, r, rfl, h4⟩⟩
  obtain ⟨u, l, r, hu, hch, hrk, hok⟩ := key
  have e2 := kept_next hu hch hrk
  obtain ⟨fs, hf⟩ := whole_plug hu
  obtain ⟨a, cs⟩ := u
  simp only [children_node] at hch
  subst hch
  have Hu : Rep h (plug (fs ++ gs) (node a (l ++ c :: r))) := by rw [plug_append, hf]; exact H
  have Hc : Rep h (plug (⟨a, l, r⟩ :: (fs ++ gs)) c) := Hu
  have hroot : ∀ d ∈ c :: r, d.addr ≠ s.addr := by
    intro d hd
    obtain ⟨l', r', e'⟩ := List.append_of_mem hd
    exact root_ne (f := ⟨a, l ++ l', r'⟩) (fs := fs) H (by rw [plug_cons]; simp only; rw [List.append_assoc, ← e', hf])
  have hb := both_spec (fs := ⟨a, l, r⟩ :: fs) H HU hf hg (m := .next) (by simp) (step_cell Hc).1
  rw [e1] at hb
  simp only [Gen.getNext, Gen.plain, hroot c (by simp), if_false, hb, Res.ok_bind, fnext]
  rcases hok with hns | ⟨d, r', rfl, hd⟩
  · have hU : U.addrAt ((i + 1) :: p) = none := addrAt_none.mpr ((C.at_none _).mpr (fun h => absurd h hns))
    have hl := length_lt hw Hu
    rw [hU, next_loop (l := l ++ [c]) (by simpa using Hu) (fun d hd => hroot d (by simp [hd])) (by simp at hl; omega)]
    exact ans_check (P := none) (by rw [e2]) (fun _ => hU.symm)
  · have hfl : ∃ n, h.fuel = n + 1 := ⟨2 * h.next + 1, by simp [Heap.fuel]⟩
    obtain ⟨n, hn⟩ := hfl
    have Hd : Rep h (plug (⟨a, l ++ [c], r'⟩ :: (fs ++ gs)) d) := by
      rw [plug_cons]; simpa using Hu
    simp only [hn, headAddr_cons, Gen.nextLoop, gen_accepts Hd, hd, Res.ok_bind, if_true]
    exact ans_check (P := U.addrAt ((i + 1) :: p)) (by rw [e2]; simp [firstKept, hd]) (fun _ => rfl)

omit hw in
theorem prev_spec {i : Nat} {p : List Nat} {c V : Tree (Addr × α)} (hc : s.whole test (i :: p) = some c)
    (hg : U.at? (i :: p) = some V) (hok : s.genSound test .prev ⟨seen, i :: p⟩) :
    Ans (s.visible test) U ((s.visible test).move .prev (i :: p)) ((Nary.gen α).getPrev test s.addr h c.addr (some V.addr)) := by
  obtain ⟨u, l, c', r, hu, hch, hrk, hl⟩ := hok
  have := kept_at hu hch hrk
  rw [hc] at this
  cases this
  obtain ⟨fs, hf⟩ := whole_plug hu
  obtain ⟨a, cs⟩ := u
  simp only [children_node] at hch
  have hfl : ∃ n, h.fuel = n + 1 := ⟨2 * h.next + 1, by simp [Heap.fuel]⟩
  obtain ⟨n, hn⟩ := hfl
  have Hu : Rep h (plug (fs ++ gs) (node a (l ++ c :: r))) := by rw [plug_append, ← hch, hf]; exact H
  have Hc : Rep h (plug (⟨a, l, r⟩ :: (fs ++ gs)) c) := Hu
  have hroot : c.addr ≠ s.addr := root_ne (f := ⟨a, l, r⟩) (fs := fs) H (by rw [plug_cons]; simp only; rw [← hch, hf])
  have hb := both_spec (fs := ⟨a, l, r⟩ :: fs) H HU (by rw [plug_cons]; simp only; rw [← hch, hf]) hg (m := .prev) (by simp) (step_cell Hc).2.1
  simp only [Gen.getPrev, Gen.plain, hroot, if_false, hb, Res.ok_bind, fprev, hn]
  rcases List.eq_nil_or_concat l with rfl | ⟨l0, d, rfl⟩
  · obtain ⟨h1, _⟩ := hrk
    simp at h1
    subst h1
    exact ⟨_, by simp [Gen.prevLoop, Tree.move]; rfl, by simp [Tree.move]⟩
  · rw [List.concat_eq_append] at *
    have hd : test d.label.2 = true := hl d (by simp)
    have Hd : Rep h (plug (⟨a, l0, c :: r⟩ :: (fs ++ gs)) d) := by
      rw [plug_cons]; simpa using Hu
    obtain ⟨h1, _⟩ := hrk
    have hi : i = (l0.filter (fun c => test c.label.2)).length + 1 := by
      rw [← h1, List.filter_append]; simp [hd]
    have hk := kept_at (c := d) (l := l0) (r := c :: r) (i := (l0.filter (fun c => test c.label.2)).length) hu (by simp [hch]) ⟨rfl, hd⟩
    subst hi
    refine ⟨U.addrAt ((l0.filter (fun c => test c.label.2)).length :: p), ?_, by simp [Tree.move]⟩
    simp [Gen.prevLoop, gen_accepts Hd, hd, Tree.move, visible_addrAt, hk]

omit hw in
theorem last_spec (C : (s.visible test).Copies seen U) {p : List Nat} {u V : Tree (Addr × α)} (hu : s.whole test p = some u)
    (hg : U.at? p = some V) (hok : s.genSound test .last ⟨seen, p⟩) (hV : ∀ p ∈ seen, (s.visible test).at? p ≠ none) :
    Ans (s.visible test) U ((s.visible test).move .last p) ((Nary.gen α).getLast test s.addr h u.addr (some V.addr)) := by
  obtain ⟨fs, hf⟩ := whole_plug hu
  have Hu : Rep h (plug (fs ++ gs) u) := by rw [plug_append, hf]; exact H
  have hb := both_spec H HU hf hg (m := .last) (by simp) (step_cell Hu).2.2.2.2
  simp only [Gen.getLast, hb, Res.ok_bind]
  obtain ⟨u', hu', hok⟩ := hok
  rw [hu] at hu'
  cases hu'
  have e0 : (s.visible test).move .last p = (s.visible test).check (((u.children.filter (fun c => test c.label.2)).length - 1) :: p) := by
    simp only [Tree.move, visible_at, hu, Option.map_some, Option.bind_some]
    simp only [visible, children_keep, keepL_eq, List.length_map]
  rw [e0]
  obtain ⟨a, cs⟩ := u
  simp only [children_node] at *
  rcases List.eq_nil_or_concat cs with rfl | ⟨l, d, rfl⟩
  · refine ans_check (P := (U.move .last p).bind U.addrAt) ?_ ?_
    · simp [visible_addrAt, whole, hu]
    · simp [visible_addrAt, whole, hu]
  · rw [List.concat_eq_append] at *
    obtain ⟨hd, hok⟩ := hok d (by simp)
    have Hd : Rep h (plug (⟨a, l, []⟩ :: (fs ++ gs)) d) := Hu
    have hk := kept_at (c := d) (l := l) (r := []) (i := (l.filter (fun c => test c.label.2)).length) hu (by simp) ⟨rfl, hd⟩
    have hlen : ((l ++ [d]).filter (fun c => test c.label.2)).length = (l.filter (fun c => test c.label.2)).length + 1 := by
      rw [List.filter_append]; simp [hd]
    rw [hlen] at hok ⊢
    simp only [Nat.add_sub_cancel] at hok ⊢
    -- the children of the copy
    have hV' : ∀ j, j < V.children.length ↔ U.at? (j :: p) ≠ none := by
      intro j; simp [at?, hg]
    have hmax : V.children.length ≤ (l.filter (fun c => test c.label.2)).length + 1 := by
      refine Nat.le_of_not_lt fun hlt => ?_
      have h1 := (hV' _).mp hlt
      refine h1 ((C.at_none _).mpr fun _ => ?_)
      rw [visible_at]
      simp [whole, hu, hd]
    have hlast : (U.move .last p).bind U.addrAt = U.addrAt ((l.filter (fun c => test c.label.2)).length :: p) := by
      simp only [Tree.move, hg, Option.bind_some, check_bind]
      show U.addrAt _ = _
      rcases hok with h1 | h1
      · rw [show (l.filter (fun c => test c.label.2)).length = 0 by omega, show V.children.length - 1 = 0 by omega]
      · have h2 : U.at? ((l.filter (fun c => test c.label.2)).length :: p) ≠ none := by
          rw [ne_eq, C.at_none]
          intro h3
          exact hV _ h1 (h3 h1)
        have := (hV' _).mpr h2
        rw [show V.children.length - 1 = (l.filter (fun c => test c.label.2)).length by omega]
    simp only [lastAddr_append, lastAddr_single, Option.some_or, gen_accepts Hd, hd, Res.ok_bind, if_true]
    exact ans_check (P := (U.move .last p).bind U.addrAt) (by simp [visible_addrAt, hk]) (fun _ => hlast)
end
end

/-- The heap holds the trees `ts` with `U` under the name `Y`, which is the copy that belongs to the walk, and the pair of pointers
is at the current position. -/
structure GInv (Z : Addr → Prop) (test : α → Bool) (ts : Nat → Option (Option (Tree (Addr × α)))) (Y : Nat) (s : Tree (Addr × α)) (h : NHeap α)
    (U : Tree (Addr × α)) (w : Walked (List Nat)) (x g tp : Addr) : Prop where
  own : Own Z (shape α) h (upd ts Y (some (some U))) none
  copies : (s.visible test).Copies w.seen U
  vis : ∀ p ∈ w.seen, (s.visible test).at? p ≠ none
  hx : (s.visible test).addrAt w.pos = some x
  hg : U.addrAt w.pos = some g
  top : U.addr = tp

section
variable {Z : Addr → Prop} {ts : Nat → Option (Option (Tree (Addr × α)))} {X Y : Nat} {gs : List (Frame (Addr × α))} {s U : Tree (Addr × α)}
  {w : Walked (List Nat)} {x g tp : Addr}

theorem seen_of (C : (s.visible test).Copies w.seen U) {p : List Nat} {g : Addr} (hg : U.addrAt p = some g) : p ∈ w.seen := by
  refine Classical.byContradiction fun hn => ?_
  have := (C.at_none p).mpr (fun h => absurd h hn)
  rw [addrAt, this] at hg
  cases hg

theorem generate_spec (hX : ts X = some (some (plug gs s))) (hXY : X ≠ Y) (I : GInv Z test ts Y s h U w x g tp) {i : Nat} {q : List Nat} {y r : Addr}
    (hy : (s.visible test).addrAt (i :: q) = some y) (hr : U.addrAt q = some r) {above : Res Addr} (ha : above = Res.ok r)
    (hi : i = 0 ∨ ∃ j, i = j + 1 ∧ U.addrAt (j :: q) ≠ none) :
    ∃ h' U' g', (Nary.gen α).generate h above (some y, U.addrAt (i :: q)) = Res.ok (h', some (y, g')) ∧
      GInv Z test ts Y s h' U' ⟨(i :: q) :: w.seen, i :: q⟩ y g' tp := by
  obtain ⟨c, e1, e2⟩ : ∃ c, s.whole test (i :: q) = some c ∧ c.addr = y := by
    rw [visible_addrAt] at hy
    exact Option.map_eq_some_iff.mp hy
  subst e2
  have hv : (s.visible test).valAt (i :: q) = some c.label.2 := by simp [visible_valAt, e1]
  have hvis : ∀ p ∈ (i :: q) :: w.seen, (s.visible test).at? p ≠ none := by
    intro p hp
    rcases List.mem_cons.mp hp with rfl | hp
    · simp [visible_at, e1]
    · exact I.vis p hp
  have H : Rep h (plug gs s) := (shape_rep _ _).mp (I.own.rep X _ (by rw [upd_other _ _ hXY]; exact hX))
  have HU : Rep h U := (shape_rep _ _).mp (I.own.rep Y _ (upd_same _ _ _))
  cases e : U.addrAt (i :: q) with
  | some g' =>
    refine ⟨h, U, g', rfl, I.own, ?_, hvis, hy, e, I.top⟩
    intro p
    rw [I.copies p]
    have hm : i :: q ∈ w.seen := seen_of I.copies e
    by_cases hp : p = i :: q
    · subst hp; simp [hm]
    · simp [hp]
  | none =>
    have hcy : ∃ n, h.cells c.addr = some n ∧ n.value = c.label.2 := by
      obtain ⟨fs, h1⟩ := whole_plug e1
      rw [← h1, ← plug_append] at H
      exact ⟨_, H.cell, rfl⟩
    obtain ⟨n, hn, hnv⟩ := hcy
    generalize c.label.2 = v at hv hnv
    -- the new leaf
    have G := alloc_grown (Nary.lawful α) I.own.wf v
    have O1 := I.own.grow (Nary.lawful α) G ((Nary.lawful α).leaf h v I.own.wf)
    have hleaf : (shape α).single h.next v = some (node (h.next, v) []) := rfl
    rw [hleaf] at O1
    have HU1 : Rep (h.alloc ((Nary.kind α).leaf v)).1 U := (shape_rep _ _).mp (O1.rep Y _ (upd_same _ _ _))
    have hd := O1.disjN Y _ (upd_same _ _ _)
    simp only [shape_addrs, Option.elim_some] at hd
    obtain ⟨V, hV, hVr⟩ := Option.map_eq_some_iff.mp hr
    obtain ⟨fs, hf1, hf2⟩ := at_plug_hole hV
    obtain ⟨⟨a, va⟩, cs⟩ := V
    simp at hVr
    subst hVr
    have hlen : i = cs.length := by
      rw [addrAt_none] at e
      simp [at?, hV] at e
      rcases hi with rfl | ⟨j, rfl, hj⟩
      · omega
      · rw [ne_eq, addrAt_none] at hj
        simp [at?, hV] at hj
        omega
    subst hlen
    rw [← hf1] at HU1 hd
    obtain ⟨h', a1, a2, a3, a4⟩ := append_spec (fuel := (h.alloc ((Nary.kind α).leaf v)).1.fuel) HU1 ((shape_rep _ _).mp O1.repN)
      (fun z hz hm => hd z hm hz) (length_lt O1.wf HU1)
    refine ⟨h', plug fs (node (a, va) (cs ++ [node (h.next, v) []])), h.next, ?_, ⟨?_, ?_, hvis, hy, ?_, ?_⟩⟩
    · simp only [Gen.generate, Heap.read_of hn, Res.ok_bind, ha]
      show (do let h ← Nary.append (h.alloc ((Nary.kind α).leaf n.value)).1.fuel (h.alloc ((Nary.kind α).leaf n.value)).1 a (some h.next); pure (h, some (c.addr, _))) = _
      rw [hnv]
      simp only [addr_node] at a1
      rw [a1]
      rfl
    · have M : ∀ z, z ∈ (plug fs (node (a, va) (cs ++ [node (h.next, v) []]))).addrs ↔
          z ∈ (plug fs (node (a, va) cs)).addrs ∨ z ∈ (node (h.next, v) [] : Tree (Addr × α)).addrs := by
        intro z
        rw [(addrs_plug fs _).mem_iff, (addrs_plug fs _).mem_iff]
        simp; grind
      have := O1.modify_aux (Nary.lawful α) (x := Y) (t := some U) (t' := some (plug fs (node (a, va) (cs ++ [node (h.next, v) []]))))
        (n' := none) (upd_same _ _ _) ((shape_rep _ _).mpr a2) ((Nary.lawful α).rep_nil _) a3
        (by simp only [shape_addrs, Option.elim_some]; intro z hz1 hz2; exact a4 z (by rw [hf1]; exact hz1) hz2)
        (by simp only [shape_addrs, Option.elim_some, Option.elim_none]; intro z; rw [M z, hf1]; simp)
        (by simp only [shape_addrs, Option.elim_some, Option.elim_none]; intro z _; simp)
      rwa [show upd (upd ts Y (some (some U))) Y (some (some (plug fs (node (a, va) (cs ++ [node (h.next, v) []]))))) =
        upd ts Y (some (some (plug fs (node (a, va) (cs ++ [node (h.next, v) []]))))) from by funext z; simp [upd]; split <;> rfl] at this
    · intro p
      rw [appended_at, hf2, hf1]
      by_cases hp : p = cs.length :: q
      · subst hp; simp [hv]
      · rw [if_neg hp, I.copies p]; simp [hp]
    · show (plug fs (node (a, va) (cs ++ [node (h.next, v) []]))).addrAt (cs.length :: q) = some h.next
      simp only [addrAt, at?, ← hf2, at_hole]
      simp
    · rw [← I.top, ← hf1]
      rcases List.eq_nil_or_concat fs with rfl | ⟨l, f, rfl⟩
      · rfl
      · rw [List.concat_eq_append, plug_append, plug_append]; rfl

theorem parent_at {U : Tree (Addr × α)} {i : Nat} {q : List Nat} {g : Addr} (hg : U.addrAt (i :: q) = some g) : ∃ r, U.addrAt q = some r := by
  simp only [addrAt, at?] at hg ⊢
  cases e : U.at? q with
  | none => simp [e] at hg
  | some u => simp

theorem gen_move (hX : ts X = some (some (plug gs s))) (hXY : X ≠ Y) (I : GInv Z test ts Y s h U w x g tp) {m : Move}
    (hm : s.genSound test m w) :
    ∃ h' o, (Nary.gen α).move test s.addr h m x g = Res.ok (h', o) ∧
      ∃ U', GInv Z test ts Y s h' U' (w.step (s.visible test).move m) (o.elim x Prod.fst) (o.elim g Prod.snd) tp := by
  have hw := I.own.wf
  have H : Rep h (plug gs s) := (shape_rep _ _).mp (I.own.rep X _ (by rw [upd_other _ _ hXY]; exact hX))
  have HU : Rep h U := (shape_rep _ _).mp (I.own.rep Y _ (upd_same _ _ _))
  obtain ⟨seen, q⟩ := w
  have hx := I.hx
  have hg := I.hg
  simp only at hx hg
  obtain ⟨u, hu, rfl⟩ : ∃ u, s.whole test q = some u ∧ u.addr = x := by
    rw [visible_addrAt] at hx
    exact Option.map_eq_some_iff.mp hx
  obtain ⟨V, hV, rfl⟩ := Option.map_eq_some_iff.mp hg
  -- what remains after the navigation
  have fin : ∀ {o : Option (List Nat)} {res : Res (Ptr × Ptr)} {above : Res Addr}, Ans (s.visible test) U o res →
      o = (s.visible test).move m q → (∀ p, o = some p → ∃ i p' r, p = i :: p' ∧ (s.visible test).at? p ≠ none ∧ U.addrAt p' = some r ∧ above = Res.ok r ∧
        (i = 0 ∨ (∃ j, i = j + 1 ∧ U.addrAt (j :: p') ≠ none))) →
      ∃ h' o, (res >>= (Nary.gen α).generate h above) = Res.ok (h', o) ∧
        ∃ U', GInv Z test ts Y s h' U' (Walked.step (s.visible test).move m ⟨seen, q⟩) (o.elim u.addr Prod.fst) (o.elim V.addr Prod.snd) tp := by
    rintro o res above ⟨p2, rfl, hp2⟩ ho hpar
    simp only [Res.ok_bind]
    simp only [Walked.step, ← ho]
    cases o with
    | none => exact ⟨h, none, rfl, U, I⟩
    | some p =>
      obtain ⟨b, p', r, rfl, h1, h2, h3, h4⟩ := hpar p rfl
      rw [hp2 _ rfl]
      obtain ⟨y, hy⟩ : ∃ y, (s.visible test).addrAt (b :: p') = some y := by
        cases e : (s.visible test).addrAt (b :: p') with
        | none => exact absurd (addrAt_none.mp e) h1
        | some y => exact ⟨y, rfl⟩
      obtain ⟨h', U', g', e1, e2⟩ := generate_spec hX hXY I hy h2 h3 h4
      exact ⟨h', some (y, g'), by simpa [hy] using e1, U', e2⟩
  have hroot : q = [] → u.addr = s.addr := by rintro rfl; simp [whole] at hu; rw [hu]
  have hfl : ∃ n, h.fuel = n + 1 := ⟨2 * h.next + 1, by simp [Heap.fuel]⟩
  obtain ⟨n, hn⟩ := hfl
  cases m with
  | left => exact absurd hm (by simp [genSound])
  | right => exact absurd hm (by simp [genSound])
  | child i => exact absurd hm (by simp [genSound])
  | first =>
    refine fin (first_spec hw H HU I.copies hu hV hm) rfl ?_
    intro p hp
    obtain ⟨rfl, h1⟩ := check_some.mp hp
    exact ⟨0, q, _, rfl, h1, hg, rfl, Or.inl rfl⟩
  | last =>
    refine fin (last_spec H HU I.copies hu hV hm I.vis) rfl ?_
    intro p hp
    have e0 : (s.visible test).move .last q = (s.visible test).check (((u.children.filter (fun c => test c.label.2)).length - 1) :: q) := by
      simp only [Tree.move, visible_at, hu, Option.map_some, Option.bind_some]
      simp only [visible, children_keep, keepL_eq, List.length_map]
    rw [e0] at hp
    obtain ⟨rfl, h1⟩ := check_some.mp hp
    refine ⟨_, q, _, rfl, h1, hg, rfl, ?_⟩
    obtain ⟨u', hu', hok⟩ := hm
    rw [hu] at hu'
    cases hu'
    obtain ⟨c, hc⟩ : ∃ c, u.children.getLast? = some c := by
      cases e : u.children.getLast? with
      | some c => exact ⟨c, rfl⟩
      | none =>
        rw [List.getLast?_eq_none_iff] at e
        rw [visible_at] at h1
        simp [whole, hu, e] at h1
    obtain ⟨_, hok⟩ := hok c hc
    rcases hok with hok | hok
    · exact Or.inl (by omega)
    · generalize (u.children.filter (fun c => test c.label.2)).length - 1 = k at *
      cases k with
      | zero => exact Or.inl rfl
      | succ j =>
        refine Or.inr ⟨j, rfl, ?_⟩
        have h2 : U.at? ((j + 1) :: q) ≠ none := by
          rw [ne_eq, I.copies.at_none]
          exact fun h => h1 (h hok)
        rw [ne_eq, addrAt_none]
        simp only [at?, hV, Option.bind_some] at h2 ⊢
        intro e
        rw [List.getElem?_eq_none_iff] at e
        exact h2 (List.getElem?_eq_none (by omega))
  | parent =>
    cases q with
    | nil =>
      refine ⟨h, none, by simp [Gen.move, Gen.plain, hroot rfl], U, ?_⟩
      simpa [Walked.step, Tree.move] using I
    | cons i q =>
      obtain ⟨x', hx'⟩ := parent_at hx
      obtain ⟨g', hg'⟩ := parent_at hg
      obtain ⟨u0, l, r, h1, h2, _⟩ := whole_cons hu
      obtain ⟨fs, hf⟩ := whole_plug h1
      have hf' : plug (⟨u0.label, l, r⟩ :: fs) u = s := by
        rw [plug_cons]; simp only; rw [← h2, ← hf]; cases u0; rfl
      have Hu : Rep h (plug (⟨u0.label, l, r⟩ :: (fs ++ gs)) u) := by
        have : plug (⟨u0.label, l, r⟩ :: (fs ++ gs)) u = plug gs s := by rw [← hf', ← plug_append]; rfl
        rw [this]; exact H
      have hne := root_ne H hf'
      have hx'' : u0.label.1 = x' := by
        rw [visible_addrAt, h1] at hx'
        simpa [addr] using hx'
      have hb := both_spec H HU hf' hV (m := .parent) (by simp) (step_cell Hu).2.2.1
      simp only [Tree.move, Option.bind_some, fpar, hx'', hg'] at hb
      refine ⟨h, some (x', g'), by simp [Gen.move, Gen.plain, hne, hb], U, I.own, ?_, ?_, ?_, ?_, I.top⟩
      · have hm : q ∈ seen := seen_of I.copies hg'
        intro p
        rw [I.copies p]
        simp only [Walked.step, Tree.move]
        by_cases hp : p = q
        · subst hp; simp [hm]
        · simp [hp]
      · simp only [Walked.step, Tree.move]
        intro p hp
        rcases List.mem_cons.mp hp with rfl | hp
        · intro e; rw [addrAt_none.mpr e] at hx'; cases hx'
        · exact I.vis p hp
      · simpa [Walked.step, Tree.move] using hx'
      · simpa [Walked.step, Tree.move] using hg'
  | next =>
    cases q with
    | nil =>
      refine ⟨h, none, by simp [Gen.move, Gen.getNext, Gen.plain, hroot rfl, hn, Gen.nextLoop, Gen.generate], U, ?_⟩
      simpa [Walked.step, Tree.move] using I
    | cons i q =>
      obtain ⟨g', hg'⟩ := parent_at hg
      have hpar : (Nary.gen α).step h .parent V.addr = Res.ok (some g') := by
        have := step_at HU hV (m := .parent) (by simp)
        simpa [Tree.move, hg', Nary.gen] using this
      refine fin (next_spec hw H HU I.copies hu hV hm) rfl ?_
      intro p hp
      obtain ⟨rfl, h1⟩ := check_some.mp hp
      exact ⟨i + 1, q, g', rfl, h1, hg', by simp [hpar, deref], Or.inr ⟨i, rfl, by simp [hg]⟩⟩
  | prev =>
    cases q with
    | nil =>
      refine ⟨h, none, by simp [Gen.move, Gen.getPrev, Gen.plain, hroot rfl, hn, Gen.prevLoop, Gen.generate], U, ?_⟩
      simpa [Walked.step, Tree.move] using I
    | cons i q =>
      obtain ⟨g', hg'⟩ := parent_at hg
      have hpar : (Nary.gen α).step h .parent V.addr = Res.ok (some g') := by
        have := step_at HU hV (m := .parent) (by simp)
        simpa [Tree.move, hg', Nary.gen] using this
      refine fin (prev_spec H HU hu hV hm) rfl ?_
      intro p hp
      cases i with
      | zero => simp [Tree.move] at hp
      | succ i =>
        simp [Tree.move] at hp
        subst hp
        have lower : ∀ (t : Tree (Addr × α)) (i : Nat), t.at? ((i + 1) :: q) ≠ none → t.at? (i :: q) ≠ none := by
          intro t i h
          cases e : t.at? q with
          | none => simp [at?, e] at h
          | some w => simp [at?, e] at h ⊢; omega
        have h1 : (s.visible test).at? (i :: q) ≠ none := lower _ _ (fun e => by rw [addrAt_none.mpr e] at hx; cases hx)
        refine ⟨i, q, g', rfl, h1, hg', by simp [hpar, deref], ?_⟩
        cases i with
        | zero => exact Or.inl rfl
        | succ j =>
          refine Or.inr ⟨j, rfl, ?_⟩
          rw [ne_eq, addrAt_none]
          exact lower _ _ (lower _ _ (by rw [hV]; simp))

theorem gen_run (hX : ts X = some (some (plug gs s))) (hXY : X ≠ Y) (ms : List Move)
    {h : NHeap α} {U : Tree (Addr × α)} {w : Walked (List Nat)} {x g : Addr} (I : GInv Z test ts Y s h U w x g tp)
    (hm : Walked.Sounds (s.visible test).move (s.genSound test) ms w) :
    ∃ h' x' g', (Nary.gen α).run test s.addr h x g ms = Res.ok (h', x', g') ∧
      ∃ U', GInv Z test ts Y s h' U' (w.run (s.visible test).move ms) x' g' tp := by
  induction ms generalizing h U w x g with
  | nil => exact ⟨h, x, g, rfl, U, I⟩
  | cons m ms ih =>
    obtain ⟨h', o, e, U', I'⟩ := gen_move hX hXY I hm.1
    obtain ⟨h2, x2, g2, e2, U2, I2⟩ := ih I' hm.2
    refine ⟨h2, x2, g2, ?_, U2, I2⟩
    simp only [Gen.run, e, Res.ok_bind]
    cases o with
    | none => exact e2
    | some p => exact e2
end
end Nary
