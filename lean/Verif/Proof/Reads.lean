import Verif.Spec.Reads
import Verif.Proof.PrintTrees
/-! Printed trees read as literals, and the text determines what is shown. -/
open Tree

namespace Shown
variable {β γ α : Type}

mutual
def map (f : β → γ) : Shown β → Shown γ
  | node a ss more => node (f a) (mapL f ss) more
def mapL (f : β → γ) : List (Shown β) → List (Shown γ)
  | [] => []
  | s :: ss => map f s :: mapL f ss
end

theorem mapL_length (f : β → γ) (ss : List (Shown β)) : (mapL f ss).length = ss.length := by
  induction ss with
  | nil => simp [mapL]
  | cons s ss ih => simp [mapL, ih]

mutual
theorem text_map (f : β → γ) (name : β → List Char) (gap : β → Bool) (name' : γ → List Char) (gap' : γ → Bool)
    (hn : ∀ b, name b = name' (f b)) (hg : ∀ b, gap b = gap' (f b)) (step : Nat) : ∀ (ind : Nat) (s : Shown β),
    s.text name gap step ind = (s.map f).text name' gap' step ind
  | ind, node a [] more => by simp [text, map, mapL, hn a, hg a]
  | ind, node a (s :: ss) more => by
    simp [text, map, mapL, hn a, hg a, text_map f name gap name' gap' hn hg step _ s,
      textL_map f name gap name' gap' hn hg step _ ss]
theorem textL_map (f : β → γ) (name : β → List Char) (gap : β → Bool) (name' : γ → List Char) (gap' : γ → Bool)
    (hn : ∀ b, name b = name' (f b)) (hg : ∀ b, gap b = gap' (f b)) (step : Nat) : ∀ (ind : Nat) (ss : List (Shown β)),
    textL name gap step ind ss = textL name' gap' step ind (mapL f ss)
  | ind, [] => by simp [textL, mapL]
  | ind, s :: ss => by
    simp [textL, mapL, text_map f name gap name' gap' hn hg step _ s,
      textL_map f name gap name' gap' hn hg step _ ss]
end

mutual
theorem text_marked (m : Bool) (name : Bool × β → List Char) (gap : Bool × β → Bool) (name' : β → List Char) (gap' : β → Bool)
    (hn : ∀ b, name (m, b) = name' b) (hg : ∀ b, gap (m, b) = gap' b) (step : Nat) : ∀ (ind : Nat) (s : Shown β),
    (s.marked m m).text name gap step ind = s.text name' gap' step ind
  | ind, node a [] more => by simp [text, marked, markedL, hn a, hg a]
  | ind, node a (s :: ss) more => by
    simp [text, marked, markedL, hn a, hg a, text_marked m name gap name' gap' hn hg step _ s,
      textL_marked m name gap name' gap' hn hg step _ ss]
theorem textL_marked (m : Bool) (name : Bool × β → List Char) (gap : Bool × β → Bool) (name' : β → List Char) (gap' : β → Bool)
    (hn : ∀ b, name (m, b) = name' b) (hg : ∀ b, gap (m, b) = gap' b) (step : Nat) : ∀ (ind : Nat) (ss : List (Shown β)),
    textL name gap step ind (markedL m ss) = textL name' gap' step ind ss
  | ind, [] => by simp [textL, markedL]
  | ind, s :: ss => by
    simp [textL, markedL, text_marked m name gap name' gap' hn hg step _ s,
      textL_marked m name gap name' gap' hn hg step _ ss]
end

mutual
theorem map_all (f : β → γ) : ∀ t : Tree β, (all t).map f = all (t.map f)
  | .node a ts => by simp [all, map, Tree.map, mapL_all f ts]
theorem mapL_all (f : β → γ) : ∀ ts : List (Tree β), mapL f (allL ts) = allL (Tree.mapL f ts)
  | [] => by simp [allL, mapL, Tree.mapL]
  | t :: ts => by simp [allL, mapL, Tree.mapL, map_all f t, mapL_all f ts]
end

mutual
theorem Of.map (f : β → γ) : ∀ {s : Shown β} {t : Tree β}, Of s t → Of (s.map f) (t.map f)
  | node a ss more, .node b ts, h => by
    simp only [Of_node, label_node, children_node] at h
    simp only [Shown.map, Tree.map, Of_node, label_node, children_node, mapL_length, Tree.mapL_eq, List.length_map]
    exact ⟨by rw [h.1], by rw [← Tree.mapL_eq]; exact OfL.map f h.2.1, h.2.2⟩
theorem OfL.map (f : β → γ) : ∀ {ss : List (Shown β)} {ts : List (Tree β)}, OfL ss ts → OfL (Shown.mapL f ss) (Tree.mapL f ts)
  | [], _, _ => by simp [mapL]
  | _ :: _, [], h => by simp at h
  | s :: ss, t :: ts, h => by
    simp only [OfL_cons] at h
    simp only [mapL, Tree.mapL, OfL_cons]
    exact ⟨Of.map f h.1, OfL.map f h.2⟩
end

mutual
theorem pre_map (f : β → γ) : ∀ s : Shown β, (s.map f).pre = s.pre.map f
  | node a ss more => by simp [map, preL_map f ss]
theorem preL_map (f : β → γ) : ∀ ss : List (Shown β), preL (mapL f ss) = (preL ss).map f
  | [] => by simp [mapL]
  | s :: ss => by simp [mapL, pre_map f s, preL_map f ss]
end

mutual
theorem map_map {δ : Type} (f : β → γ) (g : γ → δ) : ∀ s : Shown β, (s.map f).map g = s.map (fun b => g (f b))
  | node a ss more => by simp [map, mapL_mapL f g ss]
theorem mapL_mapL {δ : Type} (f : β → γ) (g : γ → δ) : ∀ ss : List (Shown β), mapL g (mapL f ss) = mapL (fun b => g (f b)) ss
  | [] => by simp [mapL]
  | s :: ss => by simp [mapL, map_map f g s, mapL_mapL f g ss]
end

mutual
theorem all_inj : ∀ {t t' : Tree β}, all t = all t' → t = t'
  | .node a ts, .node b us, h => by
    simp only [all, node.injEq] at h
    rw [h.1, allL_inj h.2.1]
theorem allL_inj : ∀ {ts us : List (Tree β)}, allL ts = allL us → ts = us
  | [], [], _ => rfl
  | [], _ :: _, h => by simp [allL] at h
  | _ :: _, [], h => by simp [allL] at h
  | t :: ts, u :: us, h => by
    simp only [allL, List.cons.injEq] at h
    rw [all_inj h.1, allL_inj h.2]
end

/-! ## Injectivity -/

mutual
/-- The first place is empty only where something stands in the second. -/
def Gapped : Shown (α × Bool) → Prop
  | node a ss more => (a.2 = true → ss ≠ [] ∨ more = true) ∧ GappedL ss
def GappedL : List (Shown (α × Bool)) → Prop
  | [] => True
  | s :: ss => Gapped s ∧ GappedL ss
end

theorem spaces_inj {i j : Nat} {c d : Char} {r r' : List Char} (hc : c ≠ ' ') (hd : d ≠ ' ')
    (h : spaces i ++ c :: r = spaces j ++ d :: r') : i = j ∧ c = d ∧ r = r' := by
  induction i generalizing j with
  | zero =>
    cases j with
    | zero => simpa [spaces] using h
    | succ j => simp [spaces, List.replicate_succ] at h; exact absurd h.1 hc
  | succ i ih =>
    cases j with
    | zero => simp [spaces, List.replicate_succ] at h; exact absurd h.1.symm hd
    | succ j =>
      simp only [spaces, List.replicate_succ, List.cons_append, List.cons.injEq, true_and] at h
      obtain ⟨h1, h2⟩ := ih h
      exact ⟨by omega, h2⟩

/-- What follows the text of a node: not an opening parenthesis. -/
def Tail (r : List Char) : Prop := ∀ c r', r = c :: r' → c ≠ '('

mutual
/-- All values are allowed. -/
def All (ok : β → Prop) : Shown β → Prop
  | node a ss _ => ok a ∧ AllL ok ss
def AllL (ok : β → Prop) : List (Shown β) → Prop
  | [] => True
  | s :: ss => All ok s ∧ AllL ok ss
end

variable {disp : α → List Char} {ok : α → Prop}

/-- What follows the label of a node. -/
def body (name : β → List Char) (gap : β → Bool) (step ind : Nat) (a : β) (ss : List (Shown β)) (m : Bool) : List Char :=
  match ss with
  | [] => if m then '(' :: '\n' :: ((if gap a then spaces (ind + step) ++ 'n' :: '(' :: ')' :: ',' :: '\n' :: [] else []) ++
      (spaces (ind + 4) ++ '.' :: '.' :: '.' :: ')' :: [])) else []
  | s :: ss => '(' :: '\n' :: ((if gap a then spaces (ind + step) ++ 'n' :: '(' :: ')' :: ',' :: '\n' :: [] else []) ++
      (s.text name gap step (ind + step) ++ (textL name gap step (ind + step) ss ++
        ((if m then ',' :: '\n' :: (spaces (ind + step) ++ '.' :: '.' :: '.' :: []) else []) ++ ')' :: []))))

theorem text_eq (name : β → List Char) (gap : β → Bool) (step ind : Nat) (a : β) (ss : List (Shown β)) (m : Bool) :
    (node a ss m).text name gap step ind = spaces ind ++ 'n' :: '(' :: (name a ++ ')' :: body name gap step ind a ss m) := by
  cases ss <;> cases m <;> cases hg : gap a <;> simp [text, body, hg]

theorem text_open (name : β → List Char) (gap : β → Bool) (step ind : Nat) (s : Shown β) :
    ∃ a q, s.text name gap step ind = spaces ind ++ 'n' :: '(' :: (name a ++ ')' :: q) ∧ ∀ ok : β → Prop, All ok s → ok a := by
  obtain ⟨a, ss, m⟩ := s
  exact ⟨a, _, text_eq .., fun ok h => by simp only [All] at h; exact h.1⟩

theorem n_ne_dots {i j : Nat} {r r' : List Char} : spaces i ++ 'n' :: r ≠ spaces j ++ '.' :: r' := by
  intro h
  have := (spaces_inj (by decide) (by decide) h).2.1
  revert this; decide

theorem tail_textL (name : β → List Char) (gap : β → Bool) (step ind : Nat) (ss : List (Shown β)) (m : Bool) (q r : List Char) :
    Tail (textL name gap step ind ss ++ ((if m then ',' :: '\n' :: q else []) ++ ')' :: r)) := by
  intro c r' h
  rcases ss with _ | ⟨s, ss⟩ <;> cases m <;> simp [textL] at h <;> simp [← h.1]

mutual
theorem text_inj (C : Clear disp ok) (step : Nat) : ∀ (ind : Nat) (s s' : Shown (α × Bool)) (r r' : List Char),
    Gapped s → Gapped s' → All (fun a => ok a.1) s → All (fun a => ok a.1) s' → Tail r → Tail r' →
    s.text (fun a => disp a.1) (fun a => a.2) step ind ++ r = s'.text (fun a => disp a.1) (fun a => a.2) step ind ++ r' →
    s = s' ∧ r = r'
  | ind, node (a, g) ss m, node (a', g') ss' m', r, r', hg, hg', ho, ho', hr, hr', h => by
    simp only [Gapped, All] at hg hg' ho ho'
    rw [text_eq, text_eq] at h
    simp only [List.append_assoc, List.cons_append] at h
    obtain ⟨-, -, h⟩ := spaces_inj (by decide) (by decide) h
    simp only [List.cons.injEq, true_and] at h
    obtain ⟨rfl, h⟩ := C.apart _ _ _ _ ho.1 ho'.1 h
    have key : ∀ {q u' : List Char}, ((∃ j v, u' = spaces j ++ '.' :: v) ∨ (∃ b v, ok b ∧ u' = spaces (ind + step) ++ 'n' :: '(' :: (disp b ++ v))) →
        spaces (ind + step) ++ 'n' :: '(' :: ')' :: q = u' → False := by
      rintro q u' (⟨j, v, rfl⟩ | ⟨b, v, hb, rfl⟩) h
      · exact n_ne_dots h
      · obtain ⟨c, w, hc, hne⟩ := C.head b hb
        rw [hc] at h
        obtain ⟨-, -, h⟩ := spaces_inj (by decide) (by decide) h
        simp at h
        exact hne h.1.symm
    have open_ : ∀ {s : Shown (α × Bool)} {q : List Char}, All (fun a => ok a.1) s → ∃ b v, ok b ∧
        s.text (fun a => disp a.1) (fun a => a.2) step (ind + step) ++ q = spaces (ind + step) ++ 'n' :: '(' :: (disp b ++ v) := by
      intro s q hs
      obtain ⟨b, v, e, hb⟩ := text_open (fun a : α × Bool => disp a.1) (fun a => a.2) step (ind + step) s
      exact ⟨b.1, ')' :: v ++ q, hb _ hs, by rw [e]; simp⟩
    cases ss with
    | nil =>
      cases m with
      | false =>
        have hgf : g = false := by cases g with
          | false => rfl
          | true => exact absurd (hg.1 rfl) (by simp)
        simp only [body, Bool.false_eq_true, if_false, List.nil_append] at h
        cases ss' with
        | nil =>
          cases m' with
          | false =>
            have hgf' : g' = false := by cases g' with
              | false => rfl
              | true => exact absurd (hg'.1 rfl) (by simp)
            simp only [body, Bool.false_eq_true, if_false, List.nil_append] at h
            exact ⟨by rw [hgf, hgf'], h⟩
          | true =>
            simp only [body, if_true, List.cons_append] at h
            exact absurd rfl (hr _ _ h)
        | cons s' ss' =>
          simp only [body, List.cons_append] at h
          exact absurd rfl (hr _ _ h)
      | true =>
        simp only [body, if_true, List.cons_append, List.append_assoc, List.nil_append] at h
        cases ss' with
        | nil =>
          cases m' with
          | false =>
            simp only [body, Bool.false_eq_true, if_false, List.nil_append] at h
            exact absurd rfl (hr' _ _ h.symm)
          | true =>
            simp only [body, if_true, List.cons_append, List.append_assoc, List.nil_append, List.cons.injEq, true_and] at h
            cases g <;> cases g' <;> simp only [if_true, if_false, Bool.false_eq_true, List.nil_append, List.append_assoc, List.cons_append] at h
            · obtain ⟨-, -, h⟩ := spaces_inj (by decide) (by decide) h
              simp at h
              exact ⟨rfl, h⟩
            · exact (key (Or.inl ⟨_, _, rfl⟩) h.symm).elim
            · exact (key (Or.inl ⟨_, _, rfl⟩) h).elim
            · obtain ⟨-, -, h⟩ := spaces_inj (by decide) (by decide) h
              simp only [List.cons.injEq, true_and] at h
              obtain ⟨-, -, h⟩ := spaces_inj (by decide) (by decide) h
              simp at h
              exact ⟨rfl, h⟩
        | cons s' ss' =>
          simp only [AllL] at ho'
          simp only [body, List.cons_append, List.append_assoc, List.cons.injEq, true_and] at h
          obtain ⟨b, v, hb, e⟩ := open_ (s := s') (q := textL (fun a => disp a.1) (fun a => a.2) step (ind + step) ss' ++
            ((if m' then ',' :: '\n' :: (spaces (ind + step) ++ '.' :: '.' :: '.' :: []) else []) ++ ')' :: ([] ++ r'))) ho'.2.1
          simp only [e] at h
          exfalso
          cases g <;> cases g' <;> simp only [if_true, if_false, Bool.false_eq_true, List.nil_append, List.append_assoc, List.cons_append] at h
          · exact n_ne_dots h.symm
          · exact key (Or.inl ⟨_, _, rfl⟩) h.symm
          · exact key (Or.inr ⟨_, _, hb, rfl⟩) h
          · obtain ⟨-, -, h⟩ := spaces_inj (by decide) (by decide) h
            simp only [List.cons.injEq, true_and] at h
            exact n_ne_dots h.symm
    | cons s ss =>
      simp only [AllL, GappedL] at ho hg
      cases ss' with
      | nil =>
        cases m' with
        | false =>
          simp only [body, Bool.false_eq_true, if_false, List.nil_append, List.cons_append] at h
          exact absurd rfl (hr' _ _ h.symm)
        | true =>
          simp only [body, if_true, List.cons_append, List.append_assoc, List.cons.injEq, true_and] at h
          obtain ⟨b, v, hb, e⟩ := open_ (s := s) (q := textL (fun a => disp a.1) (fun a => a.2) step (ind + step) ss ++
            ((if m then ',' :: '\n' :: (spaces (ind + step) ++ '.' :: '.' :: '.' :: []) else []) ++ ')' :: ([] ++ r))) ho.2.1
          simp only [e] at h
          exfalso
          cases g <;> cases g' <;> simp only [if_true, if_false, Bool.false_eq_true, List.nil_append, List.append_assoc, List.cons_append] at h
          · exact n_ne_dots h
          · exact key (Or.inr ⟨_, _, hb, rfl⟩) h.symm
          · exact key (Or.inl ⟨_, _, rfl⟩) h
          · obtain ⟨-, -, h⟩ := spaces_inj (by decide) (by decide) h
            simp only [List.cons.injEq, true_and] at h
            exact n_ne_dots h
      | cons s' ss' =>
        simp only [AllL, GappedL] at ho' hg'
        simp only [body, List.cons_append, List.append_assoc, List.cons.injEq, true_and, List.nil_append] at h
        have hgg : g = g' ∧ s.text (fun a => disp a.1) (fun a => a.2) step (ind + step) ++ (textL (fun a => disp a.1) (fun a => a.2) step (ind + step) ss ++
            ((if m then ',' :: '\n' :: (spaces (ind + step) ++ '.' :: '.' :: '.' :: []) else []) ++ ')' :: r)) =
            s'.text (fun a => disp a.1) (fun a => a.2) step (ind + step) ++ (textL (fun a => disp a.1) (fun a => a.2) step (ind + step) ss' ++
            ((if m' then ',' :: '\n' :: (spaces (ind + step) ++ '.' :: '.' :: '.' :: []) else []) ++ ')' :: r')) := by
          cases g <;> cases g' <;> simp only [if_true, if_false, Bool.false_eq_true, List.nil_append, List.append_assoc, List.cons_append] at h
          · exact ⟨rfl, h⟩
          · obtain ⟨b, v, hb, e⟩ := open_ (s := s) (q := textL (fun a => disp a.1) (fun a => a.2) step (ind + step) ss ++
              ((if m then ',' :: '\n' :: (spaces (ind + step) ++ '.' :: '.' :: '.' :: []) else []) ++ ')' :: r)) ho.2.1
            exact (key (Or.inr ⟨_, _, hb, e⟩) h.symm).elim
          · obtain ⟨b, v, hb, e⟩ := open_ (s := s') (q := textL (fun a => disp a.1) (fun a => a.2) step (ind + step) ss' ++
              ((if m' then ',' :: '\n' :: (spaces (ind + step) ++ '.' :: '.' :: '.' :: []) else []) ++ ')' :: r')) ho'.2.1
            exact (key (Or.inr ⟨_, _, hb, e⟩) h).elim
          · obtain ⟨-, -, h⟩ := spaces_inj (by decide) (by decide) h
            simp only [List.cons.injEq, true_and] at h
            exact ⟨rfl, h⟩
        obtain ⟨rfl, h2⟩ := hgg
        obtain ⟨rfl, h3⟩ := text_inj C step (ind + step) s s' _ _ hg.2.1 hg'.2.1 ho.2.1 ho'.2.1 (tail_textL _ _ _ _ _ _ _ _) (tail_textL _ _ _ _ _ _ _ _) h2
        obtain ⟨rfl, rfl, rfl⟩ := textL_inj C step (ind + step) ss ss' m m' _ _ hg.2.2 hg'.2.2 ho.2.2 ho'.2.2 h3
        exact ⟨rfl, rfl⟩
theorem textL_inj (C : Clear disp ok) (step : Nat) : ∀ (ind : Nat) (ss ss' : List (Shown (α × Bool))) (m m' : Bool) (r r' : List Char),
    GappedL ss → GappedL ss' → AllL (fun a => ok a.1) ss → AllL (fun a => ok a.1) ss' →
    textL (fun a => disp a.1) (fun a => a.2) step ind ss ++
        ((if m then ',' :: '\n' :: (spaces ind ++ '.' :: '.' :: '.' :: []) else []) ++ ')' :: r) =
      textL (fun a => disp a.1) (fun a => a.2) step ind ss' ++
        ((if m' then ',' :: '\n' :: (spaces ind ++ '.' :: '.' :: '.' :: []) else []) ++ ')' :: r') →
    ss = ss' ∧ m = m' ∧ r = r'
  | ind, [], [], m, m', r, r', _, _, _, _, h => by
    cases m <;> cases m' <;> simp [textL] at h
    · exact ⟨rfl, rfl, h⟩
    · exact ⟨rfl, rfl, h⟩
  | ind, [], s :: ss, m, m', r, r', _, _, _, _, h => by
    exfalso
    cases m with
    | false => simp [textL] at h
    | true =>
      simp only [textL, if_true, List.append_assoc, List.nil_append, List.cons_append] at h
      obtain ⟨b, v, e, hb⟩ := text_open (fun a : α × Bool => disp a.1) (fun a => a.2) step ind s
      rw [e] at h
      simp only [show ",\n".toList = [',', '\n'] from rfl, List.append_assoc, List.cons_append, List.nil_append, List.cons.injEq, true_and] at h
      exact n_ne_dots h.symm
  | ind, s :: ss, [], m, m', r, r', _, _, _, _, h => by
    exfalso
    cases m' with
    | false => simp [textL] at h
    | true =>
      simp only [textL, if_true, List.append_assoc, List.nil_append, List.cons_append] at h
      obtain ⟨b, v, e, hb⟩ := text_open (fun a : α × Bool => disp a.1) (fun a => a.2) step ind s
      rw [e] at h
      simp only [show ",\n".toList = [',', '\n'] from rfl, List.append_assoc, List.cons_append, List.nil_append, List.cons.injEq, true_and] at h
      exact n_ne_dots h
  | ind, s :: ss, s' :: ss', m, m', r, r', hg, hg', ho, ho', h => by
    simp only [GappedL, AllL] at hg hg' ho ho'
    simp only [textL, List.append_assoc, List.append_cancel_left_eq] at h
    obtain ⟨rfl, h3⟩ := text_inj C step ind s s' _ _ hg.1 hg'.1 ho.1 ho'.1 (tail_textL _ _ _ _ _ _ _ _) (tail_textL _ _ _ _ _ _ _ _) h
    obtain ⟨rfl, rfl, rfl⟩ := textL_inj C step ind ss ss' m m' _ _ hg.2 hg'.2 ho.2 ho'.2 h3
    exact ⟨rfl, rfl, rfl⟩
end

theorem text_unique (C : Clear disp ok) (step ind : Nat) {s s' : Shown (α × Bool)} (hg : Gapped s) (hg' : Gapped s')
    (ho : All (fun a => ok a.1) s) (ho' : All (fun a => ok a.1) s')
    (h : s.text (fun a => disp a.1) (fun a => a.2) step ind = s'.text (fun a => disp a.1) (fun a => a.2) step ind) : s = s' :=
  (text_inj C step ind s s' [] [] hg hg' ho ho' (by intro _ _ h; cases h) (by intro _ _ h; cases h) (by rw [h])).1

theorem text_ne_hole (C : Clear disp ok) (step : Nat) {s : Shown (α × Bool)} (ho : All (fun a => ok a.1) s) :
    s.text (fun a => disp a.1) (fun a => a.2) step 0 ≠ "n()".toList := by
  obtain ⟨a, q, e, ha⟩ := text_open (fun a : α × Bool => disp a.1) (fun a => a.2) step 0 s
  obtain ⟨c, r, hc, hne⟩ := C.head a.1 (ha _ ho)
  rw [e, hc]
  intro h
  simp [spaces] at h

end Shown

namespace Tree
variable {α : Type}
/-- A node whose first place is empty has children. -/
def Gaps (t : Tree (α × Bool)) : Prop := ∀ fs s, plug fs s = t → s.label.2 = true → s.children ≠ []
theorem Gaps.child {a : α × Bool} {l c r} (h : Gaps (.node a (l ++ c :: r))) : Gaps c := by
  intro fs s hs
  exact h (fs ++ [⟨a, l, r⟩]) s (by rw [plug_append, hs]; simp)
end Tree

namespace Shown
variable {α : Type}
mutual
theorem Of.gapped : ∀ {s : Shown (α × Bool)} {t : Tree (α × Bool)}, Of s t → t.Gaps → Gapped s
  | node a ss m, .node b ts, h, G => by
    simp only [Of_node, label_node, children_node] at h
    simp only [Gapped]
    refine ⟨fun ha => ?_, OfL.gapped h.2.1 fun l c r e => Gaps.child (a := b) (e ▸ G)⟩
    have h1 := G [] _ rfl (by simpa [← h.1] using ha)
    simp only [children_node] at h1
    cases ss with
    | cons => simp
    | nil =>
      refine Or.inr (h.2.2.mpr ?_)
      cases ts with
      | nil => exact absurd rfl h1
      | cons => simp
theorem OfL.gapped : ∀ {ss : List (Shown (α × Bool))} {ts : List (Tree (α × Bool))}, OfL ss ts →
    (∀ l c r, ts = l ++ c :: r → c.Gaps) → GappedL ss
  | [], _, _, _ => by simp [GappedL]
  | _ :: _, [], h, _ => by simp at h
  | s :: ss, t :: ts, h, G => by
    simp only [OfL_cons] at h
    simp only [GappedL]
    exact ⟨Of.gapped h.1 (G [] t ts rfl), OfL.gapped h.2 fun l c r e => G (t :: l) c r (by simp [e])⟩
end

mutual
theorem all_pre {β : Type} (ok : β → Prop) : ∀ {s : Shown β}, (∀ x ∈ s.pre, ok x) → All ok s
  | node a ss m, h => by
    simp only [All]
    simp only [pre_node, List.mem_cons, forall_eq_or_imp] at h
    exact ⟨h.1, allL_pre ok h.2⟩
theorem allL_pre {β : Type} (ok : β → Prop) : ∀ {ss : List (Shown β)}, (∀ x ∈ preL ss, ok x) → AllL ok ss
  | [], _ => by simp [AllL]
  | s :: ss, h => by
    simp only [AllL]
    simp only [preL_cons, List.mem_append] at h
    exact ⟨all_pre ok fun x hx => h x (Or.inl hx), allL_pre ok fun x hx => h x (Or.inr hx)⟩
end
end Shown

theorem Reads.spaces {α : Type} {val : List Char → α → Prop} {s : List Char} {e : Expr α} (n : Nat) (h : Reads val s e) :
    Reads val (Shown.spaces n ++ s) e := by
  induction n with
  | zero => exact h
  | succ n ih => exact .space (Or.inl rfl) ih

namespace Tree
variable {α : Type}
mutual
/-- The expression printed. -/
def expr : Tree (α × Bool) → Expr α
  | .node a [] => .n a.1
  | .node a (t :: ts) => .call (.n a.1) ((if a.2 then [.hole] else []) ++ expr t :: exprL ts)
def exprL : List (Tree (α × Bool)) → List (Expr α)
  | [] => []
  | t :: ts => expr t :: exprL ts
end
mutual
/-- The literal it stands for. -/
def lit : Tree (α × Bool) → Lit α
  | .node a [] => .node (some a.1) []
  | .node a (t :: ts) => .node (some a.1) ((if a.2 then [.node none []] else []) ++ lit t :: litL ts)
def litL : List (Tree (α × Bool)) → List (Lit α)
  | [] => []
  | t :: ts => lit t :: litL ts
end

mutual
theorem expr_means : ∀ t : Tree (α × Bool), Expr.Means t.expr t.lit []
  | .node a [] => by simp only [expr, lit]; exact .n _
  | .node (a, g) (t :: ts) => by
    simp only [expr, lit]
    refine .call (.n _) ?_ (by simp)
    have h1 := Expr.MeansL.cons (expr_means t) (exprL_means ts)
    cases g with
    | false => simpa using h1
    | true => simpa using Expr.MeansL.cons .hole h1
theorem exprL_means : ∀ ts : List (Tree (α × Bool)), Expr.MeansL (exprL ts) (litL ts)
  | [] => by simp only [exprL, litL]; exact .nil
  | t :: ts => by simp only [exprL, litL]; exact .cons (expr_means t) (exprL_means ts)
end

variable {disp : α → List Char}
mutual
theorem expr_reads (step : Nat) : ∀ (ind : Nat) (t : Tree (α × Bool)),
    Reads (fun s v => s = disp v) ((Shown.all t).text (fun a => disp a.1) (fun a => a.2) step ind) t.expr
  | ind, .node a [] => by
    have := Reads.spaces ind (Reads.n (val := fun s v => s = disp v) (v := a.1) rfl)
    simpa [Shown.all, Shown.allL, Shown.text, expr] using this
  | ind, .node (a, g) (t :: ts) => by
    have h1 := Reads.spaces ind (Reads.n (val := fun s v => s = disp v) (v := a) rfl)
    have h2 := exprL_reads step (ind + step) ts _ _ (.space (c := '\n') (Or.inr rfl) (expr_reads step (ind + step) t))
    cases g with
    | false =>
      have h3 := Reads.call h1 h2
      simpa [Shown.all, Shown.allL, Shown.text, expr] using h3
    | true =>
      have h4 : Reads (fun s v => s = disp v) ('\n' :: (Shown.spaces (ind + step) ++ "n()".toList)) .hole :=
        .space (Or.inr rfl) (Reads.spaces _ .hole)
      have h3 := Reads.call h1 (.cons h4 h2)
      simpa [Shown.all, Shown.allL, Shown.text, expr] using h3
theorem exprL_reads (step : Nat) : ∀ (ind : Nat) (ts : List (Tree (α × Bool))) (s : List Char) (e : Expr α),
    Reads (fun s v => s = disp v) s e →
    ReadsL (fun s v => s = disp v) (s ++ Shown.textL (fun a => disp a.1) (fun a => a.2) step ind (Shown.allL ts)) (e :: exprL ts)
  | ind, [], s, e, h => by
    simp only [Shown.allL, Shown.textL, exprL, List.append_nil]
    exact .one h
  | ind, u :: us, s, e, h => by
    have h := ReadsL.cons h (exprL_reads step ind us _ _ (.space (c := '\n') (Or.inr rfl) (expr_reads step ind u)))
    simpa [Shown.allL, Shown.textL, exprL] using h
end

mutual
theorem lit_full {β : Type} (f : β → α) : ∀ t : Tree β, (t.map (fun b => (f b, false))).lit = Lit.full (t.map f)
  | .node a [] => by simp [lit, Lit.full, Tree.map, mapL]
  | .node a (t :: ts) => by
    have h1 := lit_full f t
    have h2 := litL_full f ts
    simp only [Lit.full] at h1 h2
    simp [lit, Lit.full, Tree.map, mapL, h1, h2]
theorem litL_full {β : Type} (f : β → α) : ∀ ts : List (Tree β), litL (mapL (fun b => (f b, false)) ts) = mapL some (mapL f ts)
  | [] => by simp [litL, mapL]
  | t :: ts => by
    have h1 := lit_full f t
    simp only [Lit.full] at h1
    simp [litL, mapL, h1, litL_full f ts]
end
end Tree

namespace BTree
variable {α : Type}
theorem gaps_toB : ∀ (t : BTree α) (G : Tree (α × Bool)), t.toGaps = [G] → G.lit.toB = t ∧ G.lit.valid ∧ G.lit.atMostTwo
  | .nil, G, h => by simp [toGaps] at h
  | .node a l r, G, h => by
    simp only [toGaps, List.cons.injEq, and_true] at h
    subst h
    cases l with
    | nil =>
      cases r with
      | nil => simp [toGaps, Tree.lit, Lit.toB, Lit.valid, Lit.atMostTwo, Lit.validL, Lit.atMostTwoL]
      | node b rl rr =>
        obtain ⟨h1, h2, h3⟩ := gaps_toB (.node b rl rr) _ rfl
        simp [toGaps, label?, Tree.lit, Tree.litL, Lit.toB, Lit.valid, Lit.atMostTwo, Lit.validL, Lit.atMostTwoL] at *
        exact ⟨h1, h2, h3⟩
    | node c ll lr =>
      obtain ⟨k1, k2, k3⟩ := gaps_toB (.node c ll lr) _ rfl
      cases r with
      | nil =>
        simp [toGaps, label?, Tree.lit, Tree.litL, Lit.toB, Lit.valid, Lit.atMostTwo, Lit.validL, Lit.atMostTwoL] at *
        exact ⟨k1, k2, k3⟩
      | node b rl rr =>
        obtain ⟨h1, h2, h3⟩ := gaps_toB (.node b rl rr) _ rfl
        simp [toGaps, label?, Tree.lit, Tree.litL, Lit.toB, Lit.valid, Lit.atMostTwo, Lit.validL, Lit.atMostTwoL] at *
        exact ⟨⟨k1, h1⟩, ⟨k2, h2⟩, k3, h3⟩

theorem gaps_inj {t t' : BTree α} {G : Tree (α × Bool)} (h : t.toGaps = [G]) (h' : t'.toGaps = [G]) : t = t' := by
  rw [← (gaps_toB t G h).1, (gaps_toB t' G h').1]

theorem gaps_map {β : Type} (f : β → α) (t : BTree β) : (t.map f).toGaps = t.toGaps.map (Tree.map (fun q => (f q.1, q.2))) := by
  induction t with
  | nil => rfl
  | node a l r ihl ihr =>
    have e : ∀ t : BTree β, (t.map f).label?.isSome = t.label?.isSome := by intro t; cases t <;> rfl
    have e' : ∀ t : BTree β, (t.map f).label?.isNone = t.label?.isNone := by intro t; cases t <;> rfl
    simp [toGaps, BTree.map, ihl, ihr, Tree.map, Tree.mapL_eq, e, e']

theorem gaps_gaps {t : BTree α} {G : Tree (α × Bool)} (h : t.toGaps = [G]) : G.Gaps := by
  rw [toGaps_eq] at h
  intro fs s hs hg
  obtain ⟨bs, q, l, r, h1, h2, h3⟩ := plug_toRose h hs
  have := withGap_at h1
  rw [h3] at hg ⊢
  simp only [Tree.label_node, Tree.children_node] at hg ⊢
  rw [hg] at this
  cases r with
  | nil => simp [label?] at this
  | node b rl rr => simp
end BTree
