import Verif.Proof.PreOrder
/-! Rows of a tree and the row navigation loops of navigator_base.hpp. -/
open Tree

namespace Tree
variable {β : Type}

@[simp] theorem row_zero (ts : List (Tree β)) : row 0 ts = ts := rfl
theorem row_succ (n) (ts : List (Tree β)) : row (n + 1) ts = row n (ts.flatMap children) := rfl
@[simp] theorem row_nil (n) : row n ([] : List (Tree β)) = [] := by
  induction n with
  | zero => rfl
  | succ n ih => simp [row_succ, ih]
theorem row_append (n) (a b : List (Tree β)) : row n (a ++ b) = row n a ++ row n b := by
  induction n generalizing a b with
  | zero => rfl
  | succ n ih => simp [row_succ, ih]
theorem row_cons (n) (a : Tree β) (b) : row n (a :: b) = row n [a] ++ row n b := row_append n [a] b
theorem row_succ' (n) (ts : List (Tree β)) : row (n + 1) ts = (row n ts).flatMap children := by
  induction n generalizing ts with
  | zero => rfl
  | succ n ih => rw [row_succ, ih, ← row_succ]
theorem row_add (m n) (ts : List (Tree β)) : row (m + n) ts = row n (row m ts) := by
  induction m generalizing ts with
  | zero => simp
  | succ m ih => rw [Nat.succ_add, row_succ, ih, row_succ]

theorem flatMap_children_eq_nil {ts : List (Tree β)} (h : heightL ts ≤ 1) : ts.flatMap children = [] := by
  induction ts with
  | nil => simp
  | cons t ts ih =>
    cases t with
    | node a cs =>
      cases cs with
      | nil => simpa using ih (by simp at h; omega)
      | cons c cs => cases c; simp at h; omega

theorem heightL_flatMap (ts : List (Tree β)) : heightL (ts.flatMap children) = heightL ts - 1 := by
  induction ts with
  | nil => simp
  | cons t ts ih => cases t; simp [ih]; omega

theorem row_eq_nil_iff {n} {ts : List (Tree β)} : row n ts = [] ↔ heightL ts ≤ n := by
  induction n generalizing ts with
  | zero =>
    cases ts with
    | nil => simp
    | cons t ts => cases t; simp
  | succ n ih => rw [row_succ, ih, heightL_flatMap]; omega

/-- Nodes `k` levels below the depth of the hole, to the right (left) of the hole. -/
def rowAfter : Nat → List (Frame β) → List (Tree β)
  | _, [] => []
  | k, f :: fs => row k f.rights ++ rowAfter (k + 1) fs
def rowBefore : Nat → List (Frame β) → List (Tree β)
  | _, [] => []
  | k, f :: fs => rowBefore (k + 1) fs ++ row k f.lefts

@[simp] theorem rowAfter_nil (k) : rowAfter k ([] : List (Frame β)) = [] := rfl
@[simp] theorem rowBefore_nil (k) : rowBefore k ([] : List (Frame β)) = [] := rfl
theorem rowAfter_cons (k) (f : Frame β) (fs) : rowAfter k (f :: fs) = row k f.rights ++ rowAfter (k + 1) fs := rfl
theorem rowBefore_cons (k) (f : Frame β) (fs) : rowBefore k (f :: fs) = rowBefore (k + 1) fs ++ row k f.lefts := rfl

theorem row_plug (k) (fs : List (Frame β)) (s) :
    row (fs.length + k) [plug fs s] = rowBefore k fs ++ row k [s] ++ rowAfter k fs := by
  induction fs generalizing s k with
  | nil => simp
  | cons f fs ih =>
    have : (f :: fs).length + k = fs.length + (k + 1) := by simp; omega
    rw [this, plug_cons, ih, rowAfter_cons, rowBefore_cons, row_succ]
    simp only [List.flatMap_cons, List.flatMap_nil, List.append_nil, children_node]
    rw [row_append, row_cons k s]
    simp

theorem row_plug0 (fs : List (Frame β)) (s) :
    row fs.length [plug fs s] = rowBefore 0 fs ++ s :: rowAfter 0 fs := by
  have := row_plug 0 fs s
  simpa using this

theorem rowAfter_add (m n) (fs : List (Frame β)) : rowAfter (m + n) fs = row n (rowAfter m fs) := by
  induction fs generalizing m with
  | nil => simp
  | cons f fs ih =>
    rw [rowAfter_cons, rowAfter_cons, row_append, row_add, ← ih]
    have : m + n + 1 = m + 1 + n := by omega
    rw [this]
theorem rowBefore_add (m n) (fs : List (Frame β)) : rowBefore (m + n) fs = row n (rowBefore m fs) := by
  induction fs generalizing m with
  | nil => simp
  | cons f fs ih =>
    rw [rowBefore_cons, rowBefore_cons, row_append, row_add, ← ih]
    have : m + n + 1 = m + 1 + n := by omega
    rw [this]
theorem rowAfter_eq (n) (fs : List (Frame β)) : rowAfter n fs = row n (rowAfter 0 fs) := by
  have := rowAfter_add 0 n fs; simpa using this
theorem rowBefore_eq (n) (fs : List (Frame β)) : rowBefore n fs = row n (rowBefore 0 fs) := by
  have := rowBefore_add 0 n fs; simpa using this
theorem rowAfter_one (fs : List (Frame β)) : rowAfter 1 fs = (rowAfter 0 fs).flatMap children := by
  rw [rowAfter_eq]; rfl
theorem rowBefore_one (fs : List (Frame β)) : rowBefore 1 fs = (rowBefore 0 fs).flatMap children := by
  rw [rowBefore_eq]; rfl

theorem flatMap_split {γ δ : Type} {f : γ → List δ} {l : List γ} {l1 l2 : List δ} {x : δ}
    (h : l.flatMap f = l1 ++ x :: l2) :
    ∃ m1 p m2 c1 c2, l = m1 ++ p :: m2 ∧ f p = c1 ++ x :: c2 ∧ l1 = m1.flatMap f ++ c1 ∧ l2 = c2 ++ m2.flatMap f := by
  induction l generalizing l1 with
  | nil => simp at h
  | cons p l ih =>
    simp at h
    rcases List.append_eq_append_iff.mp h with ⟨c, hc1, hc2⟩ | ⟨c, hc1, hc2⟩
    · obtain ⟨m1, q, m2, c1, c2, rfl, h2, rfl, h4⟩ := ih (l1 := c) hc2
      exact ⟨p :: m1, q, m2, c1, c2, rfl, h2, by simp [hc1], h4⟩
    · cases c with
      | nil =>
        simp at hc1 hc2
        obtain ⟨m1, q, m2, c1, c2, rfl, h2, h3, h4⟩ := ih (l1 := []) (by simpa using hc2.symm)
        refine ⟨p :: m1, q, m2, c1, c2, rfl, h2, ?_, h4⟩
        simp [hc1]
        simpa using h3
      | cons y c =>
        simp at hc2
        obtain ⟨rfl, rfl⟩ := hc2
        exact ⟨[], p, l, l1, c, rfl, hc1, by simp, rfl⟩

/-- A place in a row is a place in the tree. -/
theorem exists_plug_of_row {d : Nat} {t : Tree β} {l1 l2 : List (Tree β)} {s : Tree β} (h : row d [t] = l1 ++ s :: l2) :
    ∃ fs, plug fs s = t ∧ fs.length = d ∧ rowBefore 0 fs = l1 ∧ rowAfter 0 fs = l2 := by
  induction d generalizing l1 l2 s with
  | zero =>
    simp at h
    cases l1 with
    | nil => simp at h; exact ⟨[], by simp [h.1], rfl, by simp, by simp [h.2]⟩
    | cons x l1 => simp at h
  | succ d ih =>
    rw [row_succ'] at h
    obtain ⟨m1, p, m2, c1, c2, h1, h2, rfl, rfl⟩ := flatMap_split h
    obtain ⟨fs, hp, hd, hb, ha⟩ := ih h1
    refine ⟨⟨p.label, c1, c2⟩ :: fs, ?_, by simp [hd], ?_, ?_⟩
    · simp only [plug_cons]; rw [← h2, node_eta, hp]
    · simp [rowBefore_cons, rowBefore_one, hb]
    · simp [rowAfter_cons, rowAfter_one, ha]

theorem mirrorL_flatMap (ts : List (Tree β)) : (mirrorL ts).flatMap children = mirrorL (ts.flatMap children) := by
  induction ts with
  | nil => simp
  | cons t ts ih => simp [ih, mirrorL_append]; simp [mirrorL_eq]

theorem row_mirrorL (n) (ts : List (Tree β)) : row n (mirrorL ts) = mirrorL (row n ts) := by
  induction n generalizing ts with
  | zero => rfl
  | succ n ih => rw [row_succ, mirrorL_flatMap, ih, row_succ]

theorem rowAfter_mirror (k) (fs : List (Frame β)) : rowAfter k (fs.map Frame.mirror) = mirrorL (rowBefore k fs) := by
  induction fs generalizing k with
  | nil => simp
  | cons f fs ih => simp [rowAfter_cons, rowBefore_cons, ih, mirrorL_append, Frame.mirror, row_mirrorL]

theorem rowBefore_mirror (k) (fs : List (Frame β)) : rowBefore k (fs.map Frame.mirror) = mirrorL (rowAfter k fs) := by
  induction fs generalizing k with
  | nil => simp
  | cons f fs ih => simp [rowAfter_cons, rowBefore_cons, ih, mirrorL_append, Frame.mirror, row_mirrorL]

theorem head?_mirrorL (ts : List (Tree β)) : (mirrorL ts).head?.map label = ts.getLast?.map label := by
  simp [mirrorL_eq, Function.comp_def]
theorem getLast?_mirrorL (ts : List (Tree β)) : (mirrorL ts).getLast?.map label = ts.head?.map label := by
  simp [mirrorL_eq, Function.comp_def]

theorem heightL_mirrorL {ts : List (Tree β)} : heightL (mirrorL ts) = heightL ts := by
  have h1 : ∀ n, heightL (mirrorL ts) ≤ n ↔ heightL ts ≤ n := by
    intro n
    rw [← row_eq_nil_iff, ← row_eq_nil_iff, row_mirrorL, mirrorL_eq]; simp
  have := h1 (heightL ts)
  have := h1 (heightL (mirrorL ts))
  omega
theorem height_mirror (t : Tree β) : t.mirror.height = t.height := by
  have := heightL_mirrorL (ts := [t]); simpa using this

end Tree

variable {nav : Nav} {t : Tree Addr}

/-- Number of nodes to the right of the hole. -/
abbrev afterSize (fs : List (Frame Addr)) : Nat := (preAfter fs).length

/-- The climbing half of `get_other_branch<false>`. -/
theorem climb_right (H : NavSpec nav t) :
    ∀ (fuel : Nat) (fs : List (Frame Addr)) (s : Tree Addr) (k : Nat), plug fs s = t → fs.length < fuel →
    (∃ gs r j, plug gs r = t ∧ gs ≠ [] ∧ gs.length + j = fs.length ∧
      keepCallingT nav.parent
        (fun l child _ => do pure (!(← nav.isLast child), l - 1))
        (fun l child _ => do pure (← nav.next child, l + 1)) fuel (-(k : Int)) s.label
        = Res.ok (some r.label, -((k + j : Nat) : Int)) ∧
      rowAfter k fs = row (k + j) [r] ++ rowAfter (k + j) gs ∧
      afterSize fs = r.size + afterSize gs) ∨
    (∃ l, keepCallingT nav.parent
        (fun l child _ => do pure (!(← nav.isLast child), l - 1))
        (fun l child _ => do pure (← nav.next child, l + 1)) fuel (-(k : Int)) s.label
        = Res.ok (some t.label, l) ∧ rowAfter k fs = []) := by
  intro fuel
  induction fuel with
  | zero => intro fs s k _ hf; omega
  | succ n ih =>
    intro fs s k h hf
    cases fs with
    | nil =>
      right
      have hl : s.label = t.label := by simp at h; rw [h]
      refine ⟨-(k : Int), ?_, rfl⟩
      simp only [keepCallingT, H.parent [] s h]
      simp [hl]
    | cons f fs =>
      simp only [keepCallingT, H.parent _ s h, H.isLast _ s h, H.next _ s h, List.head?_cons, Option.map_some,
        Res.ok_bind, Option.any_some]
      cases hr : f.rights with
      | cons r rs =>
        left
        refine ⟨⟨f.label, f.lefts ++ [s], rs⟩ :: fs, r, 0, ?_, by simp, by simp, ?_, ?_, ?_⟩
        · rw [← h]; simp [hr]
        · simp [hr]
        · rw [rowAfter_cons, rowAfter_cons, hr, row_cons k r]; simp
        · simp [afterSize, preAfter, hr]
      | nil =>
        have hp : plug fs (node f.label (f.lefts ++ s :: f.rights)) = t := by simpa using h
        have hk : (-(k : Int) - 1) = -((k + 1 : Nat) : Int) := by omega
        rcases ih fs _ (k + 1) hp (by simp at hf; omega) with ⟨gs, r, j, h1, h2, h3, h4, h5, h6⟩ | ⟨l, h4, h5⟩
        · left
          refine ⟨gs, r, j + 1, h1, h2, by simp; omega, ?_, ?_, ?_⟩
          · have e : k + (j + 1) = k + 1 + j := by omega
            rw [e]
            simpa [hk] using h4
          · have e : k + (j + 1) = k + 1 + j := by omega
            rw [e, rowAfter_cons, hr, h5]; simp
          · simp [preAfter, hr, afterSize] at h6 ⊢
            omega
        · right
          refine ⟨l, ?_, ?_⟩
          · simpa [hk] using h4
          · rw [rowAfter_cons, hr, h5]; simp

/-- The descending half: follow first children down to the wanted level or to a node without children. -/
theorem descend_first (H : NavSpec nav t) :
    ∀ (fuel : Nat) (gs : List (Frame Addr)) (r : Tree Addr) (m : Nat), plug gs r = t → 0 < m → r.size ≤ fuel →
    ∃ gs' d m', plug gs' d = t ∧ m' ≤ m ∧ gs'.length + m' = gs.length + m ∧
      keepCallingT nav.first (fun l _ _ => pure (decide (l + 1 ≥ 0), l + 1)) (fun l _ child => pure (some child, l))
        fuel (-(m : Int)) r.label = Res.ok (some d.label, -(m' : Int)) ∧
      row m [r] ++ rowAfter m gs = row m' [d] ++ rowAfter m' gs' ∧
      rowBefore m gs = rowBefore m' gs' ∧
      (m' = 0 ∨ d.children = []) ∧
      d.size + afterSize gs' ≤ r.size + afterSize gs := by
  intro fuel
  induction fuel with
  | zero => intro gs r m _ _ hf; have := size_pos r; omega
  | succ n ih =>
    intro gs r m h hm hf
    simp only [keepCallingT, H.first _ r h, Res.ok_bind]
    cases r with
    | node a cs =>
      cases cs with
      | nil => exact ⟨gs, node a [], m, h, Nat.le_refl _, rfl, by simp, rfl, rfl, Or.inr rfl, by simp⟩
      | cons c cs =>
        have hp : plug (⟨a, [], cs⟩ :: gs) c = t := by simpa using h
        have hrow : row m [node a (c :: cs)] ++ rowAfter m gs
            = row (m - 1) [c] ++ rowAfter (m - 1) (⟨a, [], cs⟩ :: gs) := by
          have e : m = (m - 1) + 1 := by omega
          rw [rowAfter_cons, ← e]
          conv => lhs; rw [e]
          rw [row_succ]
          have := row_cons (m - 1) c cs
          simp at this ⊢
          rw [this, ← e]; simp
        have hbef : rowBefore m gs = rowBefore (m - 1) (⟨a, [], cs⟩ :: gs) := by
          have e : m = (m - 1) + 1 := by omega
          rw [rowBefore_cons, ← e]; simp
        have haft : afterSize (⟨a, [], cs⟩ :: gs) = sizeL cs + afterSize gs := by simp [afterSize, preAfter]
        by_cases hm1 : m = 1
        · subst hm1
          refine ⟨⟨a, [], cs⟩ :: gs, c, 0, hp, by omega, by simp, ?_, hrow, hbef, Or.inl rfl, ?_⟩
          · simp
          · rw [haft]; simp; omega
        · obtain ⟨gs', d, m', h1, h2, h3, h4, h5, h5', h6, h7⟩ := ih _ c (m - 1) hp (by omega)
            (by simp at hf; omega)
          refine ⟨gs', d, m', h1, by omega, by simp at h3; omega, ?_, by rw [hrow, h5], by rw [hbef, h5'], h6, ?_⟩
          · have hk : (-(m : Int) + 1) = -((m - 1 : Nat) : Int) := by omega
            have hneg : ¬ (m - 1 = 0) := by omega
            simp [hk, hneg]
            simpa using h4
          · rw [haft] at h7; simp; omega

/-- `get_other_branch<false>` started `k` levels above the wanted row. -/
theorem otherBranchLoop_right (H : NavSpec nav t) {fuel : Nat} (hf : t.size ≤ fuel) :
    ∀ (n : Nat) (fs : List (Frame Addr)) (s : Tree Addr) (k : Nat), plug fs s = t → afterSize fs < n →
    (∃ gs b, plug gs b = t ∧ gs.length = fs.length + k ∧
      Nav.otherBranchLoop false nav fuel n s.label (-(k : Int)) = Res.ok (some b.label) ∧
      rowAfter k fs = b :: rowAfter 0 gs ∧ b.size + afterSize gs ≤ afterSize fs) ∨
    (Nav.otherBranchLoop false nav fuel n s.label (-(k : Int)) = Res.ok none ∧ rowAfter k fs = []) := by
  intro n
  induction n with
  | zero => intro fs s k _ hn; omega
  | succ n ih =>
    intro fs s k h hn
    have hsz := sub_size_le h
    have hpos := size_pos s
    unfold Nav.otherBranchLoop
    simp only [Bool.false_eq_true, if_false]
    rcases climb_right H fuel fs s k h (by omega) with ⟨gs, r, j, h1, h2, h3, h4, h5, h6⟩ | ⟨l, h4, h5⟩
    · simp only [h4, Res.ok_bind]
      have hne : (some r.label == nav.root) = false := by
        rw [H.root]
        have := mt (H.label_eq_root h1).mp h2
        simpa using this
      simp only [hne, Bool.false_eq_true, if_false]
      by_cases hk : k + j = 0
      · left
        have e0 : (-((k + j : Nat) : Int) == 0) = true := by rw [hk]; rfl
        refine ⟨gs, r, h1, by omega, ?_, ?_, by omega⟩
        · simp only [e0, if_true]; rfl
        · rw [hk] at h5; simpa using h5
      · have e0 : (-((k + j : Nat) : Int) == 0) = false := by simp; omega
        simp only [e0, Bool.false_eq_true, if_false, deref_some, Res.ok_bind]
        have hsz' := sub_size_le h1
        obtain ⟨gs', d, m', g1, g2, g3, g4, g5, g5', g6, g7⟩ := descend_first H fuel gs r (k + j) h1 (by omega) (by omega)
        rw [g4]
        simp only [Res.ok_bind]
        by_cases hm' : m' = 0
        · subst hm'
          left
          refine ⟨gs', d, g1, by omega, ?_, ?_, ?_⟩
          · simp
          · rw [h5, g5]; simp
          · -- size of d plus what follows
            omega
        · have hd : d.children = [] := by rcases g6 with h | h; exact absurd h hm'; exact h
          have hrd : row m' [d] = [] := by
            have e : m' = (m' - 1) + 1 := by omega
            rw [e, row_succ]; simp [hd]
          have hlt : (-(m' : Int)) < 0 := by omega
          have := size_pos d
          simp only [hlt, if_true, deref_some, Res.ok_bind]
          have hrow : rowAfter k fs = rowAfter m' gs' := by rw [h5, g5, hrd]; rfl
          rcases ih gs' d m' g1 (by omega) with ⟨ks, b, i1, i2, i3, i4, i5⟩ | ⟨i3, i4⟩
          · left
            exact ⟨ks, b, i1, by omega, i3, by rw [hrow, i4], by omega⟩
          · right
            exact ⟨i3, by rw [hrow, i4]⟩
    · right
      refine ⟨?_, h5⟩
      rw [h4]
      simp [H.root]
