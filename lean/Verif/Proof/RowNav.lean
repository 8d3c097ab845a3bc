import Verif.Proof.Rows
import Verif.Proof.PrePost
/-! `get_other_branch`, `get_row_extremum` and `get_deepest_extremum_child` against the rows of the tree. -/
open Tree

variable {nav : Nav} {t : Tree Addr} {fuel : Nat}

theorem after_lt (fs : List (Frame Addr)) (s : Tree Addr) (h : plug fs s = t) : afterSize fs < t.size := by
  have := congrArg List.length (pre_plug fs s)
  rw [h] at this
  simp at this
  have := size_pos s
  simp [afterSize]
  omega

/-- `get_right_branch`, with the focus it moves to. -/
theorem getOtherBranch_right' (H : NavSpec nav t) (hf : t.size ≤ fuel) {fs : List (Frame Addr)} {s : Tree Addr}
    (h : plug fs s = t) :
    (∃ gs b, plug gs b = t ∧ gs.length = fs.length ∧
      nav.getOtherBranch false fuel s.label = Res.ok (some b.label) ∧
      rowAfter 0 fs = b :: rowAfter 0 gs ∧ b.size + afterSize gs ≤ afterSize fs) ∨
    (nav.getOtherBranch false fuel s.label = Res.ok none ∧ rowAfter 0 fs = []) := by
  have := otherBranchLoop_right H hf fuel fs s 0 h (by have := after_lt fs s h; omega)
  simpa [Nav.getOtherBranch] using this

theorem getOtherBranch_right (H : NavSpec nav t) (hf : t.size ≤ fuel) {fs : List (Frame Addr)} {s : Tree Addr}
    (h : plug fs s = t) :
    nav.getOtherBranch false fuel s.label = Res.ok ((rowAfter 0 fs).head?.map label) := by
  rcases getOtherBranch_right' H hf h with ⟨gs, b, _, _, h1, h2, _⟩ | ⟨h1, h2⟩ <;> simp [h1, h2]

theorem otherBranchLoop_mirror (nav : Nav) (fuel n : Nat) (a : Addr) (l : Int) :
    Nav.otherBranchLoop true nav fuel n a l = Nav.otherBranchLoop false nav.mirror fuel n a l := by
  induction n generalizing a l with
  | zero => rfl
  | succ n ih =>
    unfold Nav.otherBranchLoop
    simp only [ih]
    rfl

theorem otherBranchLoop_mirror' (nav : Nav) (fuel n : Nat) (a : Addr) (l : Int) :
    Nav.otherBranchLoop false nav fuel n a l = Nav.otherBranchLoop true nav.mirror fuel n a l := by
  rw [otherBranchLoop_mirror]; rfl

theorem getOtherBranch_mirror (left : Bool) (nav : Nav) (fuel : Nat) (a : Addr) :
    nav.getOtherBranch left fuel a = nav.mirror.getOtherBranch (!left) fuel a := by
  cases left
  · exact otherBranchLoop_mirror' nav fuel fuel a 0
  · exact otherBranchLoop_mirror nav fuel fuel a 0

theorem plug_mirror_of {fs : List (Frame Addr)} {s : Tree Addr} (h : plug fs s = t) :
    plug (fs.map Frame.mirror) s.mirror = t.mirror := by rw [← mirror_plug, h]

theorem getOtherBranch_left (H : NavSpec nav t) (hf : t.size ≤ fuel) {fs : List (Frame Addr)} {s : Tree Addr}
    (h : plug fs s = t) :
    nav.getOtherBranch true fuel s.label = Res.ok ((rowBefore 0 fs).getLast?.map label) := by
  have := getOtherBranch_right H.mirror (fuel := fuel) (by rw [size_mirror]; exact hf) (plug_mirror_of h)
  rw [getOtherBranch_mirror]
  rw [rowAfter_mirror, head?_mirrorL] at this
  simpa using this

/-! ### ends of a row -/

theorem climb_to_root (H : NavSpec nav t) :
    ∀ (n : Nat) (fs : List (Frame Addr)) (s : Tree Addr) (l : Int), plug fs s = t → fs ≠ [] → fs.length ≤ n →
    keepCallingT nav.parent (fun (l : Int) _ parent => pure (some parent == nav.root, l - 1))
      (fun l _ r => pure (some r, l)) n l s.label = Res.ok (some t.label, l - fs.length) := by
  intro n
  induction n with
  | zero => intro fs s l _ hne hn; cases fs <;> simp_all
  | succ n ih =>
    intro fs s l h hne hn
    cases fs with
    | nil => simp at hne
    | cons f fs =>
      have hp : plug fs (node f.label (f.lefts ++ s :: f.rights)) = t := by simpa using h
      simp only [keepCallingT, H.parent _ s h, Res.ok_bind, List.head?_cons, Option.map_some, Res.pure_eq]
      have hr : (some f.label == nav.root) = fs.isEmpty := by
        have := H.isRoot_iff hp
        simpa [Nav.isRoot] using this
      rw [hr]
      cases fs with
      | nil => simp at hp; simp [← hp]
      | cons g gs =>
        have := ih (g :: gs) _ (l - 1) hp (by simp) (by simp at hn ⊢; omega)
        simp only [label_node, Res.pure_eq] at this
        simp only [List.isEmpty_cons, Bool.false_eq_true, if_false, this, List.length_cons]
        congr 2
        omega

theorem rowExtremumLoop_left (H : NavSpec nav t) (hf : t.size ≤ fuel) :
    ∀ (n : Nat) (gs : List (Frame Addr)) (r : Tree Addr) (m : Nat), plug gs r = t → 0 < m →
    r.size + afterSize gs ≤ n → row m [r] ++ rowAfter m gs ≠ [] →
    Nav.rowExtremumLoop true nav fuel n r.label (-(m : Int))
      = Res.ok ((row m [r] ++ rowAfter m gs).head?.map label) := by
  intro n
  induction n with
  | zero => intro gs r m _ _ hn; have := size_pos r; omega
  | succ n ih =>
    intro gs r m h hm hn hne
    have hsz := sub_size_le h
    obtain ⟨gs', d, m', g1, g2, g3, g4, g5, g5', g6, g7⟩ := descend_first H fuel gs r m h hm (by omega)
    unfold Nav.rowExtremumLoop
    simp only [if_true, g4, Res.ok_bind]
    rw [g5]
    by_cases hm' : m' = 0
    · subst hm'; simp
    · have hd : d.children = [] := by rcases g6 with h | h; exact absurd h hm'; exact h
      have hrd : row m' [d] = [] := by
        have e : m' = (m' - 1) + 1 := by omega
        rw [e, row_succ]; simp [hd]
      have h0 : (-(m' : Int) == 0) = false := by simp; omega
      have hlt : (-(m' : Int)) < 0 := by omega
      have hpd := size_pos d
      simp only [h0, Bool.false_eq_true, if_false, deref_some, Res.ok_bind, Bool.not_true, hlt, if_true]
      rcases getOtherBranch_right' H hf g1 with ⟨ks, b, k1, k2, k3, k4, k5⟩ | ⟨k3, k4⟩
      · have e : row m' [d] ++ rowAfter m' gs' = row m' [b] ++ rowAfter m' ks := by
          rw [hrd, rowAfter_eq m' gs', rowAfter_eq m' ks, k4, row_cons]; simp
        simp only [k3, Res.ok_bind, deref_some]
        rw [e, ih ks b m' k1 (by omega) (by omega)]
        rw [← e, ← g5]; exact hne
      · exfalso
        apply hne
        rw [g5, hrd, rowAfter_eq m' gs', k4]; simp

theorem getRowExtremum_left (H : NavSpec nav t) (hf : t.size ≤ fuel) {fs : List (Frame Addr)} {s : Tree Addr}
    (h : plug fs s = t) :
    nav.getRowExtremum true fuel s.label = Res.ok ((row fs.length [t]).head?.map label) := by
  have hsz := sub_size_le h
  unfold Nav.getRowExtremum
  rw [H.isRoot_iff h]
  cases fs with
  | nil => simp at h; simp [h]
  | cons f fs =>
    simp only [List.isEmpty_cons, Bool.false_eq_true, if_false]
    rw [climb_to_root H fuel (f :: fs) s 0 h (by simp) (by omega)]
    simp only [Res.ok_bind, deref_some]
    have := rowExtremumLoop_left H hf fuel [] t (f :: fs).length rfl (by simp)
      (by simpa [afterSize, preAfter] using hf)
      (by simp only [rowAfter_nil, List.append_nil]; rw [← h, row_plug0]; simp)
    simpa using this

theorem rowExtremumLoop_mirror (left : Bool) (nav : Nav) (fuel n : Nat) (a : Addr) (l : Int) :
    Nav.rowExtremumLoop left nav fuel n a l = Nav.rowExtremumLoop (!left) nav.mirror fuel n a l := by
  induction n generalizing a l with
  | zero => rfl
  | succ n ih =>
    unfold Nav.rowExtremumLoop
    simp only [ih, getOtherBranch_mirror (!left) nav]
    cases left <;> rfl

theorem getRowExtremum_mirror (left : Bool) (nav : Nav) (fuel : Nat) (a : Addr) :
    nav.getRowExtremum left fuel a = nav.mirror.getRowExtremum (!left) fuel a := by
  unfold Nav.getRowExtremum
  simp only [rowExtremumLoop_mirror left]
  rfl

theorem row_mirror_root (n : Nat) (t : Tree Addr) : row n [t.mirror] = mirrorL (row n [t]) := by
  have := row_mirrorL n [t]
  simpa using this

theorem getRowExtremum_right (H : NavSpec nav t) (hf : t.size ≤ fuel) {fs : List (Frame Addr)} {s : Tree Addr}
    (h : plug fs s = t) :
    nav.getRowExtremum false fuel s.label = Res.ok ((row fs.length [t]).getLast?.map label) := by
  have := getRowExtremum_left H.mirror (fuel := fuel) (by rw [size_mirror]; exact hf) (plug_mirror_of h)
  rw [getRowExtremum_mirror]
  rw [row_mirror_root, head?_mirrorL] at this
  simpa using this

/-! ### the deepest row -/

theorem descend_all (H : NavSpec nav t) :
    ∀ (n : Nat) (gs : List (Frame Addr)) (r : Tree Addr) (l : Int), plug gs r = t → r.size ≤ n →
    ∃ gs' d j, plug gs' d = t ∧ gs'.length = gs.length + j ∧
      keepCallingT nav.first (fun l _ _ => pure (false, l + 1)) (fun (_ : Int) _ _ => Res.ub) n l r.label
        = Res.ok (some d.label, l + (j : Nat)) ∧
      rowBefore j gs = rowBefore 0 gs' ∧ d.children = [] ∧
      d.size + afterSize gs' ≤ r.size + afterSize gs ∧ (j = 0 → gs' = gs ∧ d = r) := by
  intro n
  induction n with
  | zero => intro gs r l _ hn; have := size_pos r; omega
  | succ n ih =>
    intro gs r l h hn
    simp only [keepCallingT, H.first _ r h, Res.ok_bind]
    cases r with
    | node a cs =>
      cases cs with
      | nil => exact ⟨gs, node a [], 0, h, by simp, by simp, rfl, rfl, by simp, by simp⟩
      | cons c cs =>
        have hp : plug (⟨a, [], cs⟩ :: gs) c = t := by simpa using h
        obtain ⟨gs', d, j, h1, h2, h3, h4, h5, h6, h7⟩ := ih _ c (l + 1) hp (by simp at hn; omega)
        refine ⟨gs', d, j + 1, h1, by simp at h2; omega, ?_, ?_, h5, ?_, by simp⟩
        · simp only [children_node, List.head?_cons, Option.map_some, Res.pure_eq, Res.ok_bind, Bool.false_eq_true,
            if_false]
          simp only [Res.pure_eq] at h3
          rw [h3]; congr 2; omega
        · rw [← h4, rowBefore_cons]; simp
        · simp [afterSize, preAfter] at h6 ⊢; omega

theorem deepestLoop_left (H : NavSpec nav t) (hf : t.size ≤ fuel) :
    ∀ (n : Nat) (gs : List (Frame Addr)) (r : Tree Addr) (deep : Addr), plug gs r = t →
    r.size + afterSize gs ≤ n → rowBefore 1 gs = [] → (row gs.length [t]).head?.map label = some deep →
    Nav.deepestLoop true nav fuel n r.label (gs.length : Int) (gs.length : Int) deep
      = Res.ok ((row (t.height - 1) [t]).head?.map label) := by
  intro n
  induction n with
  | zero => intro gs r deep _ hn; have := size_pos r; omega
  | succ n ih =>
    intro gs r deep h hn hb hd
    have hsz := sub_size_le h
    obtain ⟨gs', d, j, g1, g2, g3, g4, g5, g6, g7⟩ := descend_all H fuel gs r (gs.length : Int) h (by omega)
    unfold Nav.deepestLoop
    simp only [if_true, g3, Res.ok_bind, deref_some, Bool.not_true]
    have hlvl : ((gs.length : Int) + (j : Nat)) = (gs'.length : Int) := by omega
    rw [hlvl]
    -- the new deepest level and node
    have hdeep : ∃ deep', (if (gs'.length : Int) > (gs.length : Int) then ((gs'.length : Int), d.label) else ((gs.length : Int), deep))
        = ((gs'.length : Int), deep') ∧ (row gs'.length [t]).head?.map label = some deep' := by
      by_cases hj : j = 0
      · obtain ⟨rfl, rfl⟩ := g7 hj
        exact ⟨deep, by simp, hd⟩
      · refine ⟨d.label, by rw [if_pos (by omega)], ?_⟩
        have : rowBefore 0 gs' = [] := by
          rw [← g4]
          have e : j = 1 + (j - 1) := by omega
          rw [e, rowBefore_add, hb]; simp
        rw [← g1, row_plug0, this]; simp
    obtain ⟨deep', e1, e2⟩ := hdeep
    rw [e1]
    have hb' : rowBefore 1 gs' = [] := by
      have : rowBefore 1 gs' = rowBefore (j + 1) gs := by
        rw [rowBefore_eq 1 gs', ← g4, ← rowBefore_add]
      rw [this, Nat.add_comm, rowBefore_add, hb]; simp
    have hpd := size_pos d
    rcases getOtherBranch_right' H hf g1 with ⟨ks, b, k1, k2, k3, k4, k5⟩ | ⟨k3, k4⟩
    · simp only [k3, Res.ok_bind]
      rw [← k2] at e2 ⊢
      refine ih ks b deep' k1 (by omega) ?_ e2
      have e : rowBefore 0 ks = rowBefore 0 gs' ++ [d] := by
        have h1 := row_plug0 ks b
        have h2 := row_plug0 gs' d
        rw [k1] at h1
        rw [g1, k4] at h2
        rw [k2] at h1
        rw [h1] at h2
        have hlen : (rowBefore 0 ks).length = (rowBefore 0 gs' ++ [d]).length := by
          have h2' := congrArg List.length h2
          simp at h2' ⊢; omega
        have h3 : rowBefore 0 ks ++ b :: rowAfter 0 ks = (rowBefore 0 gs' ++ [d]) ++ b :: rowAfter 0 ks := by
          rw [h2]; simp
        exact (List.append_inj h3 hlen).1
      rw [rowBefore_one, e, List.flatMap_append, ← rowBefore_one, hb']
      simp [g5]
    · simp only [k3, Res.ok_bind, Res.pure_eq]
      have hnext : row (gs'.length + 1) [t] = [] := by
        rw [← g1, row_plug, hb', rowAfter_eq, k4]
        simp [row_succ, g5]
      have hcur : row gs'.length [t] ≠ [] := by rw [← g1, row_plug0]; simp
      have h1 := row_eq_nil_iff.mp hnext
      have h2 := mt row_eq_nil_iff.mpr hcur
      simp at h1 h2
      have : t.height - 1 = gs'.length := by omega
      rw [this, e2]

theorem getDeepest_left (H : NavSpec nav t) (hf : t.size ≤ fuel) :
    nav.getDeepestExtremumChild true fuel = Res.ok ((row (t.height - 1) [t]).head?.map label) := by
  have := deepestLoop_left H hf fuel [] t t.label rfl (by simpa [afterSize, preAfter] using hf) (by simp) (by simp)
  simpa [Nav.getDeepestExtremumChild, H.root] using this

theorem deepestLoop_mirror (left : Bool) (nav : Nav) (fuel n : Nat) (a : Addr) (l m : Int) (b : Addr) :
    Nav.deepestLoop left nav fuel n a l m b = Nav.deepestLoop (!left) nav.mirror fuel n a l m b := by
  induction n generalizing a l m b with
  | zero => rfl
  | succ n ih =>
    unfold Nav.deepestLoop
    simp only [ih, getOtherBranch_mirror (!left) nav]
    cases left <;> rfl

theorem getDeepest_right (H : NavSpec nav t) (hf : t.size ≤ fuel) :
    nav.getDeepestExtremumChild false fuel = Res.ok ((row (t.height - 1) [t]).getLast?.map label) := by
  have := getDeepest_left H.mirror (fuel := fuel) (by rw [size_mirror]; exact hf)
  rw [row_mirror_root, head?_mirrorL, height_mirror] at this
  rw [← this]
  unfold Nav.getDeepestExtremumChild
  simp only [deepestLoop_mirror false]
  rfl
