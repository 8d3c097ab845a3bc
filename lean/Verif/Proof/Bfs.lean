import Verif.Proof.RowNav
/-! breadth_first: the queue invariant. -/
open Tree Policy

namespace Tree
variable {β : Type}

theorem labels_children_perm (ts : List (Tree β)) :
    (ts.map label ++ preL (ts.flatMap children)).Perm (preL ts) := by
  induction ts with
  | nil => simp
  | cons t ts ih =>
    cases t with
    | node a cs =>
      simp
      refine List.Perm.trans ?_ (List.Perm.append_left _ ih)
      rw [← List.append_assoc, ← List.append_assoc]
      exact List.Perm.append_right _ List.perm_append_comm

theorem rows_perm (h : Nat) (ts : List (Tree β)) (hh : heightL ts ≤ h) :
    ((List.range h).flatMap (fun n => (row n ts).map label)).Perm (preL ts) := by
  induction h generalizing ts with
  | zero =>
    cases ts with
    | nil => simp
    | cons t ts => cases t; simp at hh
  | succ h ih =>
    rw [List.range_succ_eq_map]
    simp only [List.flatMap_cons, row_zero, List.flatMap_map, row_succ]
    refine List.Perm.trans ?_ (labels_children_perm ts)
    refine List.Perm.append_left _ ?_
    exact ih _ (by rw [heightL_flatMap]; omega)

theorem bfs_perm (t : Tree β) : t.bfs.Perm t.pre := by
  have := rows_perm t.height [t] (by simp)
  simpa [bfs] using this

theorem row_ne_nil_lt {n : Nat} {t : Tree β} (h : row n [t] ≠ []) : n < t.height := by
  have := mt row_eq_nil_iff.mpr h
  simpa using this
theorem row_ne_nil_of_lt {n : Nat} {t : Tree β} (h : n < t.height) : row n [t] ≠ [] := by
  intro e
  have := row_eq_nil_iff.mp e
  simp at this; omega

def upper (t : Tree β) (d : Nat) : List β := (List.range' 0 d).flatMap (fun n => (row n [t]).map label)
def lower (t : Tree β) (d : Nat) : List β :=
  (List.range' (d + 1) (t.height - d - 1)).flatMap (fun n => (row n [t]).map label)

theorem bfs_split (t : Tree β) (d : Nat) (h : d < t.height) :
    t.bfs = upper t d ++ (row d [t]).map label ++ lower t d := by
  unfold bfs upper lower
  rw [List.range_eq_range']
  have : t.height = d + (1 + (t.height - d - 1)) := by omega
  rw [this, ← List.range'_append_1, ← List.range'_append_1]
  simp

theorem upper_getLast? (t : Tree β) (d : Nat) (h : d < t.height) :
    (upper t d).getLast? = if d = 0 then none else (row (d - 1) [t]).getLast?.map label := by
  unfold upper
  cases d with
  | zero => simp
  | succ d =>
    have hne := row_ne_nil_of_lt (n := d) (t := t) (by omega)
    rw [← List.range'_append_1]
    simp only [List.flatMap_append, List.getLast?_append]
    simp
    rw [List.getLast?_eq_some_getLast hne]
    simp

theorem lower_head? (t : Tree β) (d : Nat) :
    (lower t d).head? = (row (d + 1) [t]).head?.map label := by
  unfold lower
  by_cases hd : d + 1 < t.height
  · have hne := row_ne_nil_of_lt (n := d + 1) (t := t) hd
    have : t.height - d - 1 = 1 + (t.height - d - 2) := by omega
    rw [this, ← List.range'_append_1]
    simp only [List.flatMap_append, List.head?_append]
    simp
    rw [List.head?_eq_some_head hne]
    simp
  · have h0 : t.height - d - 1 = 0 := by omega
    have : row (d + 1) [t] = [] := row_eq_nil_iff.mpr (by simp; omega)
    rw [h0, this]; simp

theorem sizeL_flatMap_le (ts : List (Tree β)) : ts.length + sizeL (ts.flatMap children) = sizeL ts := by
  induction ts with
  | nil => simp
  | cons t ts ih => cases t; simp; omega

theorem length_row_le (n : Nat) (ts : List (Tree β)) : (row n ts).length ≤ sizeL ts := by
  induction n generalizing ts with
  | zero => have := sizeL_flatMap_le ts; simp; omega
  | succ n ih => have := sizeL_flatMap_le ts; have := ih (ts.flatMap children); rw [row_succ]; omega

end Tree

variable {nav : Nav} {t : Tree Addr} {fuel : Nat}

theorem bfs_nodup (H : NavSpec nav t) : t.bfs.Nodup := (bfs_perm t).nodup_iff.mpr H.nodup

theorem bfs_at {fs : List (Frame Addr)} {x : Tree Addr} (h : plug fs x = t) :
    t.bfs = (upper t fs.length ++ (rowBefore 0 fs).map label) ++ x.label ::
      ((rowAfter 0 fs).map label ++ lower t fs.length) := by
  have hr : row fs.length [t] = rowBefore 0 fs ++ x :: rowAfter 0 fs := by rw [← h, row_plug0]
  rw [bfs_split t fs.length (row_ne_nil_lt (by rw [hr]; simp)), hr]
  simp

theorem row_nodup (H : NavSpec nav t) (d : Nat) : ((row d [t]).map label).Nodup := by
  by_cases hd : d < t.height
  · have := bfs_nodup H
    rw [bfs_split t d hd] at this
    exact (List.nodup_append.mp (List.nodup_append.mp this).1).2.1
  · have : row d [t] = [] := row_eq_nil_iff.mpr (by simp; omega)
    simp [this]

/-- Addresses of the first children, of the nodes that have children. -/
def fcs (ts : List (Tree Addr)) : List Addr := ts.filterMap (fun t => t.children.head?.map label)

@[simp] theorem fcs_nil : fcs [] = [] := rfl
@[simp] theorem fcs_append (a b : List (Tree Addr)) : fcs (a ++ b) = fcs a ++ fcs b := by simp [fcs]
theorem fcs_cons (a : Tree Addr) (b) : fcs (a :: b) = (a.children.head?.map label).toList ++ fcs b := by
  simp [fcs, List.filterMap_cons]; cases a.children.head? <;> rfl
theorem fcs_eq_nil {ts : List (Tree Addr)} : fcs ts = [] ↔ ts.flatMap children = [] := by
  induction ts with
  | nil => simp
  | cons t ts ih =>
    rw [fcs_cons]
    cases hc : t.children with
    | nil => simp [hc, ih]
    | cons c cs => simp [hc]

theorem fcs_cons_split {ts : List (Tree Addr)} {c : Addr} {cs : List Addr} (h : fcs ts = c :: cs) :
    ∃ m1 p m2 k ks, ts = m1 ++ p :: m2 ∧ m1.flatMap children = [] ∧ p.children = k :: ks ∧ k.label = c ∧ fcs m2 = cs := by
  induction ts with
  | nil => simp at h
  | cons t ts ih =>
    rw [fcs_cons] at h
    cases hc : t.children with
    | nil =>
      simp [hc] at h
      obtain ⟨m1, p, m2, k, ks, rfl, h2, h3⟩ := ih h
      exact ⟨t :: m1, p, m2, k, ks, rfl, by simp [hc, h2], h3⟩
    | cons k ks =>
      simp [hc] at h
      exact ⟨[], t, ts, k, ks, rfl, rfl, hc, h.1, h.2⟩

/-- The nodes queued when the iterator stands on the hole's occupant `x`. -/
def queue (fs : List (Frame Addr)) (x : Tree Addr) : List Addr :=
  (match fs with
    | [] => []
    | f :: fs => (f.rights.head?.map label).toList ++ fcs (rowAfter 0 fs)) ++ fcs (rowBefore 0 fs ++ [x])

theorem bfsInc_pop (H : NavSpec nav t) {ks : List (Frame Addr)} {f : Frame Addr} {c : Tree Addr}
    (h : plug (f :: ks) c = t) :
    bfsInc nav (c.label :: (fcs (rowAfter 0 ks) ++ fcs (rowBefore 0 (f :: ks))))
      = Res.ok ⟨some c.label, queue (f :: ks) c⟩ := by
  simp only [bfsInc, H.next _ c h, H.first _ c h, Res.ok_bind, List.head?_cons, Option.bind_some]
  simp only [queue, fcs_append, fcs_cons, fcs_nil]
  cases hr : f.rights.head? <;> cases hc : c.children.head? <;> simp

theorem rowAfter0_eq_of (ks : List (Frame Addr)) (p : Tree Addr) (d : Nat) (l1 l2) (h : plug ks p = t)
    (hr : row d [t] = l1 ++ p :: l2) (hd : ks.length = d) (hl : (rowBefore 0 ks).length = l1.length) :
    rowBefore 0 ks = l1 ∧ rowAfter 0 ks = l2 := by
  subst hd
  rw [← h, row_plug0] at hr
  have := List.append_inj hr hl
  simpa using this

theorem bfsInc_spec (H : NavSpec nav t) {fs : List (Frame Addr)} {x : Tree Addr} (h : plug fs x = t) :
    (∃ gs y, plug gs y = t ∧ bfsInc nav (queue fs x) = Res.ok ⟨some y.label, queue gs y⟩ ∧
      ((rowAfter 0 fs).map label ++ lower t fs.length).head? = some y.label) ∨
    (bfsInc nav (queue fs x) = Res.ok ⟨none, []⟩ ∧
      ((rowAfter 0 fs).map label ++ lower t fs.length).head? = none) := by
  have hrow : row fs.length [t] = rowBefore 0 fs ++ x :: rowAfter 0 fs := by rw [← h, row_plug0]
  -- going down to the next row
  have down : rowAfter 0 fs = [] → queue fs x = fcs (rowBefore 0 fs ++ [x]) →
    (∃ gs y, plug gs y = t ∧ bfsInc nav (queue fs x) = Res.ok ⟨some y.label, queue gs y⟩ ∧
      ((rowAfter 0 fs).map label ++ lower t fs.length).head? = some y.label) ∨
    (bfsInc nav (queue fs x) = Res.ok ⟨none, []⟩ ∧
      ((rowAfter 0 fs).map label ++ lower t fs.length).head? = none) := by
    intro ha hq
    rw [hq, ha]
    simp only [List.map_nil, List.nil_append, lower_head?]
    have hfull : rowBefore 0 fs ++ [x] = row fs.length [t] := by rw [hrow, ha]
    cases hf : fcs (rowBefore 0 fs ++ [x]) with
    | nil =>
      right
      refine ⟨rfl, ?_⟩
      rw [row_succ', ← hfull, fcs_eq_nil.mp hf]; rfl
    | cons c cs =>
      left
      obtain ⟨m1, p, m2, k, ks, e1, e2, e3, rfl, e5⟩ := fcs_cons_split hf
      rw [hfull] at e1
      obtain ⟨gs, g1, g2, g3, g4⟩ := exists_plug_of_row e1
      have hp : plug (⟨p.label, [], ks⟩ :: gs) k = t := by
        simp only [plug_cons, List.nil_append]; rw [← e3, node_eta, g1]
      refine ⟨_, k, hp, ?_, ?_⟩
      · have := bfsInc_pop H hp
        rw [rowBefore_cons, rowBefore_one, g3, e2, g4] at this
        rw [← e5]
        simpa using this
      · rw [row_succ', e1]; simp [e2, e3]
  cases fs with
  | nil => exact down rfl rfl
  | cons f fs =>
    cases hr : f.rights with
    | cons r rs =>
      left
      have hp : plug (⟨f.label, f.lefts ++ [x], rs⟩ :: fs) r = t := by rw [← h]; simp [hr]
      refine ⟨_, r, hp, ?_, ?_⟩
      · have := bfsInc_pop H hp
        rw [← this]
        simp [queue, hr, rowBefore_cons]
      · simp [rowAfter_cons, hr]
    | nil =>
      cases hf : fcs (rowAfter 0 fs) with
      | nil =>
        apply down
        · rw [rowAfter_cons, hr, rowAfter_one, fcs_eq_nil.mp hf]; rfl
        · simp [queue, hr, hf]
      | cons c cs =>
        left
        obtain ⟨m1, p, m2, k, ks, e1, e2, e3, rfl, e5⟩ := fcs_cons_split hf
        have hpar : plug fs (node f.label (f.lefts ++ x :: f.rights)) = t := h
        have hrow' := row_plug0 fs (node f.label (f.lefts ++ x :: f.rights))
        rw [hpar, e1] at hrow'
        have hrow'' : row fs.length [t] = (rowBefore 0 fs ++ node f.label (f.lefts ++ x :: f.rights) :: m1) ++ p :: m2 := by
          rw [hrow']; simp
        obtain ⟨gs, g1, g2, g3, g4⟩ := exists_plug_of_row hrow''
        have hp : plug (⟨p.label, [], ks⟩ :: gs) k = t := by
          simp only [plug_cons, List.nil_append]; rw [← e3, node_eta, g1]
        refine ⟨_, k, hp, ?_, ?_⟩
        · have := bfsInc_pop H hp
          rw [rowBefore_cons, rowBefore_one, g3, g4, e5] at this
          rw [← this]
          simp [queue, hr, hf, rowBefore_cons, e2, rowBefore_one]
        · rw [rowAfter_cons, hr, rowAfter_one, e1]; simp [e2, e3]

theorem flatMap_children_snoc {ts : List (Tree Addr)} {l : List (Tree Addr)} {y : Tree Addr}
    (h : ts.flatMap children = l ++ [y]) :
    ∃ m1 p m2 ls, ts = m1 ++ p :: m2 ∧ p.children = ls ++ [y] ∧ m2.flatMap children = [] ∧ m1.flatMap children ++ ls = l := by
  obtain ⟨m1, p, m2, c1, c2, h1, h2, h3, h4⟩ := flatMap_split (x := y) (l2 := []) h
  have h4' := h4.symm
  rw [List.append_eq_nil_iff] at h4'
  obtain ⟨rfl, h5⟩ := h4'
  exact ⟨m1, p, m2, c1, h1, h2, h5, h3.symm⟩

theorem bfsDec_eq (H : NavSpec nav t) (hf : t.size ≤ fuel) {f : Frame Addr} {fs : List (Frame Addr)} {x : Tree Addr}
    (h : plug (f :: fs) x = t) :
    bfsDec nav fuel x.label (queue (f :: fs) x)
      = Res.ok ⟨some ((((rowBefore 0 (f :: fs)).getLast?.map label).getD
            (((row fs.length [t]).getLast?.map label).getD 0))),
          x.label :: (fcs (rowAfter 0 fs) ++ fcs (rowBefore 0 (f :: fs)))⟩ := by
  have hpar : plug fs (node f.label (f.lefts ++ x :: f.rights)) = t := h
  have hob := getOtherBranch_left H hf h
  have hx := getRowExtremum_right H hf hpar
  have hpx := H.parent _ x h
  simp only [label_node] at hx
  have hne : row fs.length [t] ≠ [] := by rw [← hpar, row_plug0]; simp
  have hfin : (do
      let result ← match ((rowBefore 0 (f :: fs)).getLast?.map label : Option Addr) with
        | some r => pure (some r)
        | none => do nav.getRowExtremum false fuel (← deref (← nav.parent x.label))
      pure (⟨result, x.label :: (fcs (rowAfter 0 fs) ++ fcs (rowBefore 0 (f :: fs)))⟩ : ItState))
      = Res.ok ⟨some ((((rowBefore 0 (f :: fs)).getLast?.map label).getD
            (((row fs.length [t]).getLast?.map label).getD 0))),
          x.label :: (fcs (rowAfter 0 fs) ++ fcs (rowBefore 0 (f :: fs)))⟩ := by
    cases hb : (rowBefore 0 (f :: fs)).getLast? with
    | some y => simp
    | none =>
      rw [List.getLast?_eq_some_getLast hne] at hx
      simp [hpx, hx, List.getLast?_eq_some_getLast hne]
  have hq : queue (f :: fs) x = (f.rights.head?.map label).toList
      ++ (fcs (rowAfter 0 fs) ++ fcs (rowBefore 0 (f :: fs))) ++ (x.children.head?.map label).toList := by
    simp [queue, fcs_cons]
  rw [← hfin, hq]
  generalize fcs (rowAfter 0 fs) ++ fcs (rowBefore 0 (f :: fs)) = Q
  unfold bfsDec
  simp only [H.first _ x h, H.next _ x h, Res.ok_bind, List.head?_cons, Option.bind_some, hob]
  cases hc : x.children with
  | nil =>
    cases hr : f.rights with
    | nil => simp; rfl
    | cons r rs =>
      have hp : plug (⟨f.label, f.lefts ++ [x], rs⟩ :: fs) r = t := by rw [← h]; simp [hr]
      have hpv := H.prev _ r hp
      simp at hpv
      simp [hpv]; rfl
  | cons c cs =>
    have hp : plug (⟨x.label, [], cs⟩ :: f :: fs) c = t := by
      rw [plug_cons]; simp only [List.nil_append]; rw [← hc, node_eta, h]
    have hpc := H.parent _ c hp
    simp at hpc
    cases hr : f.rights with
    | nil => simp [hpc]; rfl
    | cons r rs =>
      have hp : plug (⟨f.label, f.lefts ++ [x], rs⟩ :: fs) r = t := by rw [← h]; simp [hr]
      have hpv := H.prev _ r hp
      simp at hpv
      have e1 : (r.label :: (Q ++ [c.label])).getLast? = some c.label := by
        rw [← List.cons_append]; simp only [List.getLast?_append]; simp
      have e2 : (r.label :: (Q ++ [c.label])).dropLast = r.label :: Q := by
        rw [← List.cons_append]; simp only [List.dropLast_concat]
      simp [e1, e2, hpv, hpc]; rfl

theorem queue_last {gs : List (Frame Addr)} {y : Tree Addr} (h : plug gs y = t) (ha : rowAfter 0 gs = []) :
    queue gs y = fcs (row gs.length [t]) := by
  have hrow : row gs.length [t] = rowBefore 0 gs ++ [y] := by rw [← h, row_plug0, ha]
  rw [hrow]
  cases gs with
  | nil => rfl
  | cons g gs =>
    rw [rowAfter_cons, List.append_eq_nil_iff] at ha
    obtain ⟨h1, h2⟩ := ha
    simp at h1
    rw [rowAfter_one] at h2
    simp [queue, h1, fcs_eq_nil.mpr h2]

theorem bfsDec_spec (H : NavSpec nav t) (hf : t.size ≤ fuel) {fs : List (Frame Addr)} {x : Tree Addr}
    (h : plug fs x = t) (hne : fs ≠ []) :
    ∃ gs y, plug gs y = t ∧ bfsDec nav fuel x.label (queue fs x) = Res.ok ⟨some y.label, queue gs y⟩ ∧
      (upper t fs.length ++ (rowBefore 0 fs).map label).getLast? = some y.label := by
  cases fs with
  | nil => simp at hne
  | cons f fs =>
    have hpar : plug fs (node f.label (f.lefts ++ x :: f.rights)) = t := h
    have hrowp := row_plug0 fs (node f.label (f.lefts ++ x :: f.rights))
    rw [hpar] at hrowp
    rw [bfsDec_eq H hf h]
    rcases List.eq_nil_or_concat f.lefts with hl | ⟨ls, y, hl⟩ <;> try rw [List.concat_eq_append] at hl
    · rcases List.eq_nil_or_concat (rowBefore 1 fs) with hb | ⟨l, y, hb⟩ <;> try rw [List.concat_eq_append] at hb
      · -- first of its row
        have hb0 : rowBefore 0 (f :: fs) = [] := by rw [rowBefore_cons, hb, hl]; rfl
        rcases List.eq_nil_or_concat (row fs.length [t]) with hr | ⟨l, y, hr⟩ <;> try rw [List.concat_eq_append] at hr
        · rw [hr] at hrowp; simp at hrowp
        · obtain ⟨gs, g1, g2, g3, g4⟩ := exists_plug_of_row (l2 := []) hr
          refine ⟨gs, y, g1, ?_, ?_⟩
          · have hq : fcs (row fs.length [t]) = x.label :: fcs (rowAfter 0 fs) := by
              rw [rowBefore_one] at hb
              rw [hrowp]
              simp [fcs_cons, fcs_eq_nil.mpr hb, hl]
            rw [queue_last g1 g4, g2, hb0, hq, hr]
            simp
          · rw [hb0]
            have hlt : (f :: fs).length < t.height := row_ne_nil_lt (by rw [← h, row_plug0]; simp)
            simp only [List.map_nil, List.append_nil]
            rw [upper_getLast? t _ hlt]
            simp [hr]
      · -- first child, with a left neighbour in the row
        have hb0 : rowBefore 0 (f :: fs) = l ++ [y] := by rw [rowBefore_cons, hb, hl]; simp
        rw [rowBefore_one] at hb
        obtain ⟨m1, p, m2, ls, e1, e2, e3, e4⟩ := flatMap_children_snoc hb
        have hrow'' : row fs.length [t] = m1 ++ p :: (m2 ++ node f.label (f.lefts ++ x :: f.rights) :: rowAfter 0 fs) := by
          rw [hrowp, e1]; simp
        obtain ⟨gs, g1, g2, g3, g4⟩ := exists_plug_of_row hrow''
        have hp : plug (⟨p.label, ls, []⟩ :: gs) y = t := by
          simp only [plug_cons]; rw [← e2, node_eta, g1]
        refine ⟨_, y, hp, ?_, ?_⟩
        · rw [hb0]
          have : rowBefore 0 (⟨p.label, ls, []⟩ :: gs) = l := by
            rw [rowBefore_cons, rowBefore_one, g3, row_zero, e4]
          simp [queue, this, g4, fcs_cons, fcs_eq_nil.mpr e3, hl]
        · rw [hb0]; simp [List.getLast?_append]
    · have hp : plug (⟨f.label, ls, x :: f.rights⟩ :: fs) y = t := by rw [← h]; simp [hl]
      refine ⟨_, y, hp, ?_, ?_⟩
      · simp [queue, rowBefore_cons, hl]
      · simp [rowBefore_cons, hl, List.getLast?_append]

/-! ### rebuilding the queue at a position -/

theorem bfsScan_spec (H : NavSpec nav t) (hf : t.size ≤ fuel) (d : Nat) :
    ∀ (n : Nat) (m l1 rest : List (Tree Addr)) (acc : List Addr), row d [t] = l1 ++ (m ++ rest) → m.length < n →
    bfsScan nav fuel (rest.head?.map label) n ((m ++ rest).head?.map label) acc = Res.ok (acc ++ fcs m) := by
  intro n
  induction n with
  | zero => intro m l1 rest acc _ hn; omega
  | succ n ih =>
    intro m l1 rest acc h hn
    have hnd := row_nodup H d
    cases m with
    | nil =>
      cases rest with
      | nil => simp [bfsScan]
      | cons r rest => simp [bfsScan]
    | cons b m =>
      obtain ⟨ks, k1, k2, k3, k4⟩ := exists_plug_of_row (by simpa using h : row d [t] = l1 ++ b :: (m ++ rest))
      have hne : (some b.label == rest.head?.map label) = false := by
        cases rest with
        | nil => rfl
        | cons r rest =>
          rw [h] at hnd
          have : b.label ≠ r.label := by
            intro e
            have hnd := (List.nodup_append.mp (by simpa using hnd : (l1.map label ++ b.label :: (m.map label ++ r.label :: rest.map label)).Nodup)).2.1
            simp [e] at hnd
          simpa using this
      simp only [List.cons_append, List.head?_cons, Option.map_some, bfsScan, hne, Bool.false_eq_true, if_false]
      have hc : bfsChild nav b.label acc = Res.ok (acc ++ (b.children.head?.map label).toList) := by
        simp only [bfsChild, H.first _ b k1, Res.ok_bind]
        cases b.children.head? <;> simp
      rw [hc]
      simp only [Res.ok_bind]
      rw [getOtherBranch_right H hf k1, k4]
      simp only [Res.ok_bind]
      rw [ih m (l1 ++ [b]) rest _ (by simp [h]) (by simp at hn; omega)]
      simp [fcs_cons]

theorem bfsMake_spec (H : NavSpec nav t) (hf : t.size ≤ fuel) {fs : List (Frame Addr)} {x : Tree Addr}
    (h : plug fs x = t) : bfsMake nav fuel (some x.label) = Res.ok ⟨some x.label, queue fs x⟩ := by
  have hrow := row_plug0 fs x
  rw [h] at hrow
  have hlen := length_row_le fs.length [t]
  rw [hrow] at hlen
  simp at hlen
  have hscan2 := bfsScan_spec H hf fs.length fuel (rowBefore 0 fs) [] (x :: rowAfter 0 fs)
  have hex := getRowExtremum_left H hf h
  rw [hrow] at hex
  have hch : ∀ acc, bfsChild nav x.label acc = Res.ok (acc ++ fcs [x]) := by
    intro acc
    simp only [bfsChild, H.first _ x h, Res.ok_bind, fcs_cons]
    cases x.children.head? <;> simp
  unfold bfsMake
  simp only [H.next _ x h, H.isRoot_iff h, Res.ok_bind]
  cases fs with
  | nil =>
    have h2 := hscan2 [] (by simpa using hrow) (by simp at hlen ⊢; omega)
    have hfuel : ∃ k, fuel = k + 1 := ⟨fuel - 1, by have := size_pos t; omega⟩
    obtain ⟨k, hk⟩ := hfuel
    have h1 : bfsScan nav fuel none fuel none [] = Res.ok [] := by
      conv => lhs; arg 4; rw [hk]
      simp [bfsScan]
    simp at h2 hex
    simp [h1, hex, h2, hch, queue]
  | cons f fs =>
    have hpar : plug fs (node f.label (f.lefts ++ x :: f.rights)) = t := h
    have hrowp := row_plug0 fs (node f.label (f.lefts ++ x :: f.rights))
    rw [hpar] at hrowp
    have hlenp := length_row_le fs.length [t]
    rw [hrowp] at hlenp
    simp at hlenp
    have h1 := fun acc => bfsScan_spec H hf fs.length fuel (rowAfter 0 fs)
      (rowBefore 0 fs ++ [node f.label (f.lefts ++ x :: f.rights)]) [] acc (by rw [hrowp]; simp) (by omega)
    have h2 := fun acc => hscan2 acc (by simpa using hrow) (by omega)
    have hob := getOtherBranch_right H hf hpar
    simp only [label_node] at hob
    have hpx := H.parent _ x h
    simp at h1 h2
    simp [hpx, hob, h1, hex, h2, hch, queue]

/-! ### the cursor invariant -/

def BfsQ (t : Tree Addr) (i : Nat) (s : ItState) : Prop :=
  s.cur = t.bfs[i]? ∧ ∀ a, s.cur = some a → ∃ fs x, plug fs x = t ∧ x.label = a ∧ s.aux = queue fs x

theorem bfs_index (H : NavSpec nav t) {fs : List (Frame Addr)} {x : Tree Addr} (h : plug fs x = t) {i : Nat}
    (hi : t.bfs[i]? = some x.label) :
    t.bfs[i + 1]? = ((rowAfter 0 fs).map label ++ lower t fs.length).head? ∧
    (0 < i → t.bfs[i - 1]? = (upper t fs.length ++ (rowBefore 0 fs).map label).getLast?) := by
  have e1 := list_split hi
  have e2 := bfs_at h
  have hn := bfs_nodup H
  rw [e2] at hn
  rw [e1] at e2
  obtain ⟨h1, h2⟩ := split_unique hn e2.symm
  obtain ⟨hlt, _⟩ := List.getElem?_eq_some_iff.mp hi
  rw [h1, h2]
  constructor
  · simp
  · intro h0
    simp [List.getLast?_take]
    have : i - 1 < t.bfs.length := by omega
    simp [this]
    omega

theorem bfs_get_mem {i : Nat} {a : Addr} (hi : t.bfs[i]? = some a) :
    ∃ fs x, plug fs x = t ∧ x.label = a :=
  exists_plug_of_mem ((bfs_perm t).mem_iff.mp (List.mem_of_getElem? hi))

theorem bfs_inv (H : NavSpec nav t) (hf : t.size ≤ fuel) :
    CursorInv breadthFirst nav fuel t.bfs (BfsQ t) where
  root := ⟨_, H.root⟩
  cur := fun _ h => h.1
  endQ := ⟨⟨none, []⟩, rfl, by simp, by simp⟩
  inc := by
    rintro i s a ha ⟨hc, hq⟩
    obtain ⟨fs, x, h1, rfl, h3⟩ := hq a (hc.trans ha)
    have hidx := (bfs_index H h1 ha).1
    simp only [breadthFirst, h3]
    rcases bfsInc_spec H h1 with ⟨gs, y, k1, k2, k3⟩ | ⟨k2, k3⟩
    · refine ⟨_, k2, ?_, ?_⟩
      · rw [hidx, k3]
      · rintro a ha
        simp at ha
        exact ⟨gs, y, k1, ha, rfl⟩
    · exact ⟨_, k2, by rw [hidx, k3], by simp⟩
  dec := by
    rintro i s a h0 ha ⟨hc, hq⟩
    obtain ⟨fs, x, h1, rfl, h3⟩ := hq a (hc.trans ha)
    have hidx := (bfs_index H h1 ha).2 h0
    have hne : fs ≠ [] := by
      rintro rfl
      have e : t.bfs[0]? = some x.label := by
        have := bfs_at h1
        rw [this]; simp [upper]
      obtain ⟨hlt, _⟩ := List.getElem?_eq_some_iff.mp ha
      have := (List.getElem?_inj hlt (bfs_nodup H)).mp (ha.trans e.symm)
      omega
    simp only [breadthFirst, h3]
    obtain ⟨gs, y, k1, k2, k3⟩ := bfsDec_spec H hf h1 hne
    refine ⟨_, k2, ?_, ?_⟩
    · rw [hidx, k3]
    · rintro a ha
      simp at ha
      exact ⟨gs, y, k1, ha, rfl⟩
  goFirst := by
    intro s _
    have h : plug [] t = t := rfl
    refine ⟨⟨some t.label, queue [] t⟩, ?_, ?_, ?_⟩
    · have hn := H.next [] t h
      have hfst := H.first [] t h
      simp [breadthFirst, H.root, bfsInc, hn, hfst, queue, fcs_cons]
      cases t.children.head? <;> simp
    · have := bfs_at h
      rw [this]; simp [upper]
    · intro a ha
      simp at ha
      exact ⟨[], t, rfl, ha, rfl⟩
  goLast := by
    intro s _
    have hpos : 0 < t.height := by cases t; simp
    have hne := row_ne_nil_of_lt (n := t.height - 1) (t := t) (by omega)
    rcases List.eq_nil_or_concat (row (t.height - 1) [t]) with hr | ⟨l, y, hr⟩ <;> try rw [List.concat_eq_append] at hr
    · exact absurd hr hne
    · obtain ⟨gs, g1, g2, g3, g4⟩ := exists_plug_of_row (l2 := []) hr
      refine ⟨⟨some y.label, []⟩, ?_, ?_, ?_⟩
      · simp [breadthFirst, getDeepest_right H hf, hr]
      · have := bfs_at g1
        rw [← List.getLast?_eq_getElem?, this, g4]
        have hl : lower t gs.length = [] := by
          have : t.height - gs.length - 1 = 0 := by omega
          simp [lower, this]
        simp [hl]
      · intro a ha
        simp at ha
        refine ⟨gs, y, g1, ha, ?_⟩
        rw [queue_last g1 g4, g2]
        symm
        rw [fcs_eq_nil, ← row_succ']
        apply row_eq_nil_iff.mpr
        simp; omega

theorem bfs_make_inv (H : NavSpec nav t) (hf : t.size ≤ fuel) (k : Nat) (a : Addr) (hk : t.bfs[k]? = some a) :
    ∃ b, breadthFirst.make nav fuel (some a) = Res.ok b ∧ BfsQ t k b := by
  obtain ⟨fs, x, h1, rfl⟩ := bfs_get_mem hk
  refine ⟨_, bfsMake_spec H hf h1, hk.symm, ?_⟩
  intro a ha
  simp at ha
  exact ⟨fs, x, h1, ha, rfl⟩
