import Verif.Proof.PreOrder
import Verif.Proof.Cursor
open Tree Policy

variable {nav : Nav} {t : Tree Addr}

theorem pre_split (H : NavSpec nav t) {l1 l2 : List Addr} {a : Addr} (h : t.pre = l1 ++ a :: l2) :
    ∃ fs s, plug fs s = t ∧ s.label = a ∧ preBefore fs = l1 ∧ preL s.children ++ preAfter fs = l2 := by
  obtain ⟨fs, s, hp, hl⟩ := exists_plug_of_mem (t := t) (a := a) (by rw [h]; simp)
  have hn := H.nodup
  have h0 : t.pre = preBefore fs ++ a :: (preL s.children ++ preAfter fs) := by
    rw [← hp, pre_plug, pre_eq_cons s, hl]; simp
  rw [h0] at hn h
  have := split_unique hn h
  exact ⟨fs, s, hp, hl, this.1, this.2⟩

theorem preInc_list (H : NavSpec nav t) {fuel : Nat} (hf : t.size ≤ fuel) {l1 l2 : List Addr} {a : Addr}
    (h : t.pre = l1 ++ a :: l2) : preInc nav fuel a = Res.ok l2.head? := by
  obtain ⟨fs, s, hp, rfl, rfl, rfl⟩ := pre_split H h
  have := sub_size_le hp
  have := size_pos s
  exact preInc_spec H fuel fs s hp (by omega)

theorem preDec_list (H : NavSpec nav t) {fuel : Nat} (hf : t.size ≤ fuel) {l1 l2 : List Addr} {a : Addr}
    (h : t.pre = l1 ++ a :: l2) : preDec nav fuel a = Res.ok l1.getLast? := by
  obtain ⟨fs, s, hp, rfl, rfl, rfl⟩ := pre_split H h
  exact preDec_spec H fuel fs s hp hf

theorem preOrder_inv (H : NavSpec nav t) {fuel : Nat} (hf : t.size ≤ fuel) :
    CursorInv preOrder nav fuel t.pre (fun i s => s.cur = t.pre[i]?) := by
  refine stateless_cursorInv ⟨_, H.root⟩ (fun _ _ _ h => preInc_list H hf h)
    (fun _ _ _ h _ => preDec_list H hf h) ?_ (preLast_spec H fuel hf)
  rw [pre_eq_cons]; simp [H.root]

theorem size_mirror (s : Tree Addr) : s.mirror.size = s.size := by
  rw [← length_pre, pre_mirror, List.length_reverse, (post_perm_pre s).length_eq, length_pre]

theorem postInc_mirror (nav : Nav) (fuel : Nat) (a : Addr) : postInc nav fuel a = preDec nav.mirror fuel a := (rfl)

theorem postInc_list (H : NavSpec nav t) {fuel : Nat} (hf : t.size ≤ fuel) {l1 l2 : List Addr} {a : Addr}
    (h : t.post = l1 ++ a :: l2) : postInc nav fuel a = Res.ok l2.head? := by
  have hm : t.mirror.pre = l2.reverse ++ a :: l1.reverse := by rw [pre_mirror, h]; simp
  have := preDec_list H.mirror (fuel := fuel) (by rw [size_mirror]; exact hf) hm
  simpa [postInc_mirror] using this

/-- `--` in post-order; on the first element it lands on the root. -/
theorem postDec_list (H : NavSpec nav t) {fuel : Nat} (hf : t.size ≤ fuel) {l1 l2 : List Addr} {a : Addr}
    (h : t.post = l1 ++ a :: l2) : postDec nav fuel a = Res.ok (some (l1.getLast?.getD t.label)) := by
  have hm : t.mirror.pre = l2.reverse ++ a :: l1.reverse := by rw [pre_mirror, h]; simp
  obtain ⟨fs, s, hp, rfl, hb, ha⟩ := pre_split H.mirror hm
  have hsz := sub_size_le hp
  rw [size_mirror] at hsz
  have hpos := size_pos s
  have hlast : l1.getLast? = (preL s.children ++ preAfter fs).head? := by rw [ha]; simp
  have hfirst := H.mirror.first fs s hp
  simp only [Nav.mirror] at hfirst
  have hc := climb_next H.mirror fuel fs s hp (by omega)
  simp only [Nav.mirror] at hc
  unfold postDec
  rw [hlast]
  simp only [hfirst, Res.ok_bind]
  cases s with
  | node a cs =>
    cases cs with
    | cons c cs => cases c; simp
    | nil =>
      simp only [children_node, List.head?_nil, Option.map_none]
      simp only [label_node, label_mirror] at hc ⊢
      exact Eq.trans hc (by simp [climbTarget_eq])

theorem postFirst_spec (H : NavSpec nav t) (fuel : Nat) (hf : t.size ≤ fuel) :
    nav.getHighestLeaf true fuel = Res.ok t.post.head? := by
  obtain ⟨a, h1, h2⟩ := keepCalling_first H fuel [] t rfl hf
  simp [Nav.getHighestLeaf, H.root, h1, h2]

theorem postOrder_inv (H : NavSpec nav t) {fuel : Nat} (hf : t.size ≤ fuel) :
    CursorInv postOrder nav fuel t.post (fun i s => s.cur = t.post[i]?) := by
  refine stateless_cursorInv ⟨_, H.root⟩ (fun _ _ _ h => postInc_list H hf h)
    (fun l1 _ _ h hne => ?_) (postFirst_spec H fuel hf) ?_
  · rw [postDec_list H hf h]
    cases hl : l1.getLast? with
    | none => simp_all
    | some b => simp
  · rw [post_eq]; simp [H.root]
