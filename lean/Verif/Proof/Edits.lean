import Verif.Proof.Steps
import Verif.Proof.Unique
import Verif.Proof.Prune
/-! Consequences of the edit operations for all nodes and all trees. -/
open Tree World

/-- The heap records are determined by the tree, and the value stored in a record is the one in the tree. -/
structure Exact {ν α lit T V C : Type} {K : Kind ν α lit} (S : Shape K T V C) (val : ν → α) (labels : T → List (Addr × α)) : Prop where
  rep_cells : ∀ (h h' : Heap ν) t, S.Rep h t → S.Rep h' t → ∀ a ∈ S.addrs t, h.cells a = h'.cells a
  labels_addrs : ∀ t, (labels t).map Prod.fst = S.addrs t
  labels_plug : ∀ c s p, p ∈ labels (S.plug c s) ↔ p ∈ labels (S.plug c S.nil) ∨ p ∈ labels s
  labels_front : ∀ n s p, S.isFull s = false → s ≠ S.nil → (p ∈ labels (S.front n s) ↔ p ∈ labels n ∨ p ∈ labels s)
  labels_back : ∀ n s p, S.isFull s = false → s ≠ S.nil → (p ∈ labels (S.back n s) ↔ p ∈ labels n ∨ p ∈ labels s)
  rep_val : ∀ (h : Heap ν) t, S.Rep h t → ∀ a v, (a, v) ∈ labels t → (h.cells a).map val = some v

theorem holds_cells {ν : Type} {h h' : Heap ν} {l : List (Addr × ν)} (H : Holds h l) (H' : Holds h' l) {a : Addr}
    (ha : a ∈ l.map Prod.fst) : h.cells a = h'.cells a := by
  simp only [List.mem_map] at ha
  obtain ⟨p, hp, rfl⟩ := ha
  rw [H p hp, H' p hp]

namespace Nary
variable {α : Type}

/-- Address and value of every node. -/
def labels (o : Option (Tree (Addr × α))) : List (Addr × α) := o.elim [] Tree.pre

mutual
theorem cells_val (par prev nx : Ptr) (fol : Nat) : (t : Tree (Addr × α)) →
    (cells par prev nx fol t).map (fun p => (p.1, p.2.value)) = t.pre
  | .node (a, v) cs => by simp [cells, cellsL_val, pre]
theorem cellsL_val (par prev nx : Ptr) (k : Nat) : (ts : List (Tree (Addr × α))) →
    (cellsL par prev nx k ts).map (fun p => (p.1, p.2.value)) = preL ts
  | [] => by simp
  | t :: ts => by simp [cells_val, cellsL_val]
end

theorem mem_pre_plug (fs : List (Frame (Addr × α))) : ∀ (s : Tree (Addr × α)) (p : Addr × α),
    p ∈ (plug fs s).pre ↔ p ∈ (fs.flatMap fun f => f.label :: (preL f.lefts ++ preL f.rights)) ∨ p ∈ s.pre := by
  induction fs with
  | nil => intro s p; simp [plug]
  | cons f fs ih =>
    intro s p
    simp only [plug, ih, List.flatMap_cons, pre, preL_append, preL, List.append_nil, List.mem_append, List.mem_cons]
    grind

theorem exact (α : Type) : Exact (shape α) NNode.value labels where
  rep_cells := by
    intro h h' t H H' a ha
    cases t with
    | none => simp [shape_addrs] at ha
    | some t =>
      rw [shape_addrs] at ha
      refine holds_cells ((shape_rep _ _).mp H).1 ((shape_rep _ _).mp H').1 ?_
      have := keys_cells (α := α) none none none 0 t
      rw [keys] at this
      rw [this]; exact ha
  labels_addrs := by
    intro t
    cases t with
    | none => simp [labels, shape_addrs]
    | some t => simp [labels, shape_addrs, addrs]
  labels_plug := by
    intro c s p
    simp only [shape_plug]
    cases c with
    | nil => simp [fill, labels, shape]
    | cons f fs =>
      simp only [fill, labels, Option.elim_some, mem_pre_plug, pre, preL_append, List.mem_append, List.mem_cons]
      cases s with
      | none => simp [shape, preL]
      | some s => simp [shape, preL]; grind
  labels_front := by
    intro n s p _ hs
    cases s with
    | none => exact absurd rfl hs
    | some u => cases u with | node q cs => cases n <;> simp [shape, labels, preL, pre, label, children] <;> grind
  labels_back := by
    intro n s p _ hs
    cases s with
    | none => exact absurd rfl hs
    | some u => cases u with | node q cs => cases n <;> simp [shape, labels, preL, pre, label, children, preL_append] <;> grind
  rep_val := by
    intro h t H a v hm
    cases t with
    | none => simp [labels] at hm
    | some t =>
      have H' := ((shape_rep _ _).mp H).1
      simp only [labels, Option.elim_some] at hm
      rw [← cells_val none none none 0 t, List.mem_map] at hm
      obtain ⟨p, hp, he⟩ := hm
      have := H' p hp
      cases he
      rw [this]; rfl

end Nary

namespace Binary
variable {α : Type}

theorem cells_val (t : BTree (Addr × α)) : ∀ par : Ptr, (cells par t).map (fun p => (p.1, p.2.value)) = t.pre := by
  induction t with
  | nil => intro par; simp [BTree.pre]
  | node p l r ihl ihr => intro par; simp [ihl, ihr, BTree.pre]

theorem mem_pre_plug (fs : List (BTree.Frame (Addr × α))) : ∀ (s : BTree (Addr × α)) (p : Addr × α),
    p ∈ (BTree.plug fs s).pre ↔ p ∈ (BTree.plug fs .nil).pre ∨ p ∈ s.pre := by
  induction fs with
  | nil => intro s p; simp [BTree.plug, BTree.pre]
  | cons f fs ih =>
    intro s p
    simp only [BTree.plug]
    rw [ih (f.fill s), ih (f.fill .nil)]
    unfold BTree.Frame.fill
    split <;> simp [BTree.pre] <;> grind

theorem exact (α : Type) : Exact (shape α) BNode.value BTree.pre where
  rep_cells := by
    intro h h' t H H' a ha
    rw [shape_addrs] at ha
    refine holds_cells H.1 H'.1 ?_
    have := keys_cells (α := α) none t
    rw [keys] at this
    rw [this]; exact ha
  labels_addrs := by intro t; rw [shape_addrs]; rfl
  labels_plug := by intro c s p; exact mem_pre_plug c s p
  labels_front := by
    intro n s p hf hs
    cases s with
    | nil => exact absurd rfl hs
    | node q l r =>
      cases n <;> cases l <;> cases r <;> simp [shape, addLeft, twoKids, BTree.pre] at hf ⊢ <;> grind
  labels_back := by
    intro n s p hf hs
    cases s with
    | nil => exact absurd rfl hs
    | node q l r =>
      cases n <;> cases l <;> cases r <;> simp [shape, addRight, twoKids, BTree.pre] at hf ⊢ <;> grind
  rep_val := by
    intro h t H a v hm
    rw [← cells_val t none, List.mem_map] at hm
    obtain ⟨p, hp, he⟩ := hm
    have := H.1 p hp
    cases he
    rw [this]; rfl

end Binary

section
variable {ν α lit T V C : Type} {K : Kind ν α lit} {S : Shape K T V C} {ts : Nat → Option T} {W W' : World ν}
  {n s t : T} {c : C} {x y : Nat} {a : Addr} {P : Policy} {pos : It} {src : Src α lit}

theorem src_disjoint (L : Lawful S) (O : Owned S W ts) (hx : ts x = some t) (hsrc : src ≠ .moveOf x)
    (hT : SrcTree S ts src n) (hF : SrcFresh S W.heap src n) : ∀ a ∈ S.addrs n, a ∉ S.addrs t := by
  intro a ha hat
  have hal := L.rep_alive _ _ (O.rep x t hx) a hat
  cases src with
  | moveOf y =>
    have hy : ts y = some n := hT
    exact O.disjoint y x n t hy hx (fun e => hsrc (by rw [e])) a ha hat
  | _ =>
    have := hF (by intro y; simp) a ha
    rw [this] at hal; cases hal

/-- Nodes that no tree has any more are free. -/
theorem released (L : Lawful S) (O : Owned S W ts) (hx : ts x = some (S.plug c s)) (hsrc : src ≠ .moveOf x)
    (hT : SrcTree S ts src n) (hF : SrcFresh S W.heap src n)
    (O' : Owned S W' (upd (afterSrc S ts src) x (some (S.plug c n)))) : ∀ a ∈ S.addrs s, W'.heap.cells a = none := by
  intro a ha
  have hat : a ∈ S.addrs (S.plug c s) := L.mem_plug.mpr (Or.inr ha)
  cases hcell : W'.heap.cells a with
  | none => rfl
  | some _ =>
    exfalso
    obtain ⟨z, u, hz, hau⟩ := O'.noLeak a (by simp [hcell])
    rcases upd_eq_some hz with ⟨rfl, rfl⟩ | ⟨hzx, hz⟩
    · rcases L.mem_plug.mp hau with h | h
      · have := (L.addrs_plug c s).nodup_iff.mp (L.rep_nodup _ _ (O.rep _ _ hx))
        exact (List.nodup_append.mp this).2.2 a h a ha rfl
      · exact src_disjoint L O hx hsrc hT hF a h hat
    · have hts : u = S.nil ∨ ts z = some u := by
        cases src with
        | moveOf y =>
          simp only [afterSrc] at hz
          rcases upd_eq_some hz with ⟨_, h⟩ | ⟨_, h⟩
          · exact Or.inl h
          · exact Or.inr h
        | _ => exact Or.inr hz
      rcases hts with rfl | hts
      · simp [L.addrs_nil] at hau
      · exact O.disjoint z x u _ hts hx hzx a hau hat

theorem afterSrc_self (src : Src α lit) (hsrc : src ≠ .moveOf x) (hx : ts x = some t) : afterSrc S ts src x = some t := by
  rw [afterSrc_other hsrc]; exact hx

namespace Generic

theorem insertOver (L : Lawful S) (O : Owned S W ts) (hx : ts x = some t) (hok : SrcOk S ts src) (hsrc : src ≠ .moveOf x)
    (A : At S P W.heap t pos c s) (hn : c = S.top ∨ ¬ SrcEmpty S ts src ∨ S.removable c) (sb ab : Bool) :
    ∃ W' n it, W.insertOver K sb ab P x pos src = Res.ok (W', .ret it) ∧ SrcTree S ts src n ∧ SrcFresh S W.heap src n ∧
      Owned S W' (upd (afterSrc S ts src) x (some (S.plug c n))) ∧ it.st.cur = S.ptr n ∧
      ∀ a ∈ S.addrs s, W'.heap.cells a = none := by
  obtain ⟨W1, n, rs, ra, r1, r', h', it, _, D, _, _, _, e, O', h1, h2, h3, _⟩ := insertOver_at L O hx hok hsrc A hn sb ab
  exact ⟨_, n, it, e, D.tree, D.fresh O, O', h1, released L O (by rw [A.place]; exact hx) hsrc D.tree (D.fresh O) O'⟩

theorem insertOverEmpty (L : Lawful S) (O : Owned S W ts) (hx : ts x = some S.nil) (hok : SrcOk S ts src) (hsrc : src ≠ .moveOf x)
    (hend : AtEnd pos) (sb ab : Bool) :
    ∃ W' n, W.insertOver K sb ab P x pos src = Res.ok (W', .ret pos) ∧ SrcTree S ts src n ∧ SrcFresh S W.heap src n ∧
      Owned S W' (upd (afterSrc S ts src) x (some n)) := by
  obtain ⟨W1, n, rs, ra, h', _, D, _, e, O'⟩ := insertOver_empty (P := P) L O hx hok hsrc hend sb ab
  exact ⟨_, n, e, D.tree, D.fresh O, O'⟩

theorem insertChild (L : Lawful S) (O : Owned S W ts) (hx : ts x = some t) (hok : SrcOk S ts src) (hsrc : src ≠ .moveOf x)
    (A : At S P W.heap t pos c s) (hf : S.isFull s = false) (front : Bool) :
    ∃ W' n it, W.insertChild K front P x pos src = Res.ok (W', .ret it) ∧ SrcTree S ts src n ∧ SrcFresh S W.heap src n ∧
      Owned S W' (upd (afterSrc S ts src) x (some (S.plug c (if front then S.front n s else S.back n s)))) ∧
      it.st.cur = pos.st.cur ∧
      At S P W'.heap (S.plug c (if front then S.front n s else S.back n s)) it c (if front then S.front n s else S.back n s) := by
  obtain ⟨W1, n, rs, ra, r1, h', it, _, D, _, _, _, _, e, O', h1, h2, _⟩ := insertChild_at L O hx hok hsrc A hf front
  exact ⟨_, n, it, e, D.tree, D.fresh O, O', h1, h2⟩

theorem erase (L : Lawful S) (O : Owned S W ts) (hx : ts x = some t)
    (A : At S Policy.postOrder W.heap t pos c s) (hn : c = S.top ∨ S.removable c) :
    ∃ W' l1 l2, W.erase K x pos = Res.ok (W', .ret ⟨⟨l2.head?, []⟩, S.ptr (S.plug c S.nil)⟩) ∧
      S.post t = l1 ++ S.post s ++ l2 ∧ S.post (S.plug c S.nil) = l1 ++ l2 ∧
      Owned S W' (upd ts x (some (S.plug c S.nil))) ∧ ∀ a ∈ S.addrs s, W'.heap.cells a = none := by
  obtain ⟨r, hr, _⟩ := O.get L hx
  obtain ⟨r', h', l1, l2, h1, h2, e, O', _⟩ := erase_at L O hx hr A hn
  refine ⟨_, l1, l2, e, h1, h2, O', fun a ha => ?_⟩
  have hat : a ∈ S.addrs (S.plug c s) := L.mem_plug.mpr (Or.inr ha)
  cases hcell : (World.heap ⟨h', upd W.vars x (some r')⟩).cells a with
  | none => rfl
  | some _ =>
    exfalso
    obtain ⟨z, u, hz, hau⟩ := O'.noLeak a (by rw [hcell]; rfl)
    have hx' : ts x = some (S.plug c s) := by rw [A.place]; exact hx
    rcases upd_eq_some hz with ⟨rfl, rfl⟩ | ⟨hzx, hz⟩
    · have := (L.addrs_plug c s).nodup_iff.mp (L.rep_nodup _ _ (O.rep _ _ hx'))
      exact (List.nodup_append.mp this).2.2 a hau a ha rfl
    · exact O.disjoint z x u _ hz hx' hzx a hau hat

/-! ### calls that throw -/

theorem overThrows (L : Lawful S) (O : Owned S W ts) (hx : ts x = some t) (hok : SrcOk S ts src)
    (hthrow : OverThrows S x t pos src) (hs : (∃ y, src = .moveOf y) ∨ SrcEmpty S ts src) (sb ab : Bool) :
    ∃ W', W.insertOver K sb ab P x pos src = Res.ok (W', .threw) ∧ Owned S W' ts := by
  by_cases hsrc : src = .moveOf x
  · subst hsrc; exact ⟨W, by simp [World.insertOver], O⟩
  · obtain ⟨hend, ht⟩ := hthrow.resolve_left hsrc
    obtain ⟨W1, _, _, _, _, _, e, O'⟩ := insertOver_end (P := P) L O hx ht hok hsrc hend hs sb ab
    exact ⟨W1, e, O'⟩

theorem childThrows (L : Lawful S) (O : Owned S W ts) (hx : ts x = some t) (hok : SrcOk S ts src)
    (hthrow : ChildThrows S W.heap P x t pos src) (hs : src = .moveOf x ∨ (∀ y, src ≠ .moveOf y) ∨ SrcEmpty S ts src) (front : Bool) :
    ∃ W', W.insertChild K front P x pos src = Res.ok (W', .threw) ∧ Owned S W' ts := by
  by_cases hsrc : src = .moveOf x
  · subst hsrc; exact ⟨W, by simp [World.insertChild], O⟩
  · obtain ⟨_, _, _, _, h', _, _, e, O'⟩ := insertChild_threw L O hx hok hsrc (hthrow.resolve_left hsrc) (hs.resolve_left hsrc) front
    exact ⟨_, e, O'⟩

/-- `insert_over` with something new at the end of a non-empty tree leaks. -/
theorem overLeaks (L : Lawful S) (D : Determined S) (O : Owned S W ts) (hx : ts x = some t) (ht : t ≠ S.nil) (hok : SrcOk S ts src)
    (hend : AtEnd pos) (hnew : ∀ y, src ≠ .moveOf y) (hne : ¬ SrcEmpty S ts src) (sb ab : Bool) :
    ∃ W' a, W.insertOver K sb ab P x pos src = Res.ok (W', .threw) ∧ W.heap.cells a = none ∧ (W'.heap.cells a).isSome ∧
      ∀ ts', ¬ Owned S W' ts' := by
  obtain ⟨W1, n, rs, ra, e1, Dn, _⟩ := overNode_spec L O hok sb ab
  obtain ⟨r, hr, _, hrt, hnt⟩ := O.get L hx
  obtain ⟨r1, hr1, hroot1, hnav1, _⟩ := Dn.vars x r hr
  obtain ⟨b, hb⟩ := L.ptr_of_ne ht
  have e2 := TreeOps.modify_end (K := K) (P := P) (h := W1.heap) (r := r1) (pos := pos) (p := S.ptr n) (rs := rs) (ra := ra)
    (by rw [hroot1, hrt, hb]; rfl) hend
  have hnn : n ≠ S.nil := fun e => hne (Dn.empty.mpr e)
  obtain ⟨a, ha⟩ := L.ptr_of_ne hnn
  have han := L.ptr_mem ha
  have he := insertOver_step (hnew x) e1 hr1 e2
  simp only at he
  rw [← hr1, upd_self] at he
  refine ⟨W1, a, he, Dn.fresh O hnew a han, L.rep_alive _ _ Dn.own.repN a han, fun ts' O' => ?_⟩
  have hts : ts' = ts := by
    funext z
    cases hv : W.vars z with
    | none =>
      have h1 := O'.alive z
      rw [Dn.dead z hv] at h1
      have h2 := O.alive z
      rw [hv] at h2
      cases h3 : ts z <;> cases h4 : ts' z <;> simp_all
    | some rz =>
      obtain ⟨r2, h1, h2, h3, _⟩ := Dn.vars z rz hv
      have h4 := O.alive z
      rw [hv] at h4
      obtain ⟨u, hu⟩ := Option.isSome_iff_exists.mp h4.symm
      have h5 := O'.alive z
      rw [h1] at h5
      obtain ⟨u', hu'⟩ := Option.isSome_iff_exists.mp h5.symm
      have hau : afterSrc S ts src z = some u := by rw [afterSrc_eq (Or.inl hnew)]; exact hu
      rw [hu, hu']
      congr 1
      refine D _ _ _ (O'.rep z u' hu') (Dn.own.rep z u hau) ?_
      rw [← (O'.root z _ _ h1 hu').1, ← (O.root z _ _ hv hu).1, h2]
  subst hts
  obtain ⟨z, u, hz, hau⟩ := O'.noLeak a (L.rep_alive _ _ Dn.own.repN a han)
  exact Dn.own.disjN z u (by rw [afterSrc_eq (Or.inl hnew)]; exact hz) a hau han

/-- `insert_child` of a moved non-empty tree that throws frees the nodes of a tree whose object still refers to them. -/
theorem childMoveDangles (L : Lawful S) (O : Owned S W ts) (hx : ts x = some t) {u : T} (hy : ts y = some u) (hu : u ≠ S.nil) (hxy : x ≠ y)
    (hbad : AtEnd pos ∨ ∃ c s, At S P W.heap t pos c s ∧ S.isFull s = true) (front : Bool) :
    ∃ W' r a, W.insertChild K front P x pos (.moveOf y) = Res.ok (W', .threw) ∧ W'.vars y = some r ∧ r.root = some a ∧
      W'.heap.cells a = none ∧ ∀ ts', ¬ Owned S W' ts' := by
  have hsrc : (Src.moveOf y : Src α lit) ≠ .moveOf x := fun e => hxy (by cases e; rfl)
  obtain ⟨W1, n, rs, ra, e1, D, _⟩ := childNode_spec L O (src := .moveOf y) (by simp [SrcOk, hy]) front
  obtain ⟨r, hr, _, hrt, hnt⟩ := O.get L hx
  obtain ⟨r1, hr1, hroot1, hnav1, _⟩ := D.vars x r hr
  obtain ⟨ry, hry, _, hryt, _⟩ := O.get L hy
  obtain ⟨ry1, hry1, hry2, _⟩ := D.vars y ry hry
  have hn : n = u := by
    have := D.tree
    simp only [SrcTree, hy, Option.some.injEq] at this
    exact this.symm
  subst hn
  have hx' : afterSrc S ts (.moveOf y : Src α lit) x = some t := by rw [afterSrc_other hsrc]; exact hx
  have hbad' : pos.st.cur = none ∨ ∃ x c s a, afterSrc S ts (.moveOf y : Src α lit) x = some (S.plug c s) ∧ S.ptr s = some a ∧
      pos.st.cur = some a ∧ S.isFull s = true := by
    rcases hbad with h | ⟨c, s, A, hf⟩
    · exact Or.inl h
    · obtain ⟨a, ha⟩ := L.ptr_of_ne A.node
      exact Or.inr ⟨x, c, s, a, by rw [A.place]; exact hx', ha, by rw [A.cur, ha], hf⟩
  obtain ⟨e2, _⟩ := TreeOps.addChild_threw L (K := K) (P := P) (r := r1) (rs := rs) (ra := ra) front D.own hbad'
  obtain ⟨a, ha⟩ := L.ptr_of_ne hu
  have he := insertChild_step hsrc e1 hr1 e2
  simp only at he
  rw [← hr1, upd_self] at he
  have hroot : ry1.root = some a := by rw [hry2, hryt, ha]
  have hfree : (W1.heap.freeAll (S.addrs n)).cells a = none := by simp [L.ptr_mem ha]
  refine ⟨_, ry1, a, he, hry1, hroot, hfree, fun ts' O' => ?_⟩
  have h1 := O'.alive y
  rw [hry1] at h1
  obtain ⟨v, hv⟩ := Option.isSome_iff_exists.mp h1.symm
  have h2 := (O'.root y _ _ hry1 hv).1
  rw [hroot] at h2
  have h3 := L.rep_alive _ _ (O'.rep y v hv) a (L.ptr_mem h2.symm)
  rw [hfree] at h3; cases h3

end Generic

end
