import Verif.Spec.Prune
import Verif.Proof.PredNav
import Verif.Proof.NaryNav
import Verif.Proof.Laws
/-! node_pred_navigator makes the policies see the tree without the subtrees that fail the predicate. -/
open Tree

namespace Tree
variable {β : Type} (q : β → Bool)

@[simp] theorem keep_node (a : β) (cs) : keep q (node a cs) = node a (keepL q cs) := by simp [keep]
theorem keepL_eq (ts : List (Tree β)) : keepL q ts = (ts.filter (fun t => q t.label)).map (keep q) := by
  induction ts with
  | nil => simp [keepL]
  | cons t ts ih => simp only [keepL, ih, List.filter_cons]; split <;> simp
@[simp] theorem label_keep (t : Tree β) : (keep q t).label = t.label := by cases t; simp
@[simp] theorem children_keep (t : Tree β) : (keep q t).children = keepL q t.children := by cases t; simp
theorem keepL_append (l r : List (Tree β)) : keepL q (l ++ r) = keepL q l ++ keepL q r := by simp [keepL_eq]

mutual
theorem keep_sublist : (t : Tree β) → (keep q t).pre.Sublist t.pre
  | .node a cs => by simp only [keep_node, pre_node]; exact (keepL_sublist cs).cons_cons a
theorem keepL_sublist : (ts : List (Tree β)) → (preL (keepL q ts)).Sublist (preL ts)
  | [] => by simp [keepL]
  | t :: ts => by
    rw [keepL]
    split
    · simp only [preL_cons]; exact (keep_sublist t).append (keepL_sublist ts)
    · simp only [preL_cons]; exact (keepL_sublist ts).trans (List.sublist_append_right _ _)
end

theorem keep_size (t : Tree β) : (keep q t).size ≤ t.size := by
  rw [← length_pre, ← length_pre]; exact (keep_sublist q t).length_le

theorem head_keepL (ts : List (Tree β)) : (keepL q ts).head?.map label = (ts.map label).find? q := by
  induction ts with
  | nil => rfl
  | cons t ts ih =>
    simp only [keepL, List.map_cons, List.find?_cons]
    split <;> simp_all

theorem keepL_split {ts l r : List (Tree β)} {s : Tree β} (h : keepL q ts = l ++ s :: r) :
    ∃ l' c r', ts = l' ++ c :: r' ∧ l = keepL q l' ∧ s = keep q c ∧ r = keepL q r' ∧ q c.label = true := by
  induction ts generalizing l with
  | nil => simp [keepL] at h
  | cons t ts ih =>
    rw [keepL] at h
    split at h
    case isTrue hq =>
      rw [List.cons_eq_append_iff] at h
      rcases h with ⟨rfl, h⟩ | ⟨l', rfl, h⟩
      · simp only [List.cons.injEq] at h
        exact ⟨[], t, ts, rfl, rfl, h.1, h.2, hq⟩
      · obtain ⟨l'', c, r', rfl, rfl, e1, e2, e3⟩ := ih h
        exact ⟨t :: l'', c, r', rfl, by simp [keepL, hq], e1, e2, e3⟩
    case isFalse hq =>
      obtain ⟨l', c, r', rfl, rfl, e1, e2, e3⟩ := ih h
      exact ⟨t :: l', c, r', rfl, by simp [keepL, hq], e1, e2, e3⟩

def Frame.keep (f : Frame β) : Frame β := ⟨f.label, keepL q f.lefts, keepL q f.rights⟩

theorem keep_plug {t : Tree β} : ∀ {fs : List (Frame β)} {s : Tree β}, plug fs s = keep q t →
    ∃ gs u, plug gs u = t ∧ s = keep q u ∧ fs = gs.map (Frame.keep q) ∧ (gs ≠ [] → q u.label = true) := by
  intro fs
  induction fs with
  | nil => intro s h; exact ⟨[], t, rfl, h, rfl, by simp⟩
  | cons f fs ih =>
    intro s h
    rw [plug_cons] at h
    obtain ⟨gs, u, h1, h2, h3, _⟩ := ih h
    obtain ⟨a, cs⟩ := u
    rw [keep_node, Tree.node.injEq] at h2
    obtain ⟨l, c, r, rfl, e1, e2, e3, e4⟩ := keepL_split q h2.2.symm
    refine ⟨⟨a, l, r⟩ :: gs, c, by simpa using h1, e2, ?_, fun _ => e4⟩
    obtain ⟨fl, fls, frs⟩ := f
    simp only at h2 e1 e3
    simp [Frame.keep, h2.1, e1, e3, h3]
end Tree

/-- Some navigator agrees with any given tree. -/
theorem NavSpec.exists (t : Tree Addr) (hn : t.pre.Nodup) : ∃ nav, NavSpec nav t := by
  let T : Tree (Addr × Unit) := t.map (fun a => (a, ()))
  have hT : T.addrTree = t := by
    have : ∀ s : Tree Addr, (s.map (fun a => (a, ()))).map Prod.fst = s := by
      intro s
      induction s using Tree.rec (motive_2 := fun ts => (mapL (fun a => (a, ())) ts).map (Tree.map Prod.fst) = ts) with
      | node a cs ih => simp only [map_node]; rw [mapL_eq Prod.fst, ih]
      | nil => simp [mapL]
      | cons t ts h1 h2 => simp [mapL, h1, h2]
    exact this t
  have hA : T.addrs = t.pre := by rw [← hT, addrTree, pre_map]; rfl
  let h : NHeap Unit := ⟨fun a => (Nary.cells none none none 0 T).lookup a, 0⟩
  have H : Nary.Rep h T := by
    have hk : (keys (Nary.cells none none none 0 T)).Nodup := by rw [Nary.keys_cells, hA]; exact hn
    refine ⟨?_, by rw [hA]; exact hn⟩
    intro x hx
    show (Nary.cells none none none 0 T).lookup x.1 = some x.2
    revert hk hx
    generalize Nary.cells none none none 0 T = l
    induction l with
    | nil => simp
    | cons y l ih =>
      intro hk hx
      simp only [keys, List.map_cons, List.nodup_cons] at hk
      rcases List.mem_cons.mp hx with rfl | hx'
      · simp [List.lookup]
      · have : (x.1 == y.1) = false := by
          simp only [beq_eq_false_iff_ne]
          intro e
          exact hk.1 (List.mem_map.mpr ⟨x, hx', e⟩)
        obtain ⟨y1, y2⟩ := y
        simp only [List.lookup, this]
        exact ih hk.2 hx'
  have := Nary.nav_spec (gs := []) H
  rw [hT] at this
  exact ⟨_, this⟩

namespace PredNav
variable {nv : Nav} {t : Tree Addr} {p : Addr → Res Bool} {q : Addr → Bool} {fuel : Nat}

/-- The predicate navigator with correct answers where the code's are wrong. -/
theorem agrees (H : NavSpec nv t) (hp : ∀ a ∈ t.pre, p a = Res.ok (q a)) (hf : t.size ≤ fuel) :
    ∃ pv la isf isl, NavSpec { nav nv p fuel with prev := pv, last := la, isFirst := isf, isLast := isl } (keep q t) := by
  obtain ⟨n, N⟩ := NavSpec.exists (keep q t) ((keep_sublist q t).nodup H.nodup)
  refine ⟨n.prev, n.last, n.isFirst, n.isLast, N.nodup, ?_, ?_, N.prev, ?_, ?_, N.last, N.isFirst, N.isLast⟩
  · simp [nav, H.root]
  · intro fs s h
    obtain ⟨gs, u, h1, rfl, rfl, _⟩ := keep_plug q h
    have := H.parent gs u h1
    simp [nav, this]
    cases gs <;> simp [Frame.keep]
  · intro fs s h
    obtain ⟨gs, u, h1, rfl, rfl, _⟩ := keep_plug q h
    cases gs with
    | nil =>
      subst h1
      simpa [nav] using next_root H (Nat.lt_of_lt_of_le (size_pos _) hf)
    | cons g gs =>
      simp only [nav, label_keep, next_spec H hp hf h1, List.map_cons, List.head?_cons, Option.bind_some, Frame.keep, head_keepL]
  · intro fs s h
    obtain ⟨gs, u, h1, rfl, rfl, _⟩ := keep_plug q h
    simp only [nav, label_keep, first_spec H hp hf h1, children_keep, head_keepL]

/-- With `LastKept` the code's `is_last_child` is right too. -/
theorem agrees_last (H : NavSpec nv t) (hp : ∀ a ∈ t.pre, p a = Res.ok (q a)) (hf : t.size ≤ fuel) (hl : LastKept q t) :
    ∃ pv la isf, NavSpec { nav nv p fuel with prev := pv, last := la, isFirst := isf } (keep q t) := by
  obtain ⟨pv, la, isf, isl, N⟩ := agrees H hp hf
  refine ⟨pv, la, isf, N.nodup, N.root, N.parent, N.prev, N.next, N.first, N.last, N.isFirst, ?_⟩
  intro fs s h
  obtain ⟨gs, u, h1, rfl, rfl, hq⟩ := keep_plug q h
  have := H.isLast gs u h1
  simp only [nav, label_keep, this]
  cases gs with
  | nil => rfl
  | cons g gs =>
    simp only [List.head?_cons, Option.any_some, List.map_cons, Frame.keep]
    congr 1
    rcases List.eq_nil_or_concat g.rights with e | ⟨rs, c, e⟩
    · simp [e, keepL]
    · have hc := hl gs g.label (g.lefts ++ u :: rs) c (by rw [← h1]; simp [e]) ⟨u, by simp, hq (by simp)⟩
      rw [e, List.concat_eq_append, keepL_append]; cases rs <;> simp [keepL, hc]

open Policy Iter

theorem forward_congr {P : Policy} {n n' : Nav} {fuel : Nat} (hm : P.make n fuel none = P.make n' fuel none) (hr : n.root = n'.root)
    (hi : ∀ a x, P.inc n fuel a x = P.inc n' fuel a x) (hg : ∀ x, P.goFirst n fuel x = P.goFirst n' fuel x) :
    forward P n fuel = forward P n' fuel := by
  have e : ∀ s, Iter.inc P n fuel s = Iter.inc P n' fuel s := by
    intro s; simp only [Iter.inc, hr, hi, hg]
  have e2 : ∀ k s, forwardFrom P n fuel k s = forwardFrom P n' fuel k s := by
    intro k
    induction k with
    | zero => intro s; rfl
    | succ k ih => intro s; simp only [forwardFrom, e, ih]
  simp only [forward, begin_, end_, hm, e, e2]

theorem leavesDescend_congr {n n' : Nav} (h1 : n.next = n'.next) (h2 : n.first = n'.first) (k : Nat) (a : Addr) (st : List Addr) :
    leavesDescend n k a st = leavesDescend n' k a st := by
  induction k generalizing a st with
  | zero => rfl
  | succ k ih => simp only [leavesDescend, h1, h2, ih]

theorem forward_post (H : NavSpec nv t) (hp : ∀ a ∈ t.pre, p a = Res.ok (q a)) (hf : t.size < fuel) :
    forward postOrder (nav nv p fuel) fuel = Res.ok (keep q t).post := by
  obtain ⟨pv, la, isf, isl, N⟩ := agrees H hp (Nat.le_of_lt hf)
  have := keep_size q t
  rw [← (loops (fuel := fuel) N (by omega)).2.1.1]
  exact forward_congr rfl rfl (fun _ _ => rfl) (fun _ => rfl)

theorem forward_bfs (H : NavSpec nv t) (hp : ∀ a ∈ t.pre, p a = Res.ok (q a)) (hf : t.size < fuel) :
    forward breadthFirst (nav nv p fuel) fuel = Res.ok (keep q t).bfs := by
  obtain ⟨pv, la, isf, isl, N⟩ := agrees H hp (Nat.le_of_lt hf)
  have := keep_size q t
  rw [← (loops (fuel := fuel) N (by omega)).2.2.1.1]
  exact forward_congr rfl rfl (fun _ _ => rfl) (fun _ => rfl)

theorem forward_siblings (H : NavSpec nv t) (hp : ∀ a ∈ t.pre, p a = Res.ok (q a)) (hf : t.size < fuel) :
    forward siblings (nav nv p fuel) fuel = Res.ok ((t.children.map label).filter q) := by
  obtain ⟨pv, la, isf, isl, N⟩ := agrees H hp (Nat.le_of_lt hf)
  have := keep_size q t
  have h := (loops (fuel := fuel) N (by omega)).2.2.2.1
  rw [children_keep, keepL_eq, List.map_map] at h
  have e : (t.children.map label).filter q = List.map (label ∘ keep q) (List.filter (fun t => q t.label) t.children) := by
    rw [List.filter_map]
    exact List.map_congr_left (by simp)
  rw [e]
  rw [← h]
  exact forward_congr rfl rfl (fun _ _ => rfl) (fun _ => rfl)

theorem forward_leaves (H : NavSpec nv t) (hp : ∀ a ∈ t.pre, p a = Res.ok (q a)) (hf : t.size < fuel) :
    forward Policy.leaves (nav nv p fuel) fuel = Res.ok (keep q t).leaves := by
  obtain ⟨pv, la, isf, isl, N⟩ := agrees H hp (Nat.le_of_lt hf)
  have := keep_size q t
  have h := leaves_forward (fuel := fuel) N (by omega)
  rw [← h]
  refine forward_congr rfl rfl (fun _ st => ?_) (fun st => ?_)
  · cases st with
    | nil => rfl
    | cons a st => simp only [Policy.leaves, leavesInc]; congr; funext b; congr; funext c; apply leavesDescend_congr <;> rfl
  · simp only [Policy.leaves]; congr; funext b; apply leavesDescend_congr <;> rfl

theorem forward_pre (H : NavSpec nv t) (hp : ∀ a ∈ t.pre, p a = Res.ok (q a)) (hf : t.size < fuel) (hl : LastKept q t) :
    forward preOrder (nav nv p fuel) fuel = Res.ok (keep q t).pre := by
  obtain ⟨pv, la, isf, N⟩ := agrees_last H hp (Nat.le_of_lt hf) hl
  have := keep_size q t
  rw [← (loops (fuel := fuel) N (by omega)).1.1]
  exact forward_congr rfl rfl (fun _ _ => rfl) (fun _ => rfl)

end PredNav

namespace BTree
variable {β : Type} (q : β → Bool)

theorem label?_only (t : BTree β) : (only q t).label? = t.label?.filter q := by
  cases t with
  | nil => rfl
  | node a l r => by_cases h : q a <;> simp [only, h, Option.filter]

@[simp] theorem label?_keep (t : BTree β) : (keep q t).label? = t.label? := by cases t <;> rfl

theorem keep_sublist (t : BTree β) : (keep q t).pre.Sublist t.pre := by
  have ho : ∀ t : BTree β, (only q t).pre.Sublist t.pre := by
    intro t
    cases t with
    | nil => exact List.Sublist.refl _
    | node a l r => simp only [only]; split; exact List.Sublist.refl _; exact List.nil_sublist _
  induction t with
  | nil => exact List.Sublist.refl _
  | node a l r hl hr =>
    simp only [keep, pre_node]
    exact (((ho _).trans hl).append ((ho _).trans hr)).cons_cons a

theorem keep_size (t : BTree β) : (keep q t).size ≤ t.size := by
  rw [← length_inorder, ← length_inorder, (inorder_perm_pre _).length_eq, (inorder_perm_pre t).length_eq]
  exact (keep_sublist q t).length_le

theorem only_eq_node {t : BTree β} {a : β} {l r} (h : only q t = node a l r) : t = node a l r ∧ q a = true := by
  cases t with
  | nil => cases h
  | node b l' r' =>
    simp only [only] at h
    split at h
    · cases h; exact ⟨rfl, by assumption⟩
    · cases h

def Frame.keep (f : Frame β) : Frame β := ⟨f.label, f.holeLeft, only q (BTree.keep q f.other)⟩

theorem keep_plug {t : BTree β} : ∀ {fs : List (Frame β)} {a : β} {l r : BTree β}, plug fs (node a l r) = keep q t →
    ∃ gs l' r', plug gs (node a l' r') = t ∧ node a l r = keep q (node a l' r') ∧ fs = gs.map (Frame.keep q) := by
  intro fs
  induction fs with
  | nil =>
    intro a l r h
    cases t with
    | nil => cases h
    | node b l' r' => cases h; exact ⟨[], l', r', rfl, rfl, rfl⟩
  | cons f fs ih =>
    intro a l r h
    obtain ⟨fl, side, o⟩ := f
    cases side with
    | true =>
      obtain ⟨gs, l', r', h1, h2, h3⟩ := ih (a := fl) (l := node a l r) (r := o) (by simpa [Frame.fill] using h)
      simp only [keep, node.injEq, true_and] at h2
      obtain ⟨e, _⟩ := only_eq_node q h2.1.symm
      cases l' with
      | nil => cases e
      | node b l'' r'' =>
        simp only [keep, node.injEq] at e
        obtain ⟨rfl, e1, e2⟩ := e
        exact ⟨⟨fl, true, r'⟩ :: gs, l'', r'', by simpa [Frame.fill] using h1, by simp [keep, e1, e2], by simp [Frame.keep, h2.2, h3]⟩
    | false =>
      obtain ⟨gs, l', r', h1, h2, h3⟩ := ih (a := fl) (l := o) (r := node a l r) (by simpa [Frame.fill] using h)
      simp only [keep, node.injEq, true_and] at h2
      obtain ⟨e, _⟩ := only_eq_node q h2.2.symm
      cases r' with
      | nil => cases e
      | node b l'' r'' =>
        simp only [keep, node.injEq] at e
        obtain ⟨rfl, e1, e2⟩ := e
        exact ⟨⟨fl, false, l'⟩ :: gs, l'', r'', by simpa [Frame.fill] using h1, by simp [keep, e1, e2], by simp [Frame.keep, h2.1, h3]⟩
end BTree

namespace PredNav
variable {nv : Nav} {t : BTree Addr} {p : Addr → Res Bool} {q : Addr → Bool} {fuel : Nat}

theorem left_spec (H : BNavSpec nv t) (hp : ∀ a ∈ t.pre, p a = Res.ok (q a)) {fs a l r} (h : BTree.plug fs (.node a l r) = t) :
    (nav nv p fuel).left a = Res.ok (l.label?.filter q) := by
  show left nv p a = _
  simp only [left, H.left fs a l r h, Res.ok_bind]
  cases l with
  | nil => rfl
  | node b l' r' =>
    have hm : b ∈ t.pre := by
      rw [← (BTree.inorder_perm_pre t).mem_iff, ← h, BTree.inorder_plug]; simp
    simp only [BTree.label?_node, hp b hm, Res.ok_bind]
    by_cases hq : q b <;> simp [hq, Option.filter]

theorem right_spec (H : BNavSpec nv t) (hp : ∀ a ∈ t.pre, p a = Res.ok (q a)) {fs a l r} (h : BTree.plug fs (.node a l r) = t) :
    (nav nv p fuel).right a = Res.ok (r.label?.filter q) := by
  show right nv p a = _
  simp only [right, H.right fs a l r h, Res.ok_bind]
  cases r with
  | nil => rfl
  | node b l' r' =>
    have hm : b ∈ t.pre := by
      rw [← (BTree.inorder_perm_pre t).mem_iff, ← h, BTree.inorder_plug]; simp
    simp only [BTree.label?_node, hp b hm, Res.ok_bind]
    by_cases hq : q b <;> simp [hq, Option.filter]

theorem bnav (H : BNavSpec nv t) (hp : ∀ a ∈ t.pre, p a = Res.ok (q a)) : BNavSpec (nav nv p fuel) (BTree.keep q t) := by
  refine ⟨(BTree.keep_sublist q t).nodup H.nodup, by simp [nav, H.root], ?_, ?_, ?_, ?_, ?_⟩
  all_goals
    intro fs a l r h
    obtain ⟨gs, l', r', h1, h2, rfl⟩ := BTree.keep_plug q h
    simp only [BTree.keep, BTree.node.injEq, true_and] at h2
  · have := H.parent _ _ _ _ h1
    simp only [nav, this]
    cases gs <;> simp [BTree.Frame.keep]
  · rw [left_spec H hp h1, h2.1, BTree.label?_only, BTree.label?_keep]
  · rw [right_spec H hp h1, h2.2, BTree.label?_only, BTree.label?_keep]
  · have := H.isLeft _ _ _ _ h1
    simp only [nav, this]
    cases gs <;> simp [BTree.Frame.keep]
  · have := H.isRight _ _ _ _ h1
    simp only [nav, this]
    cases gs <;> simp [BTree.Frame.keep]
end PredNav
