import Verif.Proof.Frame
import Verif.Proof.Laws
/-! The iterators that the modifiers return. -/
open Tree World Policy

section
variable {ν α lit T V C : Type} {K : Kind ν α lit} {S : Shape K T V C} {ts ts' : Nat → Option T} {W W' : World ν} {h : Heap ν}
  {n s t : T} {c : C} {x y z : Nat} {a : Addr} {P : Policy} {pos : It} {src : Src α lit}

theorem IsCursorAt.from {nav : Nav} {fuel : Nat} {l : List Addr} (H : IsCursorAt P nav fuel l) {st : ItState} (ha : a ∈ l)
    (hm : P.make nav fuel (some a) = Res.ok st) : ∃ k, l[k]? = some a ∧ CursorFrom P nav fuel l k st := by
  obtain ⟨k, hk⟩ := List.mem_iff_getElem?.mp ha
  refine ⟨k, hk, ?_, ?_⟩
  · obtain ⟨b, s, h1, h2, _⟩ := H k a hk [] k (by simp [Cursor.walk])
    rw [hm] at h1; cases h1
    rw [h2, hk]
  · intro ms i hw
    obtain ⟨b, s, h1, _, h2, h3⟩ := H k a hk ms i hw
    rw [hm] at h1; cases h1
    exact ⟨s, h2, h3⟩

theorem ordered_at {ord : Tree Addr → List Addr} (ho : ordered P ord) {nav : Nav} {R : Tree Addr} (N : NavSpec nav R) {fuel : Nat}
    (hf : R.size ≤ fuel) : IsCursorAt P nav fuel (ord R) := by
  rcases ho with ⟨rfl, rfl⟩ | ⟨rfl, rfl⟩ | ⟨rfl, rfl⟩
  · exact preOrder_at N hf
  · exact postOrder_at N hf
  · exact bfs_at' N hf

theorem ordered_mem {ord : Tree Addr → List Addr} (ho : ordered P ord) {R : Tree Addr} (ha : a ∈ R.pre) : a ∈ ord R := by
  rcases ho with ⟨_, rfl⟩ | ⟨_, rfl⟩ | ⟨_, rfl⟩
  · exact ha
  · exact mem_post.mpr ha
  · exact (bfs_perm R).mem_iff.mpr ha

theorem Policy.bfs_ne_stateless (f g : Nav → Nat → Addr → Res Ptr) (p q : Nav → Nat → Res Ptr) : stateless f g p q ≠ breadthFirst := by
  intro e
  have h2 := congrArg Policy.update e
  have := congrFun (congrFun (congrFun (congrFun h2 ⟨none, fun _ => Res.ub, fun _ => Res.ub, fun _ => Res.ub, fun _ => Res.ub, fun _ => Res.ub,
    fun _ => Res.ub, fun _ => Res.ub, fun _ => Res.ub, fun _ => Res.ub, fun _ => Res.ub, fun _ => Res.ub⟩) ⟨none, []⟩) 0) none
  cases this

theorem Policy.make_stateless {ord : Tree Addr → List Addr} (ho : ordered P ord) (hP : P ≠ breadthFirst) {nav : Nav} {fuel : Nat} {st : ItState}
    (ha : st.cur = some a) (hm : P.make nav fuel st.cur = Res.ok st) : st = ⟨some a, []⟩ := by
  rw [ha] at hm
  rcases ho with ⟨rfl, _⟩ | ⟨rfl, _⟩ | ⟨rfl, _⟩
  · simp only [preOrder, stateless, Res.pure_eq, Res.ok.injEq] at hm; exact hm.symm
  · simp only [postOrder, stateless, Res.pure_eq, Res.ok.injEq] at hm; exact hm.symm
  · exact absurd rfl hP

namespace Generic

/-- `insert_over` below the root returns the iterator that `make` would give at the new element. -/
theorem returnedMake (L : Lawful S) (O : Owned S W ts) (hx : ts x = some t) (hok : SrcOk S ts src) (hsrc : src ≠ .moveOf x)
    (A : At S P W.heap t pos c s) (hc : c ≠ S.top) (hne : ¬ SrcEmpty S ts src) (sb ab : Bool)
    (hP : P = breadthFirst ∨ ∃ f g p q, P = stateless f g p q)
    (hpos : P.make (K.nav W.heap pos.root) W.heap.fuel pos.st.cur = Res.ok pos.st) :
    ∃ W' n it a, W.insertOver K sb ab P x pos src = Res.ok (W', .ret it) ∧ SrcTree S ts src n ∧
      Owned S W' (upd (afterSrc S ts src) x (some (S.plug c n))) ∧ S.ptr n = some a ∧ it.st.cur = some a ∧ it.root = S.ptr (S.plug c n) ∧
      P.make (K.nav W'.heap it.root) W'.heap.fuel (some a) = Res.ok it.st := by
  obtain ⟨W1, n, rs, ra, r1, r', h', it, _, D, _, _, _, e, O', h1, h2, h3, _, _, haux⟩ :=
    insertOver_at L O hx hok hsrc A (Or.inr (Or.inl hne)) sb ab
  have hnn : n ≠ S.nil := fun e => hne (D.empty.mpr e)
  obtain ⟨a, ha⟩ := L.ptr_of_ne hnn
  have A' := h3 hc hnn
  refine ⟨_, n, it, a, e, D.tree, O', ha, h1.trans ha, A'.root, ?_⟩
  rcases hP with hP | ⟨f, g, p, q, hP⟩
  · have := A'.queue hP
    rw [h1, ha] at this; exact this
  · subst hP
    have hp : pos.st = ⟨pos.st.cur, []⟩ := by
      simp only [stateless, Res.pure_eq, Res.ok.injEq] at hpos
      exact hpos.symm
    have h4 := haux (bfs_ne_stateless f g p q)
    have h5 : it.st = ⟨some a, []⟩ := by
      cases hit : it.st with
      | mk cu au =>
        rw [hit] at h1 h4
        simp only at h1 h4
        rw [h1, ha, h4, hp]
    rw [h5]; rfl

theorem returned (L : Lawful S) (O : Owned S W ts) (hx : ts x = some t) (hok : SrcOk S ts src) (hsrc : src ≠ .moveOf x)
    (A : At S P W.heap t pos c s) (hc : c ≠ S.top) (hne : ¬ SrcEmpty S ts src) (sb ab : Bool)
    {ord : Tree Addr → List Addr} (ho : ordered P ord)
    (hpos : P.make (K.nav W.heap pos.root) W.heap.fuel pos.st.cur = Res.ok pos.st) :
    ∃ W' n it R k, W.insertOver K sb ab P x pos src = Res.ok (W', .ret it) ∧ SrcTree S ts src n ∧
      Owned S W' (upd (afterSrc S ts src) x (some (S.plug c n))) ∧ S.rose (S.plug c n) = [R] ∧ it.st.cur = S.ptr n ∧
      it.root = S.ptr (S.plug c n) ∧
      CursorFrom P (K.nav W'.heap it.root) W'.heap.fuel (ord R) k it.st := by
  have hP : P = breadthFirst ∨ ∃ f g p q, P = stateless f g p q := by
    rcases ho with ⟨rfl, _⟩ | ⟨rfl, _⟩ | ⟨rfl, _⟩
    · exact Or.inr ⟨_, _, _, _, rfl⟩
    · exact Or.inr ⟨_, _, _, _, rfl⟩
    · exact Or.inl rfl
  obtain ⟨W', n, it, a, e, hT, O', ha, h1, h2, h3⟩ := returnedMake L O hx hok hsrc A hc hne sb ab hP hpos
  have H := O'.rep x _ (upd_same _ _ _)
  have hat : a ∈ S.addrs (S.plug c n) := L.mem_plug.mpr (Or.inr (L.ptr_mem ha))
  rcases L.rose_cases (S.plug c n) with h | ⟨R, hR⟩
  · rw [h, L.addrs_nil] at hat; cases hat
  · have N := L.nav _ _ R H hR
    have haR : a ∈ R.pre := by simpa [Shape.addrs, hR] using hat
    obtain ⟨k, _, hk⟩ := (ordered_at ho N (L.fuel_ok O'.wf H hR)).from (ordered_mem ho haR) (by rw [← h2]; exact h3)
    exact ⟨W', n, it, R, k, e, hT, O', hR, h1.trans ha.symm, h2, by rw [h2]; exact hk⟩

theorem returnedChild (L : Lawful S) (O : Owned S W ts) (hx : ts x = some t) (hok : SrcOk S ts src) (hsrc : src ≠ .moveOf x)
    (A : At S P W.heap t pos c s) (hfull : S.isFull s = false) (front : Bool)
    {ord : Tree Addr → List Addr} (ho : ordered P ord) :
    ∃ W' n it R k, W.insertChild K front P x pos src = Res.ok (W', .ret it) ∧ SrcTree S ts src n ∧
      Owned S W' (upd (afterSrc S ts src) x (some (S.plug c (if front then S.front n s else S.back n s)))) ∧
      S.rose (S.plug c (if front then S.front n s else S.back n s)) = [R] ∧ it.st.cur = pos.st.cur ∧
      CursorFrom P (K.nav W'.heap it.root) W'.heap.fuel (ord R) k it.st := by
  obtain ⟨W1, n, rs, ra, r1, h', it, _, D, _, _, _, _, e, O', h1, h2, hmk⟩ := insertChild_at L O hx hok hsrc A hfull front
  obtain ⟨a, ha⟩ := L.ptr_of_ne h2.node
  have H := O'.rep x _ (upd_same _ _ _)
  generalize hs' : (if front then S.front n s else S.back n s) = s' at H h2 ha
  have hat : a ∈ S.addrs (S.plug c s') := L.mem_plug.mpr (Or.inr (L.ptr_mem ha))
  have hcur : it.st.cur = some a := h2.cur.trans ha
  have hm : P.make (K.nav h' it.root) h'.fuel (some a) = Res.ok it.st := by
    rw [hcur] at hmk; exact hmk
  rcases L.rose_cases (S.plug c s') with h | ⟨R, hR⟩
  · rw [h, L.addrs_nil] at hat; cases hat
  · have N := L.nav _ _ R H hR
    have haR : a ∈ R.pre := by simpa [Shape.addrs, hR] using hat
    obtain ⟨k, _, hk⟩ := (ordered_at ho N (L.fuel_ok O'.wf H hR)).from (ordered_mem ho haR) (by rw [← h2.root]; exact hm)
    exact ⟨_, n, it, R, k, e, D.tree, O', by rw [hs']; exact hR, h1, by rw [h2.root]; exact hk⟩

/-- `insert_over` at the root returns an iterator whose navigator still has the old, freed root. -/
theorem staleRoot (L : Lawful S) (O : Owned S W ts) (hx : ts x = some t) (hok : SrcOk S ts src) (hsrc : src ≠ .moveOf x)
    (A : At S P W.heap t pos S.top s) (sb ab : Bool) :
    ∃ W' n it b, W.insertOver K sb ab P x pos src = Res.ok (W', .ret it) ∧ SrcTree S ts src n ∧
      Owned S W' (upd (afterSrc S ts src) x (some n)) ∧ it.st.cur = S.ptr n ∧ it.root = some b ∧ W'.heap.cells b = none := by
  obtain ⟨W1, n, rs, ra, r1, r', h', it, _, D, _, _, _, e, O', h1, h2, h3, _, _, haux⟩ :=
    insertOver_at L O hx hok hsrc A (Or.inl rfl) sb ab
  have hx' : ts x = some (S.plug S.top s) := by rw [A.place]; exact hx
  have hf := released L O hx' hsrc D.tree (D.fresh O) O'
  obtain ⟨b, hb⟩ := L.ptr_of_ne A.node
  rw [L.plug_top] at O'
  refine ⟨_, n, it, b, e, D.tree, O', h1, ?_, hf b (L.ptr_mem hb)⟩
  have := A.place
  rw [L.plug_top] at this
  rw [h2, A.root, ← this, hb]

theorem cursor_end {nav : Nav} {fuel : Nat} {l : List Addr} (H : IsCursor P nav fuel l) {st : ItState}
    (hm : P.make nav fuel none = Res.ok st) (hcur : st.cur = none) : CursorFrom P nav fuel l l.length st := by
  refine ⟨by simp [hcur], fun ms i hw => ?_⟩
  obtain ⟨e, s, h1, h2, h3⟩ := H.2 ms i hw
  simp only [Iter.end_] at h1
  rw [hm] at h1; cases h1
  exact ⟨s, h2, h3⟩

theorem cursor_nil (nav : Nav) (hr : nav.root = none) (fuel : Nat) : CursorFrom P nav fuel [] 0 ⟨none, []⟩ := by
  refine ⟨rfl, fun ms => ?_⟩
  induction ms with
  | nil => intro i hw; exact ⟨_, rfl, by simp⟩
  | cons m ms ih =>
    intro i hw
    have hm : Cursor.step 0 m 0 = some 0 := by cases m <;> rfl
    simp only [Cursor.walk, List.length_nil, hm, Option.bind_some] at hw
    obtain ⟨s, h1, h2⟩ := ih i (by simpa using hw)
    refine ⟨s, ?_, h2⟩
    cases m <;> simpa [Iter.moves, Iter.move, Iter.inc, Iter.dec, hr] using h1

/-- A post_order iterator state at any index is a cursor. -/
theorem postCursor (L : Lawful S) (hw : h.WF) (H : S.Rep h t) {l1 l2 : List Addr} (hp : S.post t = l1 ++ l2) :
    CursorFrom postOrder (K.nav h (S.ptr t)) h.fuel (S.post t) l1.length ⟨l2.head?, []⟩ := by
  rcases L.rose_cases t with rfl | ⟨R, hR⟩
  · have h0 : S.post S.nil = [] := by simp [Shape.post, L.rose_nil]
    rw [h0] at hp
    have hh := hp.symm
    simp only [List.append_eq_nil_iff] at hh
    obtain ⟨rfl, rfl⟩ := hh
    rw [h0, L.ptr_nil]
    exact cursor_nil _ (L.nav_root _ _) _
  · have N := L.nav _ _ R H hR
    have hf := L.fuel_ok hw H hR
    have hpost : S.post t = R.post := by simp [Shape.post, hR, postL]
    rw [hpost] at hp ⊢
    cases l2 with
    | nil =>
      have : l1.length = R.post.length := by rw [hp]; simp
      rw [this]
      exact cursor_end (postOrder_cursor N hf) rfl rfl
    | cons b l2 =>
      have hk : R.post[l1.length]? = some b := by rw [hp]; simp
      refine ⟨by simp [hk], fun ms i hw => ?_⟩
      obtain ⟨b', s, h1, _, h2, h3⟩ := postOrder_at N hf l1.length b hk ms i hw
      cases h1
      exact ⟨s, h2, h3⟩

/-- A pre_order or post_order iterator on any node of a tree is a cursor. -/
theorem survives (L : Lawful S) (O : Owned S W ts) (hx : ts x = some t) (ha : a ∈ S.addrs t) {ord : Tree Addr → List Addr}
    (ho : ordered P ord) (hP : P ≠ breadthFirst) :
    ∃ R k, S.rose t = [R] ∧ (ord R)[k]? = some a ∧ CursorFrom P (K.nav W.heap (S.ptr t)) W.heap.fuel (ord R) k ⟨some a, []⟩ := by
  have H := O.rep x _ hx
  rcases L.rose_cases t with rfl | ⟨R, hR⟩
  · rw [L.addrs_nil] at ha; cases ha
  · have N := L.nav _ _ R H hR
    have haR : a ∈ R.pre := by simpa [Shape.addrs, hR] using ha
    have hm : P.make (K.nav W.heap (S.ptr t)) W.heap.fuel (some a) = Res.ok ⟨some a, []⟩ := by
      rcases ho with ⟨rfl, _⟩ | ⟨rfl, _⟩ | ⟨rfl, _⟩
      · rfl
      · rfl
      · exact absurd rfl hP
    obtain ⟨k, h1, h2⟩ := (ordered_at ho N (L.fuel_ok O.wf H hR)).from (ordered_mem ho haR) hm
    exact ⟨R, k, hR, h1, h2⟩

theorem eraseRange (L : Lawful S) (O : Owned S W ts) (hx : ts x = some t) {first last : It} {m : List Addr} {t' : T}
    (hR : Range S t first last m) (hP : Prune S t m t') :
    ∃ W' it, W.eraseRange K x first last = Res.ok (W', .ret it) ∧ Owned S W' (upd ts x (some t')) ∧ it.st.cur = last.st.cur ∧
      it.root = S.ptr t' := by
  obtain ⟨l1, l2, hp, hf, hl, hfr, hlr⟩ := hR
  obtain ⟨r, hr, _, hrt, hnt⟩ := O.get L hx
  obtain ⟨O1, M⟩ := (owned_match L).mp O
  have hfuel : m.length < W.heap.fuel := by
    have h1 := L.post_length t
    have h2 := L.size_le O.wf (O.rep x t hx)
    rw [hp] at h1
    simp only [List.length_append] at h1
    simp only [Heap.fuel]; omega
  obtain ⟨h', r', it, e, O', g1, g2, g3, g4, g5, _⟩ := TreeOps.eraseRange_spec L hP hfuel O1 hx hrt hnt hp hf hl hfr hlr (fun _ => rfl)
  exact ⟨⟨h', upd W.vars x (some r')⟩, it, by simp [World.eraseRange, World.get, hr, e, put_eq],
    (owned_match L).mpr ⟨O', match_upd (fun z _ => M z) (Match.some g1 g2)⟩, g3, g4⟩

end Generic
end

/-! ### pruning and the post-order -/

namespace BTree
variable {β : Type}

theorem prune_post (p : β → Bool) (t : BTree β) (h : t.Closed p) :
    Tree.postL (t.prune p).toRose = (Tree.postL t.toRose).filter (fun x => !p x) := by
  induction t with
  | nil => rfl
  | node a l r ihl ihr =>
    obtain ⟨h1, h2, h3⟩ := h
    unfold BTree.prune
    by_cases hp : p a = true
    · rw [if_pos hp]
      symm
      simp only [toRose_nil, Tree.postL, List.filter_eq_nil_iff, toRose_node, List.append_nil]
      intro x hx
      have : x = a ∨ x ∈ l.pre ++ r.pre := by
        rw [Tree.mem_post, Tree.pre, Tree.preL_append, preL_toRose, preL_toRose] at hx
        simpa using hx
      rcases this with rfl | hx
      · simp [hp]
      · simp [h1 hp x hx]
    · rw [if_neg hp]
      simp only [toRose_node, Tree.postL, Tree.post, List.append_nil, Tree.postL_append, List.filter_append, ihl h2, ihr h3]
      simp [hp]

end BTree

theorem BTree.post_addr {α : Type} (t : BTree (Addr × α)) : Tree.postL t.addrTree.toRose = (Tree.postL t.toRose).map Prod.fst := by
  rw [BTree.addrTree, BTree.toRose_map]
  induction t with
  | nil => rfl
  | node p l r ihl ihr =>
    simp only [BTree.toRose_node, List.map_cons, List.map_nil, Tree.map_node, Tree.postL, Tree.post, List.append_nil, Tree.mapL_eq,
      List.map_append, Tree.postL_append, ihl, ihr]

theorem BTree.filter_fst {α : Type} (m : List Addr) (l : List (Addr × α)) :
    (l.filter (fun p => !decide (p.1 ∈ m))).map Prod.fst = (l.map Prod.fst).filter (fun a => !decide (a ∈ m)) := by
  rw [List.filter_map]; rfl

theorem filter_middle {l1 m l2 : List Addr} (hn : (l1 ++ m ++ l2).Nodup) : (l1 ++ m ++ l2).filter (fun a => !decide (a ∈ m)) = l1 ++ l2 := by
  simp only [List.append_assoc, List.nodup_append, List.mem_append] at hn
  obtain ⟨_, ⟨_, _, h1⟩, h2⟩ := hn
  rw [List.filter_append, List.filter_append]
  have e1 : l1.filter (fun a => !decide (a ∈ m)) = l1 := by
    rw [List.filter_eq_self]; intro a ha
    simp only [Bool.not_eq_true', decide_eq_false_iff_not]
    exact fun hm => h2 a ha a (Or.inl hm) rfl
  have e2 : m.filter (fun a => !decide (a ∈ m)) = [] := by
    rw [List.filter_eq_nil_iff]; intro a ha; simp [ha]
  have e3 : l2.filter (fun a => !decide (a ∈ m)) = l2 := by
    rw [List.filter_eq_self]; intro a ha
    simp only [Bool.not_eq_true', decide_eq_false_iff_not]
    exact fun hm => h1 a hm a ha rfl
  rw [e1, e2, e3]; simp
