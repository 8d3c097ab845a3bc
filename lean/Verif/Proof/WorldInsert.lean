import Verif.Proof.WorldOps
/-! Insertions, on program states. -/
open Tree World

section
variable {ν α lit T V C : Type} {K : Kind ν α lit} {Z : Addr → Prop} {S : Shape K T V C} {h h' : Heap ν} {ts : Nat → Option T} {W W1 : World ν}
  {n s t u : T} {x y : Nat} {c : C} {a : Addr} {P : Policy} {r : TreeRec} {pos : It} {rs ra : Nat} {src : Src α lit}
  {sb ab front : Bool}

/-- The state after the source of an insertion is evaluated: its nodes `n` are loose. -/
structure SrcDone (Z : Addr → Prop) (S : Shape K T V C) (W : World ν) (ts : Nat → Option T) (src : Src α lit) (W1 : World ν) (n : T) : Prop where
  own : Own Z S W1.heap (afterSrc S ts src) n
  tree : SrcTree S ts src n
  empty : SrcEmpty S ts src ↔ n = S.nil
  dead : ∀ z, W.vars z = none → W1.vars z = none
  vars : ∀ z r, W.vars z = some r → ∃ r1, W1.vars z = some r1 ∧ r1.root = r.root ∧ r1.navRoot = r.navRoot ∧
    ∀ t, ts z = some t → CacheOk S r t → CacheOk S r1 t
  same : ∀ z, src ≠ .copyOf z → src ≠ .moveOf z → W1.vars z = W.vars z

theorem done_fresh (O : OwnedBut Z S W ts) (L : Lawful S) (hsrc : (∀ y, src ≠ .moveOf y)) {n : T} {h' : Heap ν}
    (G : Own Z S h' ts n) (hT : SrcTree S ts src n) (hE : SrcEmpty S ts src ↔ n = S.nil) :
    SrcDone Z S W ts src (W.setHeap h') n := by
  refine ⟨?_, hT, hE, fun _ h => h, fun z r hr => ⟨r, hr, rfl, rfl, fun _ _ h => h⟩, fun _ _ _ => rfl⟩
  cases src with
  | moveOf y => exact absurd rfl (hsrc y)
  | _ => exact G

variable (L : Lawful S)
include L

theorem sizeAns_ok (hc : CacheOk S r t) : sizeAns S r t = S.size t := by
  unfold sizeAns; split
  · rfl
  · rcases hc.1 with h | h
    · exact absurd h ‹_›
    · exact h
theorem arityAns_ok (hc : CacheOk S r t) : arityAns S r t = S.arity t := by
  unfold arityAns; split
  · rfl
  · rcases hc.2 with h | h
    · exact absurd h ‹_›
    · exact h

/-- `other.replace_node(other.root_node, nullptr, 0, 0)` hands the nodes over without touching them. -/
theorem takeRoot (O1 : Own Z S W.heap ts S.nil) (hy : ts y = some t) (hr : r.root = S.ptr t) :
    ∃ r1, TreeOps.replaceNode K W.heap r r.root none 0 0 = Res.ok (W.heap, r1, S.ptr t) ∧ r1.root = r.root ∧
      r1.navRoot = r.navRoot ∧ (t ≠ S.nil → r1.size = 0 ∧ r1.arity = 0) ∧ (t = S.nil → r1 = r) := by
  rw [hr]
  cases hp : S.ptr t with
  | none =>
    have := L.ptr_none_iff.mp hp
    exact ⟨r, by simp [TreeOps.replaceNode], hr.trans hp, rfl, fun h => absurd this h, fun _ => rfl⟩
  | some a =>
    have hne : t ≠ S.nil := fun e => by rw [L.ptr_none_iff.mpr e] at hp; cases hp
    refine ⟨{ r with size := 0, arity := 0 }, ?_, hr.trans hp, rfl, fun _ => ⟨rfl, rfl⟩, fun e => absurd e hne⟩
    simp [TreeOps.replaceNode, hr, hp, L.detach _ _ _ _ (O1.rep y t hy) hp]

theorem sizeQ_ok (hw : h.WF) (H : S.Rep h t) (hr : r.root = S.ptr t) :
    ∃ v r1, TreeOps.sizeQ K h r = Res.ok (v, r1) ∧ r1.root = r.root ∧ r1.navRoot = r.navRoot ∧
      (CacheOk S r t → v = S.size t ∧ CacheOk S r1 t) :=
  ⟨_, _, TreeOps.sizeQ_spec L hw H hr, rfl, rfl, fun hc => ⟨sizeAns_ok L hc, Or.inr (sizeAns_ok L hc), hc.2⟩⟩

theorem arityQ_ok (hw : h.WF) (H : S.Rep h t) (hr : r.root = S.ptr t) :
    ∃ v r1, TreeOps.arityQ K h r = Res.ok (v, r1) ∧ r1.root = r.root ∧ r1.navRoot = r.navRoot ∧
      (CacheOk S r t → v = S.arity t ∧ CacheOk S r1 t) :=
  ⟨_, _, TreeOps.arityQ_spec L hw H hr, rfl, rfl, fun hc => ⟨arityAns_ok L hc, hc.1, Or.inr (arityAns_ok L hc)⟩⟩

theorem sizeQ_ok' (hw : h.WF) (H : S.Rep h t) (hr : r.root = S.ptr t) :
    ∃ v r1, TreeOps.sizeQ K h r = Res.ok (v, r1) ∧ r1.root = r.root ∧ r1.navRoot = r.navRoot ∧
      (CacheOk S r t → v = S.size t ∧ CacheOk S r1 t) ∧ r1.size = v :=
  ⟨_, _, TreeOps.sizeQ_spec L hw H hr, rfl, rfl, fun hc => ⟨sizeAns_ok L hc, Or.inr (sizeAns_ok L hc), hc.2⟩, rfl⟩

theorem arityQ_ok' (hw : h.WF) (H : S.Rep h t) (hr : r.root = S.ptr t) :
    ∃ v r1, TreeOps.arityQ K h r = Res.ok (v, r1) ∧ r1.root = r.root ∧ r1.navRoot = r.navRoot ∧
      (CacheOk S r t → v = S.arity t ∧ CacheOk S r1 t) ∧ r1.size = r.size :=
  ⟨_, _, TreeOps.arityQ_spec L hw H hr, rfl, rfl, fun hc => ⟨arityAns_ok L hc, hc.1, Or.inr (arityAns_ok L hc)⟩, rfl⟩

theorem takeRoot_ok (O1 : Own Z S W.heap ts S.nil) (hy : ts y = some t) (hr : r.root = S.ptr t) :
    ∃ r1, TreeOps.replaceNode K W.heap r r.root none 0 0 = Res.ok (W.heap, r1, S.ptr t) ∧ r1.root = r.root ∧
      r1.navRoot = r.navRoot ∧ (CacheOk S r t → CacheOk S r1 t) := by
  obtain ⟨r1, e, h1, h2, h3, h4⟩ := takeRoot L O1 hy hr
  refine ⟨r1, e, h1, h2, fun hc => ?_⟩
  by_cases hn : t = S.nil
  · rw [h4 hn]; exact hc
  · exact ⟨Or.inl (h3 hn).1, Or.inl (h3 hn).2⟩

theorem takeNodes_spec (O : OwnedBut Z S W ts) (hy : ts y = some t) (hr : W.vars y = some r) (sb ab : Bool) :
    ∃ r1 rs ra, takeNodes K sb ab W y = Res.ok (⟨W.heap, upd W.vars y (some r1)⟩, S.ptr t, rs, ra) ∧
      r1.root = r.root ∧ r1.navRoot = r.navRoot ∧ (CacheOk S r t → rs = S.size t ∧ ra = S.arity t ∧ CacheOk S r1 t) := by
  obtain ⟨O1, M⟩ := (owned_match L).mp O
  have hrt := ((M y).root r t hr hy).1
  have H := O1.rep y t hy
  have w := O1.wf
  unfold takeNodes
  simp only [World.get, hr, Res.ok_bind]
  cases sb <;> cases ab <;> simp only [Bool.false_eq_true, if_true, if_false]
  · obtain ⟨r1, e1, p1, q1, k1⟩ := takeRoot_ok L O1 hy hrt
    obtain ⟨v2, r2, e2, p2, q2, k2⟩ := sizeQ_ok L w H (p1.trans hrt)
    obtain ⟨v3, r3, e3, p3, q3, k3⟩ := arityQ_ok L w H (p2.trans (p1.trans hrt))
    refine ⟨r3, v2, v3, ?_, by grind, by grind, by grind⟩
    simp [e1, e2, e3, put_eq]
  · obtain ⟨v3, r3, e3, p3, q3, k3⟩ := arityQ_ok L w H hrt
    obtain ⟨r1, e1, p1, q1, k1⟩ := takeRoot_ok L O1 hy (p3.trans hrt)
    obtain ⟨v2, r2, e2, p2, q2, k2⟩ := sizeQ_ok L w H (p1.trans (p3.trans hrt))
    refine ⟨r2, v2, v3, ?_, by grind, by grind, by grind⟩
    simp [e1, e2, e3, put_eq]
  · obtain ⟨v3, r3, e3, p3, q3, k3⟩ := sizeQ_ok L w H hrt
    obtain ⟨r1, e1, p1, q1, k1⟩ := takeRoot_ok L O1 hy (p3.trans hrt)
    obtain ⟨v2, r2, e2, p2, q2, k2⟩ := arityQ_ok L w H (p1.trans (p3.trans hrt))
    refine ⟨r2, v3, v2, ?_, by grind, by grind, by grind⟩
    simp [e1, e2, e3, put_eq]
  · obtain ⟨v3, r3, e3, p3, q3, k3⟩ := sizeQ_ok L w H hrt
    obtain ⟨v2, r2, e2, p2, q2, k2⟩ := arityQ_ok L w H (p3.trans hrt)
    obtain ⟨r1, e1, p1, q1, k1⟩ := takeRoot_ok L O1 hy (p2.trans (p3.trans hrt))
    refine ⟨r1, v3, v2, ?_, by grind, by grind, by grind⟩
    simp [e1, e2, e3, put_eq]

/-! ### the sources -/

theorem done_move (O : OwnedBut Z S W ts) (hy : ts y = some t) (hr : W.vars y = some r) {r1 : TreeRec} (h1 : r1.root = r.root)
    (h2 : r1.navRoot = r.navRoot) (h3 : CacheOk S r t → CacheOk S r1 t) :
    SrcDone Z S W ts (Src.moveOf y : Src α lit) ⟨W.heap, upd W.vars y (some r1)⟩ t := by
  obtain ⟨O1, M⟩ := (owned_match L).mp O
  refine ⟨O1.exchange L hy, hy, ?_, ?_, ?_, ?_⟩
  · simp [SrcEmpty, hy]
  · intro z hz
    have : z ≠ y := by rintro rfl; rw [hr] at hz; cases hz
    simp [upd, this, hz]
  · intro z rz hz
    by_cases e : z = y
    · subst e
      rw [hr] at hz; cases hz
      refine ⟨r1, by simp [upd], h1, h2, fun u hu hc => ?_⟩
      rw [hy] at hu; cases hu
      exact h3 hc
    · exact ⟨rz, by simp [upd, e, hz], rfl, rfl, fun _ _ h => h⟩
  · intro z _ hz
    have : z ≠ y := by rintro rfl; exact hz rfl
    simp [upd, this]

theorem single_ne_nil (a : Addr) (v : α) : S.single a v ≠ S.nil := by
  intro e
  have := L.rose_single a v
  rw [e, L.rose_nil] at this; cases this

theorem single_size (a : Addr) (v : α) : S.size (S.single a v) = 1 ∧ S.arity (S.single a v) = 0 := by
  simp [Shape.size, Shape.arity, L.rose_single]

theorem alloc_grown (hw : h.WF) (v : α) : Grown h (h.alloc (K.leaf v)).1 (S.addrs (S.single h.next v)) := by
  have ha : S.addrs (S.single h.next v) = [h.next] := by simp [Shape.addrs, L.rose_single]
  rw [ha]
  refine ⟨?_, ?_, ?_, ?_, ?_⟩ <;> simp [Heap.alloc, Heap.WF] <;> grind [Heap.WF]

theorem value_done (O : OwnedBut Z S W ts) (v : α) :
    SrcDone Z S W ts (Src.value v : Src α lit) (W.setHeap (W.heap.alloc (K.leaf v)).1) (S.single W.heap.next v) := by
  obtain ⟨O1, M⟩ := (owned_match L).mp O
  exact done_fresh O L (by simp) (O1.grow L (alloc_grown L O1.wf v) (L.leaf _ v O1.wf)) ⟨_, rfl⟩
    ⟨fun h => h.elim, fun h => single_ne_nil L _ _ h⟩

theorem single_ptr (a : Addr) (v : α) : S.ptr (S.single a v) = some a := by simp [Shape.ptr, L.rose_single]

theorem lit_done (O : OwnedBut Z S W ts) {l : lit} (hl : S.litOk l) (hs : src = .lit l ∨ src = .emplaceLit l) :
    ∃ h' n a, K.ofLit W.heap l = Res.ok (h', a) ∧ S.ptr n = some a ∧ SrcDone Z S W ts src (W.setHeap h') n := by
  obtain ⟨O1, M⟩ := (owned_match L).mp O
  obtain ⟨h', b, n, e, h1, h2, h3, h4⟩ := L.ofLit W.heap l O1.wf hl
  refine ⟨h', n, b, e, h1, done_fresh O L ?_ (O1.grow L h4 h2) ?_ ?_⟩
  · rcases hs with rfl | rfl <;> simp
  · rcases hs with rfl | rfl <;> exact h3
  · have : n ≠ S.nil := by rintro rfl; rw [L.ptr_nil] at h1; cases h1
    rcases hs with rfl | rfl <;> simp [SrcEmpty, this]

theorem copy_done (O : OwnedBut Z S W ts) (hy : ts y = some t) (hr : W.vars y = some r) :
    ∃ h' n, copyNodes K W r = Res.ok (W.setHeap h', S.ptr n) ∧ SrcDone Z S W ts (Src.copyOf y : Src α lit) (W.setHeap h') n ∧
      S.vals n = S.vals t := by
  obtain ⟨O1, M⟩ := (owned_match L).mp O
  obtain ⟨h', n, e, O2, hv⟩ := copyNodes_spec L O1 hy ((M y).root r t hr hy).1
  refine ⟨h', n, e, done_fresh O L (by simp) O2 ⟨t, hy, hv⟩ ?_, hv⟩
  simp only [SrcEmpty, hy, Option.some.injEq]
  exact ((L.vals_inj n t hv).1).symm

theorem overNode_spec (O : OwnedBut Z S W ts) (hok : SrcOk S ts src) (sb ab : Bool) :
    ∃ W1 n rs ra, overNode K sb ab W src = Res.ok (W1, S.ptr n, rs, ra) ∧ SrcDone Z S W ts src W1 n ∧
      (Cached S W ts → SrcFits S src → rs = S.size n ∧ ra = S.arity n) ∧
      (∀ x r1 t, src = .copyOf x → Cached S W ts → W1.vars x = some r1 → ts x = some t → r1.size = S.size t) := by
  cases src with
  | value v =>
    refine ⟨_, _, 1, 0, ?_, value_done L O v, fun _ _ => ?_, fun _ _ _ h => by cases h⟩
    · simp [overNode, single_ptr L, Heap.alloc]
    · have := single_size L W.heap.next v
      exact ⟨this.1.symm, this.2.symm⟩
  | lit l =>
    obtain ⟨h', n, a, e, h1, D⟩ := lit_done L O (src := .lit l) hok (Or.inl rfl)
    refine ⟨_, n, K.litSize l, K.litArity l, ?_, D, fun _ hf => ?_, fun _ _ _ h => by cases h⟩
    · simp [overNode, e, h1]
    · have := L.litSize l n hok hf D.tree
      exact ⟨this.1.symm, this.2.symm⟩
  | emplaceLit l =>
    obtain ⟨h', n, a, e, h1, D⟩ := lit_done L O (src := .emplaceLit l) hok (Or.inr rfl)
    refine ⟨_, n, K.litSize l, K.litArity l, ?_, D, fun _ hf => ?_, fun _ _ _ h => by cases h⟩
    · simp [overNode, e, h1]
    · have := L.litSize l n hok hf D.tree
      exact ⟨this.1.symm, this.2.symm⟩
  | copyOf y =>
    obtain ⟨t, hy⟩ := Option.isSome_iff_exists.mp hok
    obtain ⟨r, hr, hg, hrt, _⟩ := O.get L hy
    obtain ⟨h', n, e, D, hv⟩ := copy_done L (lit := lit) O hy hr
    have H : S.Rep h' t := D.own.rep y t hy
    have w : h'.WF := D.own.wf
    obtain ⟨v1, r1, e1, p1, q1, k1, z1⟩ := sizeQ_ok' L w H hrt
    obtain ⟨v2, r2, e2, p2, q2, k2, z2⟩ := arityQ_ok' L w H (p1.trans hrt)
    refine ⟨⟨h', upd W.vars y (some r2)⟩, n, v1, v2, ?_, ?_, fun hC _ => ?_, ?_⟩
    · have : upd (upd W.vars y (some r1)) y (some r2) = upd W.vars y (some r2) := upd_twice _ _ _ _
      simp [overNode, hg, e, World.size, World.arity, World.get, setHeap, hr, e1, put_eq', upd_same, e2, this]
    · refine ⟨D.own, D.tree, D.empty, ?_, ?_, ?_⟩
      · intro z hz
        have : z ≠ y := by rintro rfl; rw [hr] at hz; cases hz
        simp [upd, this, hz]
      · intro z rz hz
        by_cases ez : z = y
        · subst ez
          rw [hr] at hz; cases hz
          refine ⟨r2, by simp [upd], p2.trans p1, q2.trans q1, fun u hu hc => ?_⟩
          rw [hy] at hu; cases hu
          exact (k2 (k1 hc).2).2
        · exact ⟨rz, by simp [upd, ez, hz], rfl, rfl, fun _ _ h => h⟩
      · intro z hz _
        have : z ≠ y := by rintro rfl; exact hz rfl
        simp [upd, this]
    · have hc := hC y r t hr hy
      have := L.vals_inj n t hv
      have h1 := (k1 hc).1
      have h2 := (k2 (k1 hc).2).1
      exact ⟨h1.trans this.2.1.symm, h2.trans this.2.2.symm⟩
    · rintro _ _ t' ⟨⟩ hC hv1 ht'
      rw [hy] at ht'; cases ht'
      simp only [upd_same, Option.some.injEq] at hv1
      subst hv1
      rw [z2, z1, (k1 (hC y r t hr hy)).1]
  | moveOf y =>
    obtain ⟨t, hy⟩ := Option.isSome_iff_exists.mp hok
    obtain ⟨r, hr, hg, hrt, _⟩ := O.get L hy
    obtain ⟨r1, rs, ra, e, h1, h2, h3⟩ := takeNodes_spec L O hy hr sb ab
    exact ⟨_, t, rs, ra, e, done_move L O hy hr h1 h2 (fun hc => (h3 hc).2.2),
      fun hC _ => ⟨(h3 (hC y r t hr hy)).1, (h3 (hC y r t hr hy)).2.1⟩, fun _ _ _ h => by cases h⟩

theorem childNode_spec (O : OwnedBut Z S W ts) (hok : SrcOk S ts src) (front : Bool) :
    ∃ W1 n rs ra, childNode K front W src = Res.ok (W1, S.ptr n, rs, ra) ∧ SrcDone Z S W ts src W1 n ∧
      (childCounts front src → SrcFits S src → rs = S.size n ∧ ra = S.arity n) ∧ (¬ childCounts front src → rs = 1 ∧ ra = 0) ∧
      (∀ z, src ≠ .moveOf z → W1.vars z = W.vars z) := by
  cases src with
  | value v =>
    refine ⟨_, _, 1, 0, ?_, value_done L O v, fun _ _ => ?_, fun h => absurd trivial h, fun _ _ => rfl⟩
    · simp [childNode, single_ptr L, Heap.alloc]
    · have := single_size L W.heap.next v
      exact ⟨this.1.symm, this.2.symm⟩
  | lit l =>
    obtain ⟨h', n, a, e, h1, D⟩ := lit_done L O (src := .lit l) hok (Or.inl rfl)
    cases front
    · refine ⟨_, n, K.litSize l, K.litArity l, ?_, D, fun _ hf => ?_, fun h => absurd rfl h, fun _ _ => rfl⟩
      · simp [childNode, e, h1]
      · have := L.litSize l n hok hf D.tree
        exact ⟨this.1.symm, this.2.symm⟩
    · exact ⟨_, n, 1, 0, by simp [childNode, e, h1], D, fun h => absurd h (by simp [childCounts]), fun _ => ⟨rfl, rfl⟩, fun _ _ => rfl⟩
  | emplaceLit l =>
    obtain ⟨h', n, a, e, h1, D⟩ := lit_done L O (src := .emplaceLit l) hok (Or.inr rfl)
    refine ⟨_, n, K.litSize l, K.litArity l, ?_, D, fun _ hf => ?_, fun h => absurd trivial h, fun _ _ => rfl⟩
    · simp [childNode, e, h1]
    · have := L.litSize l n hok hf D.tree
      exact ⟨this.1.symm, this.2.symm⟩
  | copyOf y =>
    obtain ⟨t, hy⟩ := Option.isSome_iff_exists.mp hok
    obtain ⟨r, hr, hg, hrt, _⟩ := O.get L hy
    obtain ⟨h', n, e, D, hv⟩ := copy_done L (lit := lit) O hy hr
    exact ⟨_, n, 1, 0, by simp [childNode, hg, e], D, fun h => h.elim, fun _ => ⟨rfl, rfl⟩, fun _ _ => rfl⟩
  | moveOf y =>
    obtain ⟨t, hy⟩ := Option.isSome_iff_exists.mp hok
    obtain ⟨r, hr, hg, hrt, _⟩ := O.get L hy
    obtain ⟨O1, M⟩ := (owned_match L).mp O
    obtain ⟨r1, e, h1, h2, h3⟩ := takeRoot_ok L O1 hy hrt
    exact ⟨_, t, 1, 0, by simp [childNode, hg, e]; rfl, done_move L O hy hr h1 h2 h3, fun h => h.elim, fun _ => ⟨rfl, rfl⟩,
      fun z hz => by
        have : z ≠ y := by rintro rfl; exact hz rfl
        simp [upd, this]⟩

/-! ### insert_over -/

omit L in
/-- What a completed insertion leaves in the object it moved from. -/
def leaveVars (src : Src α lit) (f : Nat → Option TreeRec) : Nat → Option TreeRec :=
  match src with
  | .moveOf y => upd f y (some TreeRec.empty)
  | _ => f

omit L in
theorem insertOver_step (hsrc : src ≠ .moveOf x) {W1 : World ν} {p : Ptr} {rs ra : Nat}
    (e1 : overNode K sb ab W src = Res.ok (W1, p, rs, ra)) (hr : W1.vars x = some r) {r' : TreeRec} {o : Out It}
    (e2 : TreeOps.modifySubtree K P W1.heap r pos p rs ra = Res.ok (h', r', o)) :
    insertOver K sb ab P W x pos src = Res.ok (match o with
      | .ret it => (⟨h', leaveVars src (upd W1.vars x (some r'))⟩, .ret it)
      | .threw => (⟨h', upd W1.vars x (some r')⟩, .threw)) := by
  cases src with
  | moveOf y =>
    have hxy : x ≠ y := by rintro rfl; exact hsrc rfl
    cases o <;> simp [insertOver, hxy, e1, World.get, hr, e2, put_eq, put_eq', leaveVars, setHeap]
  | _ => cases o <;> simp [insertOver, e1, World.get, hr, e2, put_eq, leaveVars]

omit L in
theorem insertChild_step (hsrc : src ≠ .moveOf x) {W1 : World ν} {p : Ptr} {rs ra : Nat}
    (e1 : childNode K front W src = Res.ok (W1, p, rs, ra)) (hr : W1.vars x = some r) {r' : TreeRec} {o : Out It}
    (e2 : TreeOps.addChild K front P W1.heap r pos p rs ra = Res.ok (h', r', o)) :
    insertChild K front P W x pos src = Res.ok (match o with
      | .ret it => (⟨h', leaveVars src (upd W1.vars x (some r'))⟩, .ret it)
      | .threw => (⟨h', upd W1.vars x (some r')⟩, .threw)) := by
  cases src with
  | moveOf y =>
    have hxy : x ≠ y := by rintro rfl; exact hsrc rfl
    cases o <;> simp [insertChild, hxy, e1, World.get, hr, e2, put_eq, put_eq', leaveVars, setHeap]
  | _ => cases o <;> simp [insertChild, e1, World.get, hr, e2, put_eq, leaveVars]

omit L in
theorem afterSrc_other (hsrc : src ≠ .moveOf x) : afterSrc S ts src x = ts x := by
  cases src with
  | moveOf y =>
    have hxy : x ≠ y := by rintro rfl; exact hsrc rfl
    simp [afterSrc, upd, hxy]
  | _ => rfl

/-- A completed insertion leaves a well-formed state. -/
theorem finish (O : OwnedBut Z S W ts) (hsrc : src ≠ .moveOf x) {W1 : World ν} (D : SrcDone Z S W ts src W1 n) {r' : TreeRec} {t' : T}
    (O' : Own Z S h' (upd (afterSrc S ts src) x (some t')) S.nil) (hr : r'.root = S.ptr t') (hn : r'.navRoot = S.ptr t') :
    OwnedBut Z S ⟨h', leaveVars src (upd W1.vars x (some r'))⟩ (upd (afterSrc S ts src) x (some t')) := by
  obtain ⟨O1, M⟩ := (owned_match L).mp O
  have M1 : ∀ z, Match S (W1.vars z) (ts z) := by
    intro z
    have := M z
    cases hv : W.vars z with
    | none =>
      rw [D.dead z hv]; rw [hv] at this; exact this
    | some rz =>
      obtain ⟨r1, h1, h2, h3, _⟩ := D.vars z rz hv
      rw [h1]; rw [hv] at this
      cases ht : ts z with
      | none => rw [ht] at this; cases this.alive
      | some tz =>
        rw [ht] at this
        have := this.root rz tz rfl rfl
        exact .some (h2.trans this.1) (h3.trans this.2)
  refine (owned_match L).mpr ⟨O', ?_⟩
  cases src with
  | moveOf y =>
    have hxy : x ≠ y := by rintro rfl; exact hsrc rfl
    have h1 := match_upd (x := y) (fun z (_ : z ≠ y) => M1 z) (Match.some (S := S) (r := TreeRec.empty) L.ptr_nil.symm L.ptr_nil.symm)
    have h2 := match_upd (x := x) (fun z (_ : z ≠ x) => h1 z) (Match.some hr hn)
    intro z
    have := h2 z
    simp only [leaveVars, afterSrc]
    rw [upd_comm W1.vars _ _ hxy]
    exact this
  | _ => exact match_upd (x := x) (fun z (_ : z ≠ x) => M1 z) (Match.some hr hn)

theorem insertOver_at (O : OwnedBut Z S W ts) (hx : ts x = some t) (hok : SrcOk S ts src) (hsrc : src ≠ .moveOf x)
    (A : At S P W.heap t pos c s) (hn : c = S.top ∨ ¬ SrcEmpty S ts src ∨ S.removable c) (sb ab : Bool) :
    ∃ W1 n rs ra r1 r' h' it, overNode K sb ab W src = Res.ok (W1, S.ptr n, rs, ra) ∧ SrcDone Z S W ts src W1 n ∧
      (Cached S W ts → SrcFits S src → rs = S.size n ∧ ra = S.arity n) ∧ W1.vars x = some r1 ∧
      (src = .copyOf x → Cached S W ts → r1.size = S.size t) ∧
      insertOver K sb ab P W x pos src = Res.ok (⟨h', leaveVars src (upd W1.vars x (some r'))⟩, .ret it) ∧
      OwnedBut Z S ⟨h', leaveVars src (upd W1.vars x (some r'))⟩ (upd (afterSrc S ts src) x (some (S.plug c n))) ∧
      it.st.cur = S.ptr n ∧ it.root = pos.root ∧ (c ≠ S.top → n ≠ S.nil → At S P h' (S.plug c n) it c n) ∧
      (c = S.top → r' = ⟨S.ptr n, rs, ra, S.ptr n⟩) ∧ (c ≠ S.top → r' = TreeOps.replacedRec S r1 s rs) ∧
      (P ≠ Policy.breadthFirst → it.st.aux = pos.st.aux) := by
  obtain ⟨W1, n, rs, ra, e1, D, hcnt, hcopy⟩ := overNode_spec L O hok sb ab
  obtain ⟨r, hr, _, hrt, hnt⟩ := O.get L hx
  obtain ⟨r1, hr1, hroot1, hnav1, _⟩ := D.vars x r hr
  have hx' : afterSrc S ts src x = some t := by rw [afterSrc_other hsrc]; exact hx
  obtain ⟨a, ha⟩ := L.ptr_of_ne A.node
  have hcur : pos.st.cur = some a := by rw [A.cur, ha]
  have Hg := O.rep x t hx
  have H1 := D.own.rep x t hx'
  obtain ⟨st, hu, hst, haux, hbfs⟩ := update_spec L A.policy O.wf Hg A.place ha hcur A.root A.queue H1 D.own.repN
  have hpl := A.place
  subst hpl
  by_cases hc : c = S.top
  · subst hc
    have ha' : S.ptr (S.plug S.top s) = some a := by rw [L.plug_top]; exact ha
    obtain ⟨h', e2, O'⟩ := TreeOps.modify_root L (rs := rs) (ra := ra) D.own hx' ha' (hroot1.trans hrt) hcur hu
    refine ⟨W1, n, rs, ra, r1, _, h', ⟨st, pos.root⟩, e1, D, hcnt, hr1, fun h1 h2 => hcopy x r1 _ h1 h2 hr1 hx, insertOver_step hsrc e1 hr1 e2, ?_, hst, rfl,
      fun h => absurd rfl h, fun _ => rfl, fun h => absurd rfl h, haux⟩
    rw [L.plug_top]
    exact finish L O hsrc D O' rfl rfl
  · have hn' : n ≠ S.nil ∨ S.removable c := by
      rcases hn with h | h | h
      · exact absurd h hc
      · exact Or.inl (fun e => h (D.empty.mpr e))
      · exact Or.inr h
    obtain ⟨h', e2, O'⟩ := TreeOps.modify_inner L (rs := rs) (ra := ra) A.policy D.own hx' ha hc hn' (hroot1.trans hrt) hcur hu
    have hp : S.ptr (S.plug c n) = S.ptr (S.plug c s) := L.ptr_plug c _ _ hc
    refine ⟨W1, n, rs, ra, r1, _, h', ⟨st, pos.root⟩, e1, D, hcnt, hr1, fun h1 h2 => hcopy x r1 _ h1 h2 hr1 hx, insertOver_step hsrc e1 hr1 e2, ?_, hst, rfl,
      fun _ hnn => ⟨A.policy, rfl, hnn, hst, A.root.trans hp.symm, fun hb => ?_⟩, fun h => absurd h hc, fun _ => rfl, haux⟩
    · refine finish L O hsrc D O' ?_ ?_
      · simp [TreeOps.replacedRec, hroot1, hrt, hp]
      · simp [TreeOps.replacedRec, hnav1, hnt, hp]
    · have := hbfs hb hnn h' O'.wf (O'.rep x _ (upd_same _ _ _))
      simp only
      rw [A.root, ← hp]; exact this

theorem insertOver_empty (O : OwnedBut Z S W ts) (hx : ts x = some S.nil) (hok : SrcOk S ts src) (hsrc : src ≠ .moveOf x)
    (hend : AtEnd pos) (sb ab : Bool) :
    ∃ W1 n rs ra h', overNode K sb ab W src = Res.ok (W1, S.ptr n, rs, ra) ∧ SrcDone Z S W ts src W1 n ∧
      (Cached S W ts → SrcFits S src → rs = S.size n ∧ ra = S.arity n) ∧
      insertOver K sb ab P W x pos src =
        Res.ok (⟨h', leaveVars src (upd W1.vars x (some ⟨S.ptr n, rs, ra, S.ptr n⟩))⟩, .ret pos) ∧
      OwnedBut Z S ⟨h', leaveVars src (upd W1.vars x (some ⟨S.ptr n, rs, ra, S.ptr n⟩))⟩ (upd (afterSrc S ts src) x (some n)) := by
  obtain ⟨W1, n, rs, ra, e1, D, hcnt, hcopy⟩ := overNode_spec L O hok sb ab
  obtain ⟨r, hr, _, hrt, hnt⟩ := O.get L hx
  obtain ⟨r1, hr1, hroot1, hnav1, _⟩ := D.vars x r hr
  have hx' : afterSrc S ts src x = some S.nil := by rw [afterSrc_other hsrc]; exact hx
  obtain ⟨h', e2, O'⟩ := TreeOps.modify_empty L (P := P) (rs := rs) (ra := ra) D.own hx'
    (hroot1.trans (hrt.trans L.ptr_nil)) hend
  exact ⟨W1, n, rs, ra, h', e1, D, hcnt, insertOver_step hsrc e1 hr1 e2, finish L O hsrc D O' rfl rfl⟩

omit L in
theorem afterSrc_eq (h : (∀ y, src ≠ .moveOf y) ∨ SrcEmpty S ts src) : afterSrc S ts src = ts := by
  cases src with
  | moveOf y =>
    rcases h with h | h
    · exact absurd rfl (h y)
    · simp only [SrcEmpty] at h
      simp only [afterSrc]
      rw [← h, upd_self]
  | _ => rfl

/-- A call that throws leaves the trees alone. -/
theorem finish_threw {Z' : Addr → Prop} (O : OwnedBut Z S W ts) {W1 : World ν} (D : SrcDone Z S W ts src W1 n) (O' : Own Z' S h' ts S.nil) :
    OwnedBut Z' S ⟨h', W1.vars⟩ ts := by
  obtain ⟨O1, M⟩ := (owned_match L).mp O
  refine (owned_match L).mpr ⟨O', fun z => ?_⟩
  have := M z
  cases hv : W.vars z with
  | none =>
    show Match S (W1.vars z) (ts z)
    rw [D.dead z hv]; rw [hv] at this; exact this
  | some rz =>
    obtain ⟨r1, h1, h2, h3, _⟩ := D.vars z rz hv
    show Match S (W1.vars z) (ts z)
    rw [h1]; rw [hv] at this
    cases ht : ts z with
    | none => rw [ht] at this; cases this.alive
    | some tz =>
      rw [ht] at this
      have := this.root rz tz rfl rfl
      exact .some (h2.trans this.1) (h3.trans this.2)

theorem insertOver_end (O : OwnedBut Z S W ts) (hx : ts x = some t) (ht : t ≠ S.nil) (hok : SrcOk S ts src) (hsrc : src ≠ .moveOf x)
    (hend : AtEnd pos) (hs : (∃ y, src = .moveOf y) ∨ SrcEmpty S ts src) (sb ab : Bool) :
    ∃ W1 n rs ra, overNode K sb ab W src = Res.ok (W1, S.ptr n, rs, ra) ∧ SrcDone Z S W ts src W1 n ∧
      insertOver K sb ab P W x pos src = Res.ok (W1, .threw) ∧ OwnedBut Z S W1 ts := by
  obtain ⟨W1, n, rs, ra, e1, D, hcnt, hcopy⟩ := overNode_spec L O hok sb ab
  obtain ⟨r, hr, _, hrt, hnt⟩ := O.get L hx
  obtain ⟨r1, hr1, hroot1, hnav1, _⟩ := D.vars x r hr
  obtain ⟨a, ha⟩ := L.ptr_of_ne ht
  have e2 := TreeOps.modify_end (K := K) (P := P) (h := W1.heap) (r := r1) (pos := pos) (p := S.ptr n) (rs := rs) (ra := ra)
    (by rw [hroot1, hrt, ha]; rfl) hend
  refine ⟨W1, n, rs, ra, e1, D, ?_, ?_⟩
  · have := insertOver_step hsrc e1 hr1 e2
    rw [this]
    simp only
    rw [← hr1, upd_self]
  · refine finish_threw (h' := W1.heap) L O D ?_
    rcases hs with ⟨y, rfl⟩ | hs
    · have hy : ts y = some n := D.tree
      have := D.own.exchange L (x := y) (t := S.nil) (upd_same _ _ _)
      simp only [afterSrc] at this
      rw [upd_twice, ← hy, upd_self] at this
      exact this
    · have hn := D.empty.mp hs
      subst hn
      have := D.own
      rwa [afterSrc_eq (Or.inr hs)] at this

/-! ### insert_child -/

theorem insertChild_at (O : OwnedBut Z S W ts) (hx : ts x = some t) (hok : SrcOk S ts src) (hsrc : src ≠ .moveOf x)
    (A : At S P W.heap t pos c s) (hf : S.isFull s = false) (front : Bool) :
    ∃ W1 n rs ra r1 h' it, childNode K front W src = Res.ok (W1, S.ptr n, rs, ra) ∧ SrcDone Z S W ts src W1 n ∧
      (childCounts front src → SrcFits S src → rs = S.size n ∧ ra = S.arity n) ∧ (¬ childCounts front src → rs = 1 ∧ ra = 0) ∧
      W1.vars x = some r1 ∧ W.vars x = some r1 ∧
      insertChild K front P W x pos src = Res.ok (⟨h', leaveVars src (upd W1.vars x
        (some (TreeOps.childRec S r1 (if front then S.front n s else S.back n s) rs ra)))⟩, .ret it) ∧
      OwnedBut Z S ⟨h', leaveVars src (upd W1.vars x
        (some (TreeOps.childRec S r1 (if front then S.front n s else S.back n s) rs ra)))⟩
        (upd (afterSrc S ts src) x (some (S.plug c (if front then S.front n s else S.back n s)))) ∧
      it.st.cur = pos.st.cur ∧
      At S P h' (S.plug c (if front then S.front n s else S.back n s)) it c (if front then S.front n s else S.back n s) ∧
      P.make (K.nav h' it.root) h'.fuel it.st.cur = Res.ok it.st := by
  obtain ⟨W1, n, rs, ra, e1, D, hcnt, hcnt', hsame⟩ := childNode_spec L O hok front
  obtain ⟨r, hr, _, hrt, hnt⟩ := O.get L hx
  obtain ⟨r1, hr1, hroot1, hnav1, _⟩ := D.vars x r hr
  have hx' : afterSrc S ts src x = some t := by rw [afterSrc_other hsrc]; exact hx
  obtain ⟨a, ha⟩ := L.ptr_of_ne A.node
  have hcur : pos.st.cur = some a := by rw [A.cur, ha]
  have hpl := A.place
  subst hpl
  obtain ⟨h', st, e2, O', hstc, hst⟩ := TreeOps.addChild_spec L (rs := rs) (ra := ra) front D.own hx' ha hf (hnav1.trans hnt)
    hcur A.policy
  have hps : S.ptr (if front then S.front n s else S.back n s) = some a := by
    cases front
    · exact L.ptr_back ha hf
    · exact L.ptr_front ha hf
  have hp : S.ptr (S.plug c (if front then S.front n s else S.back n s)) = S.ptr (S.plug c s) := by
    by_cases hc : c = S.top
    · subst hc; rw [L.plug_top, L.plug_top, hps, ha]
    · exact L.ptr_plug c _ _ hc
  refine ⟨W1, n, rs, ra, r1, h', ⟨st, r1.navRoot⟩, e1, D, hcnt, hcnt', hr1, (hsame x hsrc) ▸ hr1, insertChild_step hsrc e1 hr1 e2,
    finish L O hsrc D O' (hroot1.trans (hrt.trans hp.symm)) (hnav1.trans (hnt.trans hp.symm)), by rw [hcur]; exact hstc,
    ⟨A.policy, rfl, ?_, hstc.trans hps.symm, hnav1.trans (hnt.trans hp.symm), fun _ => ?_⟩, ?_⟩
  · intro e; rw [e, L.ptr_nil] at hps; cases hps
  · simp only; rw [hstc]; exact hst
  · simp only; rw [hstc]; exact hst

theorem insertChild_threw (O : OwnedBut Z S W ts) (hx : ts x = some t) (hok : SrcOk S ts src) (hsrc : src ≠ .moveOf x)
    (hbad : AtEnd pos ∨ ∃ c s, At S P W.heap t pos c s ∧ S.isFull s = true)
    (hs : (∀ y, src ≠ .moveOf y) ∨ SrcEmpty S ts src) (front : Bool) :
    ∃ W1 n rs ra h', childNode K front W src = Res.ok (W1, S.ptr n, rs, ra) ∧ SrcDone Z S W ts src W1 n ∧
      insertChild K front P W x pos src = Res.ok (⟨h', W1.vars⟩, .threw) ∧ OwnedBut Z S ⟨h', W1.vars⟩ ts := by
  obtain ⟨W1, n, rs, ra, e1, D, hcnt, hcnt', hsame⟩ := childNode_spec L O hok front
  obtain ⟨r, hr, _, hrt, hnt⟩ := O.get L hx
  obtain ⟨r1, hr1, hroot1, hnav1, _⟩ := D.vars x r hr
  have hx' : afterSrc S ts src x = some t := by rw [afterSrc_other hsrc]; exact hx
  have hbad' : pos.st.cur = none ∨ ∃ x c s a, afterSrc S ts src x = some (S.plug c s) ∧ S.ptr s = some a ∧
      pos.st.cur = some a ∧ S.isFull s = true := by
    rcases hbad with h | ⟨c, s, A, hf⟩
    · exact Or.inl h
    · obtain ⟨a, ha⟩ := L.ptr_of_ne A.node
      exact Or.inr ⟨x, c, s, a, by rw [A.place]; exact hx', ha, by rw [A.cur, ha], hf⟩
  obtain ⟨e2, O'⟩ := TreeOps.addChild_threw L (K := K) (P := P) (r := r1) (rs := rs) (ra := ra) front D.own hbad'
  refine ⟨W1, n, rs, ra, W1.heap.freeAll (S.addrs n), e1, D, ?_, ?_⟩
  · have := insertChild_step hsrc e1 hr1 e2
    rw [this]
    simp only
    rw [← hr1, upd_self]
  · rw [afterSrc_eq hs] at O'
    exact finish_threw L O D O'

/-! ### erase -/

theorem erase_at (O : OwnedBut Z S W ts) (hx : ts x = some t) (hr : W.vars x = some r)
    (A : At S Policy.postOrder W.heap t pos c s) (hn : c = S.top ∨ S.removable c) :
    ∃ r' h' l1 l2, S.post t = l1 ++ S.post s ++ l2 ∧ S.post (S.plug c S.nil) = l1 ++ l2 ∧
      W.erase K x pos = Res.ok (⟨h', upd W.vars x (some r')⟩, .ret ⟨⟨l2.head?, []⟩, S.ptr (S.plug c S.nil)⟩) ∧
      OwnedBut Z S ⟨h', upd W.vars x (some r')⟩ (upd ts x (some (S.plug c S.nil))) ∧
      (c = S.top → r' = TreeRec.empty) ∧ (c ≠ S.top → r' = TreeOps.replacedRec S r s 0) := by
  obtain ⟨O1, M⟩ := (owned_match L).mp O
  obtain ⟨hrt, hnt⟩ := (M x).root r t hr hx
  obtain ⟨a, ha⟩ := L.ptr_of_ne A.node
  have hcur : pos.st.cur = some a := by rw [A.cur, ha]
  have hpl := A.place
  subst hpl
  by_cases hc : c = S.top
  · subst hc
    have ha' : S.ptr (S.plug S.top s) = some a := by rw [L.plug_top]; exact ha
    obtain ⟨h', e, O'⟩ := TreeOps.erase_root L O1 hx ha' hrt hcur A.root
    refine ⟨TreeRec.empty, h', [], [], by simp [L.plug_top], by simp [L.plug_top, Shape.post, L.rose_nil], ?_, ?_, fun _ => rfl,
      fun h => absurd rfl h⟩
    · simp [World.erase, World.get, hr, e, put_eq, L.plug_top, L.ptr_nil]
    · rw [L.plug_top]
      exact (owned_match L).mpr ⟨O', match_upd (fun z _ => M z) (Match.some (r := TreeRec.empty) L.ptr_nil.symm L.ptr_nil.symm)⟩
  · have hrem : S.removable c := hn.resolve_left hc
    obtain ⟨l1, l2, hp1, hp2⟩ := L.post_split hc A.node
    obtain ⟨h', e, O'⟩ := TreeOps.erase_inner L O1 hx ha hc hrem hrt hcur A.root hp1
    have hp : S.ptr (S.plug c S.nil) = S.ptr (S.plug c s) := L.ptr_plug c _ _ hc
    refine ⟨_, h', l1, l2, hp1, hp2, ?_, ?_, fun h => absurd h hc, fun _ => rfl⟩
    · simp [World.erase, World.get, hr, e, put_eq, A.root, hp]
    · exact (owned_match L).mpr ⟨O', match_upd (fun z _ => M z) (Match.some (hrt.trans hp.symm) (hnt.trans hp.symm))⟩

theorem erase_end (O : OwnedBut Z S W ts) (hx : ts x = some t) (hend : AtEnd pos) (hroot : pos.root = S.ptr t) :
    W.erase K x pos = Res.ok (W, if (S.ptr t).isNone then .ret ⟨⟨none, []⟩, none⟩ else .threw) := by
  obtain ⟨O1, M⟩ := (owned_match L).mp O
  obtain ⟨r, hr, _, hrt, hnt⟩ := O.get L hx
  have e := TreeOps.erase_end L O1 hx hrt hend hroot
  have : upd W.vars x (some r) = W.vars := by rw [← hr, upd_self]
  simp [World.erase, World.get, hr, e, put_eq, this]

end
