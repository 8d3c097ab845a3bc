import Verif.Spec.Faults
import Verif.Proof.Faults
import Verif.Proof.Unique
import Verif.Proof.Compare
/-! Every supported call, when an event throws. -/
open Tree World

section
variable {ν β γ : Type} {h h' : Heap ν}

/-- Code `R` that makes `m` nodes, and `F`, the same with events. -/
def Tries (h : Heap ν) (m : Nat) (R : Res (Heap ν × β)) (F : Nat → Res (Try ν β)) : Prop :=
  ∃ h' b, R = .ok (h', b) ∧ (∀ k, F (2 * m + k) = .ok (.done h' k b)) ∧
    (∀ k, k < 2 * m → ∃ h'', F k = .ok (.threw h'') ∧ Adds h.next h h'' ∧ h''.next = h.next + (k + 1) / 2)

theorem Mir.tries {J : Heap ν → Prop} {Q : β → Prop} {R : Res (Heap ν × β)} {F : Fa ν β} {b : β} (A : Mir h.next J Q h R F)
    (hw : h.WF) (hJ : J h) (e : R = .ok (h', b)) : Tries h (h'.next - h.next) R (F h) := by
  obtain ⟨a1, _, _, a4, a5⟩ := A hw (Nat.le_refl _) hJ h' b e
  exact ⟨h', b, e, a4, a5⟩

/-- The new cells are the nodes of the new tree. -/
theorem grown_count {ks : List Addr} (G : Grown h h' ks) (hn : ks.Nodup) (A : Adds h.next h h') : h'.next - h.next = ks.length := by
  have : (List.range' h.next (h'.next - h.next)).Perm ks := by
    refine (List.perm_ext_iff_of_nodup List.nodup_range' hn).mpr fun a => ?_
    rw [List.mem_range'_1]
    have le := G.le
    constructor
    · rintro ⟨h1, h2⟩
      refine Classical.byContradiction fun hm => ?_
      have := A.new a h1 (by grind)
      rw [G.only a h1 hm] at this
      cases this
    · intro hm
      have := G.fresh a hm
      grind
  have := this.length_eq
  simpa using this

end

/-- The constructors with events are the constructors. -/
structure Faithful {ν α lit : Type} {K : Kind ν α lit} (M : Makers K) : Prop where
  copy : ∀ (fuel : Nat) (h : Heap ν) (a : Addr) (h' : Heap ν) (b : Addr), h.WF → K.copy fuel h a = .ok (h', b) →
    Adds h.next h h' ∧ Tries h (h'.next - h.next) (K.copy fuel h a) (M.copy fuel a h)
  ofLit : ∀ (h : Heap ν) (l : lit) (h' : Heap ν) (b : Addr), h.WF → K.ofLit h l = .ok (h', b) →
    Adds h.next h h' ∧ Tries h (h'.next - h.next) (K.ofLit h l) (M.ofLit l h)

theorem Nary.newParents_next {α : Type} {h : NHeap α} (hw : h.WF) : NewParents h.next h := by
  intro a n ha hc
  rw [hw a ha] at hc; cases hc

theorem Binary.newKids_next {α : Type} {h : BHeap α} (hw : h.WF) : NewKids h.next h := by
  intro a n ha hc
  rw [hw a ha] at hc; cases hc

theorem Nary.faithful (α : Type) : Faithful (Nary.makers α) where
  copy fuel h a h' b hw e := by
    have A := Nary.copy_mir (lo := h.next) fuel h a none none (by rintro _ ⟨⟩)
    exact ⟨(A hw (Nat.le_refl _) (newParents_next hw) h' b e).1, A.tries hw (newParents_next hw) e⟩
  ofLit h l h' b hw e := by
    have A := Nary.ofLits_mir (lo := h.next) l.size h l [] none none (by rintro _ ⟨⟩)
    exact ⟨(A hw (Nat.le_refl _) (newParents_next hw) h' b e).1, A.tries hw (newParents_next hw) e⟩

theorem Binary.faithful (α : Type) : Faithful (Binary.makers α) where
  copy fuel h a h' b hw e := by
    have A := Binary.copy_mir (lo := h.next) fuel h a
    exact ⟨(A hw (Nat.le_refl _) (newKids_next hw) h' b e).1, A.tries hw (newKids_next hw) e⟩
  ofLit h l h' b hw e := by
    have A := Binary.ofLit_mir (lo := h.next) l.size h l
    exact ⟨(A hw (Nat.le_refl _) (newKids_next hw) h' b e).1, A.tries hw (newKids_next hw) e⟩

section
variable {ν α lit T V C : Type} {K : Kind ν α lit} {Z : Addr → Prop} {S : Shape K T V C} {ts : Nat → Option T} {W W1 : World ν}
  {n s t u : T} {x y : Nat} {r : TreeRec} {src : Src α lit} {M : Makers K} {h' : Heap ν} {k m : Nat}
variable (L : Lawful S) (Fm : Faithful M)
include L Fm

theorem copy_tries (O : Own Z S W.heap ts S.nil) (hy : ts y = some t) (hr : r.root = S.ptr t) :
    ∃ h' p, copyNodes K W r = .ok (W.setHeap h', p) ∧ (∀ k, copyNodesF M (2 * S.size t + k) W r = .ok (.done h' k p)) ∧
      (∀ k, k < 2 * S.size t → ∃ h'', copyNodesF M k W r = .ok (.threw h'') ∧ Adds W.heap.next W.heap h'' ∧
        h''.next = W.heap.next + (k + 1) / 2) := by
  unfold copyNodes copyNodesF
  rw [hr]
  cases hp : S.ptr t with
  | none =>
    have := L.ptr_none_iff.mp hp
    subst this
    exact ⟨W.heap, none, rfl, fun k => by simp [L.size_nil], fun k hk => by simp [L.size_nil] at hk⟩
  | some a =>
    obtain ⟨h', b, t', e, h1, h2, h3, h4⟩ := L.copy W.heap t a O.wf (O.rep y t hy) hp
    obtain ⟨A, h'', b', e', T1, T2⟩ := Fm.copy _ _ _ _ _ O.wf e
    rw [grown_count h4 (L.rep_nodup _ _ h2) A, L.length_addrs, (L.vals_inj t' t h3).2.1] at T1 T2
    refine ⟨h'', some b', by simp [e', setHeap], fun k => ?_, fun k hk => ?_⟩
    · show Fa.bind (M.copy W.heap.fuel a) _ _ _ = _
      simp only [Fa.bind, T1]; rfl
    · obtain ⟨h3, e3, c⟩ := T2 k hk
      refine ⟨h3, ?_, c⟩
      show Fa.bind (M.copy W.heap.fuel a) _ _ _ = _
      simp only [Fa.bind, e3]

theorem lit_tries {h : Heap ν} (hw : h.WF) {l : lit} (hl : S.litOk l) :
    ∃ n, S.vals n = S.litVals l ∧ Tries h (S.size n) (K.ofLit h l) (M.ofLit l h) := by
  obtain ⟨h', b, n, e, h1, h2, h3, h4⟩ := L.ofLit h l hw hl
  obtain ⟨A, T⟩ := Fm.ofLit _ _ _ _ hw e
  rw [grown_count h4 (L.rep_nodup _ _ h2) A, L.length_addrs] at T
  exact ⟨n, h3, T⟩

omit L Fm in
theorem leaf_tries {h : Heap ν} (hw : h.WF) (v : α) : Tries h 1 (.ok (h.alloc (K.leaf v))) (Fa.alloc (K.leaf v) h) := by
  obtain ⟨A1, _, _, A4, A5⟩ := Mir.alloc (n := K.leaf v) (J := fun _ => True) (Q := fun _ => True) (fun _ => trivial) (fun _ _ => trivial)
    hw (Nat.le_refl _) trivial _ _ rfl
  have hn : (h.alloc (K.leaf v)).1.next - h.next = 1 := by show h.next + 1 - h.next = 1; grind
  refine ⟨(h.alloc (K.leaf v)).1, (h.alloc (K.leaf v)).2, rfl, fun k => ?_, fun k hk => ?_⟩
  · have := A4 k
    simp only [show h.next + 1 - h.next = 1 from hn] at this
    exact this
  · exact A5 k (by simpa only [show h.next + 1 - h.next = 1 from hn] using hk)

omit Fm in
/-- The nodes obtained by a call that throws are lost. -/
theorem lost_owned (O : OwnedBut Z S W ts) {h' : Heap ν} (A : Adds W.heap.next W.heap h') {n : Nat} (hn : h'.next = W.heap.next + n) :
    OwnedBut (LostAlso Z W.heap.next n) S (W.setHeap h') ts := by
  have lt : ∀ x t, ts x = some t → ∀ a ∈ S.addrs t, a < W.heap.next := by
    intro x t ht a ha
    refine Nat.lt_of_not_le fun hle => ?_
    have := L.rep_alive _ _ (O.rep x t ht) a ha
    simp [O.wf a hle] at this
  have zlt : ∀ a, Z a → a < W.heap.next := by
    intro a ha
    refine Nat.lt_of_not_le fun hle => ?_
    have := O.lost a ha
    simp [O.wf a hle] at this
  refine ⟨A.wf, O.alive, O.root, ?_, O.disjoint, ?_, ?_, ?_⟩
  · intro x t ht
    exact L.rep_congr _ _ _ (O.rep x t ht) (fun a ha => A.same a (lt x t ht a ha))
  · intro a ha
    by_cases hlt : a < W.heap.next
    · rw [show (W.setHeap h').heap.cells a = _ from A.same a hlt] at ha
      exact (O.noLeakBut a ha).imp id Or.inl
    · refine Or.inr (Or.inr ⟨Nat.le_of_not_lt hlt, ?_⟩)
      rw [← hn]
      refine Nat.lt_of_not_le fun hle => ?_
      rw [show (W.setHeap h').heap.cells a = none from A.wf a hle] at ha
      cases ha
  · rintro a (ha | ⟨h1, h2⟩)
    · rw [show (W.setHeap h').heap.cells a = _ from A.same a (zlt a ha)]
      exact O.lost a ha
    · exact A.new a h1 (by rw [hn]; exact h2)
  · rintro x t ht a ha (hz | ⟨h1, _⟩)
    · exact O.apart x t ht a ha hz
    · have := lt x t ht a ha
      grind

omit Fm in
/-- What `size()` and `arity()` answer now. -/
theorem says_size (O : OwnedBut Z S W ts) (x n : Nat) : (∃ V, W.size K x = Res.ok (V, n)) ↔ sizeNow S W ts x = some n := by
  cases hx : ts x with
  | none =>
    have : W.vars x = none := by
      have := O.alive x
      rw [hx] at this
      simpa using this
    simp [World.size, World.get, this, sizeNow]
  | some t =>
    obtain ⟨W1, m, e, _, _, e2⟩ := size_now L O hx
    rw [e2, e]
    simp [eq_comm]

omit Fm in
theorem says_arity (O : OwnedBut Z S W ts) (x n : Nat) : (∃ V, W.arity K x = Res.ok (V, n)) ↔ arityNow S W ts x = some n := by
  cases hx : ts x with
  | none =>
    have : W.vars x = none := by
      have := O.alive x
      rw [hx] at this
      simpa using this
    simp [World.arity, World.get, this, arityNow]
  | some t =>
    obtain ⟨W1, m, e, _, _, e2⟩ := arity_now L O hx
    rw [e2, e]
    simp [eq_comm]

omit Fm in
theorem same_counts {Z' : Addr → Prop} (O : OwnedBut Z S W ts) (O1 : OwnedBut Z' S W1 ts) (h1 : ∀ z, sizeNow S W1 ts z = sizeNow S W ts z)
    (h2 : ∀ z, arityNow S W1 ts z = arityNow S W ts z) : SameCounts K W W1 := by
  intro x n
  rw [says_size L O, says_size L O1, says_arity L O, says_arity L O1, h1, h2]
  exact ⟨Iff.rfl, Iff.rfl⟩

/-- What is left of a call that throws. -/
def Left (Z : Addr → Prop) (S : Shape K T V C) (ts : Nat → Option T) (W : World ν) (k : Nat) (W1 : World ν) : Prop :=
  OwnedBut (LostAlso Z W.heap.next ((k + 1) / 2)) S W1 ts ∧ (∀ a, a < W.heap.next → W1.heap.cells a = W.heap.cells a) ∧ SameCounts K W W1

omit Fm in
theorem left_heap (O : OwnedBut Z S W ts) {h' : Heap ν} (A : Adds W.heap.next W.heap h') (hn : h'.next = W.heap.next + (k + 1) / 2) :
    Left Z S ts W k (W.setHeap h') :=
  ⟨lost_owned L O A hn, A.same, same_counts L O (lost_owned L O A hn) (fun _ => rfl) (fun _ => rfl)⟩

omit Fm in
theorem left_size {b : Bool} (Hl : Left Z S ts W k W1) (O : OwnedBut Z S W ts) (hy : ts y = some t) :
    ∃ W2, (if b then (do pure (← W1.size K y).1) else pure W1 : Res (World ν)) = .ok W2 ∧ Left Z S ts W k W2 := by
  cases b with
  | false => exact ⟨W1, rfl, Hl⟩
  | true =>
    obtain ⟨O1, h1, h2⟩ := Hl
    obtain ⟨W2, n, e, O2, h3, _⟩ := size_now L O1 hy
    refine ⟨W2, by simp [e], O2, fun a ha => by rw [h3.heap]; exact h1 a ha, fun x n => ?_⟩
    have := same_counts L O1 O2 h3.size h3.arity x n
    exact ⟨(h2 x n).1.trans this.1, (h2 x n).2.trans this.2⟩

omit Fm in
theorem left_arity {b : Bool} (Hl : Left Z S ts W k W1) (O : OwnedBut Z S W ts) (hy : ts y = some t) :
    ∃ W2, (if b then (do pure (← W1.arity K y).1) else pure W1 : Res (World ν)) = .ok W2 ∧ Left Z S ts W k W2 := by
  cases b with
  | false => exact ⟨W1, rfl, Hl⟩
  | true =>
    obtain ⟨O1, h1, h2⟩ := Hl
    obtain ⟨W2, n, e, O2, h3, _⟩ := arity_now L O1 hy
    refine ⟨W2, by simp [e], O2, fun a ha => by rw [h3.heap]; exact h1 a ha, fun x n => ?_⟩
    have := same_counts L O1 O2 h3.size h3.arity x n
    exact ⟨(h2 x n).1.trans this.1, (h2 x n).2.trans this.2⟩

theorem overNodeF_spec (O : OwnedBut Z S W ts) (hok : SrcOk S ts src) (sb ab : Bool) (hm : ∀ y, src ≠ .moveOf y) :
    ∃ m, SrcMakes S ts src m ∧
      (∀ k, overNodeF M sb ab (2 * m + k) W src = (do let (W, p, rs, ra) ← overNode K sb ab W src; pure (W, some (p, rs, ra)))) ∧
      ∀ k, k < 2 * m → ∃ W1, overNodeF M sb ab k W src = .ok (W1, none) ∧ Left Z S ts W k W1 := by
  obtain ⟨O1, _⟩ := (owned_match L).mp O
  cases src with
  | moveOf y => exact absurd rfl (hm y)
  | value v =>
    obtain ⟨h', b, e, T1, T2⟩ := leaf_tries (K := K) O1.wf v
    refine ⟨1, rfl, fun k => ?_, fun k hk => ?_⟩
    · cases e
      simp [overNodeF, overNode, T1, Heap.alloc]
    · obtain ⟨h2, e2, A, hn⟩ := T2 k hk
      exact ⟨_, by simp only [overNodeF, e2, Res.ok_bind, Res.pure_eq], left_heap L O A hn⟩
  | lit l =>
    obtain ⟨n, hv, h', b, e, T1, T2⟩ := lit_tries L Fm O1.wf hok
    refine ⟨_, ⟨n, hv, rfl⟩, fun k => ?_, fun k hk => ?_⟩
    · simp [overNodeF, overNode, T1, e]
    · obtain ⟨h2, e2, A, hn⟩ := T2 k hk
      exact ⟨_, by simp only [overNodeF, e2, Res.ok_bind, Res.pure_eq], left_heap L O A hn⟩
  | emplaceLit l =>
    obtain ⟨n, hv, h', b, e, T1, T2⟩ := lit_tries L Fm O1.wf hok
    refine ⟨_, ⟨n, hv, rfl⟩, fun k => ?_, fun k hk => ?_⟩
    · simp [overNodeF, overNode, T1, e]
    · obtain ⟨h2, e2, A, hn⟩ := T2 k hk
      exact ⟨_, by simp only [overNodeF, e2, Res.ok_bind, Res.pure_eq], left_heap L O A hn⟩
  | copyOf y =>
    obtain ⟨t, hy⟩ := Option.isSome_iff_exists.mp hok
    obtain ⟨r, hr, hg, hrt, _⟩ := O.get L hy
    obtain ⟨h', p, e, T1, T2⟩ := copy_tries L Fm O1 hy hrt
    refine ⟨_, ⟨t, hy, rfl⟩, fun k => ?_, fun k hk => ?_⟩
    · simp only [overNodeF, overNode, hg, Res.ok_bind, T1, e]
      cases (W.setHeap h').size K y with
      | ok q => simp only [Res.ok_bind]; cases World.arity K q.1 y <;> simp
      | ub => rfl
      | diverge => rfl
    · obtain ⟨h2, e2, A, hn⟩ := T2 k hk
      obtain ⟨W2, e3, H2⟩ := left_size (b := sb) L (left_heap L O A hn) O hy
      obtain ⟨W3, e4, H3⟩ := left_arity (b := ab) L H2 O hy
      refine ⟨W3, ?_, H3⟩
      simp only [overNodeF, hg, Res.ok_bind, e2]
      cases sb <;> cases ab <;>
        simp only [if_true, Bool.false_eq_true, if_false] at e3 e4 ⊢ <;> rw [e3] <;> simp only [Res.ok_bind] <;> rw [e4] <;> rfl

theorem childNodeF_spec (O : OwnedBut Z S W ts) (hok : SrcOk S ts src) (front : Bool) (hm : ∀ y, src ≠ .moveOf y) :
    ∃ m, SrcMakes S ts src m ∧
      (∀ k, childNodeF M front (2 * m + k) W src = (do let (W, p, rs, ra) ← childNode K front W src; pure (W, some (p, rs, ra)))) ∧
      ∀ k, k < 2 * m → ∃ W1, childNodeF M front k W src = .ok (W1, none) ∧ Left Z S ts W k W1 := by
  obtain ⟨O1, _⟩ := (owned_match L).mp O
  cases src with
  | moveOf y => exact absurd rfl (hm y)
  | value v =>
    obtain ⟨h', b, e, T1, T2⟩ := leaf_tries (K := K) O1.wf v
    refine ⟨1, rfl, fun k => ?_, fun k hk => ?_⟩
    · cases e
      simp [childNodeF, childNode, T1, Heap.alloc]
    · obtain ⟨h2, e2, A, hn⟩ := T2 k hk
      exact ⟨_, by simp only [childNodeF, e2, Res.ok_bind, Res.pure_eq], left_heap L O A hn⟩
  | lit l =>
    obtain ⟨n, hv, h', b, e, T1, T2⟩ := lit_tries L Fm O1.wf hok
    refine ⟨_, ⟨n, hv, rfl⟩, fun k => ?_, fun k hk => ?_⟩
    · cases front <;> simp [childNodeF, childNode, T1, e]
    · obtain ⟨h2, e2, A, hn⟩ := T2 k hk
      exact ⟨_, by simp only [childNodeF, e2, Res.ok_bind, Res.pure_eq], left_heap L O A hn⟩
  | emplaceLit l =>
    obtain ⟨n, hv, h', b, e, T1, T2⟩ := lit_tries L Fm O1.wf hok
    refine ⟨_, ⟨n, hv, rfl⟩, fun k => ?_, fun k hk => ?_⟩
    · simp [childNodeF, childNode, T1, e]
    · obtain ⟨h2, e2, A, hn⟩ := T2 k hk
      exact ⟨_, by simp only [childNodeF, e2, Res.ok_bind, Res.pure_eq], left_heap L O A hn⟩
  | copyOf y =>
    obtain ⟨t, hy⟩ := Option.isSome_iff_exists.mp hok
    obtain ⟨r, hr, hg, hrt, _⟩ := O.get L hy
    obtain ⟨h', p, e, T1, T2⟩ := copy_tries L Fm O1 hy hrt
    refine ⟨_, ⟨t, hy, rfl⟩, fun k => ?_, fun k hk => ?_⟩
    · simp [childNodeF, childNode, hg, T1, e]
    · obtain ⟨h2, e2, A, hn⟩ := T2 k hk
      exact ⟨_, by simp only [childNodeF, hg, Res.ok_bind, e2, Res.pure_eq], left_heap L O A hn⟩

omit L Fm in
theorem insertOverF_eq (sb ab : Bool) (P : Policy) (pos : It) (hm : ∀ y, src ≠ .moveOf y)
    (e : overNodeF M sb ab k W src = (do let (W, p, rs, ra) ← overNode K sb ab W src; pure (W, some (p, rs, ra)))) :
    insertOverF M sb ab k P W x pos src = (do let (W, o) ← W.insertOver K sb ab P x pos src; pure (W, some (.iter o))) := by
  have : insertOverF M sb ab k P W x pos src = (do
      match ← overNodeF M sb ab k W src with
      | (W, none) => pure (W, none)
      | (W, some (p, rs, ra)) => do
        let (h, r, o) ← TreeOps.modifySubtree K P W.heap (← W.get x) pos p rs ra
        pure ((W.setHeap h).put x (some r), some (.iter o))) := by
    cases src <;> first | rfl | exact absurd rfl (hm _)
  rw [this, e]
  have : W.insertOver K sb ab P x pos src = (do
      let (W, p, rs, ra) ← overNode K sb ab W src
      let (h, r, o) ← TreeOps.modifySubtree K P W.heap (← W.get x) pos p rs ra
      pure ((W.setHeap h).put x (some r), o)) := by
    cases src <;> first | rfl | exact absurd rfl (hm _)
  rw [this]
  cases overNode K sb ab W src with
  | ub => rfl
  | diverge => rfl
  | ok q =>
    obtain ⟨W1, p, rs, ra⟩ := q
    simp only [Res.ok_bind, Res.pure_eq]
    cases W1.get x with
    | ub => rfl
    | diverge => rfl
    | ok r =>
      simp only [Res.ok_bind]
      cases TreeOps.modifySubtree K P W1.heap r pos p rs ra <;> rfl

omit L Fm in
theorem insertOverF_threw (sb ab : Bool) (P : Policy) (pos : It) (hm : ∀ y, src ≠ .moveOf y)
    (e : overNodeF M sb ab k W src = .ok (W1, none)) : insertOverF M sb ab k P W x pos src = .ok (W1, none) := by
  cases src <;> first | exact absurd rfl (hm _) | simp [insertOverF, e]

omit L Fm in
theorem insertChildF_eq (front : Bool) (P : Policy) (pos : It) (hm : ∀ y, src ≠ .moveOf y)
    (e : childNodeF M front k W src = (do let (W, p, rs, ra) ← childNode K front W src; pure (W, some (p, rs, ra)))) :
    insertChildF M front k P W x pos src = (do let (W, o) ← W.insertChild K front P x pos src; pure (W, some (.iter o))) := by
  have : insertChildF M front k P W x pos src = (do
      match ← childNodeF M front k W src with
      | (W, none) => pure (W, none)
      | (W, some (p, rs, ra)) => do
        let (h, r, o) ← TreeOps.addChild K front P W.heap (← W.get x) pos p rs ra
        pure ((W.setHeap h).put x (some r), some (.iter o))) := by
    cases src <;> first | rfl | exact absurd rfl (hm _)
  rw [this, e]
  have : W.insertChild K front P x pos src = (do
      let (W, p, rs, ra) ← childNode K front W src
      let (h, r, o) ← TreeOps.addChild K front P W.heap (← W.get x) pos p rs ra
      pure ((W.setHeap h).put x (some r), o)) := by
    cases src <;> first | rfl | exact absurd rfl (hm _)
  rw [this]
  cases childNode K front W src with
  | ub => rfl
  | diverge => rfl
  | ok q =>
    obtain ⟨W1, p, rs, ra⟩ := q
    simp only [Res.ok_bind, Res.pure_eq]
    cases W1.get x with
    | ub => rfl
    | diverge => rfl
    | ok r =>
      simp only [Res.ok_bind]
      cases TreeOps.addChild K front P W1.heap r pos p rs ra <;> rfl

omit L Fm in
theorem insertChildF_threw (front : Bool) (P : Policy) (pos : It) (hm : ∀ y, src ≠ .moveOf y)
    (e : childNodeF M front k W src = .ok (W1, none)) : insertChildF M front k P W x pos src = .ok (W1, none) := by
  cases src <;> first | exact absurd rfl (hm _) | simp [insertChildF, e]

/-- Every supported call, when an event throws. -/
theorem stepF_spec (O : OwnedBut Z S W ts) (op : Op α lit) (hl : Legal S W.heap ts op) : ∃ m, Op.Makes S ts op m ∧
    (∀ k, W.stepF M (2 * m + k) op = (do let (W, o) ← W.step K op; pure (W, some o))) ∧
    ∀ k, k < 2 * m → ∃ W1, W.stepF M k op = .ok (W1, none) ∧ Left Z S ts W k W1 := by
  obtain ⟨O1, _⟩ := (owned_match L).mp O
  cases op with
  | newCopy x y =>
    obtain ⟨t, hy⟩ := Option.isSome_iff_exists.mp hl.2
    obtain ⟨r, hr, hg, hrt, _⟩ := O.get L hy
    obtain ⟨h', p, e, T1, T2⟩ := copy_tries L Fm O1 hy hrt
    refine ⟨_, ⟨t, hy, rfl⟩, fun k => ?_, fun k hk => ?_⟩
    · simp [stepF, newCopyF, step, newCopy, hg, T1, e]
    · obtain ⟨h2, e2, A, hn⟩ := T2 k hk
      exact ⟨_, by simp only [stepF, newCopyF, hg, Res.ok_bind, e2, Res.pure_eq], left_heap L O A hn⟩
  | assignCopy x y =>
    obtain ⟨t, hy⟩ := Option.isSome_iff_exists.mp hl.2
    obtain ⟨r, hr, hg, hrt, _⟩ := O.get L hy
    obtain ⟨h', p, e, T1, T2⟩ := copy_tries L Fm O1 hy hrt
    refine ⟨_, ⟨t, hy, rfl⟩, fun k => ?_, fun k hk => ?_⟩
    · simp only [stepF, assignCopyF, step, assignCopy, hg, T1, e, Res.ok_bind]
      cases (W.setHeap h').get x with
      | ub => rfl
      | diverge => rfl
      | ok r2 => simp only [Res.ok_bind]; cases TreeOps.assign K (W.setHeap h').heap r2 p r.size r.arity <;> rfl
    · obtain ⟨h2, e2, A, hn⟩ := T2 k hk
      exact ⟨_, by simp only [stepF, assignCopyF, hg, Res.ok_bind, e2, Res.pure_eq], left_heap L O A hn⟩
  | newLit x l =>
    obtain ⟨n, hv, h', b, e, T1, T2⟩ := lit_tries L Fm O1.wf hl.2
    refine ⟨_, ⟨n, hv, rfl⟩, fun k => ?_, fun k hk => ?_⟩
    · simp [stepF, newLitF, step, newLit, T1, e]
    · obtain ⟨h2, e2, A, hn⟩ := T2 k hk
      exact ⟨_, by simp only [stepF, newLitF, Res.ok_bind, e2, Res.pure_eq], left_heap L O A hn⟩
  | assignLit x l =>
    obtain ⟨n, hv, h', b, e, T1, T2⟩ := lit_tries L Fm O1.wf hl.2
    refine ⟨_, ⟨n, hv, rfl⟩, fun k => ?_, fun k hk => ?_⟩
    · simp only [stepF, assignLitF, step, assignLit, T1, e, Res.ok_bind]
      cases (W.setHeap h').get x with
      | ub => rfl
      | diverge => rfl
      | ok r2 => simp only [Res.ok_bind]; cases TreeOps.assign K (W.setHeap h').heap r2 (some b) (K.litSize l) (K.litArity l) <;> rfl
    · obtain ⟨h2, e2, A, hn⟩ := T2 k hk
      exact ⟨_, by simp only [stepF, assignLitF, Res.ok_bind, e2, Res.pure_eq], left_heap L O A hn⟩
  | insertOver sb ab P x pos src =>
    obtain ⟨t, hx, hok, _⟩ := hl
    by_cases hm : ∃ y, src = .moveOf y
    · obtain ⟨y, rfl⟩ := hm
      refine ⟨0, rfl, fun k => ?_, fun k hk => by simp at hk⟩
      simp only [stepF, insertOverF, step]
      cases W.insertOver K sb ab P x pos (.moveOf y) <;> rfl
    · have hm' : ∀ y, src ≠ .moveOf y := fun y e => hm ⟨y, e⟩
      obtain ⟨m, h1, h2, h3⟩ := overNodeF_spec L Fm O hok sb ab hm'
      refine ⟨m, h1, fun k => ?_, fun k hk => ?_⟩
      · simp only [stepF, step]
        rw [insertOverF_eq sb ab P pos hm' (h2 k)]
        cases W.insertOver K sb ab P x pos src <;> rfl
      · obtain ⟨W1, e, hL⟩ := h3 k hk
        exact ⟨W1, insertOverF_threw sb ab P pos hm' e, hL⟩
  | insertChild front P x pos src =>
    obtain ⟨t, hx, hok, _⟩ := hl
    by_cases hm : ∃ y, src = .moveOf y
    · obtain ⟨y, rfl⟩ := hm
      refine ⟨0, rfl, fun k => ?_, fun k hk => by simp at hk⟩
      simp only [stepF, insertChildF, step]
      cases W.insertChild K front P x pos (.moveOf y) <;> rfl
    · have hm' : ∀ y, src ≠ .moveOf y := fun y e => hm ⟨y, e⟩
      obtain ⟨m, h1, h2, h3⟩ := childNodeF_spec L Fm O hok front hm'
      refine ⟨m, h1, fun k => ?_, fun k hk => ?_⟩
      · simp only [stepF, step]
        rw [insertChildF_eq front P pos hm' (h2 k)]
        cases W.insertChild K front P x pos src <;> rfl
      · obtain ⟨W1, e, hL⟩ := h3 k hk
        exact ⟨W1, insertChildF_threw front P pos hm' e, hL⟩
  | _ => exact ⟨0, rfl, fun k => rfl, fun k hk => by simp at hk⟩

/-- A program that handles the exceptions. -/
theorem runF_trace (D : Determined S) : ∀ (l : List (Op α lit × Option Nat)) (W : World ν) (Z : Addr → Prop) (ts : Nat → Option T),
    OwnedBut Z S W ts → SupportsF S M W l → ∃ W' as Z' ts', W.runF M l = .ok (W', as) ∧ as.length = l.length ∧
      TraceF S M W Z ts (l.zip as) W' Z' ts' ∧ OwnedBut Z' S W' ts' := by
  intro l
  induction l with
  | nil => intro W Z ts O _; exact ⟨W, [], Z, ts, rfl, rfl, .done W Z ts O, O⟩
  | cons ok l ih =>
    obtain ⟨op, k⟩ := ok
    intro W Z ts O ⟨⟨Z0, ts0, O0, hl⟩, hrest⟩
    have e := OwnedBut.unique D O0 O
    subst e
    obtain ⟨m, h1, h2, h3⟩ := stepF_spec L Fm O op hl
    obtain ⟨W1, o, ts1, e1, O1, E1, _⟩ := step_spec L O op hl
    have fine : (∀ n, k = some n → 2 * m ≤ n) → ∃ W' as Z' ts', W.runF M ((op, k) :: l) = .ok (W', as) ∧ as.length = ((op, k) :: l).length ∧
        TraceF S M W Z ts0 (((op, k) :: l).zip as) W' Z' ts' ∧ OwnedBut Z' S W' ts' := by
      intro hk
      have ec : W.call M op k = .ok (W1, some o) := by
        cases k with
        | none => simp [World.call, e1]
        | some n =>
          obtain ⟨j, rfl⟩ := Nat.exists_eq_add_of_le (hk n rfl)
          simp [World.call, h2, e1]
      obtain ⟨W2, as, Z2, ts2, h4, h5, h6, h7⟩ := ih W1 Z ts1 O1 (hrest W1 (some o) ec)
      exact ⟨W2, some o :: as, Z2, ts2, by simp [World.runF, ec, h4], by simp [h5], .works _ _ _ _ _ _ _ _ _ _ _ _ _ O h1 hk ec e1 E1 h6, h7⟩
    cases k with
    | none => exact fine (by rintro _ ⟨⟩)
    | some n =>
      by_cases hn : 2 * m ≤ n
      · exact fine (by rintro _ ⟨⟩; exact hn)
      · obtain ⟨W1, e, O1, hc, hs⟩ := h3 n (Nat.lt_of_not_le hn)
        obtain ⟨W2, as, Z2, ts2, h4, h5, h6, h7⟩ := ih W1 _ ts0 O1 (hrest W1 none e)
        exact ⟨W2, none :: as, Z2, ts2, by simp [World.runF, World.call, e, h4], by simp [h5],
          .throws _ _ _ _ _ _ _ _ _ _ _ O h1 (Nat.lt_of_not_le hn) e hc hs h6, h7⟩

omit L Fm in
theorem TraceF.fst {Z' : Addr → Prop} {ts' : Nat → Option T} {l : List ((Op α lit × Option Nat) × Option Ans)}
    (Tr : TraceF S M W Z ts l W1 Z' ts') : OwnedBut Z S W ts := by
  cases Tr <;> assumption

omit L Fm in
theorem TraceF.lst {Z' : Addr → Prop} {ts' : Nat → Option T} {l : List ((Op α lit × Option Nat) × Option Ans)}
    (Tr : TraceF S M W Z ts l W1 Z' ts') : OwnedBut Z' S W1 ts' := by
  induction Tr <;> assumption

omit L Fm in
/-- What is lost stays lost. -/
theorem TraceF.mono {Z' : Addr → Prop} {ts' : Nat → Option T} {l : List ((Op α lit × Option Nat) × Option Ans)}
    (Tr : TraceF S M W Z ts l W1 Z' ts') : ∀ a, Z a → Z' a := by
  induction Tr with
  | done => exact fun _ h => h
  | works => assumption
  | throws W G ts op k m W1 l W2 G2 ts2 _ _ _ _ _ _ _ ih => exact fun a h => ih a (Or.inl h)

omit L Fm in
/-- The lost nodes, counted. -/
theorem TraceF.count {Z' : Addr → Prop} {ts' : Nat → Option T} {l : List ((Op α lit × Option Nat) × Option Ans)}
    (Tr : TraceF S M W Z ts l W1 Z' ts') : ∀ zs : List Addr, zs.Nodup → (∀ a, a ∈ zs ↔ Z a) →
    ∃ zs' : List Addr, zs'.Nodup ∧ (∀ a, a ∈ zs' ↔ Z' a) ∧ zs'.length = zs.length + lostNodes l := by
  induction Tr with
  | done => exact fun zs h1 h2 => ⟨zs, h1, h2, rfl⟩
  | works W G ts op k m W1 o ts1 l W2 G2 ts2 _ _ _ _ _ _ _ ih =>
    intro zs h1 h2
    obtain ⟨zs', h3, h4, h5⟩ := ih zs h1 h2
    exact ⟨zs', h3, h4, h5.trans (by simp [lostNodes])⟩
  | throws W G ts op k m W1 l W2 G2 ts2 O _ _ _ _ _ _ ih =>
    intro zs h1 h2
    have lt : ∀ a ∈ zs, a < W.heap.next := by
      intro a ha
      refine Nat.lt_of_not_le fun hle => ?_
      have := O.lost a ((h2 a).mp ha)
      simp [O.wf a hle] at this
    obtain ⟨zs', h3, h4, h5⟩ := ih (zs ++ List.range' W.heap.next ((k + 1) / 2)) (by
      refine List.nodup_append.mpr ⟨h1, List.nodup_range', fun a ha b hb => ?_⟩
      rw [List.mem_range'_1] at hb
      have := lt a ha
      grind) (by
      intro a
      simp only [List.mem_append, List.mem_range'_1, h2]
      rfl)
    refine ⟨zs', h3, h4, h5.trans ?_⟩
    simp [lostNodes, Nat.add_assoc]

end
