import Verif.Spec.Spill
import Verif.Proof.FaultSteps
/-! Insertions at `end()` of trees that are not empty. -/
open Tree World

section
variable {ν α lit T V C : Type} {K : Kind ν α lit} {Z : Addr → Prop} {S : Shape K T V C} {ts : Nat → Option T} {W W1 : World ν}
  {t : T} {x y : Nat} {r : TreeRec} {src : Src α lit} {M : Makers K} {m : Nat}
variable (L : Lawful S) (Fm : Faithful M)
include L Fm

theorem copy_adds (O : Own Z S W.heap ts S.nil) (hy : ts y = some t) (hr : r.root = S.ptr t) :
    ∃ h' p, copyNodes K W r = .ok (W.setHeap h', p) ∧ Adds W.heap.next W.heap h' ∧ h'.next = W.heap.next + S.size t := by
  unfold copyNodes
  rw [hr]
  cases hp : S.ptr t with
  | none =>
    have := L.ptr_none_iff.mp hp
    subst this
    exact ⟨W.heap, none, rfl, .refl O.wf, by simp [L.size_nil]⟩
  | some a =>
    obtain ⟨h', b, t', e, h1, h2, h3, h4⟩ := L.copy W.heap t a O.wf (O.rep y t hy) hp
    obtain ⟨A, _⟩ := Fm.copy _ _ _ _ _ O.wf e
    have hc := grown_count h4 (L.rep_nodup _ _ h2) A
    rw [L.length_addrs, (L.vals_inj t' t h3).2.1] at hc
    refine ⟨h', some b, by simp [e, setHeap], A, ?_⟩
    have := A.le
    grind

theorem lit_adds {h : Heap ν} (hw : h.WF) {l : lit} (hl : S.litOk l) :
    ∃ n h' b, S.vals n = S.litVals l ∧ K.ofLit h l = .ok (h', b) ∧ Adds h.next h h' ∧ h'.next = h.next + S.size n := by
  obtain ⟨h', b, n, e, h1, h2, h3, h4⟩ := L.ofLit h l hw hl
  obtain ⟨A, -⟩ := Fm.ofLit _ _ _ _ hw e
  have hc := grown_count h4 (L.rep_nodup _ _ h2) A
  rw [L.length_addrs] at hc
  refine ⟨n, h', b, h3, e, A, ?_⟩
  have := A.le
  grind

/-- The nodes made for the call, which nobody owns then. -/
theorem overNode_left (O : OwnedBut Z S W ts) (hok : SrcOk S ts src) (sb ab : Bool) (hm : ∀ y, src ≠ .moveOf y) :
    ∃ m W1 q, SrcMakes S ts src m ∧ overNode K sb ab W src = .ok (W1, q) ∧ Left Z S ts W (2 * m) W1 := by
  obtain ⟨O1, _⟩ := (owned_match L).mp O
  have half : ∀ n, (2 * n + 1) / 2 = n := by omega
  cases src with
  | moveOf y => exact absurd rfl (hm y)
  | value v =>
    obtain ⟨A1, _⟩ := Mir.alloc (n := K.leaf v) (J := fun _ => True) (Q := fun _ => True) (fun _ => trivial) (fun _ _ => trivial)
      O1.wf (Nat.le_refl _) trivial _ _ rfl
    exact ⟨1, _, _, rfl, rfl, left_heap L O A1 rfl⟩
  | lit l =>
    obtain ⟨n, h', b, hv, e, A, hn⟩ := lit_adds L Fm O1.wf (l := l) hok
    exact ⟨_, _, _, ⟨n, hv, rfl⟩, by simp only [overNode, e, Res.ok_bind, Res.pure_eq]; rfl, left_heap L O A (by rw [half]; exact hn)⟩
  | emplaceLit l =>
    obtain ⟨n, h', b, hv, e, A, hn⟩ := lit_adds L Fm O1.wf (l := l) hok
    exact ⟨_, _, _, ⟨n, hv, rfl⟩, by simp only [overNode, e, Res.ok_bind, Res.pure_eq]; rfl, left_heap L O A (by rw [half]; exact hn)⟩
  | copyOf y =>
    obtain ⟨t, hy⟩ := Option.isSome_iff_exists.mp hok
    obtain ⟨r, hr, hg, hrt, _⟩ := O.get L hy
    obtain ⟨h', p, e, A, hn⟩ := copy_adds L Fm O1 hy hrt
    have Hl : Left Z S ts W (2 * S.size t) (W.setHeap h') := left_heap L O A (by rw [half]; exact hn)
    obtain ⟨W2, n, e3, O2, h3, _⟩ := size_now L Hl.1 hy
    obtain ⟨W2', e3', H2⟩ := left_size (b := true) L Hl O hy
    have : W2' = W2 := by
      simp only [if_true, e3, Res.ok_bind, Res.pure_eq, Res.ok.injEq] at e3'
      exact e3'.symm
    subst this
    obtain ⟨W3, n4, e4, O4, h4, _⟩ := arity_now L H2.1 hy
    obtain ⟨W3', e4', H3⟩ := left_arity (b := true) L H2 O hy
    have : W3' = W3 := by
      simp only [if_true, e4, Res.ok_bind, Res.pure_eq, Res.ok.injEq] at e4'
      exact e4'.symm
    subst this
    exact ⟨_, _, _, ⟨t, hy, rfl⟩, by simp only [overNode, hg, Res.ok_bind, e, e3, e4, Res.pure_eq]; rfl, H3⟩

theorem spill_step (O : OwnedBut Z S W ts) {op : Op α lit} (hs : Spills S ts op m) :
    ∃ W1, W.step K op = .ok (W1, .iter .threw) ∧ OwnedBut (LostAlso Z W.heap.next m) S W1 ts ∧
      (∀ a, a < W.heap.next → W1.heap.cells a = W.heap.cells a) ∧ SameCounts K W W1 := by
  obtain ⟨sb, ab, P, x, pos, src, t, rfl, hx, ht, hend, hok, hm, hmk⟩ := hs
  obtain ⟨m', W1, q, h1, e, Hl⟩ := overNode_left L Fm O hok sb ab hm
  have hmm : m' = m := by
    cases src with
    | value v => exact h1.trans hmk.symm
    | moveOf y => exact h1.trans hmk.symm
    | lit v =>
      obtain ⟨n, e1, rfl⟩ := h1
      obtain ⟨n', e2, rfl⟩ := hmk
      exact (L.vals_inj n n' (e1.trans e2.symm)).2.1
    | emplaceLit v =>
      obtain ⟨n, e1, rfl⟩ := h1
      obtain ⟨n', e2, rfl⟩ := hmk
      exact (L.vals_inj n n' (e1.trans e2.symm)).2.1
    | copyOf y =>
      obtain ⟨n, e1, rfl⟩ := h1
      obtain ⟨n', e2, rfl⟩ := hmk
      rw [e1] at e2; cases e2; rfl
  subst hmm
  obtain ⟨p, rs, ra⟩ := q
  obtain ⟨O1, hc, hsame⟩ := Hl
  rw [show (2 * m' + 1) / 2 = m' by omega] at O1
  obtain ⟨r, hr, hg, hrt, _⟩ := O1.get L hx
  have hroot : ∃ a, r.root = some a := by
    rw [hrt]
    cases hp : S.ptr t with
    | none => exact absurd (L.ptr_none_iff.mp hp) ht
    | some a => exact ⟨a, rfl⟩
  obtain ⟨a, ha⟩ := hroot
  have hins : W.insertOver K sb ab P x pos src = .ok ((W1.setHeap W1.heap).put x (some r), .threw) := by
    have : W.insertOver K sb ab P x pos src = (do
        let (W, p, rs, ra) ← overNode K sb ab W src
        let (h, r, o) ← TreeOps.modifySubtree K P W.heap (← W.get x) pos p rs ra
        pure ((W.setHeap h).put x (some r), o)) := by
      cases src <;> first | rfl | exact absurd rfl (hm _)
    rw [this, e]
    simp only [Res.ok_bind, hg, TreeOps.modifySubtree, show pos.st.cur = none from hend, ha, Res.pure_eq]
  have hput : (W1.setHeap W1.heap).put x (some r) = W1 := by
    show World.mk W1.heap _ = W1
    cases W1 with
    | mk h v =>
      congr 1
      funext z
      by_cases hz : z = x
      · subst hz; simp_all
      · simp [hz, World.setHeap]
  refine ⟨W1, ?_, O1, hc, hsame⟩
  simp only [step, hins, hput, Res.ok_bind, Res.pure_eq]

theorem runL_trace (D : Determined S) : ∀ (l : List (Op α lit)) (W : World ν) (Z : Addr → Prop) (ts : Nat → Option T),
    OwnedBut Z S W ts → SupportsL S W l → ∃ W' as Z' ts' n, W.run K l = .ok (W', as) ∧ as.length = l.length ∧
      TraceL S W Z ts (l.zip as) W' Z' ts' n ∧ OwnedBut Z' S W' ts' := by
  intro l
  induction l with
  | nil => intro W Z ts O _; exact ⟨W, [], Z, ts, 0, rfl, rfl, .done W Z ts O, O⟩
  | cons op l ih =>
    intro W Z ts O ⟨⟨Z0, ts0, O0, hl⟩, hrest⟩
    have e := OwnedBut.unique D O0 O
    subst e
    rcases hl with hl | ⟨m, hs⟩
    · obtain ⟨W1, o, ts1, e1, O1, E1, _⟩ := step_spec L O op hl
      obtain ⟨W2, as, Z2, ts2, n, h4, h5, h6, h7⟩ := ih W1 Z ts1 O1 (hrest W1 o e1)
      exact ⟨W2, o :: as, Z2, ts2, n, by simp [World.run, e1, h4], by simp [h5], .works _ _ _ _ _ _ _ _ _ _ _ _ O hl e1 E1 h6, h7⟩
    · obtain ⟨W1, e1, O1, hc, hsame⟩ := spill_step L Fm O hs
      obtain ⟨W2, as, Z2, ts2, n, h4, h5, h6, h7⟩ := ih W1 _ ts0 O1 (hrest W1 _ e1)
      exact ⟨W2, _ :: as, Z2, ts2, m + n, by simp [World.run, e1, h4], by simp [h5], .spills _ _ _ _ _ _ _ _ _ _ _ O hs e1 hc hsame h6, h7⟩

omit L Fm in
theorem TraceL.mono {Z' : Addr → Prop} {ts' : Nat → Option T} {l : List (Op α lit × Ans)} {n : Nat}
    (Tr : TraceL S W Z ts l W1 Z' ts' n) : ∀ a, Z a → Z' a := by
  induction Tr with
  | done => exact fun _ h => h
  | works => assumption
  | spills W G ts op m W1 l W2 G2 ts2 n _ _ _ _ _ _ ih => exact fun a h => ih a (Or.inl h)

omit L Fm in
theorem TraceL.count {Z' : Addr → Prop} {ts' : Nat → Option T} {l : List (Op α lit × Ans)} {n : Nat}
    (Tr : TraceL S W Z ts l W1 Z' ts' n) : ∀ zs : List Addr, zs.Nodup → (∀ a, a ∈ zs ↔ Z a) →
    ∃ zs' : List Addr, zs'.Nodup ∧ (∀ a, a ∈ zs' ↔ Z' a) ∧ zs'.length = zs.length + n := by
  induction Tr with
  | done => exact fun zs h1 h2 => ⟨zs, h1, h2, rfl⟩
  | works W G ts op W1 o ts1 l W2 G2 ts2 n _ _ _ _ _ ih => exact ih
  | spills W G ts op m W1 l W2 G2 ts2 n O _ _ _ _ _ ih =>
    intro zs h1 h2
    have lt : ∀ a ∈ zs, a < W.heap.next := by
      intro a ha
      refine Nat.lt_of_not_le fun hle => ?_
      have := O.lost a ((h2 a).mp ha)
      simp [O.wf a hle] at this
    obtain ⟨zs', h3, h4, h5⟩ := ih (zs ++ List.range' W.heap.next m) (by
      refine List.nodup_append.mpr ⟨h1, List.nodup_range', fun a ha b hb => ?_⟩
      rw [List.mem_range'_1] at hb
      have := lt a ha
      grind) (by
      intro a
      simp only [List.mem_append, List.mem_range'_1, h2]
      rfl)
    exact ⟨zs', h3, h4, h5.trans (by simp [Nat.add_assoc])⟩

end
