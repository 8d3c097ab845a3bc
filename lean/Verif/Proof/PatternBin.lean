import Verif.Proof.PatternResult
/-! The binary trees made of what a pattern has matched. -/
open BTree

set_option linter.unusedSimpArgs false

namespace Binary
open Pat (Found FoundL Exact ExactL plain plainL found_mark)
variable {α : Type} {m : Marks} {T : BTree (Addr × α)} {h : BHeap α}

theorem Rep.grown {h h' : BHeap α} {t : BTree (Addr × α)} {ks} (H : Rep h t) (hw : h.WF) (G : Grown h h' ks) : Rep h' t :=
  ⟨G.holds hw H.1, H.2⟩

theorem isLeftChild_spec {fs : List (Frame (Addr × α))} {q p : Addr × α} {b : Bool} {o l r : BTree (Addr × α)}
    (H : Rep h (plug (⟨q, b, o⟩ :: fs) (node p l r))) : isLeftChild h p.1 = Res.ok b := by
  have hc := H.cell
  have hp := H.parent_cell
  have hnd := ((rep_plug (⟨q, b, o⟩ :: fs) (node p l r)).mp H).2.2
  simp only [fpar_cons] at hc
  have hno : o.addr? ≠ some p.1 := by
    intro e
    have := addr?_mem e
    have h2 := (List.nodup_append.mp hnd).2.2 p.1 (by simp [ctxAddrs, this]) p.1 (by simp)
    exact h2 rfl
  simp only [isLeftChild, Heap.read_of hc, Res.ok_bind, Heap.read_of hp, frameRec]
  cases b
  · have : (some p.1 == o.addr?) = false := by
      simp; exact fun e => hno e.symm
    simp [this]
  · simp

/-- The tree with one slot of its root filled. -/
def slotted (p : Addr × α) (L R : BTree (Addr × α)) (b : Bool) (c : BTree (Addr × α)) : BTree (Addr × α) :=
  if b then node p c R else node p L c

theorem attach_spec {r : Addr} {v : α} {L R c : BTree (Addr × α)} {b : Bool} {a y : Addr} (hb : isLeftChild h a = Res.ok b)
    (H : Rep h (node (r, v) L R)) (hL : b = true → L = nil) (hR : b = false → R = nil)
    (K : Rep h c) (hd : ∀ x ∈ (node (r, v) L R).addrs, x ∉ c.addrs) (hy : c.addr? = some y) :
    ∃ h', (Binary.builder α).attach h r y a = Res.ok h' ∧ Rep h' (slotted (r, v) L R b c) ∧ h'.next = h.next ∧
      (∀ x, x ∉ (node (r, v) L R).addrs → x ∉ c.addrs → h'.cells x = h.cells x) := by
  have hc := Rep.cell (fs := []) H
  simp only [fpar_nil] at hc
  have hry : r ≠ y := fun e => hd r (by simp) (e ▸ addr?_mem hy)
  have hyr := hry.symm
  obtain ⟨n, hyc⟩ : ∃ n, h.cells y = some n := by
    have := K.1.isSome (a := y) (by rw [keys_cells]; exact addr?_mem hy)
    exact Option.isSome_iff_exists.mp this
  suffices hh : ∀ P : BHeap α → Prop,
      (∀ h', h'.next = h.next →
        h'.cells r = some (if b then ⟨v, none, some y, R.addr?⟩ else ⟨v, none, L.addr?, some y⟩) →
        h'.cells y = some { n with parent := some r } →
        (∀ a, a ≠ r → a ≠ y → h'.cells a = h.cells a) → P h') →
      ∃ h', (Binary.builder α).attach h r y a = Res.ok h' ∧ P h' by
    refine hh _ ?_
    intro h' hn hr hyc' hs
    refine ⟨?_, hn, ?_⟩
    · cases b with
      | true =>
        have := addChild_rep (fs := []) (nl := c) (nr := R) H K hd hy (h' := h')
          (.inl ⟨rfl, .inr ⟨rfl, hL rfl⟩⟩) (by rw [hr]; simp [hy]) (by simp [hyc', hyc]) hs
        simpa [slotted] using this
      | false =>
        have := addChild_rep (fs := []) (nl := L) (nr := c) H K hd hy (h' := h')
          (.inr ⟨rfl, .inl ⟨rfl, hR rfl⟩⟩) (by rw [hr]; simp [hy]) (by simp [hyc', hyc]) hs
        simpa [slotted] using this
    · intro x hx hx'
      exact hs x (fun e => hx (e ▸ by simp)) (fun e => hx' (e ▸ addr?_mem hy))
  intro P hP
  cases b with
  | true =>
    have hL := hL rfl
    subst hL
    simp [Binary.builder, hb, Heap.read, Heap.modify, hc, hry, hyr, hyc, Res.assert, -Res.ok.injEq]
    refine ⟨_, rfl, ?_⟩
    apply hP <;> simp [hry, hyr] <;> grind
  | false =>
    have hR := hR rfl
    subst hR
    simp [Binary.builder, hb, Heap.read, Heap.modify, hc, hry, hyr, hyc, Res.assert, -Res.ok.injEq]
    refine ⟨_, rfl, ?_⟩
    apply hP <;> simp [hry, hyr] <;> grind

/-- The rose tree of a node. -/
abbrev roseAt (a : Addr × α) (l r : BTree (Addr × α)) : Tree (Addr × α) := .node a (l.toRose ++ r.toRose)

/-- The result of a matcher, for a match found in `T`. -/
def Good (m : Marks) (T : BTree (Addr × α)) (p : Pat α) : Prop :=
  ∀ (h : BHeap α) gs a l r, h.WF → Rep h T → plug gs (node a l r) = T → p.plain → Found Prod.snd Prod.fst m p (roseAt a l r) →
    ∃ h' cl cr b l' r', Pattern.result (Binary.kind α) BNode.value (Binary.builder α) m p h = Res.ok (h', some b) ∧
      Rep h' (node (b, a.2) l' r') ∧ l'.vals = cl.vals ∧ r'.vals = cr.vals ∧ BTree.Part cl l ∧ BTree.Part cr r ∧
      Exact Prod.snd Prod.fst m p (roseAt a cl cr) ∧
      Grown h h' (node (b, a.2) l' r').addrs

theorem addrs_slotted (p : Addr × α) (L R c : BTree (Addr × α)) (b : Bool) (hL : b = true → L = nil) (hR : b = false → R = nil) (x) :
    x ∈ (slotted p L R b c).addrs ↔ x ∈ (node p L R).addrs ∨ x ∈ c.addrs := by
  cases b
  · have := hR rfl; subst this; simp [slotted]; grind
  · have := hL rfl; subst this; simp [slotted]; grind

/-- One child of a result. -/
theorem step_spec {p : Pat α} (hg : Good m T p) (hp : p.plain) {h0 h : BHeap α} {rr : Addr} {v : α} {L R : BTree (Addr × α)}
    (hw0 : h0.WF) (HT : Rep h0 T) (G : Grown h0 h (node (rr, v) L R).addrs) (H : Rep h (node (rr, v) L R))
    {q : Addr × α} {b : Bool} {o : BTree (Addr × α)} {gs} {a : Addr × α} {l r : BTree (Addr × α)}
    (hs : plug (⟨q, b, o⟩ :: gs) (node a l r) = T) (hL : b = true → L = nil) (hR : b = false → R = nil)
    (hF : Found Prod.snd Prod.fst m p (roseAt a l r)) (ps : List (Pat α)) :
    ∃ h' cl cr c', Pattern.resultL (Binary.kind α) BNode.value (Binary.builder α) m rr (p :: ps) h =
        Pattern.resultL (Binary.kind α) BNode.value (Binary.builder α) m rr ps h' ∧
      Rep h' (slotted (rr, v) L R b c') ∧ c'.vals = (node a cl cr).vals ∧ BTree.Part cl l ∧ BTree.Part cr r ∧
      Exact Prod.snd Prod.fst m p (roseAt a cl cr) ∧ Grown h0 h' (slotted (rr, v) L R b c').addrs := by
  obtain ⟨h1, cl, cr, y, l', r', e1, K1, V1, V2, P1, P2, E1, G1⟩ := hg h _ a l r G.wf (HT.grown hw0 G) hs hp hF
  have HT1 := (HT.grown hw0 G).grown G.wf G1
  rw [← hs] at HT1
  have hb := isLeftChild_spec HT1
  have H1 := H.grown G.wf G1
  obtain ⟨h2, e2, H2, hn2, hs2⟩ := attach_spec hb H1 hL hR K1 (by
    intro x hx hm
    have h1 := G1.fresh x hm
    have h2 := G.fresh x hx
    grind) rfl
  refine ⟨h2, cl, cr, _, ?_, H2, by simp [vals_node, V1, V2], P1, P2, E1, ?_⟩
  · simp only [Pattern.resultL, found_mark hF, e1, Res.ok_bind, Tree.label_node]
    simp only [deref, Res.pure_eq, Res.ok_bind]
    rw [e2]; rfl
  · refine ((G.trans G1).modify hn2 ?_).congr ?_
    · intro x hx
      simp only [List.mem_append, not_or] at hx
      exact hs2 x hx.1 hx.2
    · intro x
      rw [addrs_slotted _ _ _ _ _ hL hR]
      simp only [List.mem_append]

theorem clone_spec (ps : List (Pat α)) (ih : ∀ p ∈ ps, Good m T p) (hp : plainL ps) (h : BHeap α)
    {gs} {a : Addr × α} {l r} (hw : h.WF) (HT : Rep h T) (hs : plug gs (node a l r) = T)
    (hF : FoundL Prod.snd Prod.fst m ps (l.toRose ++ r.toRose)) :
    ∃ h' cl cr b l' r', (do
        let n ← h.read a.1
        let (h, r) := h.alloc ((Binary.kind α).leaf (BNode.value n))
        let h ← Pattern.resultL (Binary.kind α) BNode.value (Binary.builder α) m r ps h
        pure (h, some r)) = Res.ok (h', some b) ∧
      Rep h' (node (b, a.2) l' r') ∧ l'.vals = cl.vals ∧ r'.vals = cr.vals ∧ BTree.Part cl l ∧ BTree.Part cr r ∧
      ExactL Prod.snd Prod.fst m ps (cl.toRose ++ cr.toRose) ∧ Grown h h' (node (b, a.2) l' r').addrs := by
  have hc : h.cells a.1 = some ⟨a.2, fpar gs, l.addr?, r.addr?⟩ := by rw [← hs] at HT; exact HT.cell
  have hG := grown_alloc hw (leaf a.2)
  have hcell : (h.alloc (leaf a.2)).1.cells h.next = some (leaf a.2) := by simp [Heap.alloc]
  have hK : Rep (h.alloc (leaf a.2)).1 (node (h.next, a.2) nil nil) := by
    refine ⟨by simpa [leaf] using hcell, by simp⟩
  have hG' : Grown h (h.alloc (leaf a.2)).1 (node (h.next, a.2) nil nil).addrs := by simpa using hG
  suffices hh : ∃ h' cl cr l' r', Pattern.resultL (Binary.kind α) BNode.value (Binary.builder α) m h.next ps (h.alloc (leaf a.2)).1 = Res.ok h' ∧
      Rep h' (node (h.next, a.2) l' r') ∧ l'.vals = cl.vals ∧ r'.vals = cr.vals ∧ BTree.Part cl l ∧ BTree.Part cr r ∧
      ExactL Prod.snd Prod.fst m ps (cl.toRose ++ cr.toRose) ∧ Grown h h' (node (h.next, a.2) l' r').addrs by
    obtain ⟨h', cl, cr, l', r', e, hrest⟩ := hh
    refine ⟨h', cl, cr, h.next, l', r', ?_, hrest⟩
    simp only [Heap.read_of hc, Res.ok_bind]
    have e1 : (Binary.kind α).leaf a.2 = leaf a.2 := rfl
    have e2 : (h.alloc (leaf a.2)).2 = h.next := rfl
    rw [e1, e2, e]; rfl
  have frames : (∀ b ll lr, l = node b ll lr → plug (⟨a, true, r⟩ :: gs) (node b ll lr) = T) ∧
      (∀ b rl rr, r = node b rl rr → plug (⟨a, false, l⟩ :: gs) (node b rl rr) = T) := by
    constructor
    · rintro b ll lr rfl; simpa [Frame.fill] using hs
    · rintro b ll lr rfl; simpa [Frame.fill] using hs
  have hvn : (nil : BTree (Addr × α)).vals = (nil : BTree (Addr × α)).vals := rfl
  have left : ∀ p qs b ll lr, p ∈ ps → l = node b ll lr → Found Prod.snd Prod.fst m p (roseAt b ll lr) →
      ∃ h' cl cr c', Pattern.resultL (Binary.kind α) BNode.value (Binary.builder α) m h.next (p :: qs) (h.alloc (leaf a.2)).1 =
        Pattern.resultL (Binary.kind α) BNode.value (Binary.builder α) m h.next qs h' ∧
      Rep h' (node (h.next, a.2) c' nil) ∧ c'.vals = (node b cl cr).vals ∧ BTree.Part (node b cl cr) l ∧
      Exact Prod.snd Prod.fst m p (roseAt b cl cr) ∧ Grown h h' (node (h.next, a.2) c' nil).addrs := by
    rintro p qs b ll lr hm rfl hF
    obtain ⟨h', cl, cr, c', e, H, V, P1, P2, E, G⟩ := step_spec (ih p hm) (Pat.plainL_mem hp p hm) hw HT hG' hK (frames.1 b ll lr rfl)
      (by simp) (by simp) hF qs
    exact ⟨h', cl, cr, c', e, H, V, .node b P1 P2, E, G⟩
  have right : ∀ p qs b rl rr L h1, p ∈ ps → r = node b rl rr → Rep h1 (node (h.next, a.2) L nil) →
      Grown h h1 (node (h.next, a.2) L nil).addrs → Found Prod.snd Prod.fst m p (roseAt b rl rr) →
      ∃ h' cl cr c', Pattern.resultL (Binary.kind α) BNode.value (Binary.builder α) m h.next (p :: qs) h1 =
        Pattern.resultL (Binary.kind α) BNode.value (Binary.builder α) m h.next qs h' ∧
      Rep h' (node (h.next, a.2) L c') ∧ c'.vals = (node b cl cr).vals ∧ BTree.Part (node b cl cr) r ∧
      Exact Prod.snd Prod.fst m p (roseAt b cl cr) ∧ Grown h h' (node (h.next, a.2) L c').addrs := by
    rintro p qs b rl rr L h1 hm rfl K1 G1 hF
    obtain ⟨h', cl, cr, c', e, H, V, P1, P2, E, G⟩ := step_spec (ih p hm) (Pat.plainL_mem hp p hm) hw HT G1 K1 (frames.2 b rl rr rfl)
      (by simp) (by simp) hF qs
    exact ⟨h', cl, cr, c', e, H, V, .node b P1 P2, E, G⟩
  rcases ps with _ | ⟨p, _ | ⟨q, _ | ⟨q', ps⟩⟩⟩
  · exact ⟨_, nil, nil, nil, nil, rfl, hK, rfl, rfl, .nil _, .nil _, by simp [ExactL], hG'⟩
  · obtain ⟨t, ht, hq⟩ := mem_of_foundL hF
    simp only [List.mem_append] at ht
    rcases ht with ht | ht
    · cases l with
      | nil => simp at ht
      | node b ll lr =>
        simp at ht; subst ht
        obtain ⟨h', cl, cr, c', e, H, V, P, E, G⟩ := left p [] b ll lr (by simp) rfl hq
        exact ⟨h', node b cl cr, nil, c', nil, e, H, V, rfl, P, .nil _, by simp [ExactL, E], G⟩
    · cases r with
      | nil => simp at ht
      | node b rl rr =>
        simp at ht; subst ht
        obtain ⟨h', cl, cr, c', e, H, V, P, E, G⟩ := right p [] b rl rr nil _ (by simp) rfl hK hG' hq
        exact ⟨h', nil, node b cl cr, nil, c', e, H, rfl, V, .nil _, P, by simp [ExactL, E], G⟩
  · have hlen := Pat.fitsL_length (Pat.foundL_fits _ _ hF)
    cases l with
    | nil => cases r <;> simp at hlen
    | node b ll lr =>
      cases r with
      | nil => simp at hlen
      | node d rl rr =>
        simp only [FoundL] at hF
        obtain ⟨l1, t1, r1, e1, _, hF1, l2, t2, r2, rfl, _, hF2, _⟩ := hF
        have hl1 : l1 = [] := by
          have := congrArg List.length e1
          simp at this
          exact List.eq_nil_of_length_eq_zero (by omega)
        subst hl1
        have hl2 : l2 = [] := by
          have := congrArg List.length e1
          simp at this
          exact List.eq_nil_of_length_eq_zero (by omega)
        subst hl2
        simp at e1
        obtain ⟨rfl, rfl, _⟩ := e1
        obtain ⟨h1, cl, cr, c', e, H, V, P, E, G⟩ := left p [q] b ll lr (by simp) rfl hF1
        obtain ⟨h2, dl, dr, d', e2, H2, V2, P2, E2, G2⟩ := right q [] d rl rr c' h1 (by simp) rfl H G hF2
        exact ⟨h2, node b cl cr, node d dl dr, c', d', e.trans e2, H2, V, V2, P, P2, by simp only [ExactL, toRose_node, List.singleton_append]; exact ⟨_, _, rfl, E, _, _, rfl, E2, rfl⟩, G2⟩
  · have hlen := Pat.fitsL_length (Pat.foundL_fits _ _ hF)
    cases l <;> cases r <;> simp at hlen

theorem result_spec (hT : T.addrs.Nodup) : ∀ p : Pat α, Good m T p := by
  intro p
  induction p using Pat.ind with
  | h i k f ps ih =>
    intro h gs a l r hw HT hs hp hF
    cases k with
    | one =>
      simp only [plain] at hp
      simp only [Found, Tree.label_node, Tree.children_node] at hF
      obtain ⟨h', cl, cr, b, l', r', e, H, V1, V2, P1, P2, E, G⟩ := clone_spec ps ih hp h hw HT hs hF.2.2
      refine ⟨h', cl, cr, b, l', r', ?_, H, V1, V2, P1, P2, ?_, G⟩
      · simp only [Pattern.result, hF.1]; exact e
      · simp only [Exact, Tree.label_node, Tree.children_node]; exact ⟨hF.1, hF.2.1, E⟩
    | star q => simp [plain] at hp
    | cpt =>
      simp only [plain] at hp
      simp only [Found] at hF
      obtain ⟨q, rfl⟩ := List.length_eq_one_iff.mp hp.1
      obtain ⟨t, ht, hq⟩ := mem_of_foundL hF.2
      simp only [List.mem_singleton] at ht
      subst ht
      obtain ⟨h', cl, cr, b, l', r', e, H, V1, V2, P1, P2, E, G⟩ := ih q (by simp) h gs a l r hw HT hs hp.2.1 hq
      refine ⟨h', cl, cr, b, l', r', ?_, H, V1, V2, P1, P2, ?_, G⟩
      · simp only [Pattern.result, hF.1, Pattern.resultHead]; exact e
      · simp only [Exact, ExactL]
        exact ⟨hF.1, _, [], rfl, E, rfl⟩
    | opt q =>
      simp only [plain] at hp
      simp only [Found, Tree.label_node, Tree.children_node] at hF
      have hone : ps.length = 1 ∨ Pat.childMaySteal ps = false := by
        rw [Pat.childMaySteal_plain hp.2]
        cases ps with
        | nil => simp at hp
        | cons p ps => cases ps <;> simp
      rcases hF.2 with ⟨hv, hF2⟩ | ⟨_, _, hF2⟩
      · obtain ⟨h', cl, cr, b, l', r', e, H, V1, V2, P1, P2, E, G⟩ := clone_spec ps ih hp.2 h hw HT hs hF2
        refine ⟨h', cl, cr, b, l', r', ?_, H, V1, V2, P1, P2, ?_, G⟩
        · simp only [Pattern.result, hF.1]
          rcases hone with ho | ho
          · obtain ⟨q, rfl⟩ := List.length_eq_one_iff.mp ho
            obtain ⟨t, ht, hq⟩ := mem_of_foundL hF2
            have hne : t.label.1 ≠ a.1 := by
              have hnd : (node a l r).addrs.Nodup := by
                rw [← hs] at HT; exact HT.nodup_focus
              simp only [addrs_node, List.nodup_cons] at hnd
              intro e
              apply hnd.1
              rw [← e]
              simp only [List.mem_append] at ht ⊢
              rcases ht with ht | ht
              · left; cases l with
                | nil => simp at ht
                | node b ll lr => simp at ht; subst ht; simp
              · right; cases r with
                | nil => simp at ht
                | node b ll lr => simp at ht; subst ht; simp
            have hm : m q.id ≠ some a.1 := by
              rw [found_mark hq]; simpa using hne
            simp only [Pat.childMaySteal_plain hp.2, Pattern.stealL, hm, if_false]
            simp only [List.length_singleton, Nat.le_refl, decide_true, if_true, Res.pure_eq, Res.ok_bind, Bool.false_eq_true, if_false]
            exact e
          · simp only [ho, Bool.false_eq_true, if_false]
            simp only [Res.pure_eq, Res.ok_bind, Bool.false_eq_true, if_false]
            exact e
        · simp only [Exact, Tree.label_node, Tree.children_node]; exact ⟨hF.1, .inl ⟨hv, E⟩⟩
      · have ho : ps.length = 1 := by
          have := Pat.fitsL_length (Pat.foundL_fits _ _ hF2)
          cases ps with
          | nil => simp at hp
          | cons p ps => simp at this ⊢; exact this
        obtain ⟨q, rfl⟩ := List.length_eq_one_iff.mp ho
        obtain ⟨t, ht, hq⟩ := mem_of_foundL hF2
        simp only [List.mem_singleton] at ht
        subst ht
        obtain ⟨h', cl, cr, b, l', r', e, H, V1, V2, P1, P2, E, G⟩ := ih q (by simp) h gs a l r hw HT hs (Pat.plainL_mem hp.2 q (by simp)) hq
        refine ⟨h', cl, cr, b, l', r', ?_, H, V1, V2, P1, P2, ?_, G⟩
        · have hm : m q.id = some a.1 := found_mark hq
          simp only [Pattern.result, hF.1, Pat.childMaySteal_plain hp.2, Pattern.stealL, hm, if_true, e, Res.ok_bind]
          simp
        · simp only [Exact, ExactL]
          exact ⟨hF.1, .inr ⟨_, [], rfl, E, rfl⟩⟩
end Binary
