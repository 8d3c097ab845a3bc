import Verif.Proof.Makes
/-! Growing a new binary tree. -/

set_option linter.unusedSimpArgs false

namespace Binary
open BTree
variable {α : Type} {h : BHeap α}

theorem rawNav {t : BTree (Addr × α)} (H : Rep h t) {T : Tree (Addr × α)} (hT : t.toRose = [T]) :
    RawNav ((Binary.kind α).nav h none) T :=
  .of (Binary.starable H hT) rfl (fun x hx => by
    show (Binary.nav h none).next x = (Binary.nav h (some T.addr)).next x
    simp [nav, hx]) rfl

theorem attach_at {fs : List (Frame (Addr × α))} {r : Addr} {v : α} {L R c : BTree (Addr × α)} {b : Bool} {a y : Addr}
    (hb : isLeftChild h a = Res.ok b)
    (H : Rep h (plug fs (node (r, v) L R))) (hL : b = true → L = nil) (hR : b = false → R = nil)
    (K : Rep h c) (hd : ∀ x ∈ (plug fs (node (r, v) L R)).addrs, x ∉ c.addrs) (hy : c.addr? = some y) :
    ∃ h', (Binary.builder α).attach h r y a = Res.ok h' ∧ Rep h' (plug fs (slotted (r, v) L R b c)) ∧ h'.next = h.next ∧
      (∀ x, x ∉ (plug fs (node (r, v) L R)).addrs → x ∉ c.addrs → h'.cells x = h.cells x) := by
  have hc := Rep.cell (fs := fs) H
  have hrm : r ∈ (plug fs (node (r, v) L R)).addrs := List.mem_map.mpr ⟨(r, v), mem_plug .., rfl⟩
  have hry : r ≠ y := fun e => hd r hrm (e ▸ addr?_mem hy)
  have hyr := hry.symm
  obtain ⟨n, hyc⟩ : ∃ n, h.cells y = some n := by
    have := K.1.isSome (a := y) (by rw [keys_cells]; exact addr?_mem hy)
    exact Option.isSome_iff_exists.mp this
  suffices hh : ∀ P : BHeap α → Prop,
      (∀ h', h'.next = h.next →
        h'.cells r = some (if b then ⟨v, fpar fs, some y, R.addr?⟩ else ⟨v, fpar fs, L.addr?, some y⟩) →
        h'.cells y = some { n with parent := some r } →
        (∀ a, a ≠ r → a ≠ y → h'.cells a = h.cells a) → P h') →
      ∃ h', (Binary.builder α).attach h r y a = Res.ok h' ∧ P h' by
    refine hh _ ?_
    intro h' hn hr hyc' hs
    refine ⟨?_, hn, ?_⟩
    · cases b with
      | true =>
        have := addChild_rep (fs := fs) (nl := c) (nr := R) H K hd hy (h' := h')
          (.inl ⟨rfl, .inr ⟨rfl, hL rfl⟩⟩) (by rw [hr]; simp [hy]) (by simp [hyc', hyc]) hs
        simpa [slotted] using this
      | false =>
        have := addChild_rep (fs := fs) (nl := L) (nr := c) H K hd hy (h' := h')
          (.inr ⟨rfl, .inl ⟨rfl, hR rfl⟩⟩) (by rw [hr]; simp [hy]) (by simp [hyc', hyc]) hs
        simpa [slotted] using this
    · intro x hx hx'
      exact hs x (fun e => hx (e ▸ hrm)) (fun e => hx' (e ▸ addr?_mem hy))
  intro P hP
  cases b with
  | true =>
    have hL := hL rfl
    subst hL
    simp [Binary.builder, hb, Heap.read, Heap.modify, hc, hry, hyr, hyc, Res.assert, -Res.ok.injEq]
    refine ⟨_, rfl, ?_⟩
    apply hP <;> simp [hry, hyr] <;> grind
  | false =>
    have hR := hR rfl
    subst hR
    simp [Binary.builder, hb, Heap.read, Heap.modify, hc, hry, hyr, hyc, Res.assert, -Res.ok.injEq]
    refine ⟨_, rfl, ?_⟩
    apply hP <;> simp [hry, hyr] <;> grind

theorem part_inv {β : Type} {a : β} {l r b : BTree β} (hp : BTree.Part (node a l r) b) :
    ∃ l' r', b = node a l' r' ∧ BTree.Part l l' ∧ BTree.Part r r' := by
  cases hp with
  | node a h1 h2 => exact ⟨_, _, rfl, h1, h2⟩

/-- The tree `P` of copies of nodes of the binary tree `t` is in the heap, as a part of `t`. -/
def Made (t : BTree (Addr × α)) (h : BHeap α) (P : Tree (Lab α)) : Prop :=
  ∃ BP : BTree (Lab α), BP.toRose = [P] ∧ Rep h (BP.map Tree.rel) ∧ ∃ gs b, plug gs b = t ∧ BTree.Part (BP.map Prod.fst) b

theorem addrs_rel {BP : BTree (Lab α)} {P : Tree (Lab α)} (e : BP.toRose = [P]) : (BP.map Tree.rel).addrs.Perm P.gens ∧ ∀ x, x ∈ (BP.map Tree.rel).addrs ↔ x ∈ P.gens := by
  have : (BP.map Tree.rel).addrs = P.gens := by
    have h1 : (BP.map Tree.rel).toRose = [P.map Tree.rel] := by rw [toRose_map, e]; rfl
    have h2 : (BP.map Tree.rel).pre = (P.map Tree.rel).pre := by
      have := preL_toRose (BP.map Tree.rel)
      rw [h1] at this; simp [Tree.preL] at this; exact this.symm
    rw [BTree.addrs, h2, ← Tree.addrs_rel]; rfl
  rw [this]; exact ⟨.refl _, fun _ => .rfl⟩

theorem makes {t : BTree (Addr × α)} {T : Tree (Addr × α)} (hT : t.toRose = [T]) (hN : t.addrs.Nodup) :
    Makes (Binary.kind α) BNode.value (Binary.builder α) T (fun h => Rep h t) (Made t) := by
  have hadd : T.addrs = t.addrs := by
    have := preL_toRose t
    rw [hT] at this
    simp [Tree.preL] at this
    rw [Tree.addrs, this]; rfl
  refine ⟨by rw [hadd]; exact hN, ?_, ?_, ?_, ?_, fun H => rawNav H hT, ?_, ?_, ?_⟩
  · exact fun H he => ⟨H.1.congr (by rw [keys_cells, ← hadd]; exact he), H.2⟩
  · rintro h h' P ⟨BP, e, H, hp⟩ he
    refine ⟨BP, e, ⟨H.1.congr ?_, H.2⟩, hp⟩
    rw [keys_cells]; intro a ha; exact he a ((addrs_rel e).2 a |>.mp ha)
  · rintro h P ⟨BP, e, H, hp⟩
    exact (addrs_rel e).1.nodup_iff.mp H.2
  · intro h gs s H hs
    obtain ⟨bs, p, l, r, rfl, -, rfl⟩ := plug_toRose hT hs
    exact ⟨_, H.cell, rfl⟩
  · rintro h P ⟨BP, e, H, hp⟩
    exact rawNav H (by rw [toRose_map, e]; rfl)
  · intro h gs s g hs hc
    obtain ⟨bs, p, l, r, rfl, -, rfl⟩ := plug_toRose hT hs
    refine ⟨node (p, g) nil nil, rfl, ⟨?_, by simp [BTree.map]⟩, bs, _, rfl, .node p (.nil _) (.nil _)⟩
    simp only [BTree.map, Tree.rel]
    have : h.cells g = some (leaf p.2) := hc
    simpa [leaf] using this
  · rintro h fs a g cs Q gs l s r hw HT ⟨BP, e, HP, bs0, b0, hb0, hp0⟩ ⟨BQ, eQ, HQ, bs1, b1, hb1, hp1⟩ hd hs hl hcs
    obtain ⟨bs, ag, L, R, rfl, rfl, hr⟩ := plug_toRose e rfl
    simp only [Tree.node.injEq] at hr
    obtain ⟨rfl, rfl⟩ := hr
    obtain ⟨ts, a', tl, tr, rfl, -, hr'⟩ := plug_toRose hT hs
    simp only [Tree.node.injEq] at hr'
    obtain ⟨rfl, hlr⟩ := hr'
    have nilOf : ∀ X : BTree (Lab α), (∀ c ∈ X.toRose, c.label.1 ∈ ([] : List (Addr × α))) → X = nil := by
      intro X hX
      cases X with
      | nil => rfl
      | node x xl xr => exact absurd (hX (Tree.node x (xl.toRose ++ xr.toRose)) (by simp)) (by simp)
    obtain ⟨q, ql, qr, rfl, rfl⟩ : ∃ q ql qr, BQ = node q ql qr ∧ Q = Tree.node q (ql.toRose ++ qr.toRose) := by
      cases BQ with
      | nil => simp at eQ
      | node q ql qr => simp at eQ; exact ⟨q, ql, qr, rfl, eQ.symm⟩
    simp only [Tree.label_node] at hl ⊢
    obtain ⟨bsf, hbsf, -⟩ := plug_map_eq Prod.fst bs nil
    obtain ⟨bsr, hbsr, -⟩ := plug_map_eq Tree.rel bs nil
    rw [hbsf] at hp0
    obtain ⟨bs0', l0, r0, rfl, p1, p2, p3⟩ := part_plug hp0
    rw [← plug_append] at hb0
    obtain ⟨-, -, rfl, rfl⟩ := place_unique hN hb0 rfl rfl
    -- the side
    obtain ⟨b, o, sl, sr, hpl, hbt, hbf⟩ : ∃ b o sl sr, plug (⟨a, b, o⟩ :: ts) (node q.1 sl sr) = plug ts (node a l0 r0) ∧
        (b = true → L = nil ∧ R = nil ∧ l0 = node q.1 sl sr) ∧ (b = false → R = nil ∧ r0 = node q.1 sl sr) := by
      cases l0 with
      | nil =>
        cases r0 with
        | nil => simp at hlr
        | node c cl cr =>
          have : l = [] := by
            have := congrArg List.length hlr
            simp at this; exact List.eq_nil_of_length_eq_zero (by omega)
          subst this
          simp at hlr
          obtain ⟨rfl, rfl⟩ := hlr
          simp only [Tree.label_node] at hl
          subst hl
          refine ⟨false, nil, cl, cr, rfl, by simp, fun _ => ⟨?_, rfl⟩⟩
          exact nilOf R (fun c hc => by simpa using hcs c (by simp [hc]))
      | node c cl cr =>
        cases l with
        | nil =>
          simp at hlr
          obtain ⟨rfl, rfl⟩ := hlr
          simp only [Tree.label_node] at hl
          subst hl
          refine ⟨true, r0, cl, cr, rfl, fun _ => ⟨?_, ?_, rfl⟩, by simp⟩
          · exact nilOf L (fun c hc => by simpa using hcs c (by simp [hc]))
          · exact nilOf R (fun c hc => by simpa using hcs c (by simp [hc]))
        | cons u l =>
          simp at hlr
          obtain ⟨rfl, hlr⟩ := hlr
          cases r0 with
          | nil => simp at hlr
          | node d dl dr =>
            have : l = [] := by
              have := congrArg List.length hlr
              simp at this; exact List.eq_nil_of_length_eq_zero (by omega)
            subst this
            simp at hlr
            obtain ⟨rfl, rfl⟩ := hlr
            simp only [Tree.label_node] at hl
            subst hl
            refine ⟨false, node c cl cr, dl, dr, rfl, by simp, fun _ => ⟨?_, rfl⟩⟩
            cases R with
            | nil => rfl
            | node x xl xr =>
              exfalso
              have h1 := hcs (Tree.node x (xl.toRose ++ xr.toRose)) (by simp)
              simp at h1
              simp only [BTree.map] at p2
              obtain ⟨l', r', e2, -, -⟩ := part_inv p2
              simp only [BTree.node.injEq] at e2
              have e2 := e2.1
              have hnd := ((rep_plug ts _).mp HT).2.2
              have := (List.nodup_append.mp hnd).2.1
              simp [addrs, pre, h1] at this
              exact this.2.1.2.2.1 (by rw [e2, h1])
    simp only [BTree.map] at hp1
    obtain ⟨l1, r1, rfl, k1, k2⟩ := part_inv hp1
    obtain ⟨-, -, rfl, rfl⟩ := place_unique hN (fs := ⟨a, b, o⟩ :: ts) (a := q.1) hpl hb1 rfl
    rw [← hpl] at HT
    have hleft := isLeftChild_spec HT
    have hHP := HP
    rw [hbsr] at hHP
    have hmem : ∀ x, x ∈ (plug bsr ((node (a, g) L R).map Tree.rel)).addrs ↔ x ∈ (Tree.plug (bs.map Frame.toRose) (Tree.node (a, g) (L.toRose ++ R.toRose))).gens := by
      rw [← hbsr]; exact (addrs_rel e).2
    obtain ⟨h', e', H', hn, hk⟩ := attach_at (fs := bsr) (r := g) (v := a.2) (L := L.map Tree.rel) (R := R.map Tree.rel) (c := (node q ql qr).map Tree.rel)
      (y := q.2) hleft hHP (fun hb => by rw [(hbt hb).1]; rfl) (fun hb => by rw [(hbf hb).1]; rfl) HQ
      (by
        intro x hx hq
        exact hd x ((addrs_rel eQ).2 x |>.mp hq) ((hmem x).mp hx)) rfl
    refine ⟨h', e', ?_, hn, ?_⟩
    · refine ⟨plug bs (if b then node (a, g) (node q ql qr) R else node (a, g) L (node q ql qr)), ?_, ?_, ?_⟩
      · rw [toRose_plug _ _ (Tree.node (a, g) (L.toRose ++ R.toRose ++ [Tree.node q (ql.toRose ++ qr.toRose)]))]
        cases b with
        | true => obtain ⟨rfl, rfl, -⟩ := hbt rfl; simp
        | false => obtain ⟨rfl, -⟩ := hbf rfl; simp
      · rw [hbsr]
        have : (if b then node (a, g) (node q ql qr) R else node (a, g) L (node q ql qr)).map Tree.rel =
          slotted (g, a.2) (L.map Tree.rel) (R.map Tree.rel) b ((node q ql qr).map Tree.rel) := by
          cases b <;> simp [slotted, BTree.map, Tree.rel]
        rw [this]; exact H'
      · refine ⟨bs0, plug bs0' (node a l0 r0), ?_, ?_⟩
        · rw [← plug_append]; exact hb0
        · rw [hbsf]
          cases b with
          | true =>
            obtain ⟨rfl, rfl, rfl⟩ := hbt rfl
            exact p3 _ _ (.node _ k1 k2) (.nil _)
          | false =>
            obtain ⟨rfl, rfl⟩ := hbf rfl
            exact p3 _ _ p1 (.node _ k1 k2)
    · intro x hx hq
      exact hk x (fun hm => hx ((hmem x).mp hm)) (fun hm => hq ((addrs_rel eQ).2 x |>.mp hm))
end Binary
