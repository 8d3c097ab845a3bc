import Verif.Proof.Caches
import Verif.Proof.EraseRange
/-! Every supported call has its effect. -/
open Tree World

section
variable {ν α lit T V C : Type} {K : Kind ν α lit} {Z : Addr → Prop} {S : Shape K T V C} {ts : Nat → Option T} {W : World ν}
  {s t : T} {c : C} {P : Policy} {h : Heap ν} {pos : It}

theorem At.notEnd (L : Lawful S) (A : At S P h t pos c s) : ¬ AtEnd pos := by
  intro e
  obtain ⟨a, ha⟩ := L.ptr_of_ne A.node
  have := A.cur
  rw [ha, e] at this; cases this

theorem At.full_unique (L : Lawful S) (H : S.Rep h t) {c' : C} {s' : T} (A : At S P h t pos c s) (A' : At S P h t pos c' s') :
    S.isFull s = S.isFull s' := by
  obtain ⟨a, ha⟩ := L.ptr_of_ne A.node
  have ha' : S.ptr s' = some a := by rw [← A'.cur, A.cur, ha]
  have h1 := L.full h c s a (by rw [A.place]; exact H) ha
  have h2 := L.full h c' s' a (by rw [A'.place]; exact H) ha'
  rw [h1] at h2
  simpa using h2

theorem single_size_of (L : Lawful S) {src : Src α lit} {n : T} (h : SrcSingle S ts src) (hf : SrcFits S src) (hok : SrcOk S ts src)
    (hT : SrcTree S ts src n) : S.size n = 1 := by
  cases src with
  | value v =>
    obtain ⟨a, rfl⟩ := hT
    exact (single_size L a v).1
  | lit l => rw [(L.litSize l n hok hf hT).1]; exact h
  | emplaceLit l => rw [(L.litSize l n hok hf hT).1]; exact h
  | copyOf y =>
    obtain ⟨t, ht, hv⟩ := hT
    rw [(L.vals_inj n t hv).2.1]; exact h t ht
  | moveOf y => exact h n hT

theorem counted_ne_nil (L : Lawful S) {src : Src α lit} {n : T} {front : Bool} (h : childCounts front src) (hok : SrcOk S ts src)
    (hE : SrcEmpty S ts src ↔ n = S.nil) : n ≠ S.nil := by
  intro e
  have := hE.mpr e
  cases src with
  | copyOf y => exact h.elim
  | moveOf y => exact h.elim
  | _ => exact this.elim

theorem SrcDone.fresh {W1 : World ν} {src : Src α lit} {n : T} (D : SrcDone Z S W ts src W1 n) (O : OwnedBut Z S W ts) : SrcFresh S W.heap src n := by
  intro hsrc
  refine loose_fresh (h' := W1.heap) O ?_
  have := D.own
  cases src with
  | moveOf y => exact absurd rfl (hsrc y)
  | _ => exact this

theorem step_spec (L : Lawful S) (O : OwnedBut Z S W ts) (op : Op α lit) (hl : Legal S W.heap ts op) :
    ∃ W' o ts', W.step K op = Res.ok (W', o) ∧ OwnedBut Z S W' ts' ∧ Effect S W.heap ts W'.heap ts' o op ∧
      (Cached S W ts → TrueCounts S ts o op ∧ (CountsOk S W ts op → Small S ts → Small S ts' → Cached S W' ts')) := by
  cases op with
  | newEmpty x =>
    obtain ⟨e, O'⟩ := newEmpty_spec L O hl
    exact ⟨_, .unit, _, by simp [step, e], O', ⟨rfl, rfl⟩, fun hC => ⟨trivial, fun _ _ _ => Cached.upd hC
      (by rintro _ _ ⟨⟩ ⟨⟩; exact ⟨Or.inl rfl, Or.inl rfl⟩)⟩⟩
  | newCopy x y =>
    obtain ⟨t, hy⟩ := Option.isSome_iff_exists.mp hl.2
    obtain ⟨r, hr, _⟩ := O.get L hy
    obtain ⟨h', n, e, O', hv, hfr⟩ := newCopy_spec L O hl.1 hy hr
    refine ⟨_, .unit, _, by simp [step, e], O', ⟨t, n, hy, hv, hfr, rfl, rfl⟩, fun hC => ⟨trivial, fun _ _ _ => Cached.upd hC ?_⟩⟩
    rintro _ _ ⟨⟩ ⟨⟩
    have := hC y r t hr hy
    unfold CacheOk at this ⊢
    simpa [(L.vals_inj n t hv).2.1, (L.vals_inj n t hv).2.2] using this
  | newMove x y =>
    obtain ⟨t, hy⟩ := Option.isSome_iff_exists.mp hl.2
    obtain ⟨r, hr, _⟩ := O.get L hy
    obtain ⟨e, O'⟩ := newMove_spec L O hl.1 hy hr
    refine ⟨_, .unit, _, by simp [step, e], O', ⟨t, hy, rfl, rfl⟩, fun hC => ⟨trivial, fun _ _ _ => ?_⟩⟩
    have h1 := Cached.upd (x := x) (o := some t) (p := some ⟨r.root, r.size, r.arity, r.root⟩) (hp := W.heap) hC (by
      rintro _ _ ⟨⟩ ⟨⟩; exact hC y r t hr hy)
    exact Cached.upd (W := ⟨W.heap, _⟩) (x := y) h1 (by rintro _ _ ⟨⟩ ⟨⟩; exact ⟨Or.inl rfl, Or.inl rfl⟩)
  | newLit x l =>
    obtain ⟨h', n, e, O', hv, _, hfr⟩ := newLit_spec L O hl.1 hl.2
    refine ⟨_, .unit, _, by simp [step, e], O', ⟨n, hv, hfr, rfl, rfl⟩, fun hC => ⟨trivial, fun hk _ _ => Cached.upd hC ?_⟩⟩
    rintro _ _ ⟨⟩ ⟨⟩
    have := L.litSize l n hl.2 hk hv
    exact ⟨Or.inr this.1.symm, Or.inr this.2.symm⟩
  | destroy x =>
    obtain ⟨t, hx⟩ := Option.isSome_iff_exists.mp hl
    obtain ⟨h', _, e, O'⟩ := destroy_spec L O hx
    exact ⟨_, .unit, _, by simp [step, e], O', ⟨rfl, rfl⟩, fun hC => ⟨trivial, fun _ _ _ => Cached.upd hC (by rintro _ _ ⟨⟩)⟩⟩
  | clear x =>
    obtain ⟨t, hx⟩ := Option.isSome_iff_exists.mp hl
    obtain ⟨h', _, e, O'⟩ := clear_spec L O hx
    exact ⟨_, .unit, _, by simp [step, e], O', ⟨rfl, rfl⟩, fun hC => ⟨trivial, fun _ _ _ => Cached.upd hC
      (by rintro _ _ ⟨⟩ ⟨⟩; exact ⟨Or.inl rfl, Or.inl rfl⟩)⟩⟩
  | assignCopy x y =>
    obtain ⟨u, hx⟩ := Option.isSome_iff_exists.mp hl.1
    obtain ⟨t, hy⟩ := Option.isSome_iff_exists.mp hl.2
    obtain ⟨r, hr, _⟩ := O.get L hy
    obtain ⟨h', n, e, O', hv, hfr⟩ := assignCopy_spec L O hx hy hr
    refine ⟨_, .unit, _, by simp [step, e], O', ⟨t, n, hy, hv, hfr, rfl, rfl⟩, fun hC => ⟨trivial, fun _ _ _ => Cached.upd hC ?_⟩⟩
    rintro _ _ ⟨⟩ ⟨⟩
    have := hC y r t hr hy
    unfold CacheOk at this ⊢
    simpa [(L.vals_inj n t hv).2.1, (L.vals_inj n t hv).2.2] using this
  | assignMove x y =>
    obtain ⟨u, hx⟩ := Option.isSome_iff_exists.mp hl.1
    obtain ⟨t, hy⟩ := Option.isSome_iff_exists.mp hl.2
    obtain ⟨r, hr, _⟩ := O.get L hy
    obtain ⟨h', _, e, O'⟩ := assignMove_spec L O hx hy hr
    refine ⟨_, .unit, _, by simp [step, e], O', ⟨t, hy, rfl, rfl⟩, fun hC => ⟨trivial, fun _ _ _ => ?_⟩⟩
    have h1 := Cached.upd (x := x) (o := some t) (p := some ⟨r.root, r.size, r.arity, r.root⟩) (hp := h') hC (by
      rintro _ _ ⟨⟩ ⟨⟩; exact hC y r t hr hy)
    exact Cached.upd (W := ⟨h', _⟩) (x := y) h1 (by rintro _ _ ⟨⟩ ⟨⟩; exact ⟨Or.inl rfl, Or.inl rfl⟩)
  | assignLit x l =>
    obtain ⟨u, hx⟩ := Option.isSome_iff_exists.mp hl.1
    obtain ⟨h', n, e, O', hv, _, hfr⟩ := assignLit_spec L O hx hl.2
    refine ⟨_, .unit, _, by simp [step, e], O', ⟨n, hv, hfr, rfl, rfl⟩, fun hC => ⟨trivial, fun hk _ _ => Cached.upd hC ?_⟩⟩
    rintro _ _ ⟨⟩ ⟨⟩
    have := L.litSize l n hl.2 hk hv
    exact ⟨Or.inr this.1.symm, Or.inr this.2.symm⟩
  | swap x y =>
    obtain ⟨u, hx⟩ := Option.isSome_iff_exists.mp hl.1
    obtain ⟨t, hy⟩ := Option.isSome_iff_exists.mp hl.2
    obtain ⟨rx, hrx, _⟩ := O.get L hx
    obtain ⟨ry, hry, _⟩ := O.get L hy
    obtain ⟨e, O'⟩ := swap_spec L O hx hy hrx hry
    refine ⟨_, .unit, _, by simp [step, e], O', ⟨u, t, hx, hy, rfl, rfl⟩, fun hC => ⟨trivial, fun _ _ _ => ?_⟩⟩
    have h1 := Cached.upd (x := x) (o := some t) (p := some ry) (hp := W.heap) hC (by
      rintro _ _ ⟨⟩ ⟨⟩; exact hC y ry t hry hy)
    exact Cached.upd (W := ⟨W.heap, _⟩) (x := y) h1 (by rintro _ _ ⟨⟩ ⟨⟩; exact hC x rx u hrx hx)
  | size x =>
    obtain ⟨t, hx⟩ := Option.isSome_iff_exists.mp hl
    obtain ⟨r, hr, _⟩ := O.get L hx
    obtain ⟨e, O'⟩ := size_spec L O hx hr
    refine ⟨_, .num (sizeAns S r t), _, by simp [step, e], O', ⟨rfl, _, rfl⟩, fun hC => ?_⟩
    have hc := hC x r t hr hx
    have hs := sizeAns_ok L hc
    refine ⟨fun t' ht' => ?_, fun _ _ _ => ?_⟩
    · rw [hx] at ht'; cases ht'; rw [hs]
    · have := Cached.upd (x := x) (o := some t) (p := some { r with size := sizeAns S r t }) (hp := W.heap) hC (by
        rintro _ _ ⟨⟩ ⟨⟩; exact ⟨Or.inr hs, hc.2⟩)
      rwa [← hx, upd_self] at this
  | arity x =>
    obtain ⟨t, hx⟩ := Option.isSome_iff_exists.mp hl
    obtain ⟨r, hr, _⟩ := O.get L hx
    obtain ⟨e, O'⟩ := arity_spec L O hx hr
    refine ⟨_, .num (arityAns S r t), _, by simp [step, e], O', ⟨rfl, _, rfl⟩, fun hC => ?_⟩
    have hc := hC x r t hr hx
    have hs := arityAns_ok L hc
    refine ⟨fun t' ht' => ?_, fun _ _ _ => ?_⟩
    · rw [hx] at ht'; cases ht'; rw [hs]
    · have := Cached.upd (x := x) (o := some t) (p := some { r with arity := arityAns S r t }) (hp := W.heap) hC (by
        rintro _ _ ⟨⟩ ⟨⟩; exact ⟨hc.1, Or.inr hs⟩)
      rwa [← hx, upd_self] at this
  | updateCounts x =>
    obtain ⟨t, hx⟩ := Option.isSome_iff_exists.mp hl
    obtain ⟨r, hr, _⟩ := O.get L hx
    obtain ⟨e, O'⟩ := updateCounts_spec L O hx hr
    refine ⟨_, .unit, _, by simp [step, e], O', ⟨rfl, rfl⟩, fun hC => ⟨trivial, fun _ _ _ => ?_⟩⟩
    have := Cached.upd (x := x) (o := some t) (p := some { r with size := 0, arity := 0 }) (hp := W.heap) hC (by
      rintro _ _ ⟨⟩ ⟨⟩; exact ⟨Or.inl rfl, Or.inl rfl⟩)
    rwa [← hx, upd_self] at this
  | insertOver sb ab P x pos src =>
    obtain ⟨t, hx, hok, hcase⟩ := hl
    by_cases hsrc : src = .moveOf x
    · subst hsrc
      exact ⟨W, .iter .threw, ts, by simp [step, insertOver], O, ⟨t, hx, fun _ => ⟨rfl, rfl⟩, fun h => absurd (Or.inl rfl) h⟩,
        fun hC => ⟨trivial, fun _ _ _ => hC⟩⟩
    · rcases hcase with h | ⟨c, s, A, hn⟩ | ⟨hend, hcase⟩
      · exact absurd h hsrc
      · obtain ⟨W1, n, rs, ra, r1, r', h', it, _, D, hcnt, hr1, hcopy, e, O', h1, h2, h3, hr1', hr2', _⟩ :=
          insertOver_at L O hx hok hsrc A hn sb ab
        refine ⟨_, .iter (.ret it), _, by simp [step, e], O', ⟨t, hx, fun h => ?_, fun _ => ?_⟩, fun hC => ⟨trivial, fun hk hsm hsm' => ?_⟩⟩
        · rcases h with h | h
          · exact absurd h hsrc
          · exact absurd h.1 (A.notEnd L)
        · exact ⟨n, c, it, D.tree, D.fresh O, rfl, rfl, Or.inl ⟨s, A, h1, h2, h3⟩⟩
        · refine Cached.finish L O hC hsrc D ?_
          obtain ⟨hrs, hra⟩ := hcnt hC hk.1
          obtain ⟨r, hr, _⟩ := O.get L hx
          by_cases hc : c = S.top
          · subst hc
            rw [hr1' rfl, L.plug_top]
            exact ⟨Or.inr hrs, Or.inr hra⟩
          · rw [hr2' hc]
            have hpl := A.place
            subst hpl
            have hc1 := Cached.afterSource L O hC D x r1 _ hr1 hx
            refine replacedRec_ok L A.node hc1 hrs ?_ (hsm' x _ (upd_same _ _ _)) (hsm x _ hx)
            rcases hk.2 r _ c s hr hx A with h | h | h | h | h
            · exact absurd h hc
            · exact Or.inl h
            · right; left
              by_cases hcp : src = .copyOf x
              · rw [hcopy hcp hC]
                have := size_plug L (c := c) (s := s)
                have := size_pos L A.node
                omega
              · rw [D.same x hcp hsrc, hr] at hr1
                cases hr1; exact h
            · right; left
              rw [hcopy h hC]
              have := size_plug L (c := c) (s := s)
              have := size_pos L A.node
              omega
            · right; right
              rw [hrs]; exact single_size_of L h hk.1 hok D.tree
      · by_cases ht : t = S.nil
        · subst ht
          obtain ⟨W1, n, rs, ra, h', _, D, hcnt, e, O'⟩ := insertOver_empty L (P := P) O hx hok hsrc hend sb ab
          refine ⟨_, .iter (.ret pos), _, by simp [step, e], O', ⟨_, hx, fun h => ?_, fun _ => ?_⟩,
            fun hC => ⟨trivial, fun hk _ _ => ?_⟩⟩
          · rcases h with h | h
            · exact absurd h hsrc
            · exact absurd rfl h.2
          · exact ⟨n, S.top, pos, D.tree, D.fresh O, by rw [L.plug_top], rfl, Or.inr ⟨hend, rfl, rfl, rfl⟩⟩
          · obtain ⟨hrs, hra⟩ := hcnt hC hk.1
            exact Cached.finish L O hC hsrc D ⟨Or.inr hrs, Or.inr hra⟩
        · have hs := hcase.resolve_left ht
          obtain ⟨W1, n, rs, ra, _, D, e, O'⟩ := insertOver_end L (P := P) O hx ht hok hsrc hend hs sb ab
          exact ⟨_, .iter .threw, _, by simp [step, e], O', ⟨t, hx, fun _ => ⟨rfl, rfl⟩,
            fun h => absurd (Or.inr ⟨hend, ht⟩) h⟩, fun hC => ⟨trivial, fun _ _ _ => Cached.afterSource L O hC D⟩⟩
  | insertChild front P x pos src =>
    obtain ⟨t, hx, hok, hcase⟩ := hl
    by_cases hsrc : src = .moveOf x
    · subst hsrc
      exact ⟨W, .iter .threw, ts, by simp [step, insertChild], O, ⟨t, hx, fun _ => ⟨rfl, rfl⟩, fun h => absurd (Or.inl rfl) h⟩,
        fun hC => ⟨trivial, fun _ _ _ => hC⟩⟩
    · have threw : (AtEnd pos ∨ ∃ c s, At S P W.heap t pos c s ∧ S.isFull s = true) →
          ((∀ y, src ≠ .moveOf y) ∨ SrcEmpty S ts src) →
          ∃ W' o ts', W.step K (.insertChild front P x pos src) = Res.ok (W', o) ∧ OwnedBut Z S W' ts' ∧
            Effect S W.heap ts W'.heap ts' o (.insertChild front P x pos src) ∧ (Cached S W ts →
              TrueCounts S ts o (.insertChild front P x pos src) ∧ (CountsOk S W ts (.insertChild front P x pos src) →
              Small S ts → Small S ts' → Cached S W' ts')) := by
        intro hb hs
        obtain ⟨W1, n, rs, ra, h', _, D, e, O'⟩ := insertChild_threw L (P := P) O hx hok hsrc hb hs front
        exact ⟨_, .iter .threw, _, by simp [step, e], O', ⟨t, hx, fun _ => ⟨rfl, rfl⟩, fun h => absurd (Or.inr hb) h⟩,
          fun hC => ⟨trivial, fun _ _ _ => fun z => Cached.afterSource L O hC D z⟩⟩
      rcases hcase with h | ⟨c, s, A, hn⟩ | ⟨hend, hcase⟩
      · exact absurd h hsrc
      · cases hf : S.isFull s with
        | false =>
          obtain ⟨W1, n, rs, ra, r1, h', it, _, D, hcnt, hcnt', hr1, hr, e, O', h1, h2, _⟩ := insertChild_at L O hx hok hsrc A hf front
          refine ⟨_, .iter (.ret it), _, by simp [step, e], O', ⟨t, hx, fun h => ?_, fun _ => ?_⟩,
            fun hC => ⟨trivial, fun hk hsm hsm' => ?_⟩⟩
          · rcases h with h | h | ⟨c', s', A', hf'⟩
            · exact absurd h hsrc
            · exact absurd h (A.notEnd L)
            · rw [A.full_unique L (O.rep x t hx) A', hf'] at hf; cases hf
          · exact ⟨n, c, s, _, it, D.tree, D.fresh O, A, rfl, rfl, rfl, h2, h1⟩
          · refine Cached.finish L O hC hsrc D ?_
            obtain ⟨hfit, hcs, hkn⟩ := hk
            have hpl := A.place
            subst hpl
            have hcc : n ≠ S.nil ∧ rs = S.size n ∧ ra = S.arity n := by
              by_cases hcc : childCounts front src
              · exact ⟨counted_ne_nil L hcc hok D.empty, hcnt hcc hfit⟩
              · have h1 := single_size_of L (hcs.resolve_left hcc) hfit hok D.tree
                refine ⟨?_, (hcnt' hcc).1.trans h1.symm, (hcnt' hcc).2.trans (arity_zero_of_size L h1).symm⟩
                rintro rfl
                rw [L.size_nil] at h1; cases h1
            exact childRec_ok L A.node hf hcc.1 rfl (hkn r1 _ hr hx) hcc.2.1 hcc.2.2 (hsm' x _ (upd_same _ _ _))
        | true => exact threw (Or.inr ⟨c, s, A, hf⟩) (by rcases hn with h | h; · rw [hf] at h; cases h
                                                         exact h)
      · exact threw (Or.inl hend) hcase
  | erase x pos =>
    obtain ⟨t, hx, ⟨c, s, A, hn⟩ | ⟨hend, hroot⟩⟩ := hl
    · obtain ⟨r, hr, _⟩ := O.get L hx
      obtain ⟨r', h', l1, l2, hp1, hp2, e, O', hr1, hr2⟩ := erase_at L O hx hr A hn
      refine ⟨_, .iter (.ret _), _, by simp [step, e], O', ⟨t, hx, Or.inl ⟨c, s, l1, l2, A, rfl, hp1, hp2, rfl⟩⟩,
        fun hC => ⟨trivial, fun hk hsm hsm' => Cached.upd hC ?_⟩⟩
      rintro _ _ ⟨⟩ ⟨⟩
      by_cases hc : c = S.top
      · subst hc
        rw [hr1 rfl]
        exact ⟨Or.inl rfl, Or.inl rfl⟩
      · rw [hr2 hc]
        have hpl := A.place
        subst hpl
        refine replacedRec_ok L A.node (hC x r _ hr hx) L.size_nil.symm ?_ (hsm' x _ (upd_same _ _ _)) (hsm x _ hx)
        rcases hk r _ c s hr hx A with h | h | h
        · exact absurd h hc
        · exact Or.inl h
        · exact Or.inr (Or.inl h)
    · have e := erase_end L O hx hend hroot
      exact ⟨W, _, ts, by simp [step, e], O, ⟨t, hx, Or.inr ⟨hend, rfl, rfl⟩⟩, fun hC => ⟨trivial, fun _ _ _ => hC⟩⟩

  | eraseRange x first last =>
    obtain ⟨t, m, t', hx, hR, hP⟩ := hl
    obtain ⟨l1, l2, hp, hf, hl, hfr, hlr⟩ := hR
    obtain ⟨r, hr, _, hrt, hnt⟩ := O.get L hx
    obtain ⟨O1, M⟩ := (owned_match L).mp O
    have hfuel : m.length < W.heap.fuel := by
      have h1 := L.post_length t
      have h2 := L.size_le O.wf (O.rep x t hx)
      rw [hp] at h1
      simp only [List.length_append] at h1
      simp only [Heap.fuel]; omega
    obtain ⟨h', r', it, e, O', g1, g2, g3, g4, g5, _⟩ := TreeOps.eraseRange_spec L hP hfuel O1 hx hrt hnt hp hf hl hfr hlr (fun _ => rfl)
    refine ⟨⟨h', upd W.vars x (some r')⟩, .iter (.ret it), upd ts x (some t'), by simp [step, World.eraseRange, World.get, hr, e, put_eq], ?_,
      ⟨t, m, t', it, hx, ⟨l1, l2, hp, hf, hl, hfr, hlr⟩, hP, rfl, rfl, g3, g4⟩, fun hC => ⟨trivial, fun hk hsm hsm' => Cached.upd hC ?_⟩⟩
    · exact (owned_match L).mpr ⟨O', match_upd (fun z _ => M z) (Match.some g1 g2)⟩
    · rintro _ _ ⟨⟩ ⟨⟩
      refine g5 (hC x r t hr hx) (hsm x t hx) ?_
      rcases hk r t m hr hx ⟨l1, l2, hp, hf, hl, hfr, hlr⟩ with h | ⟨h, h'⟩
      · exact Or.inl h
      · exact Or.inr ⟨h, h' t' hP⟩
  | write x pos v =>
    obtain ⟨t, c, s, hx, A⟩ := hl
    obtain ⟨a, n, _, _, _, e, O'⟩ := write_spec L O hx A v
    refine ⟨_, .unit, _, by simp [step, e], O', ⟨t, c, s, hx, A, rfl, rfl⟩, fun hC => ⟨trivial, fun _ _ _ => ?_⟩⟩
    intro z r u hr hu
    unfold upd at hu
    split at hu
    · cases hu; subst z
      have := hC x r t hr hx
      have hR : S.rose (S.plug c (S.revalue s v)) = S.rose t := by rw [rose_write L, A.1]
      simpa only [CacheOk, Shape.size, Shape.arity, hR] using this
    · exact hC z r u hr hu

end
