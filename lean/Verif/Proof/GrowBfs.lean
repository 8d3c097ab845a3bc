import Verif.Proof.GrowSkip
/-! The traversal which builds the result of a `star`. -/
open Tree

set_option linter.unusedSimpArgs false

/-- Every node of a tree has a place. -/
theorem Tree.mem_pre_place {β : Type} {x : β} : ∀ {t : Tree β}, x ∈ t.pre → ∃ gs w, plug gs w = t ∧ w.label = x := by
  intro t
  induction t using ind with
  | h a cs ih =>
    intro h
    rw [pre_node] at h
    rcases List.mem_cons.mp h with rfl | h
    · exact ⟨[], _, rfl, rfl⟩
    · obtain ⟨c, hc, hx⟩ : ∃ c ∈ cs, x ∈ c.pre := by
        clear ih
        induction cs with
        | nil => simp at h
        | cons c cs ihc =>
          simp at h
          rcases h with h | h
          · exact ⟨c, by simp, h⟩
          · obtain ⟨d, hd, hx⟩ := ihc (by simp [h]) h
            exact ⟨d, by simp [hd], hx⟩
      obtain ⟨gs, w, rfl, hw⟩ := ih c hc hx
      obtain ⟨l, r, rfl⟩ := List.append_of_mem hc
      exact ⟨gs ++ [⟨a, l, r⟩], w, by rw [plug_append]; rfl, hw⟩

namespace Generate
open Grow
variable {ν α lit : Type}
variable {K : Kind ν α lit} {value : ν → α} {B : Pattern.Builder ν} {T s : Tree (Addr × α)} {base : Heap ν → Prop}
  {made : Heap ν → Tree (Lab α) → Prop} {gs0 : List (Frame (Addr × α))} {keys : List Addr} {Q : Addr → Tree (Lab α)} {test : α → Bool}
  {q : Quantifier} {h0 : Heap ν} {g : Addr → Option Addr} {σ : State ν} {P : Tree (Lab α)}

/-- `qs` are the nodes whose next sibling has not been looked for yet, `qc` those whose first child has not. -/
structure Queues (q : Quantifier) (test : α → Bool) (s : Tree (Addr × α)) (keys : List Addr) (g : Addr → Option Addr) (σ : State ν)
    (qs qc : List Addr) : Prop where
  nqs : qs.Nodup
  nqc : qc.Nodup
  hqs : ∀ x ∈ qs, ∃ f fs u, plug (f :: fs) u = s ∧ u.addr = x ∧ g x ≠ none ∧ ∀ v ∈ f.rights, g v.addr = none
  hqc : ∀ x ∈ qc, ∃ fs u, plug fs u = s ∧ u.addr = x ∧ g x ≠ none ∧ (x ∉ keys → ∀ v ∈ u.children, g v.addr = none)
  closed : ∀ fs a cs, plug fs (node a cs) = s → g a.1 ≠ none → a.1 ∉ keys → ∀ u ∈ cs, Elig keys test u → g u.addr = none →
    Exhausted q σ ∨ a.1 ∈ qc ∨ ∃ v ∈ cs, v.addr ∈ qs

theorem Queues.perm {qs qc qs' qc' : List Addr} (H : Queues q test s keys g σ qs qc) (h1 : qs.Perm qs') (h2 : qc.Perm qc') :
    Queues q test s keys g σ qs' qc' := by
  refine ⟨h1.nodup_iff.mp H.nqs, h2.nodup_iff.mp H.nqc, fun x hx => H.hqs x (h1.mem_iff.mpr hx), fun x hx => H.hqc x (h2.mem_iff.mpr hx), ?_⟩
  intro fs a cs h3 h4 h5 u h6 h7 h8
  rcases H.closed fs a cs h3 h4 h5 u h6 h7 h8 with h | h | ⟨v, hv, h⟩
  · exact .inl h
  · exact .inr (.inl (h2.mem_iff.mp h))
  · exact .inr (.inr ⟨v, hv, h1.mem_iff.mp h⟩)

theorem place_mem {a : Addr × α} {l r : List (Tree (Addr × α))} {u v : Tree (Addr × α)} {fs : List (Frame (Addr × α))}
    (h : plug fs (node a (l ++ u :: r)) = s) (hv : v ∈ l ++ u :: r) : ∃ l' r', plug (⟨a, l', r'⟩ :: fs) v = s ∧ l' ++ v :: r' = l ++ u :: r := by
  obtain ⟨l', r', e⟩ := List.append_of_mem hv
  exact ⟨l', r', by rw [← h, e]; rfl, e.symm⟩

/-- The last node that was copied is to be looked at. -/
theorem Queues.grow (M : Makes K value B T base made) (J : Job T gs0 s keys Q test) (C : Core made base test s keys Q h0 g σ P)
    {qs qc : List Addr} (nqs : qs.Nodup) (nqc : qc.Nodup)
    (hqs : ∀ x ∈ qs, ∃ f fs u, plug (f :: fs) u = s ∧ u.addr = x ∧ g x ≠ none ∧ ∀ v ∈ f.rights, g v.addr = none)
    (hqc : ∀ x ∈ qc, ∃ fs u, plug fs u = s ∧ u.addr = x ∧ g x ≠ none ∧ (x ∉ keys → ∀ v ∈ u.children, g v.addr = none))
    {fs : List (Frame (Addr × α))} {a : Addr × α} {l r : List (Tree (Addr × α))} {u : Tree (Addr × α)}
    (hs : plug fs (node a (l ++ u :: r)) = s) (hr : ∀ v ∈ u :: r, g v.addr = none)
    (hac : a.1 ∉ qc) (hrow : ∀ v ∈ l ++ u :: r, v.addr ∉ qs)
    (closed : ∀ fs' a' cs, plug fs' (node a' cs) = s → g a'.1 ≠ none → a'.1 ∉ keys → ∀ u ∈ cs, Elig keys test u → g u.addr = none →
      a'.1 = a.1 ∨ a'.1 ∈ qc ∨ ∃ v ∈ cs, v.addr ∈ qs) {gu : Addr} (σ' : State ν) :
    Queues q test s keys (upd g u.addr (some gu)) σ' (u.addr :: qs) (u.addr :: qc) := by
  have hn : s.addrs.Nodup := nodup_sub M.nodup J.sub
  have hplace : plug (⟨a, l, r⟩ :: fs) u = s := hs
  have hgu := hr u (by simp)
  have hgne : ∀ x, x ≠ u.addr → upd g u.addr (some gu) x = g x := fun x hx => by simp [upd, hx]
  have hgs : upd g u.addr (some gu) u.addr = some gu := by simp [upd]
  have hgmono : ∀ x, g x ≠ none → upd g u.addr (some gu) x ≠ none := by
    intro x hx; simp only [upd]; split
    · simp
    · exact hx
  have hanti : ∀ x, upd g u.addr (some gu) x = none → g x = none := fun x h => Classical.byContradiction fun h' => hgmono x h' h
  have hap := apart hn hplace
  refine ⟨List.nodup_cons.mpr ⟨?_, nqs⟩, List.nodup_cons.mpr ⟨?_, nqc⟩, ?_, ?_, ?_⟩
  · intro h
    obtain ⟨_, _, _, -, -, h1, -⟩ := hqs _ h
    exact h1 hgu
  · intro h
    obtain ⟨_, _, -, -, h1, -⟩ := hqc _ h
    exact h1 hgu
  · intro x hx
    rcases List.mem_cons.mp hx with rfl | hx
    · refine ⟨_, _, u, hplace, rfl, by rw [hgs]; simp, ?_⟩
      intro v hv
      rw [hgne _ (fun e => (hap _ (List.mem_cons_self ..)).2.2 (e ▸ addr_mem_addrsL hv))]
      exact hr v (List.mem_cons_of_mem _ hv)
    · obtain ⟨f', fs', u', h1, rfl, h3, h4⟩ := hqs x hx
      refine ⟨f', fs', u', h1, rfl, hgmono _ h3, fun v hv => ?_⟩
      rw [hgne]
      · exact h4 v hv
      · intro e
        obtain ⟨r1, r2, er⟩ := List.append_of_mem hv
        have h5 : plug (⟨f'.label, f'.lefts ++ u' :: r1, r2⟩ :: fs') v = s := by
          rw [← h1]; simp [plug, er]
        obtain ⟨e2, e3⟩ := sub_unique (g := Prod.fst) hn h5 hplace e
        simp only [List.cons.injEq, Frame.mk.injEq] at e2
        exact hrow u' (by rw [← e2.1.2.1]; simp) hx
  · intro x hx
    rcases List.mem_cons.mp hx with rfl | hx
    · refine ⟨_, u, hplace, rfl, by rw [hgs]; simp, fun _ v hv => ?_⟩
      obtain ⟨f', h1, h2⟩ := plug_child hplace hv
      have hfl : f'.label = u.label := by
        rw [← h2]; rfl
      rw [hgne]
      · refine Classical.byContradiction fun h => ?_
        obtain ⟨⟨y, hy⟩, -⟩ := C.up f' _ v h1 h
        rw [hfl] at hy
        have : g u.addr = some y := hy
        rw [this] at hgu; cases hgu
      · intro e
        exact frame_ne (g := Prod.fst) hn h1 f' (by simp) (by rw [hfl]; exact e.symm)
    · obtain ⟨fs', u', h1, rfl, h3, h4⟩ := hqc x hx
      refine ⟨fs', u', h1, rfl, hgmono _ h3, fun hk v hv => ?_⟩
      rw [hgne]
      · exact h4 hk v hv
      · intro e
        obtain ⟨f', h5, h6⟩ := plug_child h1 hv
        obtain ⟨e2, e3⟩ := sub_unique (g := Prod.fst) hn h5 hplace e
        simp only [List.cons.injEq] at e2
        have : u'.addr = a.1 := by rw [← h6, e2.1]; rfl
        exact hac (this ▸ hx)
  · intro fs' a' cs h1 h2 h3 v hv he hg
    by_cases e : a'.1 = u.addr
    · exact .inr (.inl (by simp [e]))
    · rw [hgne _ e] at h2
      rcases closed fs' a' cs h1 h2 h3 v hv he (hanti _ hg) with h | h | ⟨w, hw, h⟩
      · obtain ⟨e2, e3⟩ := sub_unique (g := Prod.fst) hn h1 hs h
        simp only [node.injEq] at e3
        exact .inr (.inr ⟨u, by rw [e3.2]; simp, by simp⟩)
      · exact .inr (.inl (by simp [h]))
      · exact .inr (.inr ⟨w, hw, by simp [h]⟩)

/-- Where the copy of a node is. -/
theorem Core.at_ (C : Core made base test s keys Q h0 g σ P) {fs : List (Frame (Addr × α))} {u : Tree (Addr × α)} (hs : plug fs u = s)
    {gx : Addr} (hg : g u.addr = some gx) :
    ∃ N, sel keys Q g u = [N] ∧ N.label.2 = gx ∧ P = plug (fs.map (selFrame keys Q g)) N := by
  have hl := C.live hs (by rw [hg]; simp)
  suffices h : ∃ N, sel keys Q g u = [N] ∧ N.label.2 = gx by
    obtain ⟨N, h1, h2⟩ := h
    refine ⟨N, h1, h2, ?_⟩
    have := sel_plug hl h1
    rw [hs, C.hsel] at this
    simpa using this
  by_cases hk : u.addr ∈ keys
  · exact ⟨_, sel_key hg hk, (C.key _ hk _ hg).symm⟩
  · obtain ⟨b, cs⟩ := u
    exact ⟨_, sel_live hg hk, rfl⟩

theorem rights_lt {f : Frame (Addr × α)} {fs : List (Frame (Addr × α))} {u : Tree (Addr × α)} (h : plug (f :: fs) u = s) : f.rights.length < s.size := by
  have h1 := Simple.size_le_plug fs (node f.label (f.lefts ++ u :: f.rights))
  have h2 : plug fs (node f.label (f.lefts ++ u :: f.rights)) = s := h
  rw [h2] at h1
  have h3 := Simple.length_le_sizeL (f.lefts ++ u :: f.rights)
  simp at h1 h3; omega

theorem children_lt {fs : List (Frame (Addr × α))} {b} {cs : List (Tree (Addr × α))} (h : plug fs (node b cs) = s) : cs.length < s.size := by
  have h1 := Simple.size_le_plug fs (node b cs)
  rw [h] at h1
  have h3 := Simple.length_le_sizeL cs
  simp at h1 h3; omega

/-- What a step of the traversal has done: nothing, or a node has been copied. -/
def Stepped (made : Heap ν → Tree (Lab α) → Prop) (base : Heap ν → Prop) (q : Quantifier) (test : α → Bool) (s : Tree (Addr × α))
    (keys : List Addr) (Q : Addr → Tree (Lab α)) (h0 : Heap ν) (g : Addr → Option Addr) (σ : State ν)
    (qs qc : List Addr) (res : Res (State ν × Option (Addr × Addr))) (lev : Addr → Nat) (d : Nat) : Prop :=
  (res = Res.ok (σ, none) ∧ Queues q test s keys g σ qs qc) ∨
  ∃ w gw σ' P', res = Res.ok (σ', some (w, gw)) ∧ g w = none ∧ w ∈ s.addrs ∧ ¬ Exhausted q σ ∧ lev w = d ∧ Core made base test s keys Q h0 (upd g w (some gw)) σ' P' ∧
    Queues q test s keys (upd g w (some gw)) σ' (w :: qs) (w :: qc)

theorem mem_of_place {fs : List (Frame (Addr × α))} {u : Tree (Addr × α)} (h : plug fs u = s) : u.addr ∈ s.addrs := by
  rw [← h, (Nary.addrs_plug fs u).mem_iff]; simp [addr_mem_addrs]

theorem next_spec (M : Makes K value B T base made) (J : Job T gs0 s keys Q test) (C : Core made base test s keys Q h0 g σ P)
    (hT0 : ∀ x ∈ T.addrs, x < h0.next) {x gx : Addr} {qs qc : List Addr} (H : Queues q test s keys g σ (x :: qs) qc)
    (hg : g x = some gx) {fuel : Nat} (hf : s.size ≤ fuel) {lev : Addr → Nat} (hlev : ∀ fs u, plug fs u = s → lev u.addr = fs.length) :
    Stepped made base q test s keys Q h0 g σ qs qc (next K value B q test s.addr fuel σ (x, gx)) lev (lev x) := by
  have hn : s.addrs.Nodup := nodup_sub M.nodup J.sub
  obtain ⟨hxq, hqn⟩ := List.nodup_cons.mp H.nqs
  obtain ⟨⟨a, l, r⟩, fs, u, hs, rfl, -, hr⟩ := H.hqs x (by simp)
  simp only at hr
  obtain ⟨⟨ra, hra⟩, hak, -⟩ := C.up _ _ _ hs (by rw [hg]; simp)
  simp only at hra hak
  obtain ⟨N, hN, hNl, hP⟩ := C.at_ hs hg
  have hPr : plug ((⟨rel (a, ra), (selL keys Q g l).map (Tree.map rel), []⟩ : Frame (Addr × α)) ::
      (fs.map (selFrame keys Q g)).map (Frame.map rel)) (N.map rel) = P.map rel := by
    rw [hP, plug_map]
    simp [selFrame, Frame.map, hra, selL_none hr]
  have hNa : (N.map rel).addr = gx := by rw [addr_rel]; exact hNl
  have hnx := (M.mraw C.hmade).next _ _ _ hPr
  have hpa := (M.mraw C.hmade).parent _ _ _ hPr
  rw [hNa] at hnx hpa
  have hnp := C.next_base M J hs (some gx)
  simp only [follow, hnx, headAddr_nil, Res.pure_eq, Res.ok_bind] at hnp
  have hs' : plug fs (node a ((l ++ [u]) ++ r)) = s := by rw [← hs]; simp [plug]
  have hl' : ∀ v ∈ l ++ [u], Elig keys test v → g v.addr ≠ none := by
    intro v hv he
    rcases List.mem_append.mp hv with hv | hv
    · exact C.before _ _ _ hs (by rw [hg]; simp) v hv he
    · simp at hv; subst hv; rw [hg]; simp
  have hrow := C.row (q := q) M J hT0 hak hra hs' hr hl' (n := fuel) (by have := rights_lt hs; simp at this; omega)
    (fun s' => do deref (← (K.nav s'.heap none).parent gx)) (by
      intro σ' e
      simp only [e, hpa, Res.ok_bind]; rfl)
  have hnext : next K value B q test s.addr fuel σ (u.addr, gx) = (do
      let (s', r') ← skip K value q test s.addr fuel σ (headAddr r, none)
      place K value B s' (do deref (← (K.nav s'.heap none).parent gx)) r') := by
    unfold next
    simp only [hnp, Res.ok_bind]
  rw [← hnext] at hrow
  rcases hrow with ⟨e, hx⟩ | ⟨r1, w, r2, gw, σ', P', rfl, hx, h1, h2, e, C'⟩
  · refine .inl ⟨e, hqn, H.nqc, fun y hy => H.hqs y (by simp [hy]), H.hqc, ?_⟩
    intro fs' a' cs h3 h4 h5 v hv he hgv
    rcases H.closed fs' a' cs h3 h4 h5 v hv he hgv with h | h | ⟨w, hw, h⟩
    · exact .inl h
    · exact .inr (.inl h)
    · rcases List.mem_cons.mp h with h | h
      · obtain ⟨l1, l2, rfl⟩ := List.append_of_mem hw
        have hpw : plug (⟨a', l1, l2⟩ :: fs') w = s := h3
        obtain ⟨e2, rfl⟩ := sub_unique (g := Prod.fst) hn hpw hs h
        cases e2
        rcases hx with hx | hx
        · exact .inl hx
        · exfalso
          simp only [List.mem_append, List.mem_cons] at hv
          rcases hv with hv | rfl | hv
          · exact C.before _ _ _ hs (by rw [hg]; simp) v hv he hgv
          · rw [hg] at hgv; cases hgv
          · exact hx v hv he
      · exact .inr (.inr ⟨w, hw, h⟩)
  · have hsw : plug fs (node a ((l ++ u :: r1) ++ w :: r2)) = s := by rw [← hs']; simp
    have hpw : plug (⟨a, l ++ u :: r1, r2⟩ :: fs) w = s := hsw
    refine .inr ⟨w.addr, gw, σ', P', e, hr w (by simp), mem_of_place hpw, hx, by rw [hlev _ _ hpw, hlev _ _ hs]; rfl, C', ?_⟩
    refine Queues.grow M J C hqn H.nqc (fun y hy => H.hqs y (by simp [hy])) H.hqc hsw
      (fun v hv => hr v (by
        rcases List.mem_cons.mp hv with rfl | hv
        · simp
        · simp [hv])) ?_ ?_ ?_ σ'
    · intro hac
      obtain ⟨fs', u', h3, h4, -, h5⟩ := H.hqc _ hac
      obtain ⟨-, rfl⟩ := sub_unique (g := Prod.fst) hn h3 hsw h4
      have := h5 hak u (by simp)
      rw [hg] at this; cases this
    · intro v hv hvq
      have hne : v.addr ≠ u.addr := fun e => hxq (e ▸ hvq)
      obtain ⟨f', fs', u', h3, h4, h5, h6⟩ := H.hqs v.addr (List.mem_cons_of_mem _ hvq)
      obtain ⟨l', r', h7, h8⟩ := place_mem hsw hv
      obtain ⟨e2, rfl⟩ := sub_unique (g := Prod.fst) hn h3 h7 h4
      cases e2
      simp only at h6
      simp only [List.mem_append, List.mem_cons] at hv
      have hright : ∀ {y}, y ∈ r1 ++ w :: r2 → u' = y → False := fun hy e => h5 (by rw [e]; exact hr _ hy)
      rcases hv with (hv | hv | hv) | hv | hv
      · -- left of the current node
        have hu' : u ∈ r' := by
          obtain ⟨a1, a2, rfl⟩ := List.append_of_mem hv
          have h9 : plug (⟨a, a1, a2 ++ u :: (r1 ++ w :: r2)⟩ :: fs) u' = s := by rw [← hsw]; simp [plug]
          obtain ⟨e3, -⟩ := sub_unique (g := Prod.fst) hn h7 h9 rfl
          simp only [List.cons.injEq, Frame.mk.injEq] at e3
          rw [e3.1.2.2]; simp
        have := h6 u hu'
        rw [hg] at this; cases this
      · exact hne (by rw [hv])
      · exact hright (by simp [hv]) rfl
      · exact hright (by simp [hv]) rfl
      · exact hright (by simp [hv]) rfl
    · intro fs' a' cs h3 h4 h5 v hv he hgv
      rcases H.closed fs' a' cs h3 h4 h5 v hv he hgv with h | h | ⟨z, hz, h⟩
      · exact absurd h hx
      · exact .inr (.inl h)
      · rcases List.mem_cons.mp h with h | h
        · obtain ⟨l1, l2, rfl⟩ := List.append_of_mem hz
          have hpz : plug (⟨a', l1, l2⟩ :: fs') z = s := h3
          obtain ⟨e2, rfl⟩ := sub_unique (g := Prod.fst) hn hpz hs h
          cases e2
          exact .inl rfl
        · exact .inr (.inr ⟨z, hz, h⟩)

theorem first_spec (M : Makes K value B T base made) (J : Job T gs0 s keys Q test) (C : Core made base test s keys Q h0 g σ P)
    (hT0 : ∀ x ∈ T.addrs, x < h0.next) {x gx : Addr} {qs qc : List Addr} (H : Queues q test s keys g σ qs (x :: qc))
    (hg : g x = some gx) {fuel : Nat} (hf : s.size ≤ fuel) {lev : Addr → Nat} (hlev : ∀ fs u, plug fs u = s → lev u.addr = fs.length) :
    Stepped made base q test s keys Q h0 g σ qs qc (first K value B q test s.addr fuel σ (x, gx)) lev (lev x + 1) := by
  have hn : s.addrs.Nodup := nodup_sub M.nodup J.sub
  obtain ⟨hxq, hqn⟩ := List.nodup_cons.mp H.nqc
  obtain ⟨fs, ⟨b, cs⟩, hs, rfl, -, hc⟩ := H.hqc x (by simp)
  have hba : (node b cs).addr = b.1 := rfl
  obtain ⟨N, hN, hNl, hP⟩ := C.at_ hs hg
  have hPr : plug ((fs.map (selFrame keys Q g)).map (Frame.map rel)) (N.map rel) = P.map rel := by
    rw [hP, plug_map]
  have hNa : (N.map rel).addr = gx := by rw [addr_rel]; exact hNl
  have hd := (M.mraw C.hmade).first _ _ hPr
  rw [hNa] at hd
  have hfirst := (M.raw C.hbase).first _ _ (sub_trans hs J.sub)
  simp only [children_node] at hfirst
  have hfc := children_lt hs
  by_cases hk : b.1 ∈ keys
  · obtain ⟨c, ccs⟩ := N
    obtain ⟨y, hy⟩ := C.skip_dead (q := q) M J hk (fs' := (fs.map (selFrame keys Q g)).map (Frame.map rel)) (b := rel c) fuel [] cs [] (ccs.map (Tree.map rel))
      hs (by rw [← hPr]; simp [mapL_eq]) (by omega)
    refine .inl ⟨?_, H.nqs, hqn, H.hqs, fun y hy => H.hqc y (by simp [hy]), ?_⟩
    · unfold first
      simp only [map_node, children_node, mapL_eq] at hd
      simp only [hfirst, hd, hy, Res.ok_bind, place]; rfl
    · intro fs' a' cs' h3 h4 h5 v hv he hgv
      rcases H.closed fs' a' cs' h3 h4 h5 v hv he hgv with h | h | h
      · exact .inl h
      · rcases List.mem_cons.mp h with h | h
        · exact absurd (h ▸ hk) h5
        · exact .inr (.inl h)
      · exact .inr (.inr h)
  · have hc := hc hk
    simp only [children_node] at hc
    rw [sel_live (a := b) hg hk, selL_none hc] at hN
    simp only [List.cons.injEq, and_true] at hN
    subst hN
    simp only [map_node, mapL_nil, children_node, headAddr_nil] at hd
    have hrow := C.row (q := q) M J hT0 hk hg (l := []) (r := cs) hs hc (by simp) (n := fuel) (by omega) (fun _ => pure gx) (fun _ _ => rfl)
    have hfe : first K value B q test s.addr fuel σ (b.1, gx) = (do
        let (s', r') ← skip K value q test s.addr fuel σ (headAddr cs, none)
        place K value B s' (pure gx) r') := by
      unfold first
      rw [hba] at hfirst
      simp only [hfirst, hd, Res.ok_bind]
    rw [hba, hfe]
    clear hfe
    rcases hrow with ⟨e, hx⟩ | ⟨r1, w, r2, gw, σ', P', rfl, hx, h1, h2, e, C'⟩
    · refine .inl ⟨e, H.nqs, hqn, H.hqs, fun y hy => H.hqc y (by simp [hy]), ?_⟩
      intro fs' a' cs' h3 h4 h5 v hv he hgv
      rcases H.closed fs' a' cs' h3 h4 h5 v hv he hgv with h | h | h
      · exact .inl h
      · rcases List.mem_cons.mp h with h | h
        · obtain ⟨-, e3⟩ := sub_unique (g := Prod.fst) hn h3 hs h
          simp only [node.injEq] at e3
          obtain ⟨-, rfl⟩ := e3
          exact .inl (hx.resolve_right fun h => h v hv he)
        · exact .inr (.inl h)
      · exact .inr (.inr h)
    · have hpw : plug (⟨b, r1, r2⟩ :: fs) w = s := hs
      refine .inr ⟨w.addr, gw, σ', P', e, hc w (by simp), mem_of_place hpw, hx, by rw [hlev _ _ hpw, ← hba, hlev _ _ hs]; rfl, C', ?_⟩
      refine Queues.grow M J C H.nqs hqn H.hqs (fun y hy => H.hqc y (by simp [hy])) hs
        (fun v hv => hc v (by
          rcases List.mem_cons.mp hv with rfl | hv
          · simp
          · simp [hv])) hxq ?_ ?_ σ'
      · intro v hv hvq
        obtain ⟨_, _, _, -, -, h3, -⟩ := H.hqs _ hvq
        exact h3 (hc v hv)
      · intro fs' a' cs' h3 h4 h5 v hv he hgv
        rcases H.closed fs' a' cs' h3 h4 h5 v hv he hgv with h | h | h
        · exact absurd h hx
        · rcases List.mem_cons.mp h with h | h
          · exact .inl h
          · exact .inr (.inl h)
        · exact .inr (.inr h)

/-- How many nodes have not been copied. -/
def unseen (s : Tree (Addr × α)) (g : Addr → Option Addr) : Nat := (s.addrs.filter (fun k => (g k).isNone)).length

/-- The level of a node. -/
theorem exists_level (hn : s.addrs.Nodup) : ∃ lev : Addr → Nat, ∀ fs u, plug fs u = s → lev u.addr = fs.length := by
  classical
  refine ⟨fun x => if h : ∃ fs u, plug fs u = s ∧ u.addr = x then h.choose.length else 0, fun fs u h => ?_⟩
  have hx : ∃ fs' u', plug fs' u' = s ∧ u'.addr = u.addr := ⟨fs, u, h, rfl⟩
  simp only [dif_pos hx]
  obtain ⟨u', h1, h2⟩ := hx.choose_spec
  obtain ⟨e, -⟩ := sub_unique (g := Prod.fst) hn h1 h h2
  rw [e]

/-- The traversal goes down level by level, and a `star` that is not exhausted has a match to come. -/
structure Levels (q : Quantifier) (test : α → Bool) (s : Tree (Addr × α)) (keys : List Addr) (g : Addr → Option Addr) (σ : State ν) (lev : Addr → Nat) : Prop where
  near : ∀ f fs z, plug (f :: fs) z = s → g f.label.1 ≠ none → f.label.1 ∉ keys → Elig keys test z → g z.addr = none →
    ∀ w, g w ≠ none → lev w ≤ lev z.addr + 1
  last : Exhausted q σ → ∃ k ∈ keys, g k ≠ none ∧ ∀ w, g w ≠ none → lev w ≤ lev k + 1

/-- A step with the queue of the traversal: the node found, if any, is added to it. -/
theorem Stepped.merge (hn : s.addrs.Nodup) (C : Core made base test s keys Q h0 g σ P) {qs qc qs0 qc0 : List Addr}
    {res : Res (State ν × Option (Addr × Addr))} {lev : Addr → Nat} (hlev : ∀ fs u, plug fs u = s → lev u.addr = fs.length) {d d0 : Nat}
    (S : Stepped made base q test s keys Q h0 g σ qs qc res lev d) (L : Levels q test s keys g σ lev) (H : Queues q test s keys g σ qs0 qc0)
    (hqs : ∀ x ∈ qs0, d0 ≤ lev x) (hqc : ∀ x ∈ qc0, d0 ≤ lev x) (hd : d ≤ d0 + 1) :
    ∃ o g' σ' P', res = Res.ok (σ', o) ∧ Core made base test s keys Q h0 g' σ' P' ∧
      Queues q test s keys g' σ' (o.toList.map Prod.fst ++ qs) (o.toList.map Prod.fst ++ qc) ∧
      (∀ x y, g x = some y → g' x = some y) ∧ (∀ e ∈ o, g' e.1 = some e.2) ∧ unseen s g' + o.toList.length = unseen s g ∧
      Levels q test s keys g' σ' lev ∧ ∀ e ∈ o, lev e.1 = d := by
  rcases S with ⟨e, H⟩ | ⟨w, gw, σ', P', e, h1, h2, hx, hw, C', H'⟩
  · exact ⟨none, g, σ, P, e, C, H, fun _ _ h => h, by simp, by simp, L, by simp⟩
  · refine ⟨some (w, gw), _, σ', P', e, C', H', ?_, by simp [upd], ?_, ?_, by simpa using hw⟩
    · intro x y hx
      have : x ≠ w := fun e => by rw [e, h1] at hx; cases hx
      simpa [upd, this] using hx
    · have := left_upd (y := gw) h1 hn h2
      simp only [unseen, Option.toList_some, List.length_singleton]
      exact this.symm
    · have hother : ∀ {y}, y ≠ w → upd g w (some gw) y = g y := fun h => by simp [upd, h]
      -- where the new node is
      obtain ⟨lab, hlab, hlw⟩ := List.mem_map.mp h2
      obtain ⟨gs, u, hu, rfl⟩ := mem_pre_place hlab
      have huw : u.addr = w := hlw
      obtain ⟨f, fs, rfl⟩ : ∃ f fs, gs = f :: fs := by
        cases gs with
        | cons f fs => exact ⟨f, fs, rfl⟩
        | nil =>
          obtain ⟨r, hr⟩ := C.root
          have : u = s := hu
          rw [this] at huw
          rw [huw, h1] at hr; cases hr
      obtain ⟨⟨rf, hrf⟩, hfk, helig⟩ := C'.up f fs u hu (by rw [huw]; simp [upd])
      have hfw : f.label.1 ≠ w := fun e => frame_ne (g := Prod.fst) hn hu f (by simp) (by rw [e]; exact huw.symm)
      rw [hother hfw] at hrf
      have hnear := L.near f fs u hu (by rw [hrf]; simp) hfk helig (by rw [huw]; exact h1)
      rw [huw] at hnear
      refine ⟨?_, ?_⟩
      · intro f' fs' z hz hg hk hel hgz w' hw'
        have hzw : z.addr ≠ w := fun e => by simp [upd, e] at hgz
        rw [hother hzw] at hgz
        have hlz : lev z.addr = fs'.length + 1 := hlev _ _ hz
        by_cases hf' : f'.label.1 = w
        · have hlf : lev w = fs'.length := by
            have := hlev fs' (node f'.label (f'.lefts ++ z :: f'.rights)) hz
            rw [← hf']; exact this
          by_cases hw2 : w' = w
          · rw [hw2]; omega
          · rw [hother hw2] at hw'
            have := hnear w' hw'
            omega
        · rw [hother hf'] at hg
          by_cases hw2 : w' = w
          · rw [hw2, hw]
            rcases H.closed fs' f'.label _ hz hg hk z (by simp) hel hgz with h | h | ⟨v, hv, h⟩
            · exact absurd h hx
            · have h3 := hqc _ h
              have : lev f'.label.1 = fs'.length := hlev fs' (node f'.label (f'.lefts ++ z :: f'.rights)) hz
              omega
            · have h3 := hqs _ h
              obtain ⟨l', r', h4, -⟩ := place_mem (show plug fs' (node f'.label (f'.lefts ++ z :: f'.rights)) = s from hz) hv
              have := hlev _ _ h4
              simp only [List.length_cons] at this
              omega
          · rw [hother hw2] at hw'
            exact L.near f' fs' z hz hg hk hel hgz w' hw'
      · intro hx'
        have hl' := C'.left
        have hl := C.left
        rw [hx'.2] at hl'
        have hl' := Int.ofNat.inj hl'.symm
        have hne : σ.left ≠ 0 := fun e => hx ⟨hx'.1, e⟩
        have hnil : keys.filter (fun k => (upd g w (some gw) k).isNone) = [] := List.eq_nil_of_length_eq_zero (by omega)
        obtain ⟨k, hk⟩ : ∃ k, k ∈ keys.filter (fun k => (g k).isNone) := by
          refine List.exists_mem_of_ne_nil _ fun e => hne ?_
          rw [hl, e]; rfl
        obtain ⟨hk1, hk2⟩ := List.mem_filter.mp hk
        have hkw : k = w := by
          refine Classical.byContradiction fun hkw => ?_
          have : k ∈ keys.filter (fun k => (upd g w (some gw) k).isNone) := by
            rw [List.mem_filter, hother hkw]; exact ⟨hk1, hk2⟩
          rw [hnil] at this; cases this
        refine ⟨w, hkw ▸ hk1, by simp [upd], fun w' hw' => ?_⟩
        by_cases hw2 : w' = w
        · rw [hw2]; omega
        · rw [hother hw2] at hw'
          exact hnear w' hw'

theorem bfs_spec (M : Makes K value B T base made) (J : Job T gs0 s keys Q test) (hT0 : ∀ x ∈ T.addrs, x < h0.next) {fuel : Nat} (hf : s.size ≤ fuel)
    {lev : Addr → Nat} (hlev : ∀ fs u, plug fs u = s → lev u.addr = fs.length) :
    ∀ (n : Nat) (es : List (Addr × Addr)) (g : Addr → Option Addr) (σ : State ν) (P : Tree (Lab α)),
      Core made base test s keys Q h0 g σ P → Queues q test s keys g σ (es.map Prod.fst) (es.map Prod.fst) → Levels q test s keys g σ lev →
      es.Pairwise (fun e e' => lev e.1 ≤ lev e'.1 ∧ lev e'.1 ≤ lev e.1 + 1) →
      (∀ e ∈ es, g e.1 = some e.2) → unseen s g + es.length < n →
      ∃ g' σ' P', bfs K value B q test s.addr fuel n σ es = Res.ok σ' ∧ Core made base test s keys Q h0 g' σ' P' ∧
        Queues q test s keys g' σ' [] [] ∧ Levels q test s keys g' σ' lev ∧ (∀ x y, g x = some y → g' x = some y) := by
  have hn : s.addrs.Nodup := nodup_sub M.nodup J.sub
  intro n
  induction n with
  | zero => intro _ _ _ _ _ _ _ _ _ h; cases h
  | succ n ih =>
    intro es g σ P C H L hS hes hlt
    cases es with
    | nil => exact ⟨g, σ, P, rfl, C, H, L, fun _ _ h => h⟩
    | cons e es =>
      obtain ⟨x, gx⟩ := e
      simp only [List.map_cons] at H
      obtain ⟨hS1, hS2⟩ := List.pairwise_cons.mp hS
      simp only at hS1
      have hmin : ∀ y ∈ es.map Prod.fst, lev x ≤ lev y := by
        intro y hy
        obtain ⟨e, he, rfl⟩ := List.mem_map.mp hy
        exact (hS1 e he).1
      have hmin' : ∀ y ∈ x :: es.map Prod.fst, lev x ≤ lev y := by
        intro y hy
        rcases List.mem_cons.mp hy with rfl | hy
        · exact Nat.le_refl _
        · exact hmin y hy
      have hg : g x = some gx := hes _ (List.mem_cons_self ..)
      obtain ⟨o, g1, σ1, P1, e1, C1, H1, k1, k2, k3, L1, k4⟩ := (next_spec M J C hT0 H hg hf hlev).merge hn C hlev L H (d0 := lev x) hmin' hmin' (Nat.le_succ _)
      have H1' := H1.perm (.refl _) (qc' := x :: (o.toList.map Prod.fst ++ es.map Prod.fst)) (by simp)
      have hmin1 : ∀ y ∈ o.toList.map Prod.fst ++ es.map Prod.fst, lev x ≤ lev y := by
        intro y hy
        rcases List.mem_append.mp hy with hy | hy
        · obtain ⟨e, he, rfl⟩ := List.mem_map.mp hy
          rw [k4 e (by simpa using he)]; exact Nat.le_refl _
        · exact hmin y hy
      obtain ⟨o2, g2, σ2, P2, e2, C2, H2, j1, j2, j3, L2, j4⟩ := (first_spec M J C1 hT0 H1' (k1 _ _ hg) hf hlev).merge hn C1 hlev L1 H1' (d0 := lev x) hmin1 (by
        intro y hy
        rcases List.mem_cons.mp hy with rfl | hy
        · exact Nat.le_refl _
        · exact hmin1 y hy) (by omega)
      have hperm : (o2.toList.map Prod.fst ++ (o.toList.map Prod.fst ++ es.map Prod.fst)).Perm
          (List.map Prod.fst ((o.toList ++ es) ++ o2.toList)) := by
        simp only [List.map_append]
        exact List.perm_append_comm
      have hnear : ∀ e ∈ o.toList ++ es, lev x ≤ lev e.1 ∧ lev e.1 ≤ lev x + 1 := by
        intro e he
        rcases List.mem_append.mp he with he | he
        · rw [k4 e (by simpa using he)]; omega
        · exact hS1 e he
      obtain ⟨g3, σ3, P3, e3, C3, H3, L3, l1⟩ := ih ((o.toList ++ es) ++ o2.toList) g2 σ2 P2 C2 (H2.perm hperm hperm) L2 (by
        refine List.pairwise_append.mpr ⟨List.pairwise_append.mpr ⟨?_, hS2, ?_⟩, ?_, ?_⟩
        · cases o <;> simp
        · intro e he e' he'
          have := k4 e (by simpa using he)
          have := hS1 e' he'
          omega
        · cases o2 <;> simp
        · intro e he e' he'
          have := hnear e he
          have := j4 e' (by simpa using he')
          omega) (by
        intro e he
        simp only [List.mem_append, Option.mem_toList] at he
        rcases he with (he | he) | he
        · exact j1 _ _ (k2 e he)
        · exact j1 _ _ (k1 _ _ (hes e (List.mem_cons_of_mem _ he)))
        · exact j2 e he) (by
        simp only [List.length_append, List.length_cons] at hlt ⊢
        omega)
      refine ⟨g3, σ3, P3, ?_, C3, H3, L3, fun a b h => l1 _ _ (j1 _ _ (k1 _ _ h))⟩
      rw [← e3]
      simp only [bfs, e1, e2, Res.ok_bind]
      cases o <;> cases o2 <;> simp
end Generate
