import Verif.Proof.Reach
/-! What is built from the results of the arguments of a `star`. -/
open Tree

set_option linter.unusedSimpArgs false

namespace Generate
open Grow
variable {ν α lit : Type}
variable {K : Kind ν α lit} {value : ν → α} {B : Pattern.Builder ν} {T s : Tree (Addr × α)} {base : Heap ν → Prop}
  {made : Heap ν → Tree (Lab α) → Prop} {gs0 : List (Frame (Addr × α))} {keys : List Addr} {Q : Addr → Tree (Lab α)} {test : α → Bool}
  {q : Quantifier} {h0 : Heap ν} {g : Addr → Option Addr} {σ : State ν} {P : Tree (Lab α)}

/-- The results of the arguments are there. -/
structure Ready (made : Heap ν → Tree (Lab α) → Prop) (keys : List Addr) (Q : Addr → Tree (Lab α)) (h0 : Heap ν) (σ : State ν) : Prop where
  tmade : ∀ k ∈ keys, made σ.heap (Q k)
  disj : ∀ k ∈ keys, ∀ k' ∈ keys, k ≠ k' → ∀ x ∈ (Q k).gens, x ∉ (Q k').gens
  targets : ∀ k, find σ.targets k = if k ∈ keys then some (some (Q k).label.2) else none
  tnodup : (σ.targets.map Prod.fst).Nodup
  left : σ.left = (keys.length : Nat)
  grown : Grown h0 σ.heap (keys.flatMap (fun k => (Q k).gens))

/-- When the traversal is over, all results of the arguments have been put into the tree. -/
theorem all_keys (M : Makes K value B T base made) (J : Job T gs0 s keys Q test) (C : Core made base test s keys Q h0 g σ P)
    (H : Queues q test s keys g σ [] []) : ∀ k ∈ keys, g k ≠ none := by
  intro k hk
  by_cases hx : Exhausted q σ
  · intro hg
    have h1 := C.left
    rw [hx.2] at h1
    have : keys.filter (fun k => (g k).isNone) = [] := by
      refine List.eq_nil_of_length_eq_zero ?_
      omega
    have h2 : k ∈ keys.filter (fun k => (g k).isNone) := by simp [hk, hg]
    rw [this] at h2; cases h2
  · obtain ⟨f, fs, u, hs, rfl, -, hfk, hacc⟩ := J.way k hk
    -- all nodes above are copied
    suffices h : ∀ (hs2 : List (Frame (Addr × α))) (gs : List (Frame (Addr × α))) (v : Tree (Addr × α)), gs ++ hs2 = f :: fs → plug hs2 v = s →
        (hs2 = [] ∨ Elig keys test v) → g v.addr ≠ none by
      exact h (f :: fs) [] u rfl hs (.inr (.inl hk))
    intro hs2
    induction hs2 with
    | nil =>
      intro gs v _ hv _
      obtain ⟨r, hr⟩ := C.root
      have : v = s := hv
      rw [this, hr]; simp
    | cons e hs2 ih =>
      intro gs v hgs hv he hgv
      have he := he.resolve_left (by simp)
      have hek : e.label.1 ∉ keys := hfk e (by rw [← hgs]; simp)
      have hpv : plug hs2 (node e.label (e.lefts ++ v :: e.rights)) = s := hv
      have hpg : g e.label.1 ≠ none := by
        refine ih (gs ++ [e]) (node e.label (e.lefts ++ v :: e.rights)) (by simpa using hgs) hpv ?_
        cases hs2 with
        | nil => exact .inl rfl
        | cons e' hs2 =>
          refine .inr (.inr ?_)
          have : e ∈ (f :: fs).dropLast := by
            rw [← hgs, List.dropLast_append_of_ne_nil (by simp)]; simp
          exact hacc e this
      rcases H.closed hs2 e.label _ hpv hpg hek v (by simp) he hgv with h | h | ⟨_, _, h⟩
      · exact hx h
      · cases h
      · cases h

theorem freeTargets_none : ∀ (l : List (Addr × Ptr)) (h : Heap ν), (∀ e ∈ l, e.2 = none) → freeTargets K l h = Res.ok h := by
  intro l
  induction l with
  | nil => intro h _; rfl
  | cons e l ih =>
    intro h he
    obtain ⟨x, p⟩ := e
    have : p = none := he _ (List.mem_cons_self ..)
    subst this
    rw [freeTargets]; exact ih h (fun e h => he e (List.mem_cons_of_mem _ h))

theorem lookup_mem : ∀ {l : List (Addr × Ptr)} {e : Addr × Ptr}, (l.map Prod.fst).Nodup → e ∈ l → find l e.1 = some e.2 := by
  intro l
  induction l with
  | nil => intro e _ h; cases h
  | cons d l ih =>
    intro e hn he
    simp only [List.map_cons, List.nodup_cons] at hn
    obtain ⟨y, p⟩ := d
    rcases List.mem_cons.mp he with rfl | he
    · simp [find]
    · have hne : e.1 ≠ y := fun h => hn.1 (List.mem_map.mpr ⟨e, he, h⟩)
      have : (e.1 == y) = false := by simpa using hne
      have := ih hn.2 he
      simp only [find] at this ⊢
      simp [List.lookup_cons, *]

/-- What is copied. -/
theorem kept_of (M : Makes K value B T base made) (J : Job T gs0 s keys Q test) (C : Core made base test s keys Q h0 g σ P)
    (H : Queues q test s keys g σ [] []) (hq : q ≠ .reluctant) (hposs : q = .possessive → ∀ fs u, plug fs u = s → u.addr ∈ keys → test u.label.2 = false)
    {lev : Addr → Nat} (hlev : ∀ fs u, plug fs u = s → lev u.addr = fs.length) (L : Levels q test s keys g σ lev) {n : Nat}
    (hup : q = .default → ∀ w, g w ≠ none → lev w ≤ n) (hlow : q = .default → ∀ z, (∀ w, g w ≠ none → lev w ≤ z) → n ≤ z) :
    ∀ t : Tree (Addr × α), ∀ fs, plug fs t = s → g t.addr ≠ none → t.addr ∉ keys →
      Kept q (fun b => test b.2) n (fs.length + 1) t.children ((selL keys Q g t.children).map refs) ((hitsL keys t.children).map (fun u => (u, (Q u.addr).refs))) := by
  have hkeys := all_keys M J C H
  intro t
  induction t using ind with
  | h a cs ih =>
    intro fs hs hg hk
    simp only [children_node]
    suffices h : ∀ (r l : List (Tree (Addr × α))), l ++ r = cs →
        Kept q (fun b => test b.2) n (fs.length + 1) r ((selL keys Q g r).map refs) ((hitsL keys r).map (fun u => (u, (Q u.addr).refs))) from h cs [] rfl
    intro r
    induction r with
    | nil => intro _ _; simp [selL]; exact .nil
    | cons u r ihr =>
      intro l hl
      have hu : u ∈ cs := by rw [← hl]; simp
      have hp : plug (⟨a, l, r⟩ :: fs) u = s := by rw [← hs, ← hl]; rfl
      have hrest := ihr (l ++ [u]) (by simpa using hl)
      simp only [selL, hitsL_cons, List.map_append]
      by_cases huk : u.addr ∈ keys
      · obtain ⟨gu, hgu⟩ := Option.ne_none_iff_exists'.mp (hkeys _ huk)
        have : hits keys u = [u] := by
          obtain ⟨b, ds⟩ := u
          have : b.1 ∈ keys := huk
          simp [hits_node, this]
        rw [sel_key hgu huk, this]
        exact .stop (fun e => hposs e _ u hp huk) (fun e => by have := hup e _ (hkeys _ huk); rw [hlev _ _ hp] at this; exact this) hrest
      · by_cases hgu : g u.addr = none
        · have : hits keys u = [] := by
            refine hits_none u fun x hx hxk => ?_
            obtain ⟨f', fs', v, h1, rfl, -⟩ := J.way x hxk
            obtain ⟨gs, w, hgw, hw⟩ : ∃ gs w, plug gs w = u ∧ w.addr = v.addr := by
              obtain ⟨lab, hlab, e⟩ := List.mem_map.mp hx
              obtain ⟨gs, w, h2, h3⟩ := mem_pre_place hlab
              exact ⟨gs, w, h2, by rw [← e]; simp [addr, h3]⟩
            obtain ⟨e2, rfl⟩ := sub_unique (g := Prod.fst) (nodup_sub M.nodup J.sub) (sub_trans hgw hp) h1 hw
            have hlive := C.live h1 (hkeys _ hxk)
            rcases List.eq_nil_or_concat gs with rfl | ⟨gs', e, rfl⟩
            · exact huk (by have : w = u := hgw; rw [← this]; exact hxk)
            · rw [List.concat_eq_append] at e2 hgw
              have hem : e ∈ f' :: fs' := by rw [← e2]; simp
              obtain ⟨⟨y, hy⟩, -⟩ := hlive e hem
              rw [plug_append] at hgw
              have : u.addr = e.label.1 := by rw [← hgw]; rfl
              rw [this, hy] at hgu; cases hgu
          rw [sel_none hgu, this]
          refine .drop ?_ ?_ hrest
          rotate_left
          · intro hqq ht
            refine ⟨hlow hqq _ fun w hw => ?_, ?_⟩
            · have := L.near _ _ u hp hg hk (.inr ht) hgu w hw
              rw [hlev _ _ hp] at this
              exact this
            · have : selL keys Q g r = [] := by
                refine selL_none fun v hv => Classical.byContradiction fun hgv => ?_
                obtain ⟨r1, r2, rfl⟩ := List.append_of_mem hv
                have hpv : plug (⟨a, l ++ u :: r1, r2⟩ :: fs) v = s := by rw [← hp]; simp [plug]
                exact C.before _ _ v hpv hgv u (by simp) (.inr ht) hgu
              rw [this]; rfl
          intro hqq
          refine Bool.eq_false_iff.mpr fun ht => ?_
          rcases H.closed fs a cs hs hg hk u hu (.inr ht) hgu with h | h | ⟨_, _, h⟩
          · rcases hqq with e | e <;> simp [Exhausted, e] at h
          · cases h
          · cases h
        · obtain ⟨gu, hgu'⟩ := Option.ne_none_iff_exists'.mp hgu
          have helig := (C.up _ _ _ hp hgu).2.2
          have ht : test u.label.2 = true := helig.resolve_left huk
          have hrec := ih u hu _ hp hgu huk
          obtain ⟨b, ds⟩ := u
          have hbk : b.1 ∉ keys := huk
          rw [sel_live (a := b) hgu' huk, hits_node, if_neg hbk]
          have : [node (b, gu) (selL keys Q g ds)].map refs = [node b ((selL keys Q g ds).map refs)] := by
            simp only [List.map_cons, List.map_nil, refs, map_node, mapL_eq]; rfl
          rw [this]
          exact .pass (u := node b ds) ht (fun e => absurd e hq) (fun e => by have := hup e _ hgu; rw [hlev _ _ hp] at this; exact this) hrec hrest

theorem exists_least {P : Nat → Prop} (h : ∃ z, P z) : ∃ n, P n ∧ ∀ z, P z → n ≤ z := by
  obtain ⟨z, hz⟩ := h
  induction z using Nat.strongRecOn with
  | ind z ih =>
    by_cases h : ∃ y, y < z ∧ P y
    · obtain ⟨y, hy, hp⟩ := h
      exact ih y hy hp
    · exact ⟨z, hz, fun y hy => Nat.le_of_not_lt fun hlt => h ⟨y, hlt, hy⟩⟩

theorem run_spec (M : Makes K value B T base made) (J : Job T gs0 s keys Q test) (hq : q ≠ .reluctant)
    (hposs : q = .possessive → ∀ fs u, plug fs u = s → u.addr ∈ keys → test u.label.2 = false) (hkn : keys ≠ [])
    {h1 : Heap ν} {r : Addr} (R : Ready made keys Q h1 σ) (hb : base σ.heap) (hG : Grown h0 h1 [r])
    (hT0 : ∀ x ∈ T.addrs, x < h0.next) (hr : made σ.heap (node (s.label, r) [])) :
    ∃ h' P, run K value B q test s.addr σ r = Res.ok h' ∧ made h' P ∧ P.label = (s.label, r) ∧ Grown h0 h' P.gens ∧
      ∃ n, Kept q (fun b => test b.2) n 1 s.children P.refs.children ((hitsL keys s.children).map (fun u => (u, (Q u.addr).refs))) ∧
        (q = .default → ∃ k ∈ keys, ∃ u d, u.addr = k ∧ Level s u d ∧ n ≤ d + 1) := by
  have hn : s.addrs.Nodup := nodup_sub M.nodup J.sub
  obtain ⟨a, cs⟩ := s
  have hroot : (node a cs).addr = a.1 := rfl
  have hak : a.1 ∉ keys := J.root
  have hlt : ∀ k ∈ keys, ∀ x ∈ (Q k).gens, h1.next ≤ x := fun k hk x hx =>
    (R.grown.fresh x (List.mem_flatMap.mpr ⟨k, hk, hx⟩)).1
  have hrlt : r < h1.next := (hG.fresh r (by simp)).2
  let g0 : Addr → Option Addr := fun x => if x = a.1 then some r else none
  have hg0 : ∀ {x}, g0 x ≠ none → x = a.1 := by
    intro x h
    simp only [g0] at h
    split at h
    · assumption
    · exact absurd rfl h
  have hga : g0 a.1 = some r := by simp [g0]
  have hgk : ∀ {k}, k ∈ keys → g0 k = none := fun {k} hk => Classical.byContradiction fun h => hak (hg0 h ▸ hk)
  have hchild : ∀ f fs u, plug (f :: fs) u = node a cs → g0 u.addr = none := fun f fs u h =>
    Classical.byContradiction fun h' => ne_root hn h (hg0 h')
  have hc0 : ∀ c ∈ cs, g0 c.addr = none := by
    intro c hc
    obtain ⟨f, h, -⟩ := plug_child (gs := []) (s := node a cs) rfl (t := c) hc
    exact hchild f [] c h
  have C : Core made base test (node a cs) keys Q h0 g0 σ (node (a, r) []) := by
    refine ⟨hb, ?_, hr, fun k hk _ => R.tmade k hk, ?_, ?_, R.tnodup, ?_, ?_, ⟨r, hga⟩, ?_, ?_, ?_⟩
    · rw [sel_live hga hak, selL_none hc0]
    · intro k hk _ x hx hm
      simp at hm; subst hm
      have := hlt k hk _ hx; grind
    · intro k
      rw [R.targets]
      by_cases hk : k ∈ keys
      · simp [hk, hgk hk]
      · simp [hk]
    · rw [R.left, List.filter_eq_self.mpr (fun k hk => by simp [hgk hk])]
    · refine (hG.trans R.grown).congr fun x => ?_
      simp only [List.mem_append, gens_node, gensL_nil, mem_waiting, List.mem_flatMap]
      constructor
      · rintro (h | ⟨k, hk, hx⟩)
        · exact .inl h
        · exact .inr ⟨k, hk, hgk hk, hx⟩
      · rintro (h | ⟨k, hk, -, hx⟩)
        · exact .inl h
        · exact .inr ⟨k, hk, hx⟩
    · intro f fs u h hg; exact absurd (hchild f fs u h) hg
    · intro k hk x hx; rw [hgk hk] at hx; cases hx
    · intro f fs u h hg; exact absurd (hchild f fs u h) hg
  have H : Queues q test (node a cs) keys g0 σ [] [a.1] := by
    refine ⟨List.nodup_nil, by simp, by simp, ?_, ?_⟩
    · intro x hx
      simp at hx; subst hx
      exact ⟨[], _, rfl, rfl, by rw [hga]; simp, fun _ => hc0⟩
    · intro fs a' cs' h1 h2 h3 u _ _ _
      exact .inr (.inl (by simp [hg0 h2]))
  obtain ⟨lev, hlev⟩ := exists_level hn
  have L0 : Levels q test (node a cs) keys g0 σ lev := by
    refine ⟨?_, ?_⟩
    · intro f fs z _ _ _ _ _ w hw
      have := hlev [] (node a cs) rfl
      rw [hg0 hw]
      rw [hroot] at this
      simp at this; omega
    · intro hx
      have := R.left
      rw [hx.2] at this
      exact absurd (List.eq_nil_of_length_eq_zero (Int.ofNat.inj this.symm)) hkn
  have hsz : (node a cs).size < σ.heap.next := by
    have h1 := Simple.size_le_plug gs0 (node a cs)
    rw [J.sub] at h1
    have h2 := list_length_le_of_lt M.nodup hT0
    rw [length_addrs] at h2
    have h3 := hG.fresh r (by simp)
    have h4 := R.grown.le
    grind
  have hfuel : (node a cs).size ≤ σ.heap.fuel := by simp only [Heap.fuel]; omega
  obtain ⟨o, g1, σ1, P1, e1, C1, H1, k1, k2, k3, L1, k4⟩ := (first_spec M J C hT0 H hga hfuel hlev).merge hn C hlev L0 H
    (d0 := 0) (by simp) (by simp) (by have := hlev [] (node a cs) rfl; rw [hroot] at this; rw [this]; exact Nat.le_refl _)
  obtain ⟨g2, σ2, P2, e2, C2, H2, L2, l1⟩ := bfs_spec (q := q) M J hT0 hfuel hlev σ.heap.fuel o.toList g1 σ1 P1 C1
    (by simpa using H1) L1 (by cases o <;> simp) (by simpa using k2) (by
      have : unseen (node a cs) g0 ≤ (node a cs).size := by
        rw [← length_addrs]; exact List.length_filter_le ..
      simp only [Heap.fuel]; omega)
  have hkeys := all_keys M J C2 H2
  have hg2 : g2 (node a cs).addr = some r := l1 _ _ (k1 _ _ hga)
  have hP : P2 = node (a, r) (selL keys Q g2 cs) := by
    have := C2.hsel
    rw [sel_live (a := a) hg2 hak] at this
    simpa using this.symm
  have hlast : q = .default → ∃ k ∈ keys, ∀ w, g2 w ≠ none → lev w ≤ lev k + 1 := by
    intro hqd
    have hx : Exhausted q σ2 := by
      refine ⟨hqd, ?_⟩
      rw [C2.left]
      have : keys.filter (fun k => (g2 k).isNone) = [] := by
        refine List.filter_eq_nil_iff.mpr fun k hk => ?_
        have := hkeys k hk
        simpa using this
      rw [this]; rfl
    obtain ⟨k, hk, -, hw⟩ := L2.last hx
    exact ⟨k, hk, hw⟩
  -- the last level
  obtain ⟨n, hup, hlow⟩ : ∃ n, (q = .default → ∀ w, g2 w ≠ none → lev w ≤ n) ∧ (q = .default → ∀ z, (∀ w, g2 w ≠ none → lev w ≤ z) → n ≤ z) := by
    by_cases hqd : q = .default
    · obtain ⟨k, -, hw⟩ := hlast hqd
      obtain ⟨n, h1, h2⟩ := exists_least (P := fun z => ∀ w, g2 w ≠ none → lev w ≤ z) ⟨_, hw⟩
      exact ⟨n, fun _ => h1, fun _ => h2⟩
    · exact ⟨0, fun e => absurd e hqd, fun e => absurd e hqd⟩
  refine ⟨σ2.heap, P2, ?_, C2.hmade, by rw [hP]; rfl, ?_, n, ?_, ?_⟩
  · simp only [run, hroot] at e1 e2 ⊢
    rw [e1]
    simp only [Res.ok_bind]
    rw [e2]
    simp only [Res.ok_bind]
    refine freeTargets_none _ _ fun e he => ?_
    have h1 := lookup_mem C2.tnodup he
    rw [C2.targets] at h1
    split at h1
    · next hk =>
      rw [if_neg (hkeys _ hk)] at h1
      simpa using h1.symm
    · cases h1
  · refine C2.grown.congr fun x => ?_
    have : waiting keys Q g2 = [] := by
      refine List.eq_nil_iff_forall_not_mem.mpr fun x hx => ?_
      obtain ⟨k, hk, h, -⟩ := mem_waiting.mp hx
      exact hkeys k hk h
    simp [this]
  · have := kept_of M J C2 H2 hq hposs hlev L2 hup hlow (node a cs) [] rfl (by rw [hg2]; simp) hak
    rw [hP]
    have e : (node (a, r) (selL keys Q g2 cs)).refs.children = (selL keys Q g2 cs).map refs := by
      simp only [refs, map_node, children_node, mapL_eq]; rfl
    rw [e]; exact this
  · intro hqd
    obtain ⟨k, hk, hw⟩ := hlast hqd
    obtain ⟨f, fs, u, h1, h2, -⟩ := J.way k hk
    refine ⟨k, hk, u, fs.length + 1, h2, ⟨_, h1, rfl⟩, hlow hqd _ ?_⟩
    have := hlev _ _ h1
    intro w hgw
    have := hw w hgw
    subst h2
    simp at *
    omega
end Generate
