import Verif.Proof.Climb
import Verif.Proof.PatternResult
/-! The result of a pattern with `star`. -/
open Tree

set_option linter.unusedSimpArgs false

namespace Pat
variable {α β : Type}

theorem thinL_mem {i k f} {ps : List (Pat α)} (h : (Pat.node i k f ps).thin) : ∀ p ∈ ps, p.thin := by
  intro p hp j g qs hm
  refine h j g qs ?_
  have : ∀ {l : List (Pat α)}, p ∈ l → ∀ x ∈ p.pre, x ∈ preL l := by
    intro l
    induction l with
    | nil => intro h; cases h
    | cons a l ih =>
      intro h x hx
      simp only [preL, List.mem_append]
      rcases List.mem_cons.mp h with rfl | h
      · exact .inl hx
      · exact .inr (ih h x hx)
  simp only [Pat.pre, List.mem_cons]
  exact .inr (this hp _ hm)

variable (val : β → α) (addr : β → Nat) (m : Nat → Option Nat)

/-- The matchers match these subtrees. -/
def PlacedAt : List (Pat α) → List (Tree β) → Prop
  | [], ts => ts = []
  | p :: ps, ts => ∃ t ts', ts = t :: ts' ∧ Placed val addr m p t ∧ PlacedAt ps ts'

variable {val addr m}

theorem placedS_reach {f : β → Bool} : ∀ {ps : List (Pat α)} {us : List (Tree β)}, PlacedS val addr m f ps us →
    ∃ ts, Reach f us ts ∧ PlacedAt val addr m ps ts := by
  intro ps
  induction ps with
  | nil => intro us _; exact ⟨[], .none us, rfl⟩
  | cons p ps ih =>
    intro us h
    simp only [PlacedS] at h
    obtain ⟨t, r, h1, h2, h3⟩ := h
    obtain ⟨ts, h4, h5⟩ := ih h3
    exact ⟨t :: ts, .opens h1 (.take h4), t, ts, rfl, h2, h5⟩

theorem placedL_sublist : ∀ {ps : List (Pat α)} {us : List (Tree β)}, PlacedL val addr m ps us →
    ∃ ts, List.Sublist ts us ∧ PlacedAt val addr m ps ts := by
  intro ps
  induction ps with
  | nil => intro us _; exact ⟨[], by simp, rfl⟩
  | cons p ps ih =>
    intro us h
    simp only [PlacedL] at h
    obtain ⟨l, t, r, rfl, h2, h3⟩ := h
    obtain ⟨ts, h4, h5⟩ := ih h3
    exact ⟨t :: ts, (h4.cons_cons t).trans (List.sublist_append_right l (t :: r)), t, ts, rfl, h2, h5⟩

theorem placedAt_one {p : Pat α} {ts : List (Tree β)} (h : PlacedAt val addr m [p] ts) : ∃ t, ts = [t] ∧ Placed val addr m p t := by
  simp only [PlacedAt] at h
  obtain ⟨t, ts', rfl, h1, rfl⟩ := h
  exact ⟨t, rfl, h1⟩

theorem placedL_at {p : Pat α} {t : Tree β} (h : PlacedL val addr m [p] [t]) : Placed val addr m p t := by
  simp only [PlacedL] at h
  obtain ⟨l, u, r, e, h1, _⟩ := h
  cases l with
  | nil => simp at e; rw [e.1]; exact h1
  | cons a l => simp at e

theorem yieldsL_one {p : Pat α} {t c : Tree β} (h : Yields val addr m p t c) : YieldsL val addr m [p] [t] [c] := by
  simp only [YieldsL]
  exact ⟨[], t, [], c, [], rfl, rfl, h, rfl⟩
end Pat

theorem Tree.mem_frontier {β : Type} {f : β → Bool} (t : Tree β) : ∀ v ∈ frontier f t, f v.label = false := by
  induction t using ind with
  | h a cs ih =>
    rw [frontier_node]
    by_cases hf : f a = true
    · simp only [hf, if_true]
      have : ∀ l : List (Tree β), (∀ c ∈ l, c ∈ cs) → ∀ v ∈ frontierL f l, f v.label = false := by
        intro l
        induction l with
        | nil => intro _ v hv; rw [frontierL_nil] at hv; cases hv
        | cons c l ihl =>
          intro hl v hv
          rw [frontierL_cons] at hv
          rcases List.mem_append.mp hv with hv | hv
          · exact ih c (hl c (by simp)) v hv
          · exact ihl (fun c hc => hl c (by simp [hc])) v hv
      exact this cs (fun _ h => h)
    · simp only [hf, if_false]
      intro v hv
      simp at hv
      subst hv
      simpa using hf

theorem Tree.mem_frontierL {β : Type} {f : β → Bool} : ∀ l : List (Tree β), ∀ v ∈ frontierL f l, f v.label = false := by
  intro l
  induction l with
  | nil => intro v hv; rw [frontierL_nil] at hv; cases hv
  | cons c l ihl =>
    intro v hv
    rw [frontierL_cons] at hv
    rcases List.mem_append.mp hv with hv | hv
    · exact mem_frontier c v hv
    · exact ihl v hv

namespace Generate
open Pat
variable {ν α lit : Type}
variable {K : Kind ν α lit} {value : ν → α} {B : Pattern.Builder ν} {T s : Tree (Addr × α)} {base : Heap ν → Prop}
  {made : Heap ν → Tree (Lab α) → Prop} {m : Marks}

/-- The result of a matcher, for a match found in `T`. -/
def GoodY (K : Kind ν α lit) (value : ν → α) (B : Pattern.Builder ν) (T : Tree (Addr × α)) (base : Heap ν → Prop)
    (made : Heap ν → Tree (Lab α) → Prop) (m : Marks) (p : Pat α) : Prop :=
  ∀ (h : Heap ν) gs s, h.WF → base h → (∀ x ∈ T.addrs, x < h.next) → plug gs s = T → p.solid → p.thin →
    Placed Prod.snd Prod.fst m p s →
    ∃ h' P, Pattern.result K value B m p h = Res.ok (h', some P.label.2) ∧ made h' P ∧ P.label.1 = s.label ∧
      Yields Prod.snd Prod.fst m p s P.refs ∧ Grown h h' P.gens

theorem base_grown (M : Makes K value B T base made) {h h' : Heap ν} {ks} (hb : base h) (hT0 : ∀ x ∈ T.addrs, x < h.next)
    (G : Grown h h' ks) : base h' := M.base_frame hb (fun a ha => G.same a (hT0 a ha))

theorem clone_spec (M : Makes K value B T base made) {h : Heap ν} {gs s} (hw : h.WF) (hb : base h)
    (hs : plug gs s = T) :
    ∃ n, h.cells s.addr = some n ∧ value n = s.label.2 ∧ made (h.alloc (K.leaf s.label.2)).1 (node (s.label, h.next) []) ∧
      Grown h (h.alloc (K.leaf s.label.2)).1 [h.next] := by
  obtain ⟨n, h1, h2⟩ := M.read hb hs
  exact ⟨n, h1, h2, M.leaf hs (by simp [Heap.alloc]), grown_alloc hw _⟩

theorem resultL_spec (M : Makes K value B T base made) {gs} {r : Addr} {a : Addr × α} {h0 : Heap ν} (hw0 : h0.WF) (hb0 : base h0) (hT0 : ∀ x ∈ T.addrs, x < h0.next) :
    ∀ (ps : List (Pat α)), (∀ p ∈ ps, GoodY K value B T base made m p) → solidL ps → (∀ p ∈ ps, p.thin) →
    ∀ (h : Heap ν) (cs : List (Tree (Lab α))) (l0 ts : List (Tree (Addr × α))), Grown h0 h (node (a, r) cs).gens →
      made h (node (a, r) cs) → plug gs (node a (l0 ++ ts)) = T → (∀ c ∈ cs, c.label.1 ∈ l0.map label) →
      PlacedL Prod.snd Prod.fst m ps ts →
    ∃ h' ds, Pattern.resultL K value B m r ps h = Res.ok h' ∧ made h' (node (a, r) (cs ++ ds)) ∧
      Grown h0 h' (node (a, r) (cs ++ ds)).gens ∧ YieldsL Prod.snd Prod.fst m ps ts (ds.map refs) := by
  intro ps
  induction ps with
  | nil =>
    intro _ _ _ h cs l0 ts G H _ _ _
    exact ⟨h, [], by simp [Pattern.resultL], by simpa using H, by simpa using G, by simp [YieldsL]⟩
  | cons p ps ih =>
    intro hg hp ht h cs l0 ts G H hs hc hF
    simp only [solidL] at hp
    simp only [PlacedL] at hF
    obtain ⟨l, t, r', rfl, hF1, hF2⟩ := hF
    have hpt : plug (⟨a, l0 ++ l, r'⟩ :: gs) t = T := by rw [← hs]; simp [plug]
    obtain ⟨h1, P, e1, H1, hl1, Y1, G1⟩ := hg p (by simp) h _ t G.wf (base_grown M hb0 hT0 G)
      (fun x hx => Nat.lt_of_lt_of_le (hT0 x hx) G.le) hpt hp.1 (ht p (by simp)) hF1
    have HN : made h1 (node (a, r) cs) := M.made_frame H (fun x hx => G1.same x (G.fresh x hx).2)
    have hb1 : base h1 := base_grown M hb0 hT0 (G.trans G1)
    obtain ⟨h2, e2, H2, hn2, hk2⟩ := M.attach (fs := []) (a := a) (g := r) (cs := cs) (Q := P) (gs := gs) (l := l0 ++ l) (t := t) (r := r')
      G1.wf hb1 HN H1 (by
        intro x hx hm
        have h1 := G1.fresh x hx
        have h2 := G.fresh x (by simpa [plug] using hm)
        grind) (by rw [← hs]; simp) hl1.symm (fun c hcm => by
        have := hc c hcm
        simp only [List.map_append, List.mem_append]; exact .inl this)
    simp only [plug] at H2 hk2
    have G2 : Grown h0 h2 (node (a, r) (cs ++ [P])).gens := by
      refine ((G.trans G1).modify hn2 ?_).congr ?_
      · intro x hx
        simp only [List.mem_append, not_or] at hx
        exact hk2 x hx.1 hx.2
      · intro x; simp
    obtain ⟨h3, ds, e3, H3, G3, Y3⟩ := ih (fun q hq => hg q (by simp [hq])) hp.2 (fun q hq => ht q (by simp [hq])) h2 (cs ++ [P])
      (l0 ++ l ++ [t]) r' G2 H2 (by rw [← hs]; simp) (by
        intro c hcm
        rcases List.mem_append.mp hcm with hcm | hcm
        · have := hc c hcm
          simp only [List.map_append, List.mem_append]; exact .inl (.inl this)
        · simp at hcm; subst hcm
          rw [hl1]; simp) hF2
    refine ⟨h3, P :: ds, ?_, by simpa using H3, by simpa using G3, ?_⟩
    · have e2' : B.attach h1 r P.label.2 t.label.1 = Res.ok h2 := by rw [hl1] at e2; exact e2
      simp only [Pattern.resultL, placed_mark hF1, e1, Res.ok_bind, deref, Res.pure_eq, e2', e3]
    · simp only [YieldsL, List.map_cons]
      exact ⟨l, t, r', _, _, rfl, rfl, Y1, Y3⟩

theorem node_spec (M : Makes K value B T base made) (ps : List (Pat α)) (hg : ∀ p ∈ ps, GoodY K value B T base made m p)
    (hp : solidL ps) (ht : ∀ p ∈ ps, p.thin) {h : Heap ν} {gs s} (hw : h.WF) (hb : base h) (hT0 : ∀ x ∈ T.addrs, x < h.next)
    (hs : plug gs s = T) (hF : PlacedL Prod.snd Prod.fst m ps s.children) :
    ∃ h' P, (do
        let n ← h.read s.addr
        let (h, r) := h.alloc (K.leaf (value n))
        let h ← Pattern.resultL K value B m r ps h
        pure (h, some r)) = Res.ok (h', some P.label.2) ∧ made h' P ∧ P.label.1 = s.label ∧
      YieldsL Prod.snd Prod.fst m ps s.children P.refs.children ∧ Grown h h' P.gens := by
  obtain ⟨n, h1, h2, h3, h4⟩ := clone_spec M hw hb hs
  obtain ⟨a, cs⟩ := s
  obtain ⟨h', ds, e, H, G, Y⟩ := resultL_spec (m := m) (gs := gs) (r := h.next) (a := a) M hw hb hT0 ps hg hp ht _ [] [] cs
    (by simpa using h4) h3 (by simpa using hs) (by simp) hF
  refine ⟨h', node (a, h.next) ds, ?_, by simpa using H, rfl, ?_, by simpa using G⟩
  · simp only [Heap.read_of h1, Res.ok_bind, h2]
    have : (h.alloc (K.leaf a.2)).2 = h.next := rfl
    simp only [label_node] at *
    rw [this, e]; rfl
  · simp only [refs, map_node, mapL_eq, children_node]
    exact Y

theorem filter_ne {l : List (Addr × Ptr)} {x : Addr} (h : find l x = none) : l.filter (fun e => e.1 != x) = l := by
  induction l with
  | nil => rfl
  | cons e l ih =>
    obtain ⟨y, p⟩ := e
    simp only [find, List.lookup_cons] at h
    rcases Bool.eq_false_or_eq_true (x == y) with hb | hb
    · simp [hb] at h
    · simp only [hb] at h
      have hne : y ≠ x := fun e => by simp [e] at hb
      rw [List.filter_cons]
      simp only [bne_iff_ne, ne_eq, hne, not_false_iff, if_true]
      rw [ih h]

theorem targetsL_spec (M : Makes K value B T base made) {h1 : Heap ν} (hb1 : base h1) (hT1 : ∀ x ∈ T.addrs, x < h1.next) :
    ∀ (ps : List (Pat α)), (∀ p ∈ ps, GoodY K value B T base made m p) → solidL ps → (∀ p ∈ ps, p.thin) →
    ∀ (ts : List (Tree (Addr × α))) (keys : List Addr) (Q : Addr → Tree (Lab α)) (σ : State ν),
      PlacedAt Prod.snd Prod.fst m ps ts → (ts.map addr).Nodup → (∀ t ∈ ts, ∃ gs, plug gs t = T) → (∀ t ∈ ts, t.addr ∉ keys) →
      Ready made keys Q h1 σ →
      ∃ Q' σ', Pattern.targetsL K value B m ps σ = Res.ok σ' ∧ Ready made (keys ++ ts.map addr) Q' h1 σ' ∧ (∀ k ∈ keys, Q' k = Q k) ∧
        (∀ t ∈ ts, (Q' t.addr).label.1 = t.label) ∧ YieldsP Prod.snd Prod.fst m ps (ts.map (fun t => (t, (Q' t.addr).refs))) := by
  intro ps
  induction ps with
  | nil =>
    intro _ _ _ ts keys Q σ hP _ _ _ R
    simp only [PlacedAt] at hP
    subst hP
    exact ⟨Q, σ, by simp [Pattern.targetsL], by simpa using R, fun _ _ => rfl, by simp, by simp [YieldsP]⟩
  | cons p ps ih =>
    intro hg hp ht ts keys Q σ hP hn hsub hk R
    simp only [solidL] at hp
    simp only [PlacedAt] at hP
    obtain ⟨t, ts', rfl, hP1, hP2⟩ := hP
    simp only [List.map_cons, List.nodup_cons] at hn
    obtain ⟨gs, hgs⟩ := hsub t (by simp)
    have hkt := hk t (by simp)
    obtain ⟨h2, P, e1, H1, hl1, Y1, G1⟩ := hg p (by simp) σ.heap gs t R.grown.wf (base_grown M hb1 hT1 R.grown)
      (fun x hx => Nat.lt_of_lt_of_le (hT1 x hx) R.grown.le) hgs hp.1 (ht p (by simp)) hP1
    have hfind : find σ.targets t.addr = none := by rw [R.targets]; simp [hkt]
    let Q1 : Addr → Tree (Lab α) := fun k => if k = t.addr then P else Q k
    have hQt : Q1 t.addr = P := by simp [Q1]
    have hQk : ∀ k ∈ keys, Q1 k = Q k := fun k hk => by
      have : k ≠ t.addr := fun e => hkt (e ▸ hk)
      simp [Q1, this]
    have hold : ∀ k ∈ keys, ∀ x ∈ (Q k).gens, x < σ.heap.next := fun k hk x hx =>
      (R.grown.fresh x (List.mem_flatMap.mpr ⟨k, hk, hx⟩)).2
    have R1 : Ready made (keys ++ [t.addr]) Q1 h1 ⟨h2, (t.addr, some P.label.2) :: σ.targets, σ.left + 1⟩ := by
      refine ⟨?_, ?_, ?_, ?_, ?_, ?_⟩
      · intro k hk
        rcases List.mem_append.mp hk with hk | hk
        · rw [hQk k hk]
          exact M.made_frame (R.tmade k hk) (fun x hx => G1.same x (hold k hk x hx))
        · simp at hk; subst hk
          rw [hQt]; exact H1
      · intro k hk k' hk' hne x hx hx'
        rcases List.mem_append.mp hk with hk | hk <;> rcases List.mem_append.mp hk' with hk' | hk'
        · rw [hQk k hk] at hx
          rw [hQk k' hk'] at hx'
          exact R.disj k hk k' hk' hne x hx hx'
        · simp at hk'; subst hk'
          rw [hQk k hk] at hx
          rw [hQt] at hx'
          have h3 := hold k hk x hx
          have h4 := (G1.fresh x hx').1
          grind
        · simp at hk; subst hk
          rw [hQk k' hk'] at hx'
          rw [hQt] at hx
          have h3 := hold k' hk' x hx'
          have h4 := (G1.fresh x hx).1
          grind
        · simp at hk hk'; subst hk; exact hne hk'.symm
      · intro k
        by_cases hkk : k = t.addr
        · subst hkk
          simp [find, hQt]
        · have : (k == t.addr) = false := by simpa using hkk
          have h3 := R.targets k
          simp only [find, List.lookup_cons, this] at h3 ⊢
          rw [h3]
          simp only [Q1, List.mem_append, List.mem_singleton, hkk, or_false, if_false]
      · simp only [List.map_cons, List.nodup_cons]
        refine ⟨?_, R.tnodup⟩
        intro hm
        obtain ⟨e, he, hee⟩ := List.mem_map.mp hm
        have := lookup_mem R.tnodup he
        rw [hee, hfind] at this
        cases this
      · simp [R.left]
      · refine (R.grown.trans G1).congr ?_
        intro x
        simp only [List.flatMap_append, List.mem_append, List.flatMap_cons, List.flatMap_nil, List.append_nil, hQt]
        refine or_congr ?_ Iff.rfl
        simp only [List.mem_flatMap]
        constructor
        · rintro ⟨k, hk, hx⟩; exact ⟨k, hk, by rw [hQk k hk]; exact hx⟩
        · rintro ⟨k, hk, hx⟩; exact ⟨k, hk, by rw [hQk k hk] at hx; exact hx⟩
    obtain ⟨Q', σ', e2, R2, hQ2, hl2, Y2⟩ := ih (fun q hq => hg q (by simp [hq])) hp.2 (fun q hq => ht q (by simp [hq])) ts' (keys ++ [t.addr]) Q1 _
      hP2 hn.2 (fun u hu => hsub u (by simp [hu])) (by
        intro u hu hm
        rcases List.mem_append.mp hm with hm | hm
        · exact hk u (by simp [hu]) hm
        · simp at hm
          exact hn.1 (hm ▸ List.mem_map_of_mem hu)) R1
    refine ⟨Q', σ', ?_, by simpa using R2, ?_, ?_, ?_⟩
    · have hmk : m p.id = some t.addr := placed_mark hP1
      have hst : store K h2 σ.targets t.addr (some P.label.2) = Res.ok (h2, (t.addr, some P.label.2) :: σ.targets) := by
        simp only [store, hfind, Res.pure_eq, Res.ok_bind, filter_ne hfind]
      simp only [Pattern.targetsL, hmk, e1, Res.ok_bind, hst, Res.pure_eq, e2]
    · intro k hk
      rw [hQ2 k (by simp [hk]), hQk k hk]
    · intro u hu
      rcases List.mem_cons.mp hu with rfl | hu
      · rw [hQ2 _ (by simp), hQt, hl1]
      · exact hl2 u hu
    · simp only [List.map_cons, YieldsP]
      refine ⟨t, _, _, rfl, ?_, Y2⟩
      rw [hQ2 _ (by simp), hQt]; exact Y1

/-- The ways to the subtrees matched by the arguments. -/
theorem ways (M : Makes K value B T base made) {f : Addr × α → Bool} {gs} (hs : plug gs s = T) {ts : List (Tree (Addr × α))} (hr : Reach f s.children ts) :
    hitsL (ts.map addr) s.children = ts ∧ (ts.map addr).Nodup ∧ s.addr ∉ ts.map addr ∧ ∀ t ∈ ts, ∃ gs e, plug (gs ++ [e]) t = s ∧ e.label = s.label ∧
      ∀ e ∈ gs, f e.label = true ∧ e.label.1 ∉ ts.map addr := by
  have hn := Grow.nodup_sub M.nodup hs
  obtain ⟨a, cs⟩ := s
  simp only [children_node] at hr
  simp only [addrs_node, List.nodup_cons] at hn
  obtain ⟨h1, h2⟩ := hr.hits (keys := ts.map addr) hn.2 (fun _ _ => Iff.rfl)
  refine ⟨h1, hr.nodup hn.2, ?_, ?_⟩
  · intro hm
    obtain ⟨t, ht, e⟩ := List.mem_map.mp hm
    have := hr.sub t ht
    rw [e] at this
    exact hn.1 this
  · intro t ht
    obtain ⟨gs', e, h3, h4, h5⟩ := h2 _ [] a [] rfl t ht
    exact ⟨gs', e, h4, h3, h5⟩

theorem not_stolen (h : Heap ν) {ps : List (Pat α)} (hp : solidL ps) {ts : List (Tree (Addr × α))} (hP : PlacedAt Prod.snd Prod.fst m ps ts) {a : Addr}
    (ha : a ∉ ts.map addr) :
    childMaySteal ps = false ∨ (childMaySteal ps = true ∧ Pattern.stealL K value B m a none ps h = Res.ok (h, false, none)) := by
  rcases Bool.eq_false_or_eq_true (childMaySteal ps) with hc | hc
  · refine .inr ⟨hc, ?_⟩
    rw [childMaySteal_solid hp, decide_eq_true_iff] at hc
    match ps, hc with
    | [], _ => simp [Pattern.stealL]
    | [p], _ =>
      obtain ⟨t, rfl, h1⟩ := placedAt_one hP
      have : m p.id ≠ some a := by
        rw [placed_mark h1]
        simp only [List.map_cons, List.map_nil, List.mem_singleton] at ha
        intro e
        exact ha (Option.some.inj e).symm
      simp [Pattern.stealL, this]
    | p :: p' :: ps, hc => simp at hc
  · exact .inl hc

theorem _root_.Tree.depth_size {β : Type} : ∀ (fs : List (Frame β)) (u : Tree β), fs.length + u.size ≤ (plug fs u).size := by
  intro fs
  induction fs with
  | nil => intro u; simp [plug]
  | cons f fs ih =>
    intro u
    have h1 := ih (node f.label (f.lefts ++ u :: f.rights))
    simp only [size_node, sizeL_append, sizeL_cons] at h1
    simp only [plug, List.length_cons]
    omega

theorem star_spec (M : Makes K value B T base made) {i : Nat} {q : Quantifier} {test : α → Bool} (ps : List (Pat α)) (hg : ∀ p ∈ ps, GoodY K value B T base made m p)
    (hne : ps ≠ []) (hp : solidL ps) (ht : (Pat.node i (.star q) test ps).thin) {h : Heap ν} {gs} (hw : h.WF) (hb : base h) (hT0 : ∀ x ∈ T.addrs, x < h.next)
    (hs : plug gs s = T) (hm : m i = some s.addr) {ts : List (Tree (Addr × α))} (hr : Reach (fun b => test b.2) s.children ts)
    (hposs : q = .possessive → ∀ t ∈ ts, test t.label.2 = false) (hP : PlacedAt Prod.snd Prod.fst m ps ts) :
    ∃ h' P, Pattern.result K value B m (Pat.node i (.star q) test ps) h = Res.ok (h', some P.label.2) ∧ made h' P ∧ P.label.1 = s.label ∧
      (∃ n vs, Tree.Kept q (fun b => test b.2) n 1 s.children P.refs.children vs ∧ YieldsP Prod.snd Prod.fst m ps vs ∧
        (q = .default → ∃ v ∈ vs, ∃ d, Tree.Level s v.1 d ∧ n ≤ d + 1)) ∧ Grown h h' P.gens := by
  obtain ⟨w1, w2, w3, w4⟩ := ways M hs hr
  have hst := not_stolen (K := K) (value := value) (B := B) h hp hP w3
  have hall : ps.all (fun p => (m p.id).isNone) = false := by
    cases ps with
    | nil => exact absurd rfl hne
    | cons p ps =>
      simp only [PlacedAt] at hP
      obtain ⟨t, _, _, h1, _⟩ := hP
      simp [placed_mark h1]
  obtain ⟨n, c1, c2, c3, c4⟩ := clone_spec M hw hb hs
  have hcl : clone K value h s.addr = Res.ok ((h.alloc (K.leaf s.label.2)).1, h.next) := by
    simp only [clone, Heap.read_of c1, Res.ok_bind, c2, Res.pure_eq]; rfl
  generalize (h.alloc (K.leaf s.label.2)).1 = h1 at c3 c4 hcl
  have hb1 := base_grown M hb hT0 c4
  have hT1 : ∀ x ∈ T.addrs, x < h1.next := fun x hx => Nat.lt_of_lt_of_le (hT0 x hx) c4.le
  have hsub : ∀ t ∈ ts, ∃ gs, plug gs t = T := fun t ht => by
    obtain ⟨gs', e, h3, _⟩ := w4 t ht
    exact ⟨_, sub_trans h3 hs⟩
  have hrn : h.next < h1.next := (c4.fresh h.next (by simp)).2
  by_cases hq : q = .reluctant
  · subst hq
    obtain ⟨p, rfl⟩ := List.length_eq_one_iff.mp (ht i test ps (by simp [Pat.pre]))
    obtain ⟨t, rfl, hP1⟩ := placedAt_one hP
    obtain ⟨gs', e, h3, h4, h5⟩ := w4 t (by simp)
    simp only [solidL] at hp
    obtain ⟨h2, P, e1, H1, hl1, Y1, G1⟩ := hg p (by simp) h1 _ t c4.wf hb1 hT1 (sub_trans h3 hs) hp.1 (thinL_mem ht p (by simp)) hP1
    have hmade : made h2 (node (s.label, h.next) []) := M.made_frame c3 (fun x hx => by
      simp at hx; subst hx
      exact G1.same _ hrn)
    have hdrop : ∀ d ∈ gs', find [(s.addr, h.next)] d.label.1 = none := by
      intro d hd
      have : d.label.1 ≠ s.addr := by
        have hns : (s.pre.map Prod.fst).Nodup := Grow.nodup_sub M.nodup hs
        obtain ⟨x, y, rfl⟩ := List.append_of_mem hd
        have h6 : plug (y ++ [e]) (plug [d] (plug x t)) = s := by
          rw [← h3]; simp [plug_append, plug]
        intro e'
        cases hy : y ++ [e] with
        | nil => simp at hy
        | cons z zs =>
          rw [hy] at h6
          exact Tree.addr_ne_of_plug_cons h6 hns e'
      simp [find, this]
    have hlen : gs'.length < h2.fuel := by
      have h6 := depth_size (gs' ++ [e]) t
      have h7 := depth_size gs s
      rw [h3] at h6
      rw [hs] at h7
      have h8 := Nat.le_trans (list_length_le_of_lt M.nodup hT1) G1.le
      have h9 : T.addrs.length = T.size := by simp [addrs, length_pre]
      simp only [List.length_append, List.length_singleton] at h6
      simp only [Heap.fuel]
      omega
    obtain ⟨h', cl, P', e2, H2, hl2, G2, K2⟩ := climb_spec (test := test) M hs hT0 (r := h.next) gs' e h2.fuel h2 [(s.addr, h.next)] t P [(t, P.refs)]
      (base_grown M hb1 hT1 G1) hmade H1 hl1 ((c4.trans G1).congr (fun x => by simp)) (fun hx => by
        have := (G1.fresh _ hx).1; grind) h3 (fun d hd => ⟨(h5 d hd).1, hdrop d hd⟩) (by simp [find]) hlen (.inl rfl)
    refine ⟨h', P', ?_, H2, by rw [hl2], ⟨0, _, K2 0 1, ?_, fun e => by simp at e⟩, G2⟩
    · have hmk : m p.id = some t.addr := placed_mark hP1
      rw [Pattern.result]
      rcases hst with hst | ⟨hst, hst'⟩
      · simp only [hm, hall, Bool.false_eq_true, if_false, hst, Res.ok_bind, hcl, if_true, Pattern.climbL, hmk, deref, Res.pure_eq, e1, e2, hl2]
      · simp only [hm, hall, Bool.false_eq_true, if_false, hst, hst', Res.ok_bind, hcl, if_true, Pattern.climbL, hmk, deref, Res.pure_eq, e1, e2, hl2]
    · simp only [YieldsP]
      exact ⟨t, _, [], rfl, Y1, rfl⟩
  · have R0 : Ready made [] (fun _ => node (s.label, 0) []) h1 ⟨h1, [], 0⟩ := by
      refine ⟨by simp, by simp, by simp [find], by simp, by simp, ?_⟩
      exact ⟨c4.wf, Nat.le_refl _, by simp, fun a ha _ => c4.wf a ha, fun _ _ => rfl⟩
    obtain ⟨Q, σ, e1, R1, _, hl1, Y1⟩ := targetsL_spec M hb1 hT1 ps hg hp (thinL_mem ht) ts [] _ _ hP w2 hsub (by simp) R0
    simp only [List.nil_append] at R1
    have J : Job T gs s (ts.map addr) Q test := by
      refine ⟨hs, w2, w3, ?_, R1.disj⟩
      intro k hk
      obtain ⟨t, ht, rfl⟩ := List.mem_map.mp hk
      obtain ⟨gs', e, h3, h4, h5⟩ := w4 t ht
      have hlab : ∀ d ∈ gs' ++ [e], d.label.1 ∉ ts.map addr := by
        intro d hd
        rcases List.mem_append.mp hd with hd | hd
        · exact (h5 d hd).2
        · simp at hd; subst hd; rw [h4]; exact w3
      have hdl : (gs' ++ [e]).dropLast = gs' := by simp
      cases hc : gs' ++ [e] with
      | nil => simp at hc
      | cons f fs =>
        rw [hc] at h3 hlab hdl
        exact ⟨f, fs, t, h3, rfl, hl1 t ht, hlab, by rw [hdl]; exact fun d hd => (h5 d hd).1⟩
    have hns : (s.pre.map Prod.fst).Nodup := Grow.nodup_sub M.nodup hs
    obtain ⟨h', P, e2, H2, hl2, G2, n, K2, L2⟩ := run_spec (q := q) (h0 := h) M J hq (by
        intro hqq fs u hu hk
        obtain ⟨t, ht, e⟩ := List.mem_map.mp hk
        obtain ⟨gs', d, h3, _⟩ := w4 t ht
        obtain ⟨_, rfl⟩ := sub_unique hns h3 hu e
        exact hposs hqq t ht) (by
        intro e
        cases ts with
        | nil => cases ps with
          | nil => exact hne rfl
          | cons p ps => simp [PlacedAt] at hP
        | cons t ts => simp at e) R1 (base_grown M hb1 hT1 R1.grown) c4 hT0 (M.made_frame c3 (fun x hx => by
        simp at hx; subst hx
        exact R1.grown.same _ hrn))
    rw [w1] at K2
    refine ⟨h', P, ?_, H2, by rw [hl2], ⟨n, _, K2, Y1, fun hqd => ?_⟩, G2⟩
    rotate_left
    · obtain ⟨k, hk, u, d, rfl, h3, h4⟩ := L2 hqd
      obtain ⟨t, ht, e⟩ := List.mem_map.mp hk
      obtain ⟨gs', d', h5, _⟩ := w4 t ht
      obtain ⟨fs, h6, -⟩ := id h3
      obtain ⟨_, rfl⟩ := sub_unique hns h5 h6 e
      exact ⟨_, List.mem_map.mpr ⟨t, ht, rfl⟩, d, h3, h4⟩
    rw [Pattern.result]
    rcases hst with hst | ⟨hst, hst'⟩
    · simp only [hm, hall, Bool.false_eq_true, if_false, if_true, hst, Res.ok_bind, hcl, e1, e2, hl2, Res.pure_eq, hq]
    · simp only [hm, hall, Bool.false_eq_true, if_false, if_true, hst, hst', Res.ok_bind, hcl, e1, e2, hl2, Res.pure_eq, hq]

theorem missing_spec (M : Makes K value B T base made) (ps : List (Pat α)) (hg : ∀ p ∈ ps, GoodY K value B T base made m p)
    (hne : ps ≠ []) (hp : solidL ps) (ht : ∀ p ∈ ps, p.thin) {h : Heap ν} {gs} (hw : h.WF) (hb : base h) (hT0 : ∀ x ∈ T.addrs, x < h.next)
    (hs : plug gs s = T) (hF : PlacedL Prod.snd Prod.fst m ps [s]) :
    ∃ h' P, childMaySteal ps = true ∧ ps.all (fun p => (m p.id).isNone) = false ∧
      Pattern.stealL K value B m s.addr none ps h = Res.ok (h', true, some P.label.2) ∧ made h' P ∧ P.label.1 = s.label ∧
      YieldsL Prod.snd Prod.fst m ps [s] [P.refs] ∧ Grown h h' P.gens := by
  have ho : ps.length = 1 := by
    have := fitsL_length (placedL_fits ps _ hF)
    cases ps with
    | nil => simp at hne
    | cons p ps => simp at this ⊢; exact this
  obtain ⟨p, rfl⟩ := List.length_eq_one_iff.mp ho
  have hF1 := placedL_at hF
  obtain ⟨h', P, e, H, hl, Y, G⟩ := hg p (by simp) h gs s hw hb hT0 hs (solidL_mem hp p (by simp)) (ht p (by simp)) hF1
  have hmk : m p.id = some s.addr := placed_mark hF1
  refine ⟨h', P, ?_, by simp [hmk], ?_, H, hl, yieldsL_one Y, G⟩
  · rw [childMaySteal_solid hp]; simp
  · simp only [Pattern.stealL, hmk, if_true, e, Res.ok_bind, Res.pure_eq]

theorem result_spec (M : Makes K value B T base made) : ∀ p : Pat α, GoodY K value B T base made m p := by
  intro p
  induction p using Pat.ind with
  | h i k f ps ih =>
    intro h gs s hw hb hT0 hs hp ht hF
    have htL := thinL_mem ht
    cases k with
    | one =>
      simp only [solid] at hp
      simp only [Placed] at hF
      obtain ⟨h', P, e, H, hl, Y, G⟩ := node_spec M ps ih hp htL hw hb hT0 hs hF.2.2
      refine ⟨h', P, ?_, H, hl, ?_, G⟩
      · simp only [Pattern.result, hF.1]; exact e
      · simp only [Yields]
        exact ⟨hF.1, by simp [refs, hl], hF.2.1, Y⟩
    | cpt =>
      simp only [solid] at hp
      simp only [Placed] at hF
      obtain ⟨q, rfl⟩ := List.length_eq_one_iff.mp hp.1
      obtain ⟨h', P, e, H, hl, Y, G⟩ := ih q (by simp) h gs s hw hb hT0 hs (solidL_mem hp.2 q (by simp)) (htL q (by simp)) (placedL_at hF.2)
      refine ⟨h', P, ?_, H, hl, ?_, G⟩
      · simp only [Pattern.result, hF.1, Pattern.resultHead]; exact e
      · simp only [Yields]
        exact ⟨hF.1, yieldsL_one Y⟩
    | opt q =>
      simp only [solid] at hp
      simp only [Placed] at hF
      rcases hF.2 with ⟨hv, hF2⟩ | ⟨hv, hF2⟩
      · obtain ⟨ts, h1, h2⟩ := placedL_sublist hF2
        have hn : s.addr ∉ ts.map addr := by
          intro hm
          obtain ⟨t, ht, e⟩ := List.mem_map.mp hm
          obtain ⟨g, _, h3⟩ := plug_child hs (h1.subset ht)
          exact Tree.addr_ne_of_plug_cons h3 (Grow.nodup_sub M.nodup hs) e
        obtain ⟨h', P, e, H, hl, Y, G⟩ := node_spec M ps ih hp.2 htL hw hb hT0 hs hF2
        refine ⟨h', P, ?_, H, hl, ?_, G⟩
        · rw [← e, Pattern.result]
          rcases not_stolen (K := K) (value := value) (B := B) h hp.2 h2 hn with hst | ⟨hst, hst'⟩
          · simp only [hF.1, hst, Bool.false_eq_true, if_false, Res.pure_eq, Res.ok_bind]; rfl
          · have hst' : Pattern.stealL K value B m s.label.1 none ps h = Res.ok (h, false, none) := hst'
            simp only [hF.1, hst, hst', if_true, Bool.false_eq_true, if_false, Res.pure_eq, Res.ok_bind]; rfl
        · simp only [Yields]
          exact ⟨hF.1, .inl ⟨by simp [refs, hl], hv, Y⟩⟩
      · obtain ⟨h', P, g1, _, e, H, hl, Y, G⟩ := missing_spec M ps ih hp.1 hp.2 htL hw hb hT0 hs hF2
        refine ⟨h', P, ?_, H, hl, ?_, G⟩
        · have e : Pattern.stealL K value B m s.label.1 none ps h = Res.ok (h', true, some P.label.2) := e
          simp only [Pattern.result, hF.1, g1, if_true, e, Res.ok_bind, Res.pure_eq]
        · simp only [Yields]
          exact ⟨hF.1, .inr ⟨hv, Y⟩⟩
    | star q =>
      simp only [solid] at hp
      simp only [Placed] at hF
      rcases hF.2 with ⟨hv, hF2, hF3⟩ | ⟨hv, hF2⟩
      · suffices hh : ∃ ts, Reach (fun b => f b.2) s.children ts ∧ (q = .possessive → ∀ t ∈ ts, f t.label.2 = false) ∧
            PlacedAt Prod.snd Prod.fst m ps ts by
          obtain ⟨ts, h1, h2, h3⟩ := hh
          obtain ⟨h', P, e, H, hl, Y, G⟩ := star_spec (i := i) M ps ih hp.1 hp.2 ht hw hb hT0 hs hF.1 h1 h2 h3
          refine ⟨h', P, e, H, hl, ?_, G⟩
          simp only [Yields]
          exact ⟨hF.1, .inl ⟨by simp [refs, hl], hv, Y⟩⟩
        by_cases hq : q = .possessive
        · obtain ⟨ts, h1, h2⟩ := placedL_sublist (hF3 hq)
          exact ⟨ts, .frontier _ (Nat.le_refl _) h1, fun _ t ht => mem_frontierL _ t (h1.subset ht), h2⟩
        · obtain ⟨ts, h1, h2⟩ := placedS_reach (hF2 hq)
          exact ⟨ts, h1, fun h => absurd h hq, h2⟩
      · obtain ⟨h', P, g1, g2, e, H, hl, Y, G⟩ := missing_spec M ps ih hp.1 hp.2 htL hw hb hT0 hs hF2
        refine ⟨h', P, ?_, H, hl, ?_, G⟩
        · have e : Pattern.stealL K value B m s.label.1 none ps h = Res.ok (h', true, some P.label.2) := e
          simp only [Pattern.result, hF.1, g1, g2, Bool.false_eq_true, if_false, if_true, e, Res.ok_bind, Res.pure_eq]
        · simp only [Yields]
          exact ⟨hF.1, .inr ⟨hv, Y⟩⟩
end Generate
