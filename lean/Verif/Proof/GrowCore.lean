import Verif.Proof.Grow
/-! The state kept while the result of a `star` is built. -/
open Tree

set_option linter.unusedSimpArgs false

namespace Generate
open Grow
variable {ν α lit : Type}

theorem find_release (l : List (Addr × Ptr)) (x k : Addr) :
    find (release l x) k = if k = x then (find l x).map (fun _ => none) else find l k := by
  induction l with
  | nil => simp [release, find]
  | cons e l ih =>
    obtain ⟨y, p⟩ := e
    simp only [find, release, List.map_cons] at ih ⊢
    by_cases hy : y = x
    · subst hy
      simp only [beq_self_eq_true, if_true, List.lookup_cons]
      by_cases hk : k = y
      · subst hk; simp
      · have : (k == y) = false := by simpa using hk
        simp only [this, ih, if_neg hk]
    · have : (y == x) = false := by simpa using hy
      simp only [this, Bool.false_eq_true, if_false, List.lookup_cons]
      by_cases hk : k = y
      · subst hk
        simp [hy]
      · have h1 : (k == y) = false := by simpa using hk
        have h2 : (x == y) = false := by simpa using fun e : x = y => hy e.symm
        simp only [h1, h2, ih]

theorem fst_release (l : List (Addr × Ptr)) (x : Addr) : (release l x).map Prod.fst = l.map Prod.fst := by
  simp only [release, List.map_map]
  refine List.map_congr_left fun e _ => ?_
  simp only [Function.comp]
  split
  · next h => exact (eq_of_beq h).symm
  · rfl

/-- What is fixed: the node `s` of `T` that the `star` has matched, the nodes `keys` its arguments have matched, and their
results `Q`. -/
structure Job (T : Tree (Addr × α)) (gs0 : List (Frame (Addr × α))) (s : Tree (Addr × α)) (keys : List Addr) (Q : Addr → Tree (Lab α))
    (test : α → Bool) : Prop where
  sub : plug gs0 s = T
  nodup : keys.Nodup
  root : s.addr ∉ keys
  way : ∀ k ∈ keys, ∃ f fs u, plug (f :: fs) u = s ∧ u.addr = k ∧ (Q k).label.1 = u.label ∧ (∀ e ∈ f :: fs, e.label.1 ∉ keys) ∧
    ∀ e ∈ (f :: fs).dropLast, test e.label.2 = true
  disj : ∀ k ∈ keys, ∀ k' ∈ keys, k ≠ k' → ∀ x ∈ (Q k).gens, x ∉ (Q k').gens

/-- A child of a copied node which is copied too, if it is seen. -/
def Elig (keys : List Addr) (test : α → Bool) (u : Tree (Addr × α)) : Prop := u.addr ∈ keys ∨ test u.label.2 = true

/-- The addresses of the results not yet put into the tree. -/
def waiting (keys : List Addr) (Q : Addr → Tree (Lab α)) (g : Addr → Option Addr) : List Addr :=
  (keys.filter (fun k => (g k).isNone)).flatMap (fun k => (Q k).gens)

theorem mem_waiting {keys : List Addr} {Q : Addr → Tree (Lab α)} {g : Addr → Option Addr} {x : Addr} :
    x ∈ waiting keys Q g ↔ ∃ k ∈ keys, g k = none ∧ x ∈ (Q k).gens := by
  simp [waiting, and_assoc]

structure Core (made : Heap ν → Tree (Lab α) → Prop) (base : Heap ν → Prop) (test : α → Bool) (s : Tree (Addr × α)) (keys : List Addr)
    (Q : Addr → Tree (Lab α)) (h0 : Heap ν) (g : Addr → Option Addr) (σ : State ν) (P : Tree (Lab α)) : Prop where
  hbase : base σ.heap
  hsel : sel keys Q g s = [P]
  hmade : made σ.heap P
  tmade : ∀ k ∈ keys, g k = none → made σ.heap (Q k)
  tdisj : ∀ k ∈ keys, g k = none → ∀ x ∈ (Q k).gens, x ∉ P.gens
  targets : ∀ k, find σ.targets k = if k ∈ keys then some (if g k = none then some (Q k).label.2 else none) else none
  tnodup : (σ.targets.map Prod.fst).Nodup
  left : σ.left = ((keys.filter (fun k => (g k).isNone)).length : Nat)
  grown : Grown h0 σ.heap (P.gens ++ waiting keys Q g)
  root : ∃ r, g s.addr = some r
  up : ∀ f fs u, plug (f :: fs) u = s → g u.addr ≠ none → (∃ r, g f.label.1 = some r) ∧ f.label.1 ∉ keys ∧ Elig keys test u
  key : ∀ k ∈ keys, ∀ x, g k = some x → x = (Q k).label.2
  before : ∀ f fs u, plug (f :: fs) u = s → g u.addr ≠ none → ∀ v ∈ f.lefts, Elig keys test v → g v.addr ≠ none

variable {K : Kind ν α lit} {value : ν → α} {B : Pattern.Builder ν} {T s : Tree (Addr × α)} {base : Heap ν → Prop}
  {made : Heap ν → Tree (Lab α) → Prop} {gs0 : List (Frame (Addr × α))} {keys : List Addr} {Q : Addr → Tree (Lab α)} {test : α → Bool}
  {q : Quantifier} {h0 : Heap ν} {g : Addr → Option Addr} {σ : State ν} {P : Tree (Lab α)}

theorem Core.live (C : Core made base test s keys Q h0 g σ P) : ∀ {fs : List (Frame (Addr × α))} {u}, plug fs u = s → g u.addr ≠ none →
    Live keys g fs := by
  intro fs
  induction fs with
  | nil => intro u _ _ f hf; cases hf
  | cons f fs ih =>
    intro u h hg e he
    have h1 := C.up f fs u h hg
    rcases List.mem_cons.mp he with rfl | he
    · exact ⟨h1.1, h1.2.1⟩
    · refine ih (u := node f.label (f.lefts ++ u :: f.rights)) h ?_ e he
      obtain ⟨r, hr⟩ := h1.1
      have : (node f.label (f.lefts ++ u :: f.rights)).addr = f.label.1 := rfl
      rw [this, hr]; simp

/-- One more node is put into the tree. -/
theorem Core.grow (M : Makes K value B T base made) (J : Job T gs0 s keys Q test) (C : Core made base test s keys Q h0 g σ P)
    {fs : List (Frame (Addr × α))} {a : Addr × α} {l r : List (Tree (Addr × α))} {u : Tree (Addr × α)}
    (hs : plug fs (node a (l ++ u :: r)) = s) {ra} (ha : g a.1 = some ra) (hk : a.1 ∉ keys) (hr : ∀ v ∈ u :: r, g v.addr = none)
    (hl : ∀ v ∈ l, Elig keys test v → g v.addr ≠ none) (hu : Elig keys test u)
    {h1 : Heap ν} (hw : h1.WF) (hb : base h1) (hm : made h1 P) {N : Tree (Lab α)} (hN : made h1 N) (hd : ∀ x ∈ N.gens, x ∉ P.gens)
    (hNl : N.label.1 = u.label) (hsel : sel keys Q (upd g u.addr (some N.label.2)) u = [N])
    (hQ : u.addr ∈ keys → N = Q u.addr)
    (hwait : ∀ k ∈ keys, g k = none → k ≠ u.addr → made h1 (Q k) ∧ ∀ x ∈ (Q k).gens, x ∉ N.gens)
    (hG : Grown h0 h1 (P.gens ++ (N.gens ++ waiting keys Q (upd g u.addr (some N.label.2)))))
    {ts : List (Addr × Ptr)} (hts : ∀ k, find ts k = if k ∈ keys then some (if upd g u.addr (some N.label.2) k = none then some (Q k).label.2 else none) else none)
    (htn : (ts.map Prod.fst).Nodup) {left : Int} (hleft : left = ((keys.filter (fun k => (upd g u.addr (some N.label.2) k).isNone)).length : Nat))
    (hT0 : ∀ x ∈ T.addrs, x < h0.next) :
    ∃ h' P', B.attach h1 ra N.label.2 u.addr = Res.ok h' ∧
      Core made base test s keys Q h0 (upd g u.addr (some N.label.2)) ⟨h', ts, left⟩ P' := by
  have hn : s.addrs.Nodup := nodup_sub M.nodup J.sub
  have hplace : plug (⟨a, l, r⟩ :: fs) u = s := hs
  have hlive : Live keys g fs := C.live (u := node a (l ++ u :: r)) hs (by
    have : (node a (l ++ u :: r)).addr = a.1 := rfl
    rw [this, ha]; simp)
  obtain ⟨e1, e2⟩ := sel_grow hn hs hlive ha hk hr hsel
  have hP : P = plug (fs.map (selFrame keys Q g)) (node (a, ra) (selL keys Q g l)) := by
    have := C.hsel; rw [e1] at this; simpa using this.symm
  have hsT : ∀ x ∈ T.addrs, x ∉ P.gens ∧ x ∉ N.gens := by
    intro x hx
    have := hT0 x hx
    refine ⟨fun h => ?_, fun h => ?_⟩
    · have := hG.fresh x (by simp [h]); grind
    · have := hG.fresh x (by simp [h]); grind
  have hlab : ∀ c ∈ selL keys Q g l, c.label.1 ∈ l.map label := by
    refine selL_label fun t ht k hk e => ?_
    obtain ⟨f', fs', u', h1, h2, h3, -⟩ := J.way k hk
    obtain ⟨l1, l2, rfl⟩ := List.append_of_mem ht
    have h4 : plug (⟨a, l1, l2 ++ u :: r⟩ :: fs) t = s := by rw [← hs]; simp [plug]
    obtain ⟨-, rfl⟩ := sub_unique (g := Prod.fst) hn h1 h4 (h2.trans e)
    exact h3
  have hTp : plug (fs ++ gs0) (node a (l ++ u :: r)) = T := sub_trans hs J.sub
  rw [hP] at hm hd
  obtain ⟨h', e3, H', hn', hk'⟩ := M.attach hw hb hm hN hd hTp hNl.symm hlab
  rw [hNl] at e3
  have hgens : ∀ x, x ∈ (plug (fs.map (selFrame keys Q g)) (node (a, ra) (selL keys Q g l ++ [N]))).gens ↔ x ∈ P.gens ∨ x ∈ N.gens := by
    intro x
    rw [hP, gens_plug, gens_plug]
    simp only [gens_node, gensL_append, gensL_cons, gensL_nil, List.append_nil, List.mem_append, List.mem_cons]
    grind
  have hcell : ∀ x, x ∉ P.gens → x ∉ N.gens → h'.cells x = h1.cells x := by rw [hP]; exact hk'
  have hgne : ∀ x, x ≠ u.addr → upd g u.addr (some N.label.2) x = g x := fun x hx => by simp [upd, hx]
  have hgu : upd g u.addr (some N.label.2) u.addr = some N.label.2 := by simp [upd]
  have hgmono : ∀ x, g x ≠ none → upd g u.addr (some N.label.2) x ≠ none := by
    intro x hx; simp only [upd]; split
    · simp
    · exact hx
  have hap := apart hn hplace
  refine ⟨h', _, e3, ⟨?_, e2, H', ?_, ?_, hts, htn, hleft, ?_, ?_, ?_, ?_, ?_⟩⟩
  · exact M.base_frame hb (fun x hx => hcell x (hsT x hx).1 (hsT x hx).2)
  · intro k hk hg
    have hne : k ≠ u.addr := fun e => by rw [e, hgu] at hg; cases hg
    rw [hgne k hne] at hg
    refine M.made_frame (hwait k hk hg hne).1 (fun x hx => hcell x (C.tdisj k hk hg x hx) ((hwait k hk hg hne).2 x hx))
  · intro k hk hg x hx
    have hne : k ≠ u.addr := fun e => by rw [e, hgu] at hg; cases hg
    rw [hgne k hne] at hg
    rw [hgens]
    rintro (h | h)
    · exact C.tdisj k hk hg x hx h
    · exact (hwait k hk hg hne).2 x hx h
  · refine (hG.modify hn' ?_).congr ?_
    · intro x hx
      simp only [List.mem_append, not_or] at hx
      exact hcell x hx.1 hx.2.1
    · intro x
      simp only [List.mem_append, hgens]
      grind
  · obtain ⟨r', hr'⟩ := C.root
    have : s.addr ≠ u.addr := by
      intro e
      rcases List.eq_nil_or_concat (⟨a, l, r⟩ :: fs) with h0 | ⟨l0, b, h0⟩
      · cases h0
      · rw [List.concat_eq_append] at h0
        have h3 := (hap b (by rw [h0]; simp)).1
        rw [h0, plug_append] at hplace
        have : s.addr = b.label.1 := by rw [← hplace]; rfl
        exact h3 (by rw [← this, e])
    exact ⟨r', by rw [hgne _ this]; exact hr'⟩
  · intro f' fs' u' h' hg
    by_cases hne : u'.addr = u.addr
    · obtain ⟨ee, rfl⟩ := sub_unique (g := Prod.fst) hn h' hplace hne
      cases ee
      refine ⟨⟨ra, ?_⟩, hk, hu⟩
      rw [hgne _ (hap _ (by simp)).1]; exact ha
    · rw [hgne _ hne] at hg
      obtain ⟨⟨x, hx⟩, h2, h3⟩ := C.up f' fs' u' h' hg
      refine ⟨?_, h2, h3⟩
      have := hgmono f'.label.1 (by rw [hx]; simp)
      exact Option.ne_none_iff_exists'.mp this
  · intro k hk x hx
    by_cases hne : k = u.addr
    · subst hne
      rw [hgu] at hx
      simp only [Option.some.injEq] at hx
      rw [← hx, hQ hk]
    · rw [hgne k hne] at hx; exact C.key k hk x hx
  · intro f' fs' u' h' hg v hv he
    by_cases hne : u'.addr = u.addr
    · obtain ⟨ee, rfl⟩ := sub_unique (g := Prod.fst) hn h' hplace hne
      cases ee
      exact hgmono _ (hl v hv he)
    · rw [hgne _ hne] at hg
      exact hgmono _ (C.before f' fs' u' h' hg v hv he)

theorem waiting_upd {u : Addr} {y : Addr} (x : Addr) (hg : g u = none) (hu : u ∈ keys) :
    x ∈ waiting keys Q g ↔ x ∈ (Q u).gens ∨ x ∈ waiting keys Q (upd g u (some y)) := by
  simp only [mem_waiting]
  constructor
  · rintro ⟨k, h1, h2, h3⟩
    by_cases e : k = u
    · subst e; exact .inl h3
    · exact .inr ⟨k, h1, by simp [upd, e, h2], h3⟩
  · rintro (h | ⟨k, h1, h2, h3⟩)
    · exact ⟨u, hu, hg, h⟩
    · have e : k ≠ u := fun e => by simp [upd, e] at h2
      exact ⟨k, h1, by simpa [upd, e] using h2, h3⟩

theorem waiting_same {u : Addr} {y : Addr} (hu : u ∉ keys) : waiting keys Q (upd g u (some y)) = waiting keys Q g := by
  unfold waiting
  congr 1
  refine List.filter_congr fun k hk => ?_
  have e : k ≠ u := fun e => hu (e ▸ hk)
  simp [upd, e]

theorem left_upd {u : Addr} {y : Addr} (hg : g u = none) : ∀ {keys : List Addr}, keys.Nodup → u ∈ keys →
    (keys.filter (fun k => (g k).isNone)).length = (keys.filter (fun k => (upd g u (some y) k).isNone)).length + 1 := by
  intro keys
  induction keys with
  | nil => intro _ h; cases h
  | cons k keys ih =>
    intro hn hu
    obtain ⟨h1, h2⟩ := List.nodup_cons.mp hn
    by_cases e : k = u
    · subst e
      have : keys.filter (fun k => (g k).isNone) = keys.filter (fun k' => (upd g k (some y) k').isNone) := by
        refine List.filter_congr fun k' hk' => ?_
        have e : k' ≠ k := fun e => h1 (e ▸ hk')
        simp [upd, e]
      simp [upd, hg, this]
    · have hm : u ∈ keys := by
        rcases List.mem_cons.mp hu with h | h
        · exact absurd h.symm e
        · exact h
      have := ih h2 hm
      simp only [List.filter_cons]
      have h3 : upd g u (some y) k = g k := by simp [upd, e]
      rw [h3]
      split <;> simp [this]

/-- The result of an argument is put into the tree. -/
theorem Core.key_step (M : Makes K value B T base made) (J : Job T gs0 s keys Q test) (C : Core made base test s keys Q h0 g σ P)
    (hT0 : ∀ x ∈ T.addrs, x < h0.next)
    {fs : List (Frame (Addr × α))} {a : Addr × α} {l r : List (Tree (Addr × α))} {u : Tree (Addr × α)}
    (hs : plug fs (node a (l ++ u :: r)) = s) {ra} (ha : g a.1 = some ra) (hk : a.1 ∉ keys) (hr : ∀ v ∈ u :: r, g v.addr = none)
    (hl : ∀ v ∈ l, Elig keys test v → g v.addr ≠ none) (hu : u.addr ∈ keys) :
    ∃ h' P', B.attach σ.heap ra (Q u.addr).label.2 u.addr = Res.ok h' ∧
      Core made base test s keys Q h0 (upd g u.addr (some (Q u.addr).label.2)) ⟨h', release σ.targets u.addr, σ.left - 1⟩ P' := by
  have hgu := hr u (by simp)
  have hlab : (Q u.addr).label.1 = u.label := by
    obtain ⟨f', fs', u', h1, h2, h3, -⟩ := J.way _ hu
    have h4 : plug (⟨a, l, r⟩ :: fs) u = s := hs
    obtain ⟨-, rfl⟩ := sub_unique (g := Prod.fst) (nodup_sub M.nodup J.sub) h1 h4 h2
    exact h3
  refine C.grow M J hs ha hk hr hl (.inl hu) C.grown.wf C.hbase C.hmade (C.tmade _ hu hgu) (C.tdisj _ hu hgu) hlab
    (sel_key (r := (Q u.addr).label.2) (by simp [upd]) hu) (fun _ => rfl) ?_ ?_ ?_ (by rw [fst_release]; exact C.tnodup) ?_ hT0
  · intro k hk hg hne
    exact ⟨C.tmade k hk hg, J.disj k hk _ hu hne⟩
  · refine C.grown.congr fun x => ?_
    simp only [List.mem_append, waiting_upd (y := (Q u.addr).label.2) x hgu hu]
  · intro k
    rw [find_release, C.targets]
    by_cases e : k = u.addr
    · subst e; simp [hu, upd]
    · simp only [e, if_false, C.targets, upd]
  · have := left_upd (y := (Q u.addr).label.2) hgu J.nodup hu
    rw [C.left, this]; simp

/-- A node is copied. -/
theorem Core.clone_step (M : Makes K value B T base made) (J : Job T gs0 s keys Q test) (C : Core made base test s keys Q h0 g σ P)
    (hT0 : ∀ x ∈ T.addrs, x < h0.next)
    {fs : List (Frame (Addr × α))} {a : Addr × α} {l r : List (Tree (Addr × α))} {u : Tree (Addr × α)}
    (hs : plug fs (node a (l ++ u :: r)) = s) {ra} (ha : g a.1 = some ra) (hk : a.1 ∉ keys) (hr : ∀ v ∈ u :: r, g v.addr = none)
    (hl : ∀ v ∈ l, Elig keys test v → g v.addr ≠ none) (hu : test u.label.2 = true) (huk : u.addr ∉ keys) :
    ∃ h1 gu h' P', clone K value σ.heap u.addr = Res.ok (h1, gu) ∧ B.attach h1 ra gu u.addr = Res.ok h' ∧
      Core made base test s keys Q h0 (upd g u.addr (some gu)) ⟨h', σ.targets, σ.left⟩ P' := by
  have hplace : plug (⟨a, l, r⟩ :: fs ++ gs0) u = T := sub_trans (fs := ⟨a, l, r⟩ :: fs) hs J.sub
  obtain ⟨n, hn, hv⟩ := M.read C.hbase hplace
  have hGa := grown_alloc C.grown.wf (K.leaf (value n))
  have hcell : (σ.heap.alloc (K.leaf (value n))).1.cells σ.heap.next = some (K.leaf u.label.2) := by simp [Heap.alloc, hv]
  have hN := M.leaf (g := σ.heap.next) hplace hcell
  have hlt : ∀ x ∈ P.gens ++ waiting keys Q g, x < σ.heap.next := fun x hx => (C.grown.fresh x hx).2
  have hTlt : ∀ x ∈ T.addrs, x < σ.heap.next := fun x hx => by have := hT0 x hx; have := C.grown.le; grind
  obtain ⟨h', P', e, C'⟩ := C.grow (N := node (u.label, σ.heap.next) []) M J hs ha hk hr hl (.inr hu) hGa.wf
    (M.base_frame C.hbase (fun x hx => hGa.same x (hTlt x hx)))
    (M.made_frame C.hmade (fun x hx => hGa.same x (hlt x (by simp [hx])))) hN
    (by
      intro x hx hm
      simp at hx; subst hx
      have := hlt _ (List.mem_append_left _ hm); grind) rfl
    (by
      obtain ⟨b, cs⟩ := u
      have hap := hr
      have : upd g b.1 (some σ.heap.next) b.1 = some σ.heap.next := by simp [upd]
      show sel keys Q (upd g b.1 (some σ.heap.next)) (node b cs) = _
      rw [sel_live this huk, selL_none]; · rfl
      intro t ht
      have hne : t.addr ≠ b.1 := by
        intro e
        obtain ⟨f, h2, -⟩ := plug_child hplace (t := t) (by simpa using ht)
        exact (frame_ne (g := Prod.fst) M.nodup h2 f (by simp)) (by
          have h3 : plug (f :: (⟨a, l, r⟩ :: fs ++ gs0)) t = plug (⟨a, l, r⟩ :: fs ++ gs0) (node b cs) := h2.trans hplace.symm
          have hh := (sub_unique (g := Prod.fst) (T := T) M.nodup h2 hplace e).1
          exact absurd (congrArg List.length hh) (by simp))
      simp only [upd, hne, if_false]
      refine Classical.byContradiction fun hgt => ?_
      obtain ⟨f, h2, h3⟩ := plug_child (gs := ⟨a, l, r⟩ :: fs) hs (t := t) (by simpa using ht)
      have := (C.up f _ t h2 hgt).1
      have hfl : f.label = b := by
        simp only [plug] at h3; injection h3
      rw [hfl] at this
      obtain ⟨x, hx⟩ := this
      have := hr (node b cs) (by simp)
      have h4 : (node b cs).addr = b.1 := rfl
      rw [h4, hx] at this; cases this)
    (fun h => absurd h huk)
    (by
      intro k hk hg _
      refine ⟨M.made_frame (C.tmade k hk hg) (fun x hx => hGa.same x (hlt x (by
        simp only [List.mem_append, mem_waiting]; exact .inr ⟨k, hk, hg, hx⟩))), ?_⟩
      intro x hx hm
      simp at hm; subst hm
      have := hlt σ.heap.next (by simp only [List.mem_append, mem_waiting]; exact .inr ⟨k, hk, hg, hx⟩)
      grind)
    (by
      refine (C.grown.trans hGa).congr fun x => ?_
      rw [waiting_same huk]
      simp
      grind)
    (ts := σ.targets)
    (by
      intro k
      rw [C.targets]
      split
      · next hk =>
        have e : k ≠ u.addr := fun e => huk (e ▸ hk)
        simp [upd, e]
      · rfl)
    C.tnodup (left := σ.left)
    (by
      rw [C.left]
      congr 2
      refine List.filter_congr fun k hk => ?_
      have e : k ≠ u.addr := fun e => huk (e ▸ hk)
      simp [upd, e])
    hT0
  refine ⟨(σ.heap.alloc (K.leaf (value n))).1, σ.heap.next, h', P', ?_, e, C'⟩
  simp only [clone, Heap.read_of hn, Res.ok_bind]; rfl
end Generate
