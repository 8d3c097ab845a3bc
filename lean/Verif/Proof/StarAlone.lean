import Verif.Proof.YieldsBin
/-! A `star` without arguments. -/
open Tree

set_option linter.unusedSimpArgs false

namespace Generate
open Grow
variable {ν α lit : Type}
variable {K : Kind ν α lit} {value : ν → α} {B : Pattern.Builder ν} {T : Tree (Addr × α)} {base : Heap ν → Prop}
  {made : Heap ν → Tree (Lab α) → Prop} {test : α → Bool} {h0 : Heap ν}

/-- The loop comes back to a child that is not accepted, however long it runs. -/
theorem keepAssigning_diverge {h : Heap ν} {t c : Addr} {nd : ν} (hr : h.cells c = some nd) (ht : test (value nd) = false) :
    ∀ n, keepAssigning K value B test n h t (some c) = Res.diverge := by
  intro n
  induction n with
  | zero => rfl
  | succ n ih => simp only [keepAssigning, Heap.read_of hr, Res.ok_bind, ht, Bool.not_false, if_true, ih]

/-- The children `r` of a node with the copy `g`, and all that is below, are copied one by one. -/
theorem keepAssigning_spec (M : Makes K value B T base made) (hb0 : base h0) (hT0 : ∀ x ∈ T.addrs, x < h0.next) :
    ∀ (n : Nat) (h : Heap ν) (fs : List (Frame (Lab α))) (a : Addr × α) (g : Addr) (cs : List (Tree (Lab α)))
      (gs : List (Frame (Addr × α))) (l r : List (Tree (Addr × α))),
      base h → made h (plug fs (node (a, g) cs)) → Grown h0 h (plug fs (node (a, g) cs)).gens → plug gs (node a (l ++ r)) = T →
      (∀ c ∈ cs, c.label.1 ∈ l.map label) → sizeL r < n →
      if (preL r).all (fun b => test b.2) then
        ∃ h' ds, keepAssigning K value B test n h g (headAddr r) = Res.ok h' ∧ made h' (plug fs (node (a, g) (cs ++ ds))) ∧
          Grown h0 h' (plug fs (node (a, g) (cs ++ ds))).gens ∧ ds.map refs = r
      else keepAssigning K value B test n h g (headAddr r) = Res.diverge := by
  intro n
  induction n with
  | zero => intro _ _ _ _ _ _ _ _ _ _ _ _ _ h; cases h
  | succ n ih =>
    intro h fs a g cs gs l r hb hm hG hs hc hlt
    cases r with
    | nil =>
      simp only [preL_nil, List.all_nil, if_true]
      exact ⟨h, [], by simp [keepAssigning], by simpa using hm, by simpa using hG, rfl⟩
    | cons t r =>
      have hpt : plug (⟨a, l, r⟩ :: gs) t = T := hs
      obtain ⟨nd, hnd, hv⟩ := M.read hb hpt
      rcases Bool.eq_false_or_eq_true (test t.label.2) with ht | ht
      · -- the node itself
        have hGa := grown_alloc hG.wf (K.leaf (value nd))
        have hTlt : ∀ x ∈ T.addrs, x < h.next := fun x hx => Nat.lt_of_lt_of_le (hT0 x hx) hG.le
        have hlt' : ∀ x ∈ (plug fs (node (a, g) cs)).gens, x < h.next := fun x hx => (hG.fresh x hx).2
        have hb1 := M.base_frame hb (fun x hx => hGa.same x (hTlt x hx))
        have hm1 := M.made_frame hm (fun x hx => hGa.same x (hlt' x hx))
        have hcell : (h.alloc (K.leaf (value nd))).1.cells h.next = some (K.leaf t.label.2) := by simp [Heap.alloc, hv]
        have hleaf := M.leaf (g := h.next) hpt hcell
        obtain ⟨h2, e1, H2, hn2, hk2⟩ := M.attach (Q := node (t.label, h.next) []) (gs := gs) (l := l) (t := t) (r := r)
          hGa.wf hb1 hm1 hleaf (by
            intro x hx hm
            simp at hx; subst hx
            have := hlt' _ hm; grind) hs rfl hc
        have e1 : B.attach (h.alloc (K.leaf (value nd))).1 g h.next t.addr = Res.ok h2 := e1
        have hg2 : ∀ x, x ∈ (plug fs (node (a, g) (cs ++ [node (t.label, h.next) []]))).gens ↔
            x ∈ (plug fs (node (a, g) cs)).gens ++ [h.next] := by
          intro x
          simp only [gens_plug, gens_node, gensL_append, gensL_cons, gensL_nil, List.mem_append, List.mem_cons, List.append_nil, List.not_mem_nil, or_false]
          constructor
          · rintro ((h | h | h | h) | h) <;> simp [h]
          · rintro (((h | h | h) | h) | h) <;> simp [h]
        have hG2 : Grown h0 h2 (plug fs (node (a, g) (cs ++ [node (t.label, h.next) []]))).gens := by
          refine ((hG.trans hGa).modify hn2 ?_).congr fun x => (hg2 x).symm
          intro x hx
          simp only [List.mem_append, not_or] at hx
          exact hk2 x hx.1 (by simpa using hx.2)
        have hb2 : base h2 := M.base_frame hb1 (fun x hx => hk2 x (by
          intro hm
          have := hT0 x hx; have := (hG.fresh x hm).1; grind) (by
          simp; have := hTlt x hx; grind))
        -- what is below it
        have hgsn : node t.label ([] ++ t.children) = t := by cases t; rfl
        have hsz : sizeL t.children < t.size := by cases t; simp
        have h3 := ih h2 (⟨(a, g), cs, []⟩ :: fs) t.label h.next [] (⟨a, l, r⟩ :: gs) [] t.children hb2 H2 hG2 (by rw [hgsn]; exact hpt) (by simp) (by
          simp at hlt; omega)
        have hfirst := (M.raw hb2).first _ _ hpt
        have hstep : keepAssigning K value B test (n + 1) h g (headAddr (t :: r)) = (do
            let h ← keepAssigning K value B test n h2 h.next (headAddr t.children)
            keepAssigning K value B test n h g (← (K.nav h none).next t.addr)) := by
          simp only [headAddr_cons, keepAssigning, Heap.read_of hnd, Res.ok_bind, hv, ht, Bool.not_true, Bool.false_eq_true, if_false, clone]
          have hal : h.alloc (K.leaf t.label.2) = ((h.alloc (K.leaf (value nd))).1, h.next) := by rw [hv]; rfl
          simp only [hal, Res.pure_eq, Res.ok_bind, e1, hfirst]
        rw [hstep]
        have hpre : preL (t :: r) = t.label :: (preL t.children ++ preL r) := by
          cases t; simp
        rw [hpre]
        simp only [List.all_cons, ht, Bool.true_and, List.all_append]
        by_cases hA : (preL t.children).all (fun b => test b.2) = true
        · rw [if_pos hA] at h3
          obtain ⟨h4, ds, e4, H4, G4, k4⟩ := h3
          have hb4 : base h4 := base_grown M hb0 hT0 G4
          · have hnext := (M.raw hb4).next ⟨a, l, r⟩ gs t hpt
            have h5 := ih h4 fs a g (cs ++ [node (t.label, h.next) ds]) gs (l ++ [t]) r hb4 (by simpa [plug] using H4) (by simpa [plug] using G4)
              (by simpa using hs) (by
                intro c hc'
                rcases List.mem_append.mp hc' with hc' | hc'
                · have := hc c hc'; simp at this ⊢; grind
                · simp at hc'; subst hc'; simp) (by
                have : 0 < t.size := by cases t; simp
                simp at hlt; omega)
            simp only [hA, Bool.true_and, e4, Res.ok_bind, hnext]
            by_cases hB : (preL r).all (fun b => test b.2) = true
            · rw [if_pos hB] at h5 ⊢
              obtain ⟨h6, ds', e6, H6, G6, k6⟩ := h5
              refine ⟨h6, node (t.label, h.next) ds :: ds', e6, by simpa using H6, by simpa using G6, ?_⟩
              simp only [List.map_cons, k6]
              congr 1
              simp only [refs, map_node, mapL_eq]
              have : ds.map (Tree.map Prod.fst) = t.children := k4
              rw [this]; cases t; rfl
            · rw [if_neg hB] at h5 ⊢
              exact h5
        · rw [if_neg hA] at h3
          rw [h3]
          simp [hA]
      · have : (preL (t :: r)).all (fun b => test b.2) = false := by
          cases t; simp at ht; simp [ht]
        rw [this, if_neg (by simp)]
        exact keepAssigning_diverge hnd (by rw [hv]; exact ht) _

/-- More steps change nothing once the loop has ended. -/
theorem keepAssigning_mono : ∀ (n : Nat) (h : Heap ν) (g : Addr) (p : Ptr), keepAssigning K value B test n h g p ≠ Res.diverge →
    keepAssigning K value B test (n + 1) h g p = keepAssigning K value B test n h g p := by
  intro n
  induction n with
  | zero => intro _ _ _ h; exact absurd rfl h
  | succ n ih =>
    intro h g p hne
    cases p with
    | none => rfl
    | some c =>
      rw [keepAssigning] at hne ⊢
      conv => rhs; rw [keepAssigning]
      cases hr : h.read c with
      | ub => rfl
      | diverge => rfl
      | ok nd =>
        simp only [hr, Res.ok_bind] at hne ⊢
        rcases Bool.eq_false_or_eq_true (test (value nd)) with ht | ht
        · simp only [ht, Bool.not_true, Bool.false_eq_true, if_false] at hne ⊢
          cases e1 : clone K value h c with
          | ub => rfl
          | diverge => rfl
          | ok x =>
            obtain ⟨h1, g1⟩ := x
            simp only [e1, Res.ok_bind] at hne ⊢
            cases e2 : B.attach h1 g g1 c with
            | ub => rfl
            | diverge => rfl
            | ok h2 =>
              simp only [e2, Res.ok_bind] at hne ⊢
              cases e3 : (K.nav h2 none).first c with
              | ub => rfl
              | diverge => rfl
              | ok f =>
                simp only [e3, Res.ok_bind] at hne ⊢
                have e := ih h2 g1 f (by intro e; rw [e] at hne; exact hne rfl)
                rw [e]
                cases e4 : keepAssigning K value B test n h2 g1 f with
                | ub => rfl
                | diverge => rfl
                | ok h4 =>
                  simp only [e4, Res.ok_bind] at hne ⊢
                  cases e5 : (K.nav h4 none).next c with
                  | ub => rfl
                  | diverge => rfl
                  | ok f' =>
                    simp only [e5, Res.ok_bind] at hne ⊢
                    exact ih _ _ _ hne
        · simp only [ht, Bool.not_false, if_true] at hne ⊢
          exact ih _ _ _ hne

theorem keepAssigning_more {n : Nat} {h : Heap ν} {g : Addr} {p : Ptr} (hne : keepAssigning K value B test n h g p ≠ Res.diverge) :
    ∀ k, keepAssigning K value B test (n + k) h g p = keepAssigning K value B test n h g p
  | 0 => rfl
  | k + 1 => by
    have ih := keepAssigning_more hne k
    rw [← Nat.add_assoc, keepAssigning_mono _ _ _ _ (by rw [ih]; exact hne), ih]

/-- With a node below that is not accepted the loop never ends. -/
theorem keepAssigning_endless (M : Makes K value B T base made) {h : Heap ν} {gs} {s : Tree (Addr × α)} (hw : h.WF) (hb : base h)
    (hT0 : ∀ x ∈ T.addrs, x < h.next) (hs : plug gs s = T) (hA : (preL s.children).all (fun b => test b.2) ≠ true) (n : Nat) :
    keepAssigning K value B test n (h.alloc (K.leaf s.label.2)).1 h.next (headAddr s.children) = Res.diverge := by
  obtain ⟨_, c1, c2, c3, c4⟩ := clone_spec M hw hb hs
  generalize (h.alloc (K.leaf s.label.2)).1 = h1 at c3 c4 ⊢
  have hb1 := base_grown M hb hT0 c4
  have hsn : node s.label ([] ++ s.children) = s := by cases s; rfl
  have key : ∀ n, sizeL s.children < n → keepAssigning K value B test n h1 h.next (headAddr s.children) = Res.diverge := by
    intro n hn
    have := keepAssigning_spec (test := test) M hb hT0 n h1 [] s.label h.next [] gs [] s.children hb1 c3 (by simpa using c4) (by rw [hsn]; exact hs)
      (by simp) hn
    rwa [if_neg hA] at this
  refine Classical.byContradiction fun hne => ?_
  have := keepAssigning_more hne (sizeL s.children + 1)
  rw [key _ (by omega)] at this
  exact hne this.symm

variable {m : Marks} {i : Nat} {q : Quantifier} {s : Tree (Addr × α)}

theorem alone_default (M : Makes K value B T base made) {h : Heap ν} {gs} (hw : h.WF) (hb : base h) (hs : plug gs s = T) (hm : m i = some s.addr) :
    ∃ h' P, Pattern.result K value B m (Pat.node i (.star .default) test []) h = Res.ok (h', some P.label.2) ∧ made h' P ∧
      P.refs = node s.label [] ∧ Grown h h' P.gens := by
  obtain ⟨n, c1, c2, c3, c4⟩ := clone_spec M hw hb hs
  refine ⟨_, _, ?_, c3, rfl, by simpa using c4⟩
  rw [Pattern.result, hm]
  simp only [List.all_nil, if_true, clone, Heap.read_of c1, Res.ok_bind, c2, Res.pure_eq]
  rfl

theorem alone_greedy (M : Makes K value B T base made) {h : Heap ν} {gs} (hw : h.WF) (hb : base h) (hT0 : ∀ x ∈ T.addrs, x < h.next) (hs : plug gs s = T)
    (hm : m i = some s.addr) (hq : q = .greedy ∨ q = .possessive) :
    if (preL s.children).all (fun b => test b.2) then
      ∃ h' P, Pattern.result K value B m (Pat.node i (.star q) test []) h = Res.ok (h', some P.label.2) ∧ made h' P ∧
        P.refs = s ∧ Grown h h' P.gens
    else Pattern.result K value B m (Pat.node i (.star q) test []) h = Res.diverge := by
  obtain ⟨n, c1, c2, c3, c4⟩ := clone_spec M hw hb hs
  have hcl : clone K value h s.addr = Res.ok ((h.alloc (K.leaf s.label.2)).1, h.next) := by
    simp only [clone, Heap.read_of c1, Res.ok_bind, c2, Res.pure_eq]; rfl
  generalize (h.alloc (K.leaf s.label.2)).1 = h1 at c3 c4 hcl
  have hb1 := base_grown M hb hT0 c4
  have hsn : node s.label ([] ++ s.children) = s := by cases s; rfl
  have hfirst := (M.raw hb1).first _ _ hs
  have hfuel : sizeL s.children < h1.fuel := by
    have h2 := Simple.size_le_plug gs s
    rw [hs] at h2
    have h3 := list_length_le_of_lt M.nodup (fun x hx => Nat.lt_of_lt_of_le (hT0 x hx) c4.le)
    rw [length_addrs] at h3
    have h4 : s.size = sizeL s.children + 1 := by cases s; simp
    simp only [Heap.fuel]; omega
  have key := keepAssigning_spec (test := test) M hb hT0 h1.fuel h1 [] s.label h.next [] gs [] s.children hb1 c3 (by simpa using c4) (by rw [hsn]; exact hs)
    (by simp) hfuel
  have hres : Pattern.result K value B m (Pat.node i (.star q) test []) h = (do
      let h' ← keepAssigning K value B test h1.fuel h1 h.next (headAddr s.children)
      pure (h', some h.next)) := by
    rw [Pattern.result, hm]
    rcases hq with rfl | rfl <;> simp only [List.all_nil, if_true, hcl, Res.ok_bind, hfirst]
  rw [hres]
  by_cases hA : (preL s.children).all (fun b => test b.2) = true
  · rw [if_pos hA] at key ⊢
    obtain ⟨h', ds, e, H, G, k⟩ := key
    refine ⟨h', _, ?_, H, ?_, G⟩
    · rw [e]; rfl
    · simp only [plug, List.nil_append, refs, map_node, mapL_eq]
      have : ds.map (Tree.map Prod.fst) = s.children := k
      rw [this]; cases s; rfl
  · rw [if_neg hA] at key ⊢
    rw [key]; rfl
end Generate

namespace Search
open Pat
variable {α : Type} {nav : Ptr → Nav} {vl : Addr → Res α} {fuel : Nat} {i : Nat} {q : Quantifier} {test : α → Bool}

theorem alone_null : matchesNull (.node i (.star q) test [] : Pat α) = true := by simp [matchesNull, allNull]

theorem alone_nothing (hq : q = .reluctant) (r : Ptr) (m : Memo) :
    search nav vl fuel r (.node i (.star q) test []) m = Res.ok (true, m.reset [.node i (.star q) test []]) := by
  subst hq
  have hp : prefersNull (.node i (.star .reluctant) test [] : Pat α) = true := by rw [prefersNull, alone_null]; rfl
  simp only [search, all, this, hp, if_true, Res.ok_bind, Res.pure_eq, Bool.not_true, Bool.false_eq_true, if_false]

theorem alone_empty (hq : q ≠ .reluctant) (hf : 0 < fuel) (m : Memo) :
    search nav vl fuel none (.node i (.star q) test []) m = Res.ok (true, m.reset [.node i (.star q) test []]) := by
  obtain ⟨F, rfl⟩ : ∃ F, fuel = F + 1 := ⟨fuel - 1, by omega⟩
  have hp : prefersNull (.node i (.star q) test [] : Pat α) = false := by simp [prefersNull, hq]
  simp only [search, all, this, hp, Bool.false_eq_true, if_false, loop, alone_null, if_true, Res.ok_bind, Res.pure_eq, Bool.not_true]

theorem alone_root {A : Tree (Addr × α)} (S : Starable nav vl A) (hq : q ≠ .reluctant) (hf : A.size < fuel) (m : Memo) :
    search nav vl fuel (some A.addr) (.node i (.star q) test []) m = Res.ok (true, (m.reset [.node i (.star q) test []]).mark i (some A.addr)) := by
  have hp : prefersNull (.node i (.star q) test [] : Pat α) = false := by simp [prefersNull, hq]
  generalize hm : m.reset [.node i (.star q) test []] = m'
  have hv := S.val [] A rfl
  obtain ⟨F, rfl⟩ : ∃ F, fuel = F + 1 := ⟨fuel - 1, by omega⟩
  simp only [search, all, this, hp, Bool.false_eq_true, if_false, loop, hm]
  rcases Bool.eq_false_or_eq_true (test A.label.2) with ht | ht
  · obtain ⟨it, k1, -⟩ := target_spec (fuel := F + 1) S (by omega) (gs := []) (s := A) rfl i q test ht m'
    simp only [hv, Res.ok_bind, ht, Bool.not_true, Bool.false_eq_true, if_false, k1, Res.pure_eq, Bool.false_and, if_true, acknowledge, next]
  · simp only [hv, Res.ok_bind, ht, Bool.not_false, if_true, childMaySteal, Res.pure_eq, acknowledge, next, List.filter_nil, List.length_nil, Nat.zero_le, decide_true,
      Bool.not_true, Bool.false_eq_true, if_false]
end Search

namespace World
open Pat
variable {ν α lit T : Type} {K : Kind ν α lit} {V C : Type} {S : Shape K T V C} {value : ν → α} {rose : T → List (Tree (Addr × α))}

/-- The search of a `star` without arguments. -/
theorem search_alone (RS : Rosy S value rose) {W : World ν} {ts : Nat → Option T} {x : Nat} {t : T} (L : Lawful S) (O : Owned S W ts) (hx : ts x = some t)
    (i : Nat) (q : Quantifier) (test : α → Bool) (s : Pattern.State) :
    ∃ s', W.search K value (.node i (.star q) test []) s x = Res.ok (true, s') ∧ s'.typed = true ∧
      (q = .reluctant ∨ rose t = [] → s'.marks i = none) ∧ (q ≠ .reluctant → ∀ A, rose t = [A] → s'.marks i = some A.addr) := by
  obtain ⟨r, _, h2, h3, _⟩ := O.get L hx
  simp only [World.search, h2, Res.ok_bind, h3]
  have hreset : (s.memo.reset [(.node i (.star q) test [] : Pat α)]).marks i = none := by simp [Memo.reset, resetL, idsL, Pat.preL, Pat.pre, Pat.id]
  by_cases hq : q = .reluctant
  · rw [Search.alone_nothing hq]
    exact ⟨⟨_, s.typed || true⟩, rfl, by simp, fun _ => hreset, fun h => absurd hq h⟩
  · rcases RS.cases t with h | ⟨A, h⟩
    · rw [RS.empty t h, Search.alone_empty hq (by simp [Heap.fuel])]
      exact ⟨⟨_, s.typed || true⟩, rfl, by simp, fun _ => hreset, by simp [h]⟩
    · obtain ⟨e1, S1, e2⟩ := RS.tree W ts x t A O hx h
      rw [e1, Search.alone_root S1 hq e2]
      refine ⟨⟨_, s.typed || true⟩, rfl, by simp, by simp [hq, h], ?_⟩
      intro _ A' h'
      rw [h] at h'
      simp at h'
      subst h'
      simp [Pattern.State.marks, Memo.mark, Marks.set]
end World

theorem BTree.Part.size_le {β : Type} {c t : BTree β} (h : BTree.Part c t) : c.size ≤ t.size := by
  induction h with
  | nil => simp [BTree.size]
  | node a _ _ h1 h2 => simp [BTree.size]; omega

theorem BTree.Part.eq_of_size {β : Type} {c t : BTree β} (h : BTree.Part c t) : t.size ≤ c.size → c = t := by
  induction h with
  | nil t =>
    intro e
    cases t with
    | nil => rfl
    | node => simp [BTree.size] at e
  | node a h1 h2 ih1 ih2 =>
    intro e
    have := h1.size_le
    have := h2.size_le
    simp [BTree.size] at e
    rw [ih1 (by omega), ih2 (by omega)]
