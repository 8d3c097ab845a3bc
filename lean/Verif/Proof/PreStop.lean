import Verif.Proof.Pruned
/-! The pre-order loop with a node_pred_navigator, for all predicates. -/
open Tree Policy Iter

namespace Tree
variable {β : Type} (q : β → Bool)

@[simp] theorem walk_node (a : β) (cs) : walk q (node a cs) = (a :: (walkL q cs).1, (walkL q cs).2) := by simp [walk]
@[simp] theorem walkL_nil : walkL q ([] : List (Tree β)) = ([], true) := by simp [walkL]
theorem walk_eq (t : Tree β) : walk q t = (t.label :: (walkL q t.children).1, (walkL q t.children).2) := by cases t; simp

/-- What comes after a subtree. -/
def after : List (Frame β) → List β
  | [] => []
  | f :: fs =>
    if f.rights.isEmpty then after fs
    else if f.rights.any (fun c => q c.label) then (walkL q f.rights).1 ++ (if (walkL q f.rights).2 then after fs else [])
    else []

theorem walkL_none {ts : List (Tree β)} (h : (ts.map label).find? q = none) : walkL q ts = ([], true) := by
  induction ts with
  | nil => simp
  | cons t ts ih =>
    simp only [List.map_cons, List.find?_cons] at h
    split at h
    · cases h
    · rename_i hq; rw [walkL]; simp [hq, ih h]

theorem find_split {ts : List (Tree β)} {b : β} (h : (ts.map label).find? q = some b) :
    ∃ l c r, ts = l ++ c :: r ∧ c.label = b ∧ q c.label = true ∧ walkL q ts = walkL q (c :: r) ∧ ts.any (fun c => q c.label) = true := by
  induction ts with
  | nil => simp at h
  | cons t ts ih =>
    simp only [List.map_cons, List.find?_cons] at h
    split at h
    · rename_i hq
      cases h
      exact ⟨[], t, ts, rfl, rfl, hq, rfl, by simp [hq]⟩
    · rename_i hq
      obtain ⟨l, c, r, rfl, h1, h2, h3, h4⟩ := ih h
      refine ⟨t :: l, c, r, rfl, h1, h2, ?_, ?_⟩
      · rw [← h3]; rw [walkL]; simp [hq]
      · rw [List.any_cons, h4]; simp

theorem find_none {ts : List (Tree β)} (h : (ts.map label).find? q = none) : ts.any (fun c => q c.label) = false := by
  rw [List.find?_eq_none] at h
  rw [List.any_eq_false]
  intro c hc
  exact h c.label (List.mem_map.mpr ⟨c, hc, rfl⟩)

/-- The loop from a node on, after it. -/
def rest (gs : List (Frame β)) (u : Tree β) : List β := (walkL q u.children).1 ++ if (walkL q u.children).2 then after q gs else []

theorem after_cons {f : Frame β} {fs : List (Frame β)} {l r : List (Tree β)} {c : Tree β} (hr : f.rights = l ++ c :: r) (hq : q c.label = true)
    (hw : walkL q f.rights = walkL q (c :: r)) (hany : f.rights.any (fun c => q c.label) = true) {ls : List (Tree β)} {a : β} :
    after q (f :: fs) = c.label :: rest q (⟨a, ls, r⟩ :: fs) c := by
  have hne : f.rights.isEmpty = false := by rw [hr]; simp
  rw [after, hne, hany, hw, walkL, hq]
  simp only [Bool.false_eq_true, if_false, if_true, rest, after, walk_eq q c]
  by_cases h1 : (walkL q c.children).2 = true
  · simp only [h1, if_true]
    by_cases h2 : r.isEmpty = true
    · simp [h2, h1]
    · simp only [h2]
      by_cases h3 : r.any (fun c => q c.label) = true
      · simp [h3]
      · simp [h3]
  · simp [h1]

theorem rest_cons {gs : List (Frame β)} {u : Tree β} {l r : List (Tree β)} {c : Tree β} (hu : u.children = l ++ c :: r) (hq : q c.label = true)
    (hw : walkL q u.children = walkL q (c :: r)) (hany : u.children.any (fun c => q c.label) = true) :
    rest q gs u = c.label :: rest q (⟨u.label, l, r⟩ :: gs) c := by
  have := after_cons q (f := ⟨u.label, [], u.children⟩) (fs := gs) (a := u.label) (ls := l) hu hq hw hany
  rw [← this, after]
  have hne : u.children.isEmpty = false := by rw [hu]; simp
  simp only [hne, hany, Bool.false_eq_true, if_false, if_true, rest]

mutual
theorem walk_prefix : (t : Tree β) → ∃ l, (keep q t).pre = (walk q t).1 ++ l ∧ ((walk q t).2 = true → l = [])
  | .node a cs => by
    obtain ⟨l, h1, h2⟩ := walkL_prefix cs
    exact ⟨l, by simp [h1], by simpa using h2⟩
theorem walkL_prefix : (ts : List (Tree β)) → ∃ l, preL (keepL q ts) = (walkL q ts).1 ++ l ∧ ((walkL q ts).2 = true → l = [])
  | [] => ⟨[], by simp [keepL], fun _ => rfl⟩
  | t :: ts => by
    rw [keepL, walkL]
    obtain ⟨l2, h3, h4⟩ := walkL_prefix ts
    split
    · obtain ⟨l1, h1, h2⟩ := walk_prefix t
      rw [preL_cons, h1]
      split
      · rename_i hf
        have := h2 hf
        subst this
        split
        · rename_i he
          have : ts = [] := by simpa using he
          subst this
          exact ⟨[], by simp [keepL], fun _ => rfl⟩
        · split
          · exact ⟨l2, by rw [h3]; simp, h4⟩
          · rename_i hk
            exact ⟨preL (keepL q ts), by simp, fun h => by cases h⟩
      · rename_i hf
        exact ⟨l1 ++ preL (keepL q ts), by simp, fun h => absurd h hf⟩
    · exact ⟨l2, h3, h4⟩
end

end Tree

namespace PredNav
variable {nv : Nav} {t : Tree Addr} {p : Addr → Res Bool} {q : Addr → Bool} {fuel : Nat}

theorem climb_after (H : NavSpec nv t) (hp : ∀ a ∈ t.pre, p a = Res.ok (q a)) (hf : t.size ≤ fuel) :
    ∀ (gs : List (Frame Addr)) (u : Tree Addr), plug gs u = t → ∀ n, gs.length < n →
    (climb (nav nv p fuel) n (fun c => do pure (!(← (nav nv p fuel).isLast c))) (fun c => (nav nv p fuel).next c) u.label = Res.ok (some t.label) ∧
      after q gs = []) ∨
    (climb (nav nv p fuel) n (fun c => do pure (!(← (nav nv p fuel).isLast c))) (fun c => (nav nv p fuel).next c) u.label = Res.ok none ∧
      after q gs = []) ∨
    ∃ gs' u', plug gs' u' = t ∧ gs' ≠ [] ∧
      climb (nav nv p fuel) n (fun c => do pure (!(← (nav nv p fuel).isLast c))) (fun c => (nav nv p fuel).next c) u.label = Res.ok (some u'.label) ∧
      after q gs = u'.label :: rest q gs' u' := by
  intro gs
  induction gs with
  | nil =>
    intro u h n hn
    obtain ⟨m, rfl⟩ : ∃ m, n = m + 1 := ⟨n - 1, by simp at hn; omega⟩
    have hpar : (nav nv p fuel).parent u.label = Res.ok none := by have := H.parent [] u h; simpa [nav] using this
    rw [plug_nil] at h
    subst h
    exact Or.inl ⟨by simp [climb, keepCallingT, hpar], rfl⟩
  | cons f fs ih =>
    intro u h n hn
    obtain ⟨m, rfl⟩ : ∃ m, n = m + 1 := ⟨n - 1, by simp at hn; omega⟩
    have hpar : (nav nv p fuel).parent u.label = Res.ok (some f.label) := by have := H.parent _ u h; simpa [nav] using this
    have hlast : (nav nv p fuel).isLast u.label = Res.ok f.rights.isEmpty := by have := H.isLast _ u h; simpa [nav] using this
    have hnext : (nav nv p fuel).next u.label = Res.ok ((f.rights.map label).find? q) := next_spec H hp hf h
    by_cases hr : f.rights.isEmpty = true
    · have e : climb (nav nv p fuel) (m + 1) (fun c => do pure (!(← (nav nv p fuel).isLast c))) (fun c => (nav nv p fuel).next c) u.label =
          climb (nav nv p fuel) m (fun c => do pure (!(← (nav nv p fuel).isLast c))) (fun c => (nav nv p fuel).next c) f.label := by
        simp [climb, keepCallingT, hpar, hlast, hr]
      have ea : after q (f :: fs) = after q fs := by rw [after, if_pos hr]
      rw [e, ea]
      exact ih (node f.label (f.lefts ++ u :: f.rights)) (by simpa using h) m (by simp at hn; omega)
    · have hr' : f.rights.isEmpty = false := by simpa using hr
      have e : climb (nav nv p fuel) (m + 1) (fun c => do pure (!(← (nav nv p fuel).isLast c))) (fun c => (nav nv p fuel).next c) u.label =
          Res.ok ((f.rights.map label).find? q) := by
        simp [climb, keepCallingT, hpar, hlast, hr', hnext]
      rw [e]
      cases hq : (f.rights.map label).find? q with
      | none =>
        right; left
        exact ⟨rfl, by rw [after, hr', find_none q hq]; rfl⟩
      | some b =>
        right; right
        obtain ⟨l, c, r, h1, rfl, h3, h4, h5⟩ := find_split q hq
        refine ⟨⟨f.label, f.lefts ++ u :: l, r⟩ :: fs, c, ?_, by simp, rfl, after_cons q h1 h3 h4 h5⟩
        rw [← h, plug_cons, plug_cons, h1]
        simp

theorem preInc_rest (H : NavSpec nv t) (hp : ∀ a ∈ t.pre, p a = Res.ok (q a)) (hf : t.size ≤ fuel) {gs : List (Frame Addr)}
    {u : Tree Addr} (h : plug gs u = t) :
    (preInc (nav nv p fuel) fuel u.label = Res.ok none ∧ rest q gs u = []) ∨
    ∃ gs' u', plug gs' u' = t ∧ preInc (nav nv p fuel) fuel u.label = Res.ok (some u'.label) ∧ rest q gs u = u'.label :: rest q gs' u' := by
  have hfirst : (nav nv p fuel).first u.label = Res.ok ((u.children.map label).find? q) := first_spec H hp hf h
  cases hq : (u.children.map label).find? q with
  | some b =>
    right
    obtain ⟨l, c, r, h1, rfl, h3, h4, h5⟩ := find_split q hq
    refine ⟨⟨u.label, l, r⟩ :: gs, c, ?_, by simp [preInc, hfirst, hq], rest_cons q h1 h3 h4 h5⟩
    rw [← h, plug_cons, ← h1]
    cases u; simp
  | none =>
    have hw := walkL_none q hq
    have hrest : rest q gs u = after q gs := by simp [rest, hw]
    have hlen : gs.length < fuel := by
      have h1 := sub_size_le h
      have h2 := size_pos u
      have : ∀ (gs : List (Frame Addr)) (u : Tree Addr), gs.length + u.size ≤ (plug gs u).size := by
        intro gs
        induction gs with
        | nil => intro u; simp
        | cons f fs ih =>
          intro u
          have := ih (node f.label (f.lefts ++ u :: f.rights))
          rw [plug_cons]
          have h3 : u.size + 1 ≤ (node f.label (f.lefts ++ u :: f.rights)).size := by
            rw [← length_pre, ← length_pre]
            simp [preL_eq]
            omega
          simp only [List.length_cons]
          omega
      have := this gs u
      rw [h] at this
      omega
    have hroot : (nav nv p fuel).root = some t.label := by simp [nav, H.root]
    rcases climb_after H hp hf gs u h fuel hlen with ⟨e, ha⟩ | ⟨e, ha⟩ | ⟨gs', u', h1, hne, e, ha⟩
    · left
      refine ⟨?_, hrest.trans ha⟩
      simp only [preInc, hfirst, hq, Res.ok_bind, e, hroot]; simp
    · left
      refine ⟨?_, hrest.trans ha⟩
      simp only [preInc, hfirst, hq, Res.ok_bind, e, hroot]; simp
    · right
      refine ⟨gs', u', h1, ?_, hrest.trans ha⟩
      have hdiff : u'.label ≠ t.label := by
        intro hh
        have hn := H.nodup
        have e1 : t.pre = preBefore gs' ++ u'.pre ++ preAfter gs' := by rw [← h1, pre_plug]
        rw [pre_eq_cons t, pre_eq_cons u'] at e1
        have hb : preBefore gs' ≠ [] := by
          obtain ⟨f, fs, rfl⟩ := List.exists_cons_of_ne_nil hne
          simp [preBefore]
        obtain ⟨b, bs, hbs⟩ := List.exists_cons_of_ne_nil hb
        rw [hbs] at e1
        have e2 : b = t.label := by simp at e1; exact e1.1.symm
        rw [pre_eq_cons t, e1, e2, hh] at hn
        simp at hn
      simp only [preInc, hfirst, hq, Res.ok_bind, e, hroot]
      simp [hdiff]

theorem forwardFrom_rest (H : NavSpec nv t) (hp : ∀ a ∈ t.pre, p a = Res.ok (q a)) (hf : t.size ≤ fuel) :
    ∀ (n : Nat) (gs : List (Frame Addr)) (u : Tree Addr), plug gs u = t → (rest q gs u).length + 1 < n →
    forwardFrom preOrder (nav nv p fuel) fuel n ⟨some u.label, []⟩ = Res.ok (u.label :: rest q gs u) := by
  intro n
  induction n with
  | zero => intro gs a _ hn; omega
  | succ n ih =>
    intro gs u h hn
    rcases preInc_rest H hp hf h with ⟨h1, h2⟩ | ⟨ks, b, k1, k2, k3⟩
    · obtain ⟨m, rfl⟩ : ∃ m, n = m + 1 := ⟨n - 1, by omega⟩
      have e3 : Iter.inc preOrder (nav nv p fuel) fuel ⟨some u.label, []⟩ = Res.ok ⟨none, []⟩ := by
        simp [Iter.inc, preOrder, stateless, h1]
      rw [h2, forwardFrom]
      simp only [e3, Res.ok_bind, forwardFrom]
      rfl
    · have := ih ks b k1 (by rw [k3] at hn; simp at hn; omega)
      have e2 : forwardFrom preOrder (nav nv p fuel) fuel (n + 1) ⟨some u.label, []⟩ =
          (do pure (u.label :: (← forwardFrom preOrder (nav nv p fuel) fuel n ⟨some b.label, []⟩))) := by
        have e3 : Iter.inc preOrder (nav nv p fuel) fuel ⟨some u.label, []⟩ = Res.ok ⟨some b.label, []⟩ := by
          simp [Iter.inc, preOrder, stateless, k2]
        rw [forwardFrom]
        simp only [e3, Res.ok_bind]
      rw [e2, this, k3]; rfl

theorem forward_walk (H : NavSpec nv t) (hp : ∀ a ∈ t.pre, p a = Res.ok (q a)) (hf : t.size < fuel) :
    forward preOrder (nav nv p fuel) fuel = Res.ok (walk q t).1 := by
  have hb : begin_ preOrder (nav nv p fuel) fuel = Res.ok ⟨some t.label, []⟩ := by
    simp [begin_, end_, preOrder, stateless, Iter.inc, nav, H.root]
  have hr : (walk q t).1 = t.label :: rest q [] t := by simp [walk_eq, rest, after]
  have hl : (walk q t).1.length ≤ t.size := by
    obtain ⟨l, h1, _⟩ := walk_prefix q t
    have h2 := keep_size q t
    rw [← length_pre, h1] at h2
    simp at h2
    omega
  rw [hr] at hl ⊢
  simp only [forward, hb, Res.ok_bind]
  exact forwardFrom_rest H hp (by omega) fuel [] t rfl (by simp at hl; omega)

end PredNav
