import Verif.Proof.WorldInsert
/-! When the remembered counts stay right. -/
open Tree World

namespace Tree
variable {β : Type}

/-- The arity of a tree, seen from one of its subtrees. -/
theorem arity_plug (fs : List (Frame β)) : ∃ k, ∀ u : Tree β, (plug fs u).arity = max k u.arity := by
  induction fs with
  | nil => exact ⟨0, fun u => by simp [plug]⟩
  | cons f fs ih =>
    obtain ⟨k, hk⟩ := ih
    refine ⟨max k (max (f.lefts.length + f.rights.length + 1) (max (arityL f.lefts) (arityL f.rights))), fun u => ?_⟩
    rw [plug, hk]
    simp only [arity_node, arityL_append, arityL_cons, List.length_append, List.length_cons]
    omega

theorem arity_leaf_of_size {t : Tree β} (h : t.size = 1) : t.arity = 0 := by
  cases t with
  | node a cs =>
    cases cs with
    | nil => simp
    | cons c cs => cases c; simp [size] at h

theorem size_eq (t : Tree β) : t.size = sizeL t.children + 1 := by cases t; simp [children]
theorem arity_eq (t : Tree β) : t.arity = max t.children.length (arityL t.children) := by cases t; simp [children]
end Tree

section
variable {ν α lit T V C : Type} {K : Kind ν α lit} {Z : Addr → Prop} {S : Shape K T V C} {ts : Nat → Option T} {W W1 : World ν}
  {n s t u s' : T} {c : C} {P : Policy} {h h' : Heap ν} {pos : It} {x y : Nat} {r r' : TreeRec} {src : Src α lit} {rs ra : Nat}
variable (L : Lawful S)
include L

theorem size_plug : S.size (S.plug c s) = S.size (S.plug c S.nil) + S.size s := by
  have := (L.addrs_plug c s).length_eq
  simpa [L.length_addrs] using this

theorem size_pos (h : s ≠ S.nil) : 0 < S.size s := by
  rcases L.rose_cases s with rfl | ⟨R, hR⟩
  · exact absurd rfl h
  · simp [Shape.size, hR, size_eq]

theorem size_one_of_kids (h : s ≠ S.nil) (hk : S.kids s = 0) : S.size s = 1 := by
  rcases L.rose_cases s with rfl | ⟨R, hR⟩
  · exact absurd rfl h
  · cases R with
    | node a cs =>
      simp [Shape.kids, hR, children] at hk
      simp [Shape.size, hR, hk]

theorem arity_zero_of_size (h : S.size s = 1) : S.arity s = 0 := by
  rcases L.rose_cases s with rfl | ⟨R, hR⟩
  · exact L.arity_nil
  · simp [Shape.size, hR] at h
    simp [Shape.arity, hR, arity_leaf_of_size h]

theorem added {front : Bool} (hs : s ≠ S.nil) (hf : S.isFull s = false) (hn : n ≠ S.nil)
    (e : s' = if front then S.front n s else S.back n s) :
    S.size s' = S.size s + S.size n ∧ S.kids s' = S.kids s + 1 ∧ S.arity s' = max (S.arity s) (max (S.arity n) (S.kids s')) := by
  obtain ⟨R, hR⟩ := (L.rose_cases s).resolve_left hs
  obtain ⟨N, hN⟩ := (L.rose_cases n).resolve_left hn
  have hs' : ∃ cs, S.rose s' = [node R.label cs] ∧ (cs = N :: R.children ∨ cs = R.children ++ [N]) := by
    subst e
    cases front
    · exact ⟨_, by simpa [hN] using L.rose_back s R n hR hf, Or.inr rfl⟩
    · exact ⟨_, by simpa [hN] using L.rose_front s R n hR hf, Or.inl rfl⟩
  obtain ⟨cs, h1, h2⟩ := hs'
  have hR1 := Tree.size_eq R
  have hR2 := Tree.arity_eq R
  rcases h2 with rfl | rfl <;>
    simp [Shape.size, Shape.kids, Shape.arity, h1, hR, hN, children, sizeL_append, arityL_append, hR1, hR2] <;> omega

theorem arity_child (hs : s ≠ S.nil) (hs' : s' ≠ S.nil) (he : S.arity s' = max (S.arity s) rs) :
    S.arity (S.plug c s') = max (S.arity (S.plug c s)) rs := by
  obtain ⟨fs, _, hfs⟩ := L.rose_plug c
  obtain ⟨R, hR⟩ := (L.rose_cases s).resolve_left hs
  obtain ⟨R', hR'⟩ := (L.rose_cases s').resolve_left hs'
  obtain ⟨k, hk⟩ := Tree.arity_plug fs
  have e1 := hfs s R hR
  have e2 := hfs s' R' hR'
  simp only [Shape.arity, hR, hR', e1, e2, arityL_cons, arityL_nil, hk] at he ⊢
  omega

/-- `insert_child` on an object that remembers its counts. -/
theorem childRec_ok {front : Bool} (hs : s ≠ S.nil) (hf : S.isFull s = false) (hn : n ≠ S.nil)
    (e : s' = if front then S.front n s else S.back n s) (hr : r.size = S.size (S.plug c s) ∧ r.arity = S.arity (S.plug c s))
    (hrs : rs = S.size n) (hra : ra = S.arity n) (hsm : S.size (S.plug c s') < 2 ^ 64) :
    CacheOk S (TreeOps.childRec S r s' rs ra) (S.plug c s') := by
  obtain ⟨h1, h2, h3⟩ := added L hs hf hn e
  have hs' : s' ≠ S.nil := by
    rintro rfl
    rw [L.size_nil] at h1
    have := size_pos L hs
    omega
  have h4 := arity_child L (c := c) hs hs' h3
  have h5 := size_plug L (c := c) (s := s')
  have h6 := size_plug L (c := c) (s := s)
  refine ⟨Or.inr ?_, Or.inr ?_⟩
  · simp only [TreeOps.childRec, wadd, sizeT]
    rw [Nat.mod_eq_of_lt] <;> omega
  · simp only [TreeOps.childRec]
    have : S.kids s' ≠ 0 := by omega
    simp only [this, if_false]
    omega

/-- `insert_over` and `erase` below the root. -/
theorem replacedRec_ok (hs : s ≠ S.nil) (hr : CacheOk S r (S.plug c s)) (hrs : rs = S.size n)
    (hk : S.kids s ≠ 0 ∨ r.size ≠ 0 ∨ rs = 1) (hsm : S.size (S.plug c n) < 2 ^ 64) (hsm' : S.size (S.plug c s) < 2 ^ 64) :
    CacheOk S (TreeOps.replacedRec S r s rs) (S.plug c n) := by
  refine ⟨?_, Or.inl rfl⟩
  simp only [TreeOps.replacedRec]
  by_cases hz : S.kids s = 0
  · have h1 := size_one_of_kids L hs hz
    have h2 := size_plug L (c := c) (s := s)
    have h3 := size_plug L (c := c) (s := n)
    simp only [hz, if_true, wadd, wsub, sizeT]
    rcases hk with h | h | h
    · exact absurd hz h
    · have h4 := hr.1.resolve_left h
      right
      omega
    · rcases hr.1 with h4 | h4
      · left; omega
      · right; omega
  · simp [hz]

omit L in
theorem CacheOk.empty (h : S.size S.nil = 0) (h' : S.arity S.nil = 0) : CacheOk S TreeRec.empty S.nil :=
  ⟨Or.inl rfl, Or.inl rfl⟩

omit L in
theorem Cached.upd (hC : Cached S W ts) {o : Option T} {p : Option TreeRec} {hp : Heap ν}
    (h : ∀ r t, p = some r → o = some t → CacheOk S r t) :
    Cached S ⟨hp, upd W.vars x p⟩ (upd ts x o) := by
  intro z r t hr ht
  by_cases e : z = x
  · subst e
    simp only [upd_same] at hr ht
    exact h r t hr ht
  · simp only [upd_other _ _ e] at hr ht
    exact hC z r t hr ht

theorem Cached.afterSource (O : OwnedBut Z S W ts) (hC : Cached S W ts) (D : SrcDone Z S W ts src W1 n) : Cached S W1 ts := by
  intro z r t hr ht
  obtain ⟨rz, hz, _⟩ := O.get L ht
  obtain ⟨r1, h1, _, _, h2⟩ := D.vars z rz hz
  rw [h1] at hr; cases hr
  exact h2 t ht (hC z rz t hz ht)

theorem Cached.finish (O : OwnedBut Z S W ts) (hC : Cached S W ts) (hsrc : src ≠ .moveOf x) (D : SrcDone Z S W ts src W1 n) {t' : T}
    (h : CacheOk S r' t') :
    Cached S ⟨h', leaveVars src (_root_.upd W1.vars x (some r'))⟩ (_root_.upd (afterSrc S ts src) x (some t')) := by
  have h1 := Cached.afterSource L O hC D
  have key : ∀ r t, some r' = some r → some t' = some t → CacheOk S r t := by rintro _ _ ⟨⟩ ⟨⟩; exact h
  cases src with
  | moveOf y =>
    have hxy : x ≠ y := by rintro rfl; exact hsrc rfl
    simp only [leaveVars, afterSrc]
    rw [upd_comm W1.vars _ _ hxy]
    have h2 := Cached.upd (x := y) (o := some S.nil) (p := some TreeRec.empty) (hp := h') h1
      (by rintro _ _ ⟨⟩ ⟨⟩; exact ⟨Or.inl rfl, Or.inl rfl⟩)
    exact Cached.upd (W := ⟨h', _⟩) (x := x) h2 key
  | _ => exact Cached.upd (x := x) h1 key

end
