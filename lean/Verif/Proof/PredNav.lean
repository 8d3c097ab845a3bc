import Verif.Model.Filter
import Verif.Spec.Nav
import Verif.Proof.Nav
/-! node_pred_navigator over any navigator that agrees with a tree. -/
open Tree

namespace PredNav
variable {nv : Nav} {t : Tree Addr} {p : Addr → Res Bool} {q : Addr → Bool} {fuel : Nat}

theorem nextLoop_spec (H : NavSpec nv t) (hp : ∀ a ∈ t.pre, p a = Res.ok (q a)) {b : Addr} {fs : List (Frame Addr)}
    (rs : List (Tree Addr)) : ∀ (ls : List (Tree Addr)) (n : Nat), plug fs (node b (ls ++ rs)) = t → rs.length < n →
    nextLoop nv p n (rs.head?.map label) = Res.ok ((rs.map label).find? q) := by
  induction rs with
  | nil => intro ls n _ hn; obtain ⟨n, rfl⟩ : ∃ m, n = m + 1 := ⟨n - 1, by simp at hn; omega⟩; simp [nextLoop]
  | cons r rs ih =>
    intro ls n h hn
    obtain ⟨n, rfl⟩ : ∃ m, n = m + 1 := ⟨n - 1, by simp at hn; omega⟩
    have hpos : plug (⟨b, ls, rs⟩ :: fs) r = t := by simpa using h
    have hm : r.label ∈ t.pre := by rw [← hpos]; exact mem_pre_plug _ _
    simp only [List.head?_cons, Option.map_some, nextLoop, hp _ hm, Res.ok_bind, List.map_cons, List.find?_cons]
    by_cases hq : q r.label = true
    · simp [hq]
    · have := H.next _ r hpos
      simp only [List.head?_cons, Option.bind_some] at this
      have e := ih (ls ++ [r]) n (by simpa using h) (by simp at hn; omega)
      simp only [hq, this, Res.ok_bind, e, if_false, Bool.false_eq_true]

theorem next_spec (H : NavSpec nv t) (hp : ∀ a ∈ t.pre, p a = Res.ok (q a)) (hf : t.size ≤ fuel) {f : Frame Addr}
    {fs : List (Frame Addr)} {s : Tree Addr} (h : plug (f :: fs) s = t) :
    next nv p fuel s.label = Res.ok ((f.rights.map label).find? q) := by
  have hl : f.rights.length < fuel := by
    have h1 := length_preL (f.lefts ++ s :: f.rights)
    have h2 : t.size = (preBefore fs).length + (node f.label (f.lefts ++ s :: f.rights)).size + (preAfter fs).length := by
      rw [← length_pre t, ← h, plug_cons, pre_plug]; simp; omega
    have h3 : f.rights.length ≤ sizeL f.rights := by
      generalize f.rights = rs
      induction rs with
      | nil => simp
      | cons r rs ih => simp only [sizeL_cons, List.length_cons]; have := size_pos r; omega
    simp at h2
    omega
  have := H.next _ s h
  simp only [List.head?_cons, Option.bind_some] at this
  simp only [next, this, Res.ok_bind]
  exact nextLoop_spec H hp f.rights (f.lefts ++ [s]) fuel (by simpa using h) hl

theorem next_root (H : NavSpec nv t) (hf : 0 < fuel) : next nv p fuel t.label = Res.ok none := by
  obtain ⟨n, rfl⟩ : ∃ m, fuel = m + 1 := ⟨fuel - 1, by omega⟩
  have := H.next [] t rfl
  simp at this
  simp [next, this, nextLoop]

theorem first_spec (H : NavSpec nv t) (hp : ∀ a ∈ t.pre, p a = Res.ok (q a)) (hf : t.size ≤ fuel)
    {fs : List (Frame Addr)} {s : Tree Addr} (h : plug fs s = t) :
    first nv p fuel s.label = Res.ok ((s.children.map label).find? q) := by
  have hfi := H.first _ s h
  obtain ⟨b, cs⟩ := s
  cases cs with
  | nil => simp at hfi ⊢; simp [first, hfi]
  | cons c cs =>
    simp at hfi
    have hpos : plug (⟨b, [], cs⟩ :: fs) c = t := by simpa using h
    have hm : c.label ∈ t.pre := by rw [← hpos]; exact mem_pre_plug _ _
    have hn := next_spec H hp hf hpos
    simp only [label_node, first, hfi, Res.ok_bind, hp _ hm, children_node, List.map_cons, List.find?_cons]
    by_cases hq : q c.label = true
    · simp [hq]
    · simp [hq]
      simpa using hn

/-- Previous sibling: right when there is none or the nearest one satisfies the predicate. -/
theorem prev_spec (H : NavSpec nv t) (hp : ∀ a ∈ t.pre, p a = Res.ok (q a)) (hf : 0 < fuel) {f : Frame Addr}
    {fs : List (Frame Addr)} {s : Tree Addr} (h : plug (f :: fs) s = t)
    (hq : ∀ x, f.lefts.getLast? = some x → q x.label = true) :
    prev nv p fuel s.label = Res.ok (f.lefts.getLast?.map label) := by
  obtain ⟨n, rfl⟩ : ∃ m, fuel = m + 1 := ⟨fuel - 1, by omega⟩
  have hpr := H.prev _ s h
  simp only [List.head?_cons, Option.bind_some] at hpr
  cases hl : f.lefts.getLast? with
  | none => simp [prev, hpr, hl, prevLoop]
  | some x =>
    have hm : x.label ∈ t.pre := by
      obtain ⟨ls, hls⟩ := List.getLast?_eq_some_iff.mp hl
      have : plug (⟨f.label, ls, s :: f.rights⟩ :: fs) x = t := by rw [← h]; simp [hls]
      rw [← this]; exact mem_pre_plug _ _
    simp [prev, hpr, hl, prevLoop, hp _ hm, hq x hl]

/-- Previous sibling: never returns when the nearest one fails the predicate. -/
theorem prev_diverges (H : NavSpec nv t) (hp : ∀ a ∈ t.pre, p a = Res.ok (q a)) (fuel : Nat) {f : Frame Addr}
    {fs : List (Frame Addr)} {s x : Tree Addr} (h : plug (f :: fs) s = t)
    (hl : f.lefts.getLast? = some x) (hq : q x.label = false) :
    prev nv p fuel s.label = Res.diverge := by
  have hpr := H.prev _ s h
  simp only [List.head?_cons, Option.bind_some, hl] at hpr
  have hm : x.label ∈ t.pre := by
    obtain ⟨ls, hls⟩ := List.getLast?_eq_some_iff.mp hl
    have : plug (⟨f.label, ls, s :: f.rights⟩ :: fs) x = t := by rw [← h]; simp [hls]
    rw [← this]; exact mem_pre_plug _ _
  simp only [prev, hpr, Res.ok_bind, Option.map_some]
  induction fuel with
  | zero => rfl
  | succ n ih => simp [prevLoop, hp _ hm, hq, hpr, ih]

/-- Last child: right when there is none, or the last child satisfies the predicate, or it does not and the one before
it, if any, does. -/
theorem last_spec (H : NavSpec nv t) (hp : ∀ a ∈ t.pre, p a = Res.ok (q a)) (hf : 0 < fuel)
    {fs : List (Frame Addr)} {s : Tree Addr} (h : plug fs s = t)
    (hq : ∀ ls x, s.children = ls ++ [x] → q x.label = false → ∀ y, ls.getLast? = some y → q y.label = true) :
    last nv p fuel s.label = Res.ok ((s.children.map label).reverse.find? q) := by
  have hla := H.last _ s h
  obtain ⟨b, cs⟩ := s
  rcases List.eq_nil_or_concat cs with rfl | ⟨ls, x, rfl⟩
  · simp at hla ⊢; simp [last, hla]
  · simp at hla
    have hpos : plug (⟨b, ls, []⟩ :: fs) x = t := by simpa using h
    have hm : x.label ∈ t.pre := by rw [← hpos]; exact mem_pre_plug _ _
    simp only [label_node, last, hla, Res.ok_bind, hp _ hm, children_node, List.concat_eq_append, List.map_append,
      List.map_cons, List.map_nil]
    simp only [List.reverse_append, List.reverse_cons, List.reverse_nil, List.nil_append, List.singleton_append,
      List.find?_cons]
    by_cases hqx : q x.label = true
    · simp [hqx]
    · have hqx' : q x.label = false := by simpa using hqx
      have := prev_spec H hp hf hpos (hq ls x (by simp) hqx')
      simp only [hqx', if_false, Bool.false_eq_true]
      rw [this]
      rcases List.eq_nil_or_concat ls with rfl | ⟨ls', y, rfl⟩
      · simp
      · have hy := hq (ls' ++ [y]) x (by simp) hqx' y (by simp)
        simp [hy]

end PredNav
