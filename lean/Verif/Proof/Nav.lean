import Verif.Spec.Nav
import Verif.Proof.Tree
open Tree

namespace NavSpec
variable {nav : Nav} {t : Tree Addr}

theorem mirror (H : NavSpec nav t) : NavSpec nav.mirror t.mirror := by
  have key : ∀ fs s, plug fs s = t.mirror → plug (fs.map Frame.mirror) s.mirror = t := by
    intro fs s h
    rw [← mirror_plug, h, mirror_mirror]
  have hd : ∀ (fs : List (Frame Addr)), (fs.map Frame.mirror).head? = fs.head?.map Frame.mirror := by
    intro fs; cases fs <;> rfl
  constructor
  · rw [pre_mirror]
    have := H.nodup
    rw [← nodup_post] at this
    exact ((List.reverse_perm _).nodup_iff).mpr this
  · simpa [Nav.mirror] using H.root
  · intro fs s h
    have := H.parent _ _ (key fs s h)
    cases fs <;> simp_all [Nav.mirror, Frame.mirror]
  · intro fs s h
    have := H.next _ _ (key fs s h)
    cases fs <;> simp_all [Nav.mirror, Frame.mirror, mirrorL_eq]
    simp [Function.comp_def]
  · intro fs s h
    have := H.prev _ _ (key fs s h)
    cases fs <;> simp_all [Nav.mirror, Frame.mirror, mirrorL_eq]
    simp [Function.comp_def]
  · intro fs s h
    have := H.last _ _ (key fs s h)
    simp_all [Nav.mirror, Function.comp_def]
  · intro fs s h
    have := H.first _ _ (key fs s h)
    simp_all [Nav.mirror, Function.comp_def]
  · intro fs s h
    have := H.isLast _ _ (key fs s h)
    cases fs <;> simp_all [Nav.mirror, Frame.mirror, mirrorL_eq]
  · intro fs s h
    have := H.isFirst _ _ (key fs s h)
    cases fs <;> simp_all [Nav.mirror, Frame.mirror, mirrorL_eq]

/-- A focus is the root exactly when the context is empty. -/
theorem label_eq_root (H : NavSpec nav t) {fs : List (Frame Addr)} {s : Tree Addr} (h : plug fs s = t) :
    (s.label = t.label) ↔ fs = [] := by
  constructor
  · intro he
    have hn := H.nodup
    rw [← h, pre_plug] at hn
    cases fs with
    | nil => rfl
    | cons f fs =>
      exfalso
      have h0 : (plug (f :: fs) s).pre = t.pre := by rw [h]
      rw [pre_plug, pre_eq_cons t] at h0
      have h1 := (List.nodup_append.mp (List.nodup_append.mp hn).1).2.2
      have h2 : t.label ∈ preBefore (f :: fs) := by
        have hne : preBefore (f :: fs) ≠ [] := by simp [preBefore]
        cases hb : preBefore (f :: fs) with
        | nil => exact absurd hb hne
        | cons b bs =>
          rw [hb] at h0
          simp at h0
          simp [h0.1]
      exact h1 _ h2 _ (label_mem_pre s) he.symm
  · rintro rfl; simp at h; simp [h]

theorem isRoot_iff (H : NavSpec nav t) {fs : List (Frame Addr)} {s : Tree Addr} (h : plug fs s = t) :
    nav.isRoot s.label = fs.isEmpty := by
  have := H.label_eq_root h
  simp [Nav.isRoot, H.root]
  cases fs <;> simp_all

end NavSpec

/-! ### climbing and descending -/

/-- Going up from a focus: `none` when every ancestor-or-self is a last child. -/
def climbTarget : List (Frame Addr) → Option Addr
  | [] => none
  | f :: fs => match f.rights with
    | r :: _ => some r.label
    | [] => climbTarget fs

theorem climbTarget_eq (fs : List (Frame Addr)) : climbTarget fs = (preAfter fs).head? := by
  induction fs with
  | nil => rfl
  | cons f fs ih =>
    cases hr : f.rights with
    | nil => simp [climbTarget, preAfter, hr, ih]
    | cons r rs => cases r; simp [climbTarget, preAfter, hr]

theorem keepCalling_last {nav : Nav} {t : Tree Addr} (H : NavSpec nav t) :
    ∀ (n : Nat) (fs : List (Frame Addr)) (s : Tree Addr), plug fs s = t → s.size ≤ n →
      ∃ a, keepCalling nav.last n s.label = Res.ok a ∧ s.pre.getLast? = some a := by
  intro n
  induction n with
  | zero => intro fs s _ hs; have := size_pos s; omega
  | succ n ih =>
    intro fs s h hs
    simp only [keepCalling, H.last fs s h, Res.ok_bind]
    cases s with
    | node a cs =>
      rcases List.eq_nil_or_concat cs with rfl | ⟨cs', c, rfl⟩
      · exact ⟨a, by simp⟩
      · have hp : plug (⟨a, cs', []⟩ :: fs) c = t := by simpa using h
        obtain ⟨b, hb, hl⟩ := ih _ c hp (by simp at hs; omega)
        refine ⟨b, by simpa using hb, ?_⟩
        have hne : c.pre ≠ [] := pre_ne_nil c
        rw [List.getLast?_eq_some_getLast hne] at hl
        simp at hl
        subst hl
        simp [List.getLast?_append, List.getLast?_cons, List.getLast?_eq_some_getLast hne]

theorem keepCalling_first {nav : Nav} {t : Tree Addr} (H : NavSpec nav t)
    (n : Nat) (fs : List (Frame Addr)) (s : Tree Addr) (h : plug fs s = t) (hs : s.size ≤ n) :
      ∃ a, keepCalling nav.first n s.label = Res.ok a ∧ s.post.head? = some a := by
  have hm : plug (fs.map Frame.mirror) s.mirror = t.mirror := by rw [← mirror_plug, h]
  have hsz : s.mirror.size = s.size := by
    rw [← length_pre, pre_mirror, List.length_reverse, (post_perm_pre s).length_eq, length_pre]
  obtain ⟨a, h1, h2⟩ := keepCalling_last H.mirror n _ _ hm (by omega)
  refine ⟨a, by simpa [Nav.mirror] using h1, ?_⟩
  rw [pre_mirror] at h2
  simpa using h2
