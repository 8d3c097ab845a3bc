import Verif.Proof.Nav
import Verif.Model.Policy
open Tree Policy

variable {nav : Nav} {t : Tree Addr}

/-- The climb of pre_order: the right neighbour of the nearest ancestor-or-self that has one, else the root. -/
theorem climb_next (H : NavSpec nav t) :
    ∀ (fuel : Nat) (fs : List (Frame Addr)) (s : Tree Addr), plug fs s = t → fs.length < fuel →
      climb nav fuel (fun c => do pure (!(← nav.isLast c))) (fun c => nav.next c) s.label
        = Res.ok (some ((climbTarget fs).getD t.label)) := by
  intro fuel
  unfold climb
  induction fuel with
  | zero => intro fs s _ hf; omega
  | succ n ih =>
    intro fs s h hf
    cases fs with
    | nil =>
      have hl : s.label = t.label := by simp at h; rw [h]
      simp only [keepCallingT, H.parent [] s h]
      simp [climbTarget, hl]
    | cons f fs =>
      simp only [keepCallingT, H.parent _ s h, H.isLast _ s h, H.next _ s h, List.head?_cons, Option.map_some,
        Res.ok_bind, Option.any_some]
      cases hr : f.rights with
      | cons r rs => simp [climbTarget, hr]
      | nil =>
        have hp : plug fs (node f.label (f.lefts ++ s :: f.rights)) = t := by simpa using h
        have := ih fs _ hp (by simp at hf; omega)
        simp [climbTarget, hr] at this ⊢
        exact this

theorem label_mem_front {fs : List (Frame Addr)} {s : Tree Addr} (h : plug fs s = t) :
    t.label ∈ preBefore fs ++ s.pre := by
  have h0 : (plug fs s).pre = t.pre := by rw [h]
  rw [pre_plug, pre_eq_cons t] at h0
  cases hx : preBefore fs ++ s.pre with
  | nil => simp [pre_ne_nil] at hx
  | cons b bs =>
    rw [hx] at h0
    simp at h0
    simp [h0.1]

theorem preAfter_ne_root (H : NavSpec nav t) {fs : List (Frame Addr)} {s : Tree Addr} (h : plug fs s = t)
    {b : Addr} (hb : b ∈ preAfter fs) : b ≠ t.label := by
  intro he
  have hn := H.nodup
  rw [← h, pre_plug] at hn
  exact (List.nodup_append.mp hn).2.2 _ (label_mem_front h) _ hb he.symm

theorem preInc_spec (H : NavSpec nav t) (fuel : Nat) (fs : List (Frame Addr)) (s : Tree Addr) (h : plug fs s = t)
    (hf : fs.length < fuel) :
    preInc nav fuel s.label = Res.ok (preL s.children ++ preAfter fs).head? := by
  unfold preInc
  simp only [H.first fs s h, Res.ok_bind]
  cases s with
  | node a cs =>
    cases cs with
    | cons c cs => cases c; simp
    | nil =>
      simp only [children_node, List.head?_nil, Option.map_none]
      rw [climb_next H fuel fs _ h hf]
      simp only [Res.ok_bind, climbTarget_eq, H.root, preL_nil, List.nil_append]
      cases hp : (preAfter fs).head? with
      | none => simp
      | some b =>
        have : b ≠ t.label := preAfter_ne_root H h (List.mem_of_head? hp)
        simp [this]

theorem preDec_spec (H : NavSpec nav t) (fuel : Nat) (fs : List (Frame Addr)) (s : Tree Addr) (h : plug fs s = t)
    (hf : t.size ≤ fuel) :
    preDec nav fuel s.label = Res.ok (preBefore fs).getLast? := by
  unfold preDec
  rw [H.isRoot_iff h]
  cases fs with
  | nil => simp [preBefore]
  | cons f fs =>
    simp only [H.prev _ s h, H.parent _ s h, List.isEmpty_cons, Res.ok_bind, List.head?_cons, Option.bind_some,
      Option.map_some]
    rcases List.eq_nil_or_concat f.lefts with hl | ⟨ls, l, hl⟩
    · simp [hl, preBefore]
    · have hp : plug (⟨f.label, ls, s :: f.rights⟩ :: fs) l = t := by
        rw [← h]; simp [hl]
      have hsz : l.size ≤ fuel := by
        have := congrArg (fun t => (pre t).length) hp
        simp only [pre_plug, List.length_append, length_pre] at this
        omega
      obtain ⟨a, h1, h2⟩ := keepCalling_last H fuel _ l hp hsz
      simp [hl, h1, preBefore, List.getLast?_cons, List.getLast?_append, h2]

theorem sub_size_le {fs : List (Frame Addr)} {s : Tree Addr} (h : plug fs s = t) : fs.length + s.size ≤ t.size := by
  induction fs generalizing s with
  | nil => simp at h; simp [h]
  | cons f fs ih =>
    have := ih (s := node f.label (f.lefts ++ s :: f.rights)) (by simpa using h)
    simp at this ⊢
    omega

theorem preLast_spec (H : NavSpec nav t) (fuel : Nat) (hf : t.size ≤ fuel) :
    nav.getHighestLeaf false fuel = Res.ok t.pre.getLast? := by
  obtain ⟨a, h1, h2⟩ := keepCalling_last H fuel [] t rfl hf
  simp [Nav.getHighestLeaf, H.root, h1, h2]
