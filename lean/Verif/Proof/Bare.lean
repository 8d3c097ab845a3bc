import Verif.Proof.SafeWorld
import Verif.Proof.PatternTotal
import Verif.Proof.Frame
/-! A search succeeds if the pattern matches without the arguments that can match nothing. -/
open Tree

set_option linter.unusedSimpArgs false

namespace Pat
variable {α β : Type} {val : β → α}

theorem bareL_skip {p : Pat α} {ps} (h : p.matchesNull = true) : bareL (p :: ps) = bareL ps := by
  simp [bareL, (skippable_iff p).mpr h]
theorem bareL_keep {p : Pat α} {ps} (h : p.matchesNull = false) : bareL (p :: ps) = bare p :: bareL ps := by
  have : ¬ p.skippable := by rw [skippable_iff, h]; simp
  simp [bareL, this]

theorem bareL_null {ps : List (Pat α)} (h : allNull ps = true) : bareL ps = [] := by
  induction ps with
  | nil => rfl
  | cons p ps ih =>
    simp only [allNull, Bool.and_eq_true] at h
    rw [bareL_skip h.1, ih h.2]

theorem bareL_length (ps : List (Pat α)) : (bareL ps).length = (ps.filter (fun p => !p.matchesNull)).length := by
  induction ps with
  | nil => rfl
  | cons p ps ih =>
    cases h : p.matchesNull
    · simp [bareL_keep h, h, ih]
    · simp [bareL_skip h, h, ih]
end Pat

namespace Simple
open Pat
variable {α : Type} {nav : Ptr → Nav} {vl : Addr → Res α} {fuel : Nat}

/-- An iterator with the same policy. -/
def Kin (it it' : PIt) : Prop := it'.fixed = it.fixed ∧ it'.root = it.root
theorem Kin.rfl' (it : PIt) : Kin it it := ⟨rfl, rfl⟩
theorem Kin.trans {a b c : PIt} (h : Kin a b) (h' : Kin b c) : Kin a c := ⟨h'.1.trans h.1, h'.2.trans h.2⟩

theorem next_kin {it it' : PIt} {a} (h : next nav it a = Res.ok it') : Kin it it' := by
  rw [next] at h
  cases hf : it.fixed
  · simp only [hf, Bool.false_eq_true, if_false, Res.bind_eq_ok] at h
    obtain ⟨p, -, h⟩ := h
    cases h
    exact ⟨hf.symm, rfl⟩
  · simp only [hf, if_true, Res.pure_eq] at h
    cases h
    exact ⟨hf.symm, rfl⟩

theorem loop_frame {step : Marks → PIt → Addr → Res (Bool × Marks)} {i : Nat} {J : List Nat} {null : Bool} {b : PIt}
    (hs : ∀ m it a ok m', step m it a = Res.ok (ok, m') → ∀ j, j ∉ J → m' j = m j) :
    ∀ n m it ok m' it', loop nav step i null b n m it = Res.ok (ok, m', it') → Kin b it →
      (∀ j, j ≠ i → j ∉ J → m' j = m j) ∧ Kin b it' := by
  intro n
  induction n with
  | zero => intro m it ok m' it' h; cases h
  | succ n ih =>
    intro m it ok m' it' h hk
    rw [loop] at h
    cases hc : it.cur with
    | none =>
      simp only [hc] at h
      cases null
      · simp at h; obtain ⟨rfl, rfl, rfl⟩ := h; exact ⟨fun _ _ _ => rfl, hk⟩
      · simp at h; obtain ⟨rfl, rfl, rfl⟩ := h; exact ⟨fun _ _ _ => rfl, .rfl' _⟩
    | some a =>
      simp only [hc, Res.bind_eq_ok] at h
      obtain ⟨⟨ok1, m1⟩, e1, it1, e2, h⟩ := h
      have hk1 := hk.trans (next_kin e2)
      cases ok1
      · simp at h
        obtain ⟨g1, g2⟩ := ih m1 it1 ok m' it' h hk1
        exact ⟨fun j h1 h2 => (g1 j h1 h2).trans (hs _ _ _ _ _ e1 j h2), g2⟩
      · simp at h
        obtain ⟨rfl, rfl, rfl⟩ := h
        exact ⟨fun j h1 h2 => (set_ne h1).trans (hs _ _ _ _ _ e1 j h2), hk1⟩

mutual
theorem this_frame : (p : Pat α) → ∀ m it ok m' it', this nav vl fuel p m it = Res.ok (ok, m', it') →
    (∀ j, j ∉ p.ids → m' j = m j) ∧ Kin it it'
  | .node i .cpt f ps => by
    intro m it ok m' it' h
    simp only [this, Res.bind_eq_ok] at h
    obtain ⟨⟨ok1, m1, it1⟩, e1, h⟩ := h
    obtain ⟨g1, g2⟩ := all_frame ps _ _ _ _ _ e1
    cases ok1
    · simp at h; obtain ⟨rfl, rfl, rfl⟩ := h
      exact ⟨fun j hj => g1 j (by simp at hj; exact hj.2), g2⟩
    · simp at h; obtain ⟨rfl, rfl, rfl⟩ := h
      refine ⟨fun j hj => ?_, g2⟩
      simp at hj
      rw [set_ne hj.1, g1 j hj.2]
  | .node i .one f ps => by
    intro m it ok m' it' h
    simp only [this] at h
    obtain ⟨g1, g2⟩ := loop_frame (J := idsL ps) (by
      intro m it a ok m' h
      simp only [Res.bind_eq_ok] at h
      obtain ⟨v, -, h⟩ := h
      rcases Bool.eq_false_or_eq_true (f v) with hv | hv <;> rw [hv] at h
      rotate_left
      · simp at h; obtain ⟨-, rfl⟩ := h; simp
      · simp only [Bool.not_true, Bool.false_eq_true, if_false, Res.bind_eq_ok] at h
        obtain ⟨it1, -, ⟨ok1, m1, it2⟩, e, h⟩ := h
        simp at h; obtain ⟨rfl, rfl⟩ := h
        exact (all_frame ps _ _ _ _ _ e).1) _ _ _ _ _ _ h (.rfl' _)
    exact ⟨fun j hj => by simp at hj; exact g1 j hj.1 hj.2, g2⟩
  | .node i (.opt q) f ps => by
    intro m it ok m' it' h
    simp only [this] at h
    split at h
    · simp at h; obtain ⟨rfl, rfl, rfl⟩ := h; exact ⟨fun _ _ => rfl, .rfl' _⟩
    obtain ⟨g1, g2⟩ := loop_frame (J := idsL ps) (by
      intro m it a ok m' h
      simp only [Res.bind_eq_ok] at h
      obtain ⟨v, -, h⟩ := h
      rcases Bool.eq_false_or_eq_true (f v) with hv | hv <;> rw [hv] at h
      rotate_left
      · simp only [Bool.not_false, if_true] at h
        split at h
        · simp only [Res.bind_eq_ok] at h
          obtain ⟨⟨ok1, m1, it2⟩, e, h⟩ := h
          simp at h; obtain ⟨rfl, rfl⟩ := h
          exact (all_frame ps _ _ _ _ _ e).1
        · simp at h; obtain ⟨-, rfl⟩ := h; simp
      · simp only [Bool.not_true, Bool.false_eq_true, if_false, Res.bind_eq_ok] at h
        obtain ⟨it1, -, ⟨ok1, m1, it2⟩, e, h⟩ := h
        dsimp only at h
        split at h
        · simp only [Res.bind_eq_ok] at h
          obtain ⟨⟨ok3, m3, it3⟩, e3, h⟩ := h
          simp at h; obtain ⟨rfl, rfl⟩ := h
          intro j hj
          rw [(all_frame ps _ _ _ _ _ e3).1 j hj, (all_frame ps _ _ _ _ _ e).1 j hj]
        · simp at h; obtain ⟨rfl, rfl⟩ := h
          exact (all_frame ps _ _ _ _ _ e).1) _ _ _ _ _ _ h (.rfl' _)
    exact ⟨fun j hj => by simp at hj; exact g1 j hj.1 hj.2, g2⟩
  | .node i (.star q) f ps => by intro m it ok m' it' h; simp [this] at h
theorem all_frame : (ps : List (Pat α)) → ∀ m it ok m' it', all nav vl fuel ps m it = Res.ok (ok, m', it') →
    (∀ j, j ∉ idsL ps → m' j = m j) ∧ Kin it it'
  | [] => by intro m it ok m' it' h; simp [all] at h; obtain ⟨-, rfl, rfl⟩ := h; exact ⟨fun _ _ => rfl, .rfl' _⟩
  | p :: ps => by
    intro m it ok m' it' h
    simp only [all, Res.bind_eq_ok] at h
    obtain ⟨⟨ok1, m1, it1⟩, e1, h⟩ := h
    obtain ⟨g1, g2⟩ := this_frame p _ _ _ _ _ e1
    cases ok1
    · simp at h; obtain ⟨rfl, rfl, rfl⟩ := h
      exact ⟨fun j hj => g1 j (by simp at hj; exact hj.1), g2⟩
    · simp only [Bool.not_true, Bool.false_eq_true, if_false, Res.bind_eq_ok] at h
      obtain ⟨⟨ok2, m2, it2⟩, e2, h⟩ := h
      obtain ⟨g3, g4⟩ := all_frame ps _ _ _ _ _ e2
      have hfr : ∀ j, j ∉ idsL (p :: ps) → m2 j = m j := by
        intro j hj; simp at hj; rw [g3 j hj.2, g1 j hj.1]
      dsimp only at h
      split at h
      · simp at h; obtain ⟨rfl, rfl, rfl⟩ := h
        exact ⟨hfr, g2.trans g4⟩
      · split at h
        · obtain ⟨g5, g6⟩ := all_frame ps _ _ _ _ _ h
          refine ⟨fun j hj => ?_, (g2.trans g4).trans ⟨g6.1, g6.2⟩⟩
          rw [g5 j (by simp at hj; exact hj.2)]
          simp only [resetL, hj, if_false]
          exact hfr j hj
        · simp at h; obtain ⟨rfl, rfl, rfl⟩ := h
          exact ⟨hfr, g2.trans g4⟩
end

variable {T : Tree (Addr × α)}

/-- Going back to a node already passed. -/
theorem Over.back {it it' : PIt} {l t r} (H : Over T it (l ++ t :: r)) (h : ∃ gs, plug gs t = T) (hk : Kin it it') :
    Over T { it' with cur := some t.addr } (t :: r) := by
  obtain ⟨f, rt, c⟩ := it'
  obtain ⟨rfl, rfl⟩ := hk
  generalize e : l ++ t :: r = w at H
  cases H with
  | at_ root h' =>
    cases l with
    | nil => simp at e; obtain ⟨rfl, rfl⟩ := e; exact .at_ root h'
    | cons _ _ => simp at e
  | end_ => simp at e
  | @sib gs fs a l' r' h' =>
    subst e
    have e2 : l' ++ (l ++ t :: r) = (l' ++ l) ++ t :: r := by simp
    rw [e2] at h'
    dsimp only
    rw [e2]
    exact Over.sib (r := t :: r) h'

/-- The loop stops at the latest at a node where the step succeeds. -/
theorem loop_first (S : Searchable nav vl T) {step : Marks → PIt → Addr → Res (Bool × Marks)} {i : Nat} {null : Bool} {b : PIt} {t r'}
    (hs : ∀ m it ok m', Over T it (t :: r') → step m it t.addr = Res.ok (ok, m') → ok = true) :
    ∀ n l m it ok m' it', Over T it (l ++ t :: r') → loop nav step i null b n m it = Res.ok (ok, m', it') →
      ok = true ∧ (∃ l', Over T it' (l' ++ r')) ∧ (l = [] → m' i = some t.addr ∧ Over T it' r') := by
  intro n
  induction n with
  | zero => intro l m it ok m' it' _ h; cases h
  | succ n ih =>
    intro l m it ok m' it' H h
    rw [loop] at h
    cases l with
    | nil =>
      obtain ⟨h1, _, _, ⟨it1, h3, h4⟩, _⟩ := over_cons S H
      simp only [h1, Res.bind_eq_ok] at h
      obtain ⟨⟨ok1, m1⟩, e1, it2, e2, h⟩ := h
      rw [h3] at e2; cases e2
      have := hs _ _ _ _ H e1
      subst this
      simp at h
      obtain ⟨rfl, rfl, rfl⟩ := h
      exact ⟨rfl, ⟨[], h4⟩, fun _ => ⟨by simp [Marks.set], h4⟩⟩
    | cons s l =>
      obtain ⟨h1, _, _, ⟨it1, h3, h4⟩, _⟩ := over_cons S H
      simp only [h1, Res.bind_eq_ok] at h
      obtain ⟨⟨ok1, m1⟩, e1, it2, e2, h⟩ := h
      rw [h3] at e2; cases e2
      cases ok1
      · simp at h
        obtain ⟨g1, g2, _⟩ := ih l m1 it1 ok m' it' h4 h
        exact ⟨g1, g2, by simp⟩
      · simp at h
        obtain ⟨rfl, rfl, rfl⟩ := h
        refine ⟨rfl, ⟨l ++ [t], by simpa using h4⟩, by simp⟩

mutual
/-- A matcher that can match nothing always succeeds: it takes no node, or the first one. -/
theorem this_skip (S : Searchable nav vl T) : (p : Pat α) → Basic p → p.ids.Nodup → p.matchesNull = true → ∀ m it r ok m' it', Over T it r →
    this nav vl fuel p m it = Res.ok (ok, m', it') →
    ok = true ∧ (Over T it' r ∨ ∃ t r', r = t :: r' ∧ m' p.id = some t.addr ∧ Over T it' r')
  | .node i .one f ps => by intro _ _ h; simp [matchesNull] at h
  | .node i (.star q) f ps => by intro hb; exact absurd rfl ((hb i _ f ps (self_mem _)).2 q)
  | .node i .cpt f [] => by intro hb; have := (hb i _ f [] (self_mem _)).1 rfl; simp at this
  | .node i .cpt f (_ :: _ :: _) => by intro hb; have := (hb i _ f _ (self_mem _)).1 rfl; simp at this
  | .node i .cpt f [q] => by
    intro hb hn hz m it r ok m' it' H h
    have hq : Basic q := fun j k g qs h => formed_sub hb j k g qs (by simpa [Pat.preL] using h)
    simp only [ids_node, idsL_cons, idsL_nil, List.append_nil, List.nodup_cons] at hn
    have hz' : q.matchesNull = true := by simpa [matchesNull, allNull] using hz
    simp only [this, all, Res.bind_eq_ok] at h
    obtain ⟨⟨ok0, m0, it0⟩, ⟨⟨ok1, m1, it1⟩, e1, h1⟩, h⟩ := h
    obtain ⟨rfl, g⟩ := this_skip S q hq hn.2 hz' _ _ _ _ _ _ H e1
    simp at h1
    obtain ⟨rfl, rfl, rfl⟩ := h1
    simp at h
    obtain ⟨rfl, rfl, rfl⟩ := h
    refine ⟨rfl, ?_⟩
    rcases g with g | ⟨t, r', h1, h2, h3⟩
    · exact .inl g
    · exact .inr ⟨t, r', h1, by simp only [headMark, Marks.set]; exact (if_pos rfl).trans h2, h3⟩
  | .node i (.opt q) f ps => by
    intro hb hn hz m it r ok m' it' H h
    simp only [ids_node, List.nodup_cons] at hn
    have hz' : allNull ps = true := by simpa [matchesNull] using hz
    have hst : childMaySteal ps = true := by
      simp only [childMaySteal, ← bareL_length, bareL_null hz']; rfl
    have hall := fun m it r ok m' it' H => all_bare S ps (formed_sub hb) hn.2 m it r ok m' it' H (by rw [bareL_null hz']; simp [FitsL])
    simp only [this] at h
    split at h
    · simp at h; obtain ⟨rfl, rfl, rfl⟩ := h; exact ⟨rfl, .inl H⟩
    cases r with
    | nil =>
      cases fuel with
      | zero => cases h
      | succ n =>
        rw [loop, over_nil H] at h
        simp [hz] at h
        obtain ⟨rfl, rfl, rfl⟩ := h
        exact ⟨rfl, .inl H⟩
    | cons t r' =>
      obtain ⟨g1, _, g2⟩ := loop_first S (t := t) (r' := r') (by
        intro m it ok m' H h
        obtain ⟨_, k1, ⟨gs, k0⟩, _, itc, k2, k3⟩ := over_cons S H
        simp only [k1, Res.ok_bind, k2] at h
        split at h
        · simp only [hst, if_true, Res.bind_eq_ok] at h
          obtain ⟨⟨ok1, m1, it1⟩, e1, h⟩ := h
          simp at h; obtain ⟨rfl, rfl⟩ := h
          exact hall _ _ _ _ _ _ (.at_ _ k0) e1
        · simp only [Res.bind_eq_ok] at h
          obtain ⟨⟨ok1, m1, it1⟩, e1, h⟩ := h
          have := hall _ _ _ _ _ _ k3 e1
          subst this
          simp at h
          exact h.1) fuel [] m it ok m' it' H h
      obtain ⟨g3, g4⟩ := g2 rfl
      exact ⟨g1, .inr ⟨t, r', rfl, g3, g4⟩⟩
/-- A matcher succeeds at the latest at a node which it fits without the arguments that can match nothing. -/
theorem this_bare (S : Searchable nav vl T) : (p : Pat α) → Basic p → p.ids.Nodup → p.matchesNull = false → ∀ m it l t r ok m' it',
    Over T it (l ++ t :: r) → Fits Prod.snd p.bare t → this nav vl fuel p m it = Res.ok (ok, m', it') →
    ok = true ∧ ∃ l', Over T it' (l' ++ r)
  | .node i (.star q) f ps => by intro hb; exact absurd rfl ((hb i _ f ps (self_mem _)).2 q)
  | .node i .cpt f [] => by intro hb; have := (hb i _ f [] (self_mem _)).1 rfl; simp at this
  | .node i .cpt f (_ :: _ :: _) => by intro hb; have := (hb i _ f _ (self_mem _)).1 rfl; simp at this
  | .node i .cpt f [q] => by
    intro hb hn hz m it l t r ok m' it' H F h
    have hq : Basic q := fun j k g qs h => formed_sub hb j k g qs (by simpa [Pat.preL] using h)
    simp only [ids_node, idsL_cons, idsL_nil, List.append_nil, List.nodup_cons] at hn
    have hz' : q.matchesNull = false := by simpa [matchesNull, allNull] using hz
    rw [bare, bareL_keep hz'] at F
    simp only [bareL, Fits] at F
    rw [fitsL_single] at F
    have F' : Fits Prod.snd q.bare t := by simpa using F
    simp only [this, all, Res.bind_eq_ok] at h
    obtain ⟨⟨ok0, m0, it0⟩, ⟨⟨ok1, m1, it1⟩, e1, h1⟩, h⟩ := h
    obtain ⟨rfl, g⟩ := this_bare S q hq hn.2 hz' _ _ _ _ _ _ _ _ H F' e1
    simp at h1
    obtain ⟨rfl, rfl, rfl⟩ := h1
    simp at h
    obtain ⟨rfl, rfl, rfl⟩ := h
    exact ⟨rfl, g⟩
  | .node i .one f ps => by
    intro hb hn hz m it l t r ok m' it' H F h
    simp only [ids_node, List.nodup_cons] at hn
    rw [bare] at F
    simp only [Fits] at F
    have hall := fun m it r ok m' it' H => all_bare S ps (formed_sub hb) hn.2 m it r ok m' it' H
    simp only [this] at h
    obtain ⟨g1, g2, _⟩ := loop_first S (t := t) (r' := r) (by
      intro m it ok m' H h
      obtain ⟨_, k1, _, _, itc, k2, k3⟩ := over_cons S H
      simp only [k1, Res.ok_bind, k2, F.1, Bool.not_true, Bool.false_eq_true, if_false, Res.bind_eq_ok] at h
      obtain ⟨⟨ok1, m1, it1⟩, e1, h⟩ := h
      have := hall _ _ _ _ _ _ k3 F.2 e1
      simp [this] at h
      exact h.1) fuel l m it ok m' it' H h
    exact ⟨g1, g2⟩
  | .node i (.opt q) f ps => by
    intro hb hn hz m it l t r ok m' it' H F h
    simp only [ids_node, List.nodup_cons] at hn
    rw [bare] at F
    simp only [Fits] at F
    have hall := fun m it r ok m' it' H => all_bare S ps (formed_sub hb) hn.2 m it r ok m' it' H
    have hst : FitsL Prod.snd (bareL ps) [t] → childMaySteal ps = true := by
      intro h
      have := fitsL_length h
      simpa [childMaySteal, ← bareL_length] using this
    simp only [this] at h
    split at h
    · next hp => simp [prefersNull, hz] at hp
    obtain ⟨g1, g2, _⟩ := loop_first S (t := t) (r' := r) (by
      intro m it ok m' H h
      obtain ⟨_, k1, ⟨gs, k0⟩, _, itc, k2, k3⟩ := over_cons S H
      simp only [k1, Res.ok_bind, k2] at h
      split at h
      · next hf =>
        have hf' : f t.label.2 = false := by simpa using hf
        have F2 : FitsL Prod.snd (bareL ps) [t] := by simpa [hf'] using F
        simp only [hst F2, if_true, Res.bind_eq_ok] at h
        obtain ⟨⟨ok1, m1, it1⟩, e1, h⟩ := h
        simp at h; obtain ⟨rfl, rfl⟩ := h
        exact hall _ _ _ _ _ _ (.at_ _ k0) F2 e1
      · next hf =>
        have hf' : f t.label.2 = true := by simpa using hf
        simp only [Res.bind_eq_ok] at h
        obtain ⟨⟨ok1, m1, it1⟩, e1, h⟩ := h
        rcases F with ⟨_, F⟩ | ⟨F1, F2⟩
        · have := hall _ _ _ _ _ _ k3 F e1
          subst this
          simp at h
          exact h.1
        · have hq : q ≠ .possessive := fun e => by have := F1 e; rw [hf'] at this; cases this
          cases ok1
          · simp only [hst F2, Bool.not_false, Bool.and_true, bne_iff_ne, ne_eq, hq, not_false_eq_true, decide_true, if_true, Bool.true_and,
              Res.bind_eq_ok] at h
            obtain ⟨⟨ok2, m2, it2⟩, e2, h⟩ := h
            simp at h; obtain ⟨rfl, rfl⟩ := h
            exact hall _ _ _ _ _ _ (.at_ _ k0) F2 e2
          · simp at h
            exact h.1) fuel l m it ok m' it' H h
    exact ⟨g1, g2⟩
theorem all_bare (S : Searchable nav vl T) : (ps : List (Pat α)) →
    (∀ j k g qs, Pat.node j k g qs ∈ Pat.preL ps → (k = .cpt → qs.length = 1) ∧ ∀ q, k ≠ .star q) → (idsL ps).Nodup →
    ∀ m it r ok m' it', Over T it r → FitsL Prod.snd (bareL ps) r → all nav vl fuel ps m it = Res.ok (ok, m', it') → ok = true
  | [] => by intro _ _ m it r ok m' it' _ _ h; simp [all] at h; exact h.1
  | p :: ps => by
    intro hb hn m it r ok m' it' H F h
    have hp : Basic p := fun j k g qs h => hb j k g qs (by simp [Pat.preL, h])
    have hps : ∀ j k g qs, Pat.node j k g qs ∈ Pat.preL ps → (k = .cpt → qs.length = 1) ∧ ∀ q, k ≠ .star q :=
      fun j k g qs h => hb j k g qs (by simp [Pat.preL, h])
    simp only [idsL_cons, List.nodup_append] at hn
    simp only [all, Res.bind_eq_ok] at h
    obtain ⟨⟨ok1, m1, it1⟩, e1, h⟩ := h
    cases hz : p.matchesNull with
    | false =>
      rw [bareL_keep hz] at F
      simp only [FitsL] at F
      obtain ⟨l, t, r', rfl, F1, F2⟩ := F
      obtain ⟨rfl, l', g⟩ := this_bare S p hp hn.1 hz _ _ _ _ _ _ _ _ H F1 e1
      simp only [Bool.not_true, Bool.false_eq_true, if_false, Res.bind_eq_ok] at h
      obtain ⟨⟨ok2, m2, it2⟩, e2, h⟩ := h
      have := all_bare S ps hps hn.2.1 _ _ _ _ _ _ g (fitsL_suffix l' F2) e2
      subst this
      simp at h
      exact h.1
    | true =>
      rw [bareL_skip hz] at F
      obtain ⟨rfl, g⟩ := this_skip S p hp hn.1 hz _ _ _ _ _ _ H e1
      simp only [Bool.not_true, Bool.false_eq_true, if_false, Res.bind_eq_ok] at h
      obtain ⟨⟨ok2, m2, it2⟩, e2, h⟩ := h
      cases ok2 with
      | true => simp at h; exact h.1
      | false =>
        rcases g with g | ⟨t, r', rfl, hm, g⟩
        · have := all_bare S ps hps hn.2.1 _ _ _ _ _ _ g F e2
          cases this
        · obtain ⟨f1, k1⟩ := this_frame p _ _ _ _ _ e1
          obtain ⟨f2, k2⟩ := all_frame ps _ _ _ _ _ e2
          have hm2 : m2 p.id = some t.addr := by
            rw [f2 p.id (fun hj => hn.2.2 _ (id_mem p) _ hj rfl), hm]
          simp only [hz, hm2, Option.isSome_some, Bool.and_self, if_true, Bool.false_eq_true, if_false] at h
          exact all_bare S ps hps hn.2.1 _ _ _ _ _ _ (Over.back (l := []) H (over_cons S H).2.2.1 (k1.trans k2)) F h
end

/-- The search succeeds if the pattern matches without the arguments that can match nothing. -/
theorem search_bare (S : Searchable nav vl T) {p : Pat α} (hp : Basic p) (hn : p.ids.Nodup) {m ok m'} {gs s} (hs : plug gs s = T)
    (F : p.skippable ∨ Fits Prod.snd p.bare s) (h : search nav vl fuel (some s.addr) p m = Res.ok (ok, m')) : ok = true := by
  simp only [search, Res.bind_eq_ok] at h
  obtain ⟨⟨ok1, m1, it1⟩, e1, h⟩ := h
  simp at h
  obtain ⟨rfl, rfl⟩ := h
  refine all_bare S [p] (fun j k g qs h => hp j k g qs (by simpa [Pat.preL] using h)) (by simpa [idsL_cons] using hn) _ _ _ _ _ _ (.at_ _ hs) ?_ e1
  cases hz : p.matchesNull with
  | true => rw [bareL_skip hz]; simp [bareL, FitsL]
  | false =>
    have : ¬ p.skippable := by rw [skippable_iff, hz]; simp
    rw [bareL_keep hz]
    simp only [bareL, fitsL_single, List.mem_singleton, exists_eq_left]
    exact F.resolve_left this
end Simple

namespace Simple
open Pat
variable {α : Type} {nav : Ptr → Nav} {vl : Addr → Res α} {fuel : Nat}

/-- Where there is no node, a matcher that can match nothing succeeds. -/
theorem this_none : (p : Pat α) → Basic p → p.matchesNull = true → ∀ m it ok m' it', it.cur = none →
    this nav vl fuel p m it = Res.ok (ok, m', it') → ok = true
  | .node i .one f ps => by intro _ h; simp [matchesNull] at h
  | .node i (.star q) f ps => by intro hb; exact absurd rfl ((hb i _ f ps (self_mem _)).2 q)
  | .node i .cpt f [] => by intro hb; have := (hb i _ f [] (self_mem _)).1 rfl; simp at this
  | .node i .cpt f (_ :: _ :: _) => by intro hb; have := (hb i _ f _ (self_mem _)).1 rfl; simp at this
  | .node i .cpt f [q] => by
    intro hb hz m it ok m' it' hc h
    have hq : Basic q := fun j k g qs h => formed_sub hb j k g qs (by simpa [Pat.preL] using h)
    have hz' : q.matchesNull = true := by simpa [matchesNull, allNull] using hz
    simp only [this, all, Res.bind_eq_ok] at h
    obtain ⟨⟨ok0, m0, it0⟩, ⟨⟨ok1, m1, it1⟩, e1, h1⟩, h⟩ := h
    have := this_none q hq hz' _ _ _ _ _ hc e1
    subst this
    simp at h1
    obtain ⟨rfl, rfl, rfl⟩ := h1
    simp at h
    exact h.1
  | .node i (.opt q) f ps => by
    intro hb hz m it ok m' it' hc h
    simp only [this] at h
    split at h
    · simp at h; exact h.1
    · cases fuel with
      | zero => cases h
      | succ n =>
        rw [loop, hc] at h
        simp [hz] at h
        exact h.1

theorem search_none {p : Pat α} (hp : Basic p) (hs : p.skippable) {m ok m'} (h : search nav vl fuel none p m = Res.ok (ok, m')) : ok = true := by
  rw [skippable_iff] at hs
  simp only [search, all, Res.bind_eq_ok] at h
  obtain ⟨⟨ok0, m0, it0⟩, ⟨⟨ok1, m1, it1⟩, e1, h1⟩, h⟩ := h
  have := this_none p hp hs _ _ _ _ _ rfl e1
  subst this
  simp at h1
  obtain ⟨rfl, rfl, rfl⟩ := h1
  simp at h
  exact h.1
end Simple
