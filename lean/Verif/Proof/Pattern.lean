import Verif.Proof.Simple
import Verif.Proof.BinQuery
import Verif.Proof.NaryNav
/-! Searching a pattern: what the search finds. -/
open Tree

set_option linter.unusedSimpArgs false

namespace Pat
variable {α β : Type} {val : β → α} {addr : β → Nat}

theorem pre_node (i k) (f : α → Bool) (ps : List (Pat α)) : (node i k f ps).pre = node i k f ps :: preL ps := by simp [pre]
@[simp] theorem ids_node (i k) (f : α → Bool) (ps : List (Pat α)) : (node i k f ps).ids = i :: idsL ps := by
  simp [ids, idsL, pre, Pat.id]
@[simp] theorem idsL_nil : idsL ([] : List (Pat α)) = [] := by simp [idsL, preL]
@[simp] theorem idsL_cons (p : Pat α) (ps : List (Pat α)) : idsL (p :: ps) = p.ids ++ idsL ps := by simp [idsL, ids, preL]

theorem id_mem (p : Pat α) : p.id ∈ p.ids := by cases p; simp [Pat.id]

mutual
theorem matchesNull_plain : (p : Pat α) → p.plain → p.matchesNull = false
  | node _ .one _ _, _ => by simp [matchesNull]
  | node _ .cpt _ ps, h => by
    simp only [plain] at h
    simp only [matchesNull]
    exact allNull_plain ps (by intro e; simp [e] at h) h.2
  | node _ (.opt _) _ ps, h => by
    simp only [plain] at h
    simp only [matchesNull]
    exact allNull_plain ps h.1 h.2
theorem allNull_plain : (ps : List (Pat α)) → ps ≠ [] → plainL ps → allNull ps = false
  | [], h, _ => absurd rfl h
  | p :: ps, _, h => by
    simp only [plainL] at h
    simp [allNull, matchesNull_plain p h.1]
end

theorem plainL_mem {ps : List (Pat α)} (h : plainL ps) : ∀ p ∈ ps, p.plain := by
  induction ps with
  | nil => simp
  | cons p ps ih => simp only [plainL] at h; simp; exact ⟨h.1, ih h.2⟩

theorem childMaySteal_plain {ps : List (Pat α)} (h : plainL ps) : childMaySteal ps = decide (ps.length ≤ 1) := by
  have : ps.filter (fun p => !p.matchesNull) = ps := by
    rw [List.filter_eq_self]
    intro p hp
    simp [matchesNull_plain p (plainL_mem h p hp)]
  simp [childMaySteal, this]

/-- A matcher that cannot match nothing needs a node. -/
theorem fitsL_suffix {ps : List (Pat α)} {ts : List (Tree β)} (l : List (Tree β)) (h : FitsL val ps ts) : FitsL val ps (l ++ ts) := by
  cases ps with
  | nil => simp [FitsL]
  | cons p ps =>
    simp only [FitsL] at h ⊢
    obtain ⟨l', t, r, rfl, h1, h2⟩ := h
    exact ⟨l ++ l', t, r, by simp, h1, h2⟩

theorem fitsL_length {ps : List (Pat α)} {ts : List (Tree β)} (h : FitsL val ps ts) : ps.length ≤ ts.length := by
  induction ps generalizing ts with
  | nil => simp
  | cons p ps ih =>
    simp only [FitsL] at h
    obtain ⟨l', t, r, rfl, h1, h2⟩ := h
    have := ih h2
    simp; omega

theorem fitsL_single {p : Pat α} {ts : List (Tree β)} : FitsL val [p] ts ↔ ∃ t ∈ ts, Fits val p t := by
  simp only [FitsL, and_true]
  constructor
  · rintro ⟨l, t, r, rfl, h⟩; exact ⟨t, by simp, h⟩
  · rintro ⟨t, ht, h⟩
    obtain ⟨l, r, rfl⟩ := List.append_of_mem ht
    exact ⟨l, t, r, rfl, h⟩

/-- Taking the first node that fits is never wrong. -/
theorem fitsL_first {p : Pat α} {ps : List (Pat α)} {l r : List (Tree β)} {t : Tree β} (hl : ∀ u ∈ l, ¬ Fits val p u)
    (h : FitsL val (p :: ps) (l ++ t :: r)) : FitsL val ps r := by
  simp only [FitsL] at h
  obtain ⟨l', t', r', e, h1, h2⟩ := h
  rcases List.append_eq_append_iff.mp e with ⟨x, rfl, e2⟩ | ⟨x, rfl, e2⟩
  · cases x with
    | nil => simp at e2; rw [e2.2]; exact h2
    | cons y x =>
      simp at e2
      rw [e2.2]
      have := fitsL_suffix (x ++ [t']) h2
      simpa using this
  · cases x with
    | nil => simp at e2; rw [← e2.2]; exact h2
    | cons y x =>
      simp at e2
      exact absurd (e2.1 ▸ h1) (hl y (by simp))

mutual
theorem found_congr {m m' : Nat → Option Nat} : (p : Pat α) → (t : Tree β) → (∀ i ∈ p.ids, m' i = m i) →
    Found val addr m p t → Found val addr m' p t
  | node i .one f ps, t, h, H => by
    simp only [Found] at H ⊢
    simp only [ids_node, List.mem_cons] at h
    exact ⟨by rw [h i (.inl rfl)]; exact H.1, H.2.1, foundL_congr ps _ (fun j hj => h j (.inr hj)) H.2.2⟩
  | node i .cpt f ps, t, h, H => by
    simp only [Found] at H ⊢
    simp only [ids_node, List.mem_cons] at h
    exact ⟨by rw [h i (.inl rfl)]; exact H.1, foundL_congr ps _ (fun j hj => h j (.inr hj)) H.2⟩
  | node i (.opt q) f ps, t, h, H => by
    simp only [Found] at H ⊢
    simp only [ids_node, List.mem_cons] at h
    refine ⟨by rw [h i (.inl rfl)]; exact H.1, ?_⟩
    rcases H.2 with ⟨h1, h2⟩ | ⟨h1, h2, h3⟩
    · exact .inl ⟨h1, foundL_congr ps _ (fun j hj => h j (.inr hj)) h2⟩
    · exact .inr ⟨h1, h2, foundL_congr ps _ (fun j hj => h j (.inr hj)) h3⟩
theorem foundL_congr {m m' : Nat → Option Nat} : (ps : List (Pat α)) → (ts : List (Tree β)) → (∀ i ∈ idsL ps, m' i = m i) →
    FoundL val addr m ps ts → FoundL val addr m' ps ts
  | [], _, _, _ => by simp [FoundL]
  | p :: ps, ts, h, H => by
    simp only [FoundL] at H ⊢
    simp only [idsL_cons, List.mem_append] at h
    obtain ⟨l, t, r, e, h1, h2, h3⟩ := H
    exact ⟨l, t, r, e, h1, found_congr p t (fun j hj => h j (.inl hj)) h2, foundL_congr ps r (fun j hj => h j (.inr hj)) h3⟩
end

theorem found_mark {m : Nat → Option Nat} {p : Pat α} {t : Tree β} (h : Found val addr m p t) : m p.id = some (addr t.label) := by
  obtain ⟨i, k, f, ps⟩ := p
  cases k <;> simp only [Found] at h <;> exact h.1

mutual
theorem found_fits {m : Nat → Option Nat} : (p : Pat α) → (t : Tree β) → Found val addr m p t → Fits val p t
  | node i .one f ps, t, H => by
    simp only [Found, Fits] at H ⊢
    exact ⟨H.2.1, foundL_fits ps _ H.2.2⟩
  | node i .cpt f ps, t, H => by
    simp only [Found, Fits] at H ⊢
    exact foundL_fits ps _ H.2
  | node i (.opt q) f ps, t, H => by
    simp only [Found, Fits] at H ⊢
    rcases H.2 with ⟨h1, h2⟩ | ⟨h1, h2, h3⟩
    · exact .inl ⟨h1, foundL_fits ps _ h2⟩
    · exact .inr ⟨h2, foundL_fits ps _ h3⟩
theorem foundL_fits {m : Nat → Option Nat} : (ps : List (Pat α)) → (ts : List (Tree β)) → FoundL val addr m ps ts →
    FitsL val ps ts
  | [], _, _ => by simp [FitsL]
  | p :: ps, ts, H => by
    simp only [FoundL, FitsL] at H ⊢
    obtain ⟨l, t, r, e, h1, h2, h3⟩ := H
    exact ⟨l, t, r, e, found_fits p t h2, foundL_fits ps r h3⟩
end

end Pat

/-- What the search needs to know about the navigators of a tree and the values of its nodes. -/
structure Searchable {α : Type} (nav : Ptr → Nav) (val : Addr → Res α) (T : Tree (Addr × α)) : Prop where
  nodup : T.addrs.Nodup
  val : ∀ fs s, plug fs s = T → val s.addr = Res.ok s.label.2
  first : ∀ gs u fs s, plug gs u = T → plug fs s = u → (nav (some u.addr)).first s.addr = Res.ok (headAddr s.children)
  next : ∀ gs u fs s, plug gs u = T → plug fs s = u →
    (nav (some u.addr)).next s.addr = Res.ok (fs.head?.bind (fun f => headAddr f.rights))
  parent : ∀ f fs s, plug (f :: fs) s = T → (nav none).parent s.addr = Res.ok (some f.label.1)

namespace Simple
open Pat
variable {α : Type} {nav : Ptr → Nav} {vl : Addr → Res α} {T : Tree (Addr × α)}

/-- The iterator is about to go over the sibling subtrees `r`. -/
inductive Over (T : Tree (Addr × α)) : PIt → List (Tree (Addr × α)) → Prop
  | at_ {gs s} (root) : plug gs s = T → Over T ⟨true, root, some s.addr⟩ [s]
  | end_ (root) : Over T ⟨true, root, none⟩ []
  | sib {gs fs a l r} : plug gs (plug fs (node a (l ++ r))) = T →
      Over T ⟨false, some (plug fs (node a (l ++ r))).addr, headAddr r⟩ r

theorem over_nil {it : PIt} (H : Over T it []) : it.cur = none := by
  cases H <;> rfl

theorem size_le_plug {β : Type} (fs : List (Frame β)) (s : Tree β) : s.size ≤ (plug fs s).size := by
  induction fs generalizing s with
  | nil => simp [plug]
  | cons f fs ih =>
    refine Nat.le_trans ?_ (ih _)
    simp only [size]
    have : s.size ≤ sizeL (f.lefts ++ s :: f.rights) := by
      induction f.lefts with
      | nil => simp [sizeL]
      | cons t l ih => simp only [List.cons_append, sizeL]; omega
    omega

theorem length_le_sizeL {β : Type} (l : List (Tree β)) : l.length ≤ sizeL l := by
  induction l with
  | nil => simp
  | cons t l ih => cases t; simp only [sizeL, size, List.length_cons]; omega

theorem over_length {it : PIt} {r} (H : Over T it r) : r.length ≤ T.size := by
  cases H with
  | at_ root h =>
    cases T; simp [size]
  | end_ => simp
  | @sib gs fs a l r h =>
    rw [← plug_append] at h
    have := size_le_plug (fs ++ gs) (node a (l ++ r))
    rw [h] at this
    have h2 := length_le_sizeL r
    simp only [size_node, sizeL_append] at this
    omega

theorem over_cons (S : Searchable nav vl T) {it : PIt} {s r} (H : Over T it (s :: r)) :
    it.cur = some s.addr ∧ vl s.addr = Res.ok s.label.2 ∧ (∃ gs, plug gs s = T) ∧
      (∃ it', next nav it s.addr = Res.ok it' ∧ Over T it' r) ∧
      (∃ it', childIt nav it s.addr = Res.ok it' ∧ Over T it' s.children) := by
  cases H with
  | @at_ gs s root h =>
    refine ⟨rfl, S.val _ _ h, ⟨_, h⟩, ⟨_, rfl, .end_ root⟩, ?_⟩
    refine ⟨⟨false, some s.addr, headAddr s.children⟩, ?_, ?_⟩
    · simp [childIt, S.first gs s [] s h rfl]
    · obtain ⟨a, cs⟩ := s
      exact Over.sib (gs := gs) (fs := []) (l := []) h
  | @sib gs fs a l r h =>
    have h1 : plug (⟨a, l, r⟩ :: fs ++ gs) s = T := by rw [List.cons_append]; simp only [plug]; rw [plug_append]; exact h
    refine ⟨rfl, S.val _ _ h1, ⟨_, h1⟩, ⟨⟨false, some (plug fs (Tree.node a (l ++ s :: r))).addr, headAddr r⟩, ?_, ?_⟩, ?_⟩
    · simp only [next, Bool.false_eq_true, if_false]
      rw [S.next gs _ (⟨a, l, r⟩ :: fs) s h rfl]
      rfl
    · have : l ++ s :: r = (l ++ [s]) ++ r := by simp
      rw [this] at h ⊢
      exact Over.sib h
    · refine ⟨⟨false, some a.1, headAddr s.children⟩, ?_, ?_⟩
      · simp only [childIt, Bool.false_eq_true, if_false]
        rw [S.parent ⟨a, l, r⟩ (fs ++ gs) s h1]
        simp only [Res.ok_bind, Res.pure_eq]
        have h2 : plug (fs ++ gs) (node a (l ++ s :: r)) = T := by rw [plug_append]; exact h
        have := S.first (fs ++ gs) _ [⟨a, l, r⟩] s h2 rfl
        have e : (Tree.node a (l ++ s :: r)).addr = a.1 := rfl
        rw [e] at this
        rw [this]; rfl
      · obtain ⟨b, cs⟩ := s
        have := Over.sib (T := T) (gs := fs ++ gs) (fs := [⟨a, l, r⟩]) (a := b) (l := []) (r := cs) (by
          rw [plug_append]; exact h)
        exact this

variable {fuel : Nat}

/-- Looking for the first node at which a step succeeds. -/
theorem loop_spec (S : Searchable nav vl T) {step : Marks → PIt → Addr → Res (Bool × Marks)} {i : Nat} {J : List Nat}
    {P : Tree (Addr × α) → Prop} {Q : Marks → Tree (Addr × α) → Prop} (hi : i ∉ J) (begin_ : PIt)
    (hstep : ∀ m it s r, Over T it (s :: r) → ∃ ok m', step m it s.addr = Res.ok (ok, m') ∧ (∀ j, j ∉ J → m' j = m j) ∧
      ((ok = true ∧ Q m' s) ∨ (ok = false ∧ ¬ P s)))
    (r : List (Tree (Addr × α))) (fuel : Nat) (hf : r.length < fuel) (m : Marks) (it : PIt) (H : Over T it r) :
    ∃ ok m' it', loop nav step i false begin_ fuel m it = Res.ok (ok, m', it') ∧ (∀ j, j ≠ i → j ∉ J → m' j = m j) ∧
      ((ok = true ∧ ∃ l t r' m1, r = l ++ t :: r' ∧ (∀ u ∈ l, ¬ P u) ∧ Q m1 t ∧ m' = m1.set i (some t.addr) ∧ Over T it' r') ∨
        (ok = false ∧ m' i = m i ∧ ∀ u ∈ r, ¬ P u)) := by
  induction r generalizing fuel m it with
  | nil =>
    cases fuel with
    | zero => simp at hf
    | succ fuel =>
      refine ⟨false, m, it, by simp [loop, over_nil H], by simp, .inr ⟨rfl, rfl, by simp⟩⟩
  | cons s r ih =>
    cases fuel with
    | zero => simp at hf
    | succ fuel =>
      obtain ⟨h1, h2, _, ⟨it', h3, h4⟩, _⟩ := over_cons S H
      obtain ⟨ok, m', h5, h6, h7⟩ := hstep m it s r H
      simp only [loop, h1, h5, Res.ok_bind, h3]
      rcases h7 with ⟨rfl, h7⟩ | ⟨rfl, h7⟩
      · refine ⟨true, _, it', rfl, ?_, .inl ⟨rfl, [], s, r, m', rfl, by simp, h7, rfl, h4⟩⟩
        intro j h8 h9
        simp [Marks.set, h8, h6 j h9]
      · obtain ⟨ok, m'', it'', e, h8, h9⟩ := ih fuel (by simp at hf; omega) m' it' h4
        refine ⟨ok, m'', it'', e, fun j a b => (h8 j a b).trans (h6 j b), ?_⟩
        rcases h9 with ⟨rfl, l, t, r', m1, rfl, g1, g2, g3, g4⟩ | ⟨rfl, g0, g1⟩
        · refine .inl ⟨rfl, s :: l, t, r', m1, rfl, ?_, g2, g3, g4⟩
          intro u hu; simp at hu; rcases hu with rfl | hu
          · exact h7
          · exact g1 u hu
        · refine .inr ⟨rfl, g0.trans (h6 i hi), ?_⟩
          intro u hu; simp at hu; rcases hu with rfl | hu
          · exact h7
          · exact g1 u hu

abbrev val' : Addr × α → α := Prod.snd
abbrev addr' : Addr × α → Nat := Prod.fst

theorem set_ne {m : Marks} {i j : Nat} {p : Ptr} (h : j ≠ i) : m.set i p j = m j := by simp [Marks.set, h]

mutual
theorem this_spec (S : Searchable nav vl T) (hf : T.size < fuel) : (p : Pat α) → p.plain → p.ids.Nodup → (m : Marks) →
    (it : PIt) → (r : List (Tree (Addr × α))) → Over T it r →
    ∃ ok m' it', this nav vl fuel p m it = Res.ok (ok, m', it') ∧ (∀ j, j ∉ p.ids → m' j = m j) ∧
      ((ok = true ∧ ∃ l t r', r = l ++ t :: r' ∧ (∀ u ∈ l, ¬ Fits Prod.snd p u) ∧ Found Prod.snd Prod.fst m' p t ∧ Over T it' r') ∨
        (ok = false ∧ m' p.id = m p.id ∧ ∀ u ∈ r, ¬ Fits Prod.snd p u))
  | .node i .cpt f [], hp, _, _, _, _, _ => by simp [plain] at hp
  | .node i .cpt f (_ :: _ :: _), hp, _, _, _, _, _ => by simp [plain] at hp
  | .node i .cpt f [q], hp, hn, m, it, r, H => by
    simp only [plain, plainL] at hp
    simp only [ids_node, idsL_cons, idsL_nil, List.append_nil, List.nodup_cons] at hn
    obtain ⟨ok, m', it', e, h1, h2⟩ := this_spec S hf q hp.2.1 hn.2 m it r H
    have hq : q.id ≠ i := fun e => hn.1 (e ▸ id_mem q)
    rcases h2 with ⟨rfl, l, t, r', rfl, g1, g2, g3⟩ | ⟨rfl, g0, g1⟩
    · refine ⟨true, _, it', by simp [this, all, e]; rfl, ?_, .inl ⟨rfl, l, t, r', rfl, ?_, ?_, g3⟩⟩
      · intro j hj
        simp at hj
        rw [set_ne hj.1, h1 j hj.2]
      · intro u hu
        simp only [Fits]
        rw [fitsL_single]
        simpa using g1 u hu
      · simp only [Found]
        refine ⟨?_, ?_⟩
        · simp [headMark, Marks.set, found_mark g2]
        · simp only [FoundL]
          refine ⟨[], t, [], rfl, by simp, found_congr q t ?_ g2, trivial⟩
          intro j hj
          exact set_ne (fun e => hn.1 (e ▸ hj))
    · refine ⟨false, m', it', by simp [this, all, e], ?_, .inr ⟨rfl, h1 i hn.1, ?_⟩⟩
      · intro j hj
        simp at hj
        rw [h1 j hj.2]
      · intro u hu
        simp only [Fits]
        rw [fitsL_single]
        simpa using g1 u hu
  | .node i .one f ps, hp, hn, m, it, r, H => by
    simp only [plain] at hp
    simp only [ids_node, List.nodup_cons] at hn
    have hlen := over_length H
    obtain ⟨ok, m', it', e, h1, h2⟩ := loop_spec S (i := i) (J := idsL ps) (P := Fits Prod.snd (.node i .one f ps))
      (Q := fun m s => f s.label.2 = true ∧ FoundL Prod.snd Prod.fst m ps s.children) hn.1 it
      (step := fun m it a => do
        if !f (← vl a) then pure (false, m)
        else do
          let (ok, m, _) ← all nav vl fuel ps m (← childIt nav it a)
          pure (ok, m))
      (by
        intro m it s r H
        obtain ⟨_, g1, _, _, it', g2, g3⟩ := over_cons S H
        simp only [g1, Res.ok_bind, g2]
        cases hv : f s.label.2 with
        | false => exact ⟨false, m, rfl, by simp, .inr ⟨rfl, by simp [Fits, hv]⟩⟩
        | true =>
          obtain ⟨ok, m', it'', e, k1, k2⟩ := all_spec S hf ps hp hn.2 m it' _ g3
          refine ⟨ok, m', by simp [e], k1, ?_⟩
          rcases k2 with ⟨rfl, k2⟩ | ⟨rfl, k2⟩
          · exact .inl ⟨rfl, rfl, k2⟩
          · exact .inr ⟨rfl, by simp [Fits, hv, k2]⟩)
      r fuel (by omega) m it H
    refine ⟨ok, m', it', by simp only [this]; exact e, ?_, ?_⟩
    · intro j hj; simp at hj; exact h1 j hj.1 hj.2
    · rcases h2 with ⟨rfl, l, t, r', m1, rfl, g1, g2, rfl, g4⟩ | ⟨rfl, g0, g1⟩
      · refine .inl ⟨rfl, l, t, r', rfl, g1, ?_, g4⟩
        simp only [Found]
        refine ⟨by simp [Marks.set, Tree.addr], g2.1, foundL_congr ps _ ?_ g2.2⟩
        intro j hj
        exact set_ne (fun e => hn.1 (e ▸ hj))
      · exact .inr ⟨rfl, g0, g1⟩
  | .node i (.opt q) f ps, hp, hn, m, it, r, H => by
    simp only [plain] at hp
    simp only [ids_node, List.nodup_cons] at hn
    have hlen := over_length H
    have hnull : matchesNull (.node i (.opt q) f ps) = false := matchesNull_plain _ (by simpa [plain] using hp)
    have hpref : prefersNull (.node i (.opt q) f ps) = false := by simp [prefersNull, hnull]
    have hone : ps.length = 1 ∨ (childMaySteal ps = false ∧ ∀ t : Tree (Addr × α), ¬ FitsL Prod.snd ps [t]) := by
      rcases ps with _ | ⟨p, _ | ⟨p', ps⟩⟩
      · simp at hp
      · simp
      · right
        refine ⟨by rw [childMaySteal_plain hp.2]; simp, fun t h => ?_⟩
        have := fitsL_length h
        simp at this
    have hsteal : ps.length = 1 → childMaySteal ps = true := by
      intro h; rw [childMaySteal_plain hp.2, h]; rfl
    obtain ⟨ok, m', it', e, h1, h2⟩ := loop_spec S (i := i) (J := idsL ps) (P := Fits Prod.snd (.node i (.opt q) f ps))
      (Q := fun m s => (f s.label.2 = true ∧ FoundL Prod.snd Prod.fst m ps s.children) ∨
        (¬ (f s.label.2 = true ∧ FitsL Prod.snd ps s.children) ∧ (q = .possessive → f s.label.2 = false) ∧
          FoundL Prod.snd Prod.fst m ps [s])) hn.1 it
      (step := fun m it a => do
        if !f (← vl a) then
          if childMaySteal ps then do
            let (ok, m, _) ← all nav vl fuel ps m ⟨true, it.root, some a⟩
            pure (ok, m)
          else pure (false, m)
        else do
          let (ok, m, _) ← all nav vl fuel ps m (← childIt nav it a)
          if !ok && q != .possessive && childMaySteal ps then do
            let (ok, m, _) ← all nav vl fuel ps m ⟨true, it.root, some a⟩
            pure (ok, m)
          else pure (ok, m))
      (by
        intro m it s r H
        obtain ⟨_, g1, ⟨gs, g0⟩, _, it', g2, g3⟩ := over_cons S H
        simp only [g1, Res.ok_bind, g2]
        cases hv : f s.label.2 with
        | false =>
          simp only [Bool.not_false, if_true]
          rcases hone with ho | ⟨ho, hno⟩
          · simp only [hsteal ho, if_true]
            obtain ⟨ok, m', it'', e, k1, k2⟩ := all_spec S hf ps hp.2 hn.2 m _ _ (.at_ it.root g0)
            refine ⟨ok, m', by simp [e], k1, ?_⟩
            rcases k2 with ⟨rfl, k2⟩ | ⟨rfl, k2⟩
            · exact .inl ⟨rfl, .inr ⟨by simp, by simp, k2⟩⟩
            · exact .inr ⟨rfl, by simp [Fits, hv, k2]⟩
          · exact ⟨false, m, by simp [ho], by simp, .inr ⟨rfl, by simp [Fits, hv, hno]⟩⟩
        | true =>
          simp only [Bool.not_true, Bool.false_eq_true, if_false]
          obtain ⟨ok, m', it'', e, k1, k2⟩ := all_spec S hf ps hp.2 hn.2 m it' _ g3
          rcases k2 with ⟨rfl, k2⟩ | ⟨rfl, k2⟩
          · exact ⟨true, m', by simp [e], k1, Or.inl ⟨rfl, .inl ⟨by simp, k2⟩⟩⟩
          · rcases hone with ho | ⟨ho, hno⟩
            · by_cases hq : q = .possessive
              · subst hq
                exact ⟨false, m', by simp [e], k1, .inr ⟨rfl, by simp [Fits, hv, k2]⟩⟩
              · obtain ⟨ok, m2, it2, e2, k3, k4⟩ := all_spec S hf ps hp.2 hn.2 m' _ _ (.at_ it.root g0)
                refine ⟨ok, m2, by simp [e, hq, hsteal ho, e2], fun j hj => (k3 j hj).trans (k1 j hj), ?_⟩
                rcases k4 with ⟨rfl, k4⟩ | ⟨rfl, k4⟩
                · exact .inl ⟨rfl, .inr ⟨by simp [k2], by simp [hq], k4⟩⟩
                · exact .inr ⟨rfl, by simp [Fits, hv, k2, k4]⟩
            · exact ⟨false, m', by simp [e, ho], k1, .inr ⟨rfl, by simp [Fits, hv, k2, hno]⟩⟩)
      r fuel (by omega) m it H
    refine ⟨ok, m', it', by simp only [this, hpref, hnull, Bool.false_eq_true, if_false]; exact e, ?_, ?_⟩
    · intro j hj; simp at hj; exact h1 j hj.1 hj.2
    · rcases h2 with ⟨rfl, l, t, r', m1, rfl, g1, g2, rfl, g4⟩ | ⟨rfl, g0, g1⟩
      · refine .inl ⟨rfl, l, t, r', rfl, g1, ?_, g4⟩
        simp only [Found]
        have hc : ∀ j ∈ idsL ps, (m1.set i (some t.addr)) j = m1 j := fun j hj => set_ne (fun e => hn.1 (e ▸ hj))
        refine ⟨by simp [Marks.set, Tree.addr], ?_⟩
        rcases g2 with ⟨g2, g3⟩ | ⟨g2, g3, g5⟩
        · exact .inl ⟨g2, foundL_congr ps _ hc g3⟩
        · exact .inr ⟨g2, g3, foundL_congr ps _ hc g5⟩
      · exact .inr ⟨rfl, g0, g1⟩
theorem all_spec (S : Searchable nav vl T) (hf : T.size < fuel) : (ps : List (Pat α)) → plainL ps → (idsL ps).Nodup → (m : Marks) →
    (it : PIt) → (r : List (Tree (Addr × α))) → Over T it r →
    ∃ ok m' it', all nav vl fuel ps m it = Res.ok (ok, m', it') ∧ (∀ j, j ∉ idsL ps → m' j = m j) ∧
      ((ok = true ∧ FoundL Prod.snd Prod.fst m' ps r) ∨ (ok = false ∧ ¬ FitsL Prod.snd ps r))
  | [], _, _, m, it, _, _ => ⟨true, m, it, by simp [all], by simp, .inl ⟨rfl, by simp [FoundL]⟩⟩
  | p :: ps, hp, hn, m, it, r, H => by
    simp only [plainL] at hp
    simp only [idsL_cons, List.nodup_append] at hn
    obtain ⟨ok, m1, it1, e1, h1, h2⟩ := this_spec S hf p hp.1 hn.1 m it r H
    rcases h2 with ⟨rfl, l, t, r', rfl, g1, g2, g3⟩ | ⟨rfl, g0, g1⟩
    · obtain ⟨ok, m2, it2, e2, h3, h4⟩ := all_spec S hf ps hp.2 hn.2.1 m1 it1 r' g3
      have hfr : ∀ j, j ∉ idsL (p :: ps) → m2 j = m j := by
        intro j hj
        simp at hj
        rw [h3 j hj.2, h1 j hj.1]
      rcases h4 with ⟨rfl, h4⟩ | ⟨rfl, h4⟩
      · refine ⟨true, m2, it2, by simp [all, e1, e2], hfr, .inl ⟨rfl, ?_⟩⟩
        simp only [FoundL]
        refine ⟨l, t, r', rfl, g1, found_congr p t ?_ g2, h4⟩
        intro j hj
        exact h3 j (fun hj' => hn.2.2 j hj j hj' rfl)
      · refine ⟨false, m2, it2, by simp [all, e1, e2, matchesNull_plain p hp.1], hfr, .inr ⟨rfl, ?_⟩⟩
        exact fun h => h4 (fitsL_first g1 h)
    · refine ⟨false, m1, it1, by simp [all, e1], ?_, .inr ⟨rfl, ?_⟩⟩
      · intro j hj
        simp at hj
        exact h1 j hj.1
      · intro h
        simp only [FitsL] at h
        obtain ⟨l, t, r', rfl, k1, k2⟩ := h
        exact g1 t (by simp) k1
end

/-- Searching below any node `s` of the tree. -/
theorem search_spec (S : Searchable nav vl T) (hf : T.size < fuel) {p : Pat α} (hp : p.plain) (hn : p.ids.Nodup) (m : Marks)
    {gs s} (h : plug gs s = T) :
    ∃ ok m', search nav vl fuel (some s.addr) p m = Res.ok (ok, m') ∧ (∀ j, j ∉ p.ids → m' j = m j) ∧
      ((ok = true ∧ Found Prod.snd Prod.fst m' p s) ∨ (ok = false ∧ m' p.id = none ∧ ¬ Fits Prod.snd p s)) := by
  obtain ⟨ok, m', it', e, h1, h2⟩ := this_spec S hf p hp hn (resetL [p] m) _ _ (.at_ (some s.addr) h)
  refine ⟨ok, m', ?_, ?_, ?_⟩
  · cases ok <;> simp [search, all, e]
  · intro j hj
    rw [h1 j hj]
    simp [resetL, hj]
  · rcases h2 with ⟨rfl, l, t, r', e, g1, g2, g3⟩ | ⟨rfl, g0, g1⟩
    · cases l with
      | nil => simp at e; exact .inl ⟨rfl, e.1 ▸ g2⟩
      | cons a l => simp at e
    · refine .inr ⟨rfl, ?_, by simpa using g1⟩
      rw [g0]
      simp [resetL, id_mem]

/-- An empty tree matches nothing. -/
theorem search_empty (hf : 0 < fuel) {p : Pat α} (hp : p.plain) (hn : p.ids.Nodup) (m : Marks) (S : Searchable nav vl T)
    (hf : T.size < fuel) :
    ∃ m', search nav vl fuel none p m = Res.ok (false, m') ∧ (∀ j, j ∉ p.ids → m' j = m j) ∧ m' p.id = none := by
  obtain ⟨ok, m', it', e, h1, h2⟩ := this_spec S hf p hp hn (resetL [p] m) _ _ (.end_ none)
  rcases h2 with ⟨rfl, l, t, r', e, g1, g2, g3⟩ | ⟨rfl, g0, g1⟩
  · simp at e
  · refine ⟨m', by simp [search, all, e], ?_, ?_⟩
    · intro j hj
      rw [h1 j hj]
      simp [resetL, hj]
    · rw [g0]
      simp [resetL, id_mem]
end Simple

theorem Nary.searchable {α : Type} {h : NHeap α} {T : Tree (Addr × α)} (H : Nary.Rep h T) :
    Searchable (Nary.nav h) (fun a => do pure (← h.read a).value) T := by
  refine ⟨H.2, ?_, ?_, ?_, ?_⟩
  · rintro fs s rfl
    simp [Heap.read_of H.cell, Nary.rec_]
  · rintro gs u fs s rfl rfl
    have := (Nary.nav_spec H).first (fs.map (Frame.map Prod.fst)) s.addrTree (by rw [addrTree, addrTree, plug_map])
    have e : (label ∘ Tree.map Prod.fst : Tree (Addr × α) → Addr) = addr := funext fun t => label_map ..
    simpa [addrTree, headAddr, Tree.addr, label_map, e] using this
  · rintro gs u fs s rfl rfl
    have := (Nary.nav_spec H).next (fs.map (Frame.map Prod.fst)) s.addrTree (by rw [addrTree, addrTree, plug_map])
    have e : (label ∘ Tree.map Prod.fst : Tree (Addr × α) → Addr) = addr := funext fun t => label_map ..
    cases fs <;> simpa [addrTree, headAddr, Tree.addr, label_map, e, Frame.map] using this
  · rintro f fs s rfl
    simp [Nary.nav, Heap.read_of H.cell, Nary.rec_]

theorem Binary.searchable {α : Type} {h : BHeap α} {t : BTree (Addr × α)} (H : Binary.Rep h t) {T : Tree (Addr × α)}
    (hT : t.toRose = [T]) : Searchable (Binary.nav h) (fun a => do pure (← h.read a).value) T := by
  have hnd : T.addrs.Nodup := by
    have := BTree.preL_toRose t
    rw [hT] at this
    have h2 := H.2
    simp only [preL, List.append_nil] at this
    rw [addrs, this]; exact h2
  refine ⟨hnd, ?_, ?_, ?_, ?_⟩
  · rintro fs s hs
    obtain ⟨⟨n, h1, h2⟩, _⟩ := Binary.rose_focus H hT hs
    simp [Heap.read_of h1, h2]
  · rintro gs u fs s hu rfl
    rw [← plug_append] at hu
    exact (Binary.rose_focus H hT hu).2.1
  · rintro gs u fs s hu rfl
    have hu' := hu
    rw [← plug_append] at hu
    have := (Binary.rose_focus H hT hu).2.2.2.1
    cases fs with
    | nil => simp [Binary.nav, plug]
    | cons f fs =>
      have hne : s.addr ≠ (plug (f :: fs) s).addr := by
        refine Tree.addr_ne_of_plug_cons rfl ?_
        rw [← hu'] at hnd
        exact (List.nodup_append.mp ((Nary.addrs_plug gs _).nodup_iff.mp hnd)).2.1
      simp only [Binary.nav, Option.some.injEq, beq_iff_eq, hne, if_false]
      simpa using this
  · rintro f fs s hs
    obtain ⟨bs, p, l, r, h1, h2, rfl⟩ := BTree.plug_toRose hT hs
    cases bs with
    | nil => simp at h2
    | cons b bs =>
      rw [← h1] at H
      have hc := H.cell
      simp only [List.map_cons, List.cons.injEq] at h2
      have e : (node p (l.toRose ++ r.toRose)).addr = p.1 := rfl
      rw [e]
      simp [Binary.nav, Heap.read_of hc, h2.1, BTree.Frame.toRose]
