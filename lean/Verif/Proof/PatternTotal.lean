import Verif.Proof.PatternWorld
/-! The search for any pattern ends. -/
open Tree

set_option linter.unusedSimpArgs false

/-- What any search needs: nodes can be read, and following siblings run out. `R n a`: `a` is a node with at most `n`
following siblings. -/
structure Walkable {α : Type} (nav : Ptr → Nav) (val : Addr → Res α) (R : Nat → Addr → Prop) (N : Nat) : Prop where
  val : ∀ n a, R n a → ∃ v, val a = Res.ok v
  parent : ∀ n a, R n a → ∃ p, (nav none).parent a = Res.ok p
  first : ∀ n a r, R n a → ∃ p, (nav r).first a = Res.ok p ∧ ∀ b, p = some b → ∃ k < N, R k b
  next : ∀ n a r, R n a → ∃ p, (nav r).next a = Res.ok p ∧ ∀ b, p = some b → ∃ k, n = k + 1 ∧ R k b

namespace Simple
open Pat
variable {α : Type} {nav : Ptr → Nav} {vl : Addr → Res α} {R : Nat → Addr → Prop} {N fuel : Nat}

/-- A node or null. -/
def PtrIn (R : Nat → Addr → Prop) (N : Nat) (p : Ptr) : Prop := ∀ a, p = some a → ∃ n < N, R n a
def MarksIn (R : Nat → Addr → Prop) (N : Nat) (J : List Nat) (m : Marks) : Prop := ∀ i ∈ J, PtrIn R N (m i)

theorem ptrIn_none : PtrIn R N none := by intro a h; cases h

theorem loop_total (S : Walkable nav vl R N) {step : Marks → PIt → Addr → Res (Bool × Marks)} {i : Nat} {null : Bool} {b : PIt}
    {P : Marks → Prop} (hstep : ∀ m it n a, P m → n < N → R n a → ∃ ok m', step m it a = Res.ok (ok, m') ∧ P m')
    (hset : ∀ m n a, P m → n < N → R n a → P (m.set i (some a))) (hb : PtrIn R N b.cur) :
    ∀ (fuel : Nat) (m : Marks) (it : PIt), P m → (∀ a, it.cur = some a → ∃ n < N, n + 1 < fuel ∧ R n a) → 0 < fuel →
      ∃ ok m' it', loop nav step i null b fuel m it = Res.ok (ok, m', it') ∧ P m' ∧ PtrIn R N it'.cur := by
  intro fuel
  induction fuel with
  | zero => intro m it _ _ h; omega
  | succ fuel ih =>
    intro m it hP hit _
    rw [loop]
    cases hc : it.cur with
    | none =>
      cases null
      · exact ⟨false, m, it, rfl, hP, by rw [hc]; exact ptrIn_none⟩
      · exact ⟨true, m, b, rfl, hP, hb⟩
    | some a =>
      obtain ⟨n, hn, hf, hR⟩ := hit a hc
      obtain ⟨ok, m', e, hP'⟩ := hstep m it n a hP hn hR
      have hnx : ∃ it', next nav it a = Res.ok it' ∧ ∀ c, it'.cur = some c → ∃ k, n = k + 1 ∧ R k c := by
        rw [next]
        cases hfx : it.fixed
        · obtain ⟨p, e2, h2⟩ := S.next n a it.root hR
          exact ⟨{ it with cur := p }, by simp [e2, hfx], h2⟩
        · exact ⟨{ it with cur := none }, by simp [hfx], by simp⟩
      obtain ⟨it', e2, h2⟩ := hnx
      simp only [e, Res.ok_bind, e2]
      cases ok
      · refine ih m' it' hP' ?_ (by omega)
        intro c hc'
        obtain ⟨k, rfl, hk⟩ := h2 c hc'
        exact ⟨k, by omega, by omega, hk⟩
      · refine ⟨true, m'.set i (some a), it', rfl, hset _ n a hP' hn hR, ?_⟩
        intro c hc'
        obtain ⟨k, rfl, hk⟩ := h2 c hc'
        exact ⟨k, by omega, hk⟩

theorem childIt_total (S : Walkable nav vl R N) {it : PIt} {n a} (hR : R n a) :
    ∃ it', childIt nav it a = Res.ok it' ∧ PtrIn R N it'.cur := by
  rw [childIt]
  have hfin : ∀ r : Addr, ∃ it', (do pure ⟨false, some r, ← (nav (some r)).first a⟩ : Res PIt) = Res.ok it' ∧ PtrIn R N it'.cur := by
    intro r
    obtain ⟨p, e2, h2⟩ := S.first n a (some r) hR
    exact ⟨⟨false, some r, p⟩, by simp [e2], h2⟩
  cases it.fixed
  · obtain ⟨p, e⟩ := S.parent n a hR
    cases p with
    | none => simpa [e] using hfin a
    | some p => simpa [e] using hfin p
  · simpa using hfin a

/-- A capture remembers a node only if its argument does. -/
def Kept (m : Marks) (p : Pat α) : Prop := ∀ i f q, Pat.node i .cpt f [q] ∈ p.pre → m i ≠ none → m q.id ≠ none
def KeptL (m : Marks) (ps : List (Pat α)) : Prop := ∀ i f q, Pat.node i .cpt f [q] ∈ Pat.preL ps → m i ≠ none → m q.id ≠ none

theorem mem_ids {p q : Pat α} (h : q ∈ p.pre) : q.id ∈ p.ids := List.mem_map_of_mem h
theorem mem_idsL {ps : List (Pat α)} {q : Pat α} (h : q ∈ Pat.preL ps) : q.id ∈ idsL ps := List.mem_map_of_mem h

theorem self_mem (p : Pat α) : p ∈ p.pre := by cases p; simp [Pat.pre]

mutual
theorem pre_trans : (p q r : Pat α) → q ∈ p.pre → r ∈ q.pre → r ∈ p.pre
  | Pat.node i k f ps, q, r, hq, hr => by
    simp only [Pat.pre, List.mem_cons] at hq ⊢
    rcases hq with rfl | hq
    · simp only [Pat.pre, List.mem_cons] at hr; exact hr
    · exact .inr (preL_trans ps q r hq hr)
theorem preL_trans : (ps : List (Pat α)) → (q r : Pat α) → q ∈ Pat.preL ps → r ∈ q.pre → r ∈ Pat.preL ps
  | [], _, _, h, _ => by simp [Pat.preL] at h
  | p :: ps, q, r, hq, hr => by
    simp only [Pat.preL, List.mem_append] at hq ⊢
    rcases hq with hq | hq
    · exact .inl (pre_trans p q r hq hr)
    · exact .inr (preL_trans ps q r hq hr)
end

theorem mem_preL {ps : List (Pat α)} {p} (h : p ∈ ps) : p ∈ Pat.preL ps := by
  induction ps with
  | nil => simp at h
  | cons r ps ih =>
    simp only [Pat.preL, List.mem_append]
    rcases List.mem_cons.mp h with rfl | h
    · exact .inl (self_mem _)
    · exact .inr (ih h)

/-- The argument of a capture below `p` is below `p`. -/
theorem arg_mem {p : Pat α} {i f q} (h : Pat.node i .cpt f [q] ∈ p.pre) : q ∈ p.pre :=
  pre_trans _ _ _ h (by simp [Pat.pre, Pat.preL, self_mem])
theorem arg_memL {ps : List (Pat α)} {i f q} (h : Pat.node i .cpt f [q] ∈ Pat.preL ps) : q ∈ Pat.preL ps :=
  preL_trans _ _ _ h (by simp [Pat.pre, Pat.preL, self_mem])

theorem kept_congr {m m' : Marks} {p : Pat α} (h : ∀ i ∈ p.ids, m' i = m i) (K : Kept m p) : Kept m' p := by
  intro i f q hq hm
  rw [h i (mem_ids hq)] at hm
  rw [h q.id (mem_ids (arg_mem hq))]
  exact K i f q hq hm
theorem keptL_congr {m m' : Marks} {ps : List (Pat α)} (h : ∀ i ∈ idsL ps, m' i = m i) (K : KeptL m ps) : KeptL m' ps := by
  intro i f q hq hm
  rw [h i (mem_idsL hq)] at hm
  rw [h q.id (mem_idsL (arg_memL hq))]
  exact K i f q hq hm

theorem keptL_cons {m : Marks} {p : Pat α} {ps} : KeptL m (p :: ps) ↔ Kept m p ∧ KeptL m ps := by
  simp only [KeptL, Kept, Pat.preL, List.mem_append]
  grind

/-- A pattern without `star` where `cpt` has one argument. -/
def Basic (p : Pat α) : Prop := ∀ j k g qs, Pat.node j k g qs ∈ p.pre → (k = .cpt → qs.length = 1) ∧ ∀ q, k ≠ .star q

theorem Basic.of {p : Pat α} (h : p.formed) (h' : p.starless) : Basic p := by
  intro j k g qs hq
  exact ⟨by rintro rfl; exact h j g qs hq, by rintro q rfl; exact h' j q g qs hq⟩

theorem formed_sub {i k f} {ps : List (Pat α)} (h : Basic (Pat.node i k f ps)) :
    ∀ j k g qs, Pat.node j k g qs ∈ Pat.preL ps → (k = .cpt → qs.length = 1) ∧ ∀ q, k ≠ .star q := by
  intro j k g qs hq
  exact h j k g qs (by simp [Pat.pre, hq])

/-- What a search keeps. -/
structure Same (R : Nat → Addr → Prop) (N : Nat) (J : List Nat) (m m' : Marks) : Prop where
  inn : MarksIn R N J m'
  frame : ∀ j, j ∉ J → m' j = m j

theorem MarksIn.sub {J J' : List Nat} {m : Marks} (h : MarksIn R N J m) (hs : ∀ i ∈ J', i ∈ J) : MarksIn R N J' m :=
  fun i hi => h i (hs i hi)

theorem Same.of_sub {J J' : List Nat} {m m' : Marks} (S : Same R N J' m m') (h : MarksIn R N J m) : MarksIn R N J m' := by
  intro i hi
  by_cases hj : i ∈ J'
  · exact S.inn i hj
  · rw [S.frame i hj]; exact h i hi

theorem resetL_in {m : Marks} {ps : List (Pat α)} {J} (h : MarksIn R N J m) : MarksIn R N J (resetL ps m) := by
  intro i hi
  rw [resetL]
  split
  · exact ptrIn_none
  · exact h i hi

theorem set_in {m : Marks} {i : Nat} {p : Ptr} {J} (h : MarksIn R N J m) (hp : PtrIn R N p) : MarksIn R N J (m.set i p) := by
  intro j hj
  rw [Marks.set]
  split
  · exact hp
  · exact h j hj

theorem start_in {it : PIt} (h : PtrIn R N it.cur) (hf : N < fuel) : ∀ a, it.cur = some a → ∃ n < N, n + 1 < fuel ∧ R n a := by
  intro a ha
  obtain ⟨n, hn, hR⟩ := h a ha
  exact ⟨n, hn, by omega, hR⟩

mutual
theorem this_total (S : Walkable nav vl R N) (hf : N < fuel) : (p : Pat α) → Basic p → p.ids.Nodup → (m : Marks) → (it : PIt) →
    MarksIn R N p.ids m → Kept m p → PtrIn R N it.cur →
    ∃ ok m' it', this nav vl fuel p m it = Res.ok (ok, m', it') ∧ Same R N p.ids m m' ∧ Kept m' p ∧
      (m p.id ≠ none → m' p.id ≠ none) ∧ PtrIn R N it'.cur
  | Pat.node i .cpt f ps, hw, hn, m, it, hm, hk, hi => by
    obtain ⟨q, rfl⟩ := List.length_eq_one_iff.mp ((hw i _ f ps (self_mem _)).1 rfl)
    have hq : Basic q := fun j k g qs h => formed_sub hw j k g qs (by simpa [Pat.preL] using h)
    simp only [ids_node, idsL_cons, idsL_nil, List.append_nil, List.nodup_cons] at hn
    have hkq : Kept m q := fun j g r h => hk j g r (by simp [Pat.pre, Pat.preL, h])
    obtain ⟨ok, m', it', e, hS, hk', hmono, hi'⟩ := this_total S hf q hq hn.2 m it (hm.sub (by simp +contextual)) hkq hi
    have he : all nav vl fuel [q] m it = Res.ok (ok, m', it') := by
      cases ok <;> simp [all, e]
    simp only [this, he, Res.ok_bind]
    cases ok with
    | false =>
      refine ⟨false, m', it', rfl, ⟨hS.of_sub hm, fun j hj => hS.frame j (by simp at hj ⊢; exact hj.2)⟩, ?_, ?_, hi'⟩
      · intro j g r h hj
        simp only [Pat.pre, Pat.preL, List.append_nil, List.mem_cons] at h
        rcases h with h | h
        · cases h
          rw [hS.frame i hn.1] at hj
          exact hmono (hk i f q (self_mem _) hj)
        · exact hk' j g r h hj
      · intro hj; simp only [Pat.id] at hj ⊢
        rw [hS.frame i hn.1]; exact hj
    | true =>
      refine ⟨true, m'.set i (m' q.id), it', rfl, ⟨set_in (hS.of_sub hm) (hS.inn _ (id_mem q)), ?_⟩, ?_, ?_, hi'⟩
      · intro j hj
        simp at hj
        rw [set_ne hj.1]
        exact hS.frame j hj.2
      · have hqi : q.id ≠ i := fun e => hn.1 (e ▸ id_mem q)
        intro j g r h hj
        simp only [Pat.pre, Pat.preL, List.append_nil, List.mem_cons] at h
        rcases h with h | h
        · cases h
          rw [set_ne hqi]
          simpa [Marks.set] using hj
        · have hji : j ≠ i := fun e => hn.1 (e ▸ mem_ids h)
          have hri : r.id ≠ i := fun e => hn.1 (e ▸ mem_ids (arg_mem h))
          rw [set_ne hji] at hj
          rw [set_ne hri]
          exact hk' j g r h hj
      · intro hj
        simp only [Pat.id] at hj ⊢
        simp only [Marks.set, if_true]
        exact hmono (hk i f q (self_mem _) hj)
  | Pat.node i .one f ps, hw, hn, m, it, hm, hk, hi => by
    simp only [ids_node, List.nodup_cons] at hn
    have hkl : KeptL m ps := fun j g r h => hk j g r (by simp [Pat.pre, h])
    have hP : ∀ m', (Same R N (i :: idsL ps) m m' ∧ KeptL m' ps ∧ (m i ≠ none → m' i ≠ none)) →
        Same R N (Pat.node i .one f ps).ids m m' ∧ Kept m' (Pat.node i .one f ps) ∧ (m i ≠ none → m' i ≠ none) := by
      rintro m' ⟨h1, h2, h3⟩
      refine ⟨by simpa using h1, ?_, h3⟩
      intro j g r h hj
      simp only [Pat.pre, List.mem_cons] at h
      rcases h with h | h
      · cases h
      · exact h2 j g r h hj
    simp only [this]
    obtain ⟨ok, m', it', e, hp, hi'⟩ := loop_total S (i := i) (null := false) (b := it)
      (P := fun m' => Same R N (i :: idsL ps) m m' ∧ KeptL m' ps ∧ (m i ≠ none → m' i ≠ none))
      (step := fun m it a => do
        if !f (← vl a) then pure (false, m)
        else do
          let (ok, m, _) ← all nav vl fuel ps m (← childIt nav it a)
          pure (ok, m))
      (by
        intro m1 it1 n a ⟨h1, h2, h3⟩ hn1 hR
        obtain ⟨v, ev⟩ := S.val n a hR
        obtain ⟨itc, ec, hc⟩ := childIt_total S (it := it1) hR
        simp only [ev, Res.ok_bind, ec]
        cases f v
        · exact ⟨false, m1, rfl, h1, h2, h3⟩
        · obtain ⟨ok, m2, it2, e2, g1, g2, g3⟩ := all_total S hf ps (formed_sub hw) hn.2 m1 itc (h1.inn.sub (by simp +contextual)) h2 hc
          refine ⟨ok, m2, by simp [e2], ⟨g1.of_sub h1.inn, ?_⟩, g2, ?_⟩
          · intro j hj
            rw [g1.frame j (by simp at hj; exact hj.2), h1.frame j hj]
          · intro hj; rw [g1.frame i hn.1]; exact h3 hj)
      (by
        intro m1 n a ⟨h1, h2, h3⟩ hn1 hR
        refine ⟨⟨set_in h1.inn (by rintro b ⟨⟩; exact ⟨n, hn1, hR⟩), ?_⟩, ?_, by simp [Marks.set]⟩
        · intro j hj
          rw [set_ne (by simp at hj; exact hj.1)]; exact h1.frame j hj
        · exact keptL_congr (fun j hj => set_ne (fun e => hn.1 (e ▸ hj))) h2)
      hi fuel m it ⟨⟨by simpa using hm, fun _ _ => rfl⟩, hkl, fun h => h⟩ (start_in hi hf) (by omega)
    obtain ⟨h1, h2, h3⟩ := hP m' hp
    exact ⟨ok, m', it', e, h1, h2, h3, hi'⟩
  | Pat.node i (.opt q) f ps, hw, hn, m, it, hm, hk, hi => by
    simp only [ids_node, List.nodup_cons] at hn
    have hkl : KeptL m ps := fun j g r h => hk j g r (by simp [Pat.pre, h])
    have hP : ∀ m', (Same R N (i :: idsL ps) m m' ∧ KeptL m' ps ∧ (m i ≠ none → m' i ≠ none)) →
        Same R N (Pat.node i (.opt q) f ps).ids m m' ∧ Kept m' (Pat.node i (.opt q) f ps) ∧ (m i ≠ none → m' i ≠ none) := by
      rintro m' ⟨h1, h2, h3⟩
      refine ⟨by simpa using h1, ?_, h3⟩
      intro j g r h hj
      simp only [Pat.pre, List.mem_cons] at h
      rcases h with h | h
      · cases h
      · exact h2 j g r h hj
    simp only [this]
    cases prefersNull (Pat.node i (.opt q) f ps) with
    | true => exact ⟨true, m, it, rfl, ⟨hm, fun _ _ => rfl⟩, hk, fun h => h, hi⟩
    | false =>
    have key : ∀ m1 it1, (Same R N (i :: idsL ps) m m1 ∧ KeptL m1 ps ∧ (m i ≠ none → m1 i ≠ none)) → PtrIn R N it1.cur →
        ∃ ok m2 it2, all nav vl fuel ps m1 it1 = Res.ok (ok, m2, it2) ∧ Same R N (i :: idsL ps) m m2 ∧ KeptL m2 ps ∧ (m i ≠ none → m2 i ≠ none) := by
      intro m1 it1 ⟨h1, h2, h3⟩ hc
      obtain ⟨ok, m2, it2, e2, g1, g2, g3⟩ := all_total S hf ps (formed_sub hw) hn.2 m1 it1 (h1.inn.sub (by simp +contextual)) h2 hc
      refine ⟨ok, m2, it2, e2, ⟨g1.of_sub h1.inn, ?_⟩, g2, ?_⟩
      · intro j hj
        rw [g1.frame j (by simp at hj; exact hj.2), h1.frame j hj]
      · intro hj; rw [g1.frame i hn.1]; exact h3 hj
    obtain ⟨ok, m', it', e, hp, hi'⟩ := loop_total S (i := i) (null := matchesNull (Pat.node i (.opt q) f ps)) (b := it)
      (P := fun m' => Same R N (i :: idsL ps) m m' ∧ KeptL m' ps ∧ (m i ≠ none → m' i ≠ none))
      (step := fun m it a => do
        if !f (← vl a) then
          if childMaySteal ps then do
            let (ok, m, _) ← all nav vl fuel ps m ⟨true, it.root, some a⟩
            pure (ok, m)
          else pure (false, m)
        else do
          let (ok, m, _) ← all nav vl fuel ps m (← childIt nav it a)
          if !ok && q != .possessive && childMaySteal ps then do
            let (ok, m, _) ← all nav vl fuel ps m ⟨true, it.root, some a⟩
            pure (ok, m)
          else pure (ok, m))
      (by
        intro m1 it1 n a h1 hn1 hR
        obtain ⟨v, ev⟩ := S.val n a hR
        obtain ⟨itc, ec, hc⟩ := childIt_total S (it := it1) hR
        have ha : PtrIn R N (⟨true, it1.root, some a⟩ : PIt).cur := by rintro b ⟨⟩; exact ⟨n, hn1, hR⟩
        simp only [ev, Res.ok_bind, ec]
        cases f v
        · cases childMaySteal ps
          · exact ⟨false, m1, rfl, h1⟩
          · obtain ⟨ok, m2, it2, e2, g⟩ := key m1 _ h1 ha
            exact ⟨ok, m2, by simp [e2], g⟩
        · obtain ⟨ok, m2, it2, e2, g⟩ := key m1 _ h1 hc
          simp only [e2, Res.ok_bind, Bool.not_true, Bool.false_eq_true, if_false]
          cases hb : !ok && q != .possessive && childMaySteal ps
          · exact ⟨ok, m2, by simp, g⟩
          · obtain ⟨ok, m3, it3, e3, g⟩ := key m2 _ g ha
            exact ⟨ok, m3, by simp [e3], g⟩)
      (by
        intro m1 n a ⟨h1, h2, h3⟩ hn1 hR
        refine ⟨⟨set_in h1.inn (by rintro b ⟨⟩; exact ⟨n, hn1, hR⟩), ?_⟩, ?_, by simp [Marks.set]⟩
        · intro j hj
          rw [set_ne (by simp at hj; exact hj.1)]; exact h1.frame j hj
        · exact keptL_congr (fun j hj => set_ne (fun e => hn.1 (e ▸ hj))) h2)
      hi fuel m it ⟨⟨by simpa using hm, fun _ _ => rfl⟩, hkl, fun h => h⟩ (start_in hi hf) (by omega)
    obtain ⟨h1, h2, h3⟩ := hP m' hp
    exact ⟨ok, m', it', e, h1, h2, h3, hi'⟩
  | Pat.node i (.star q) f ps, hw, _, _, _, _, _, _ => absurd rfl ((hw i _ f ps (self_mem _)).2 q)
theorem all_total (S : Walkable nav vl R N) (hf : N < fuel) : (ps : List (Pat α)) →
    (∀ j k g qs, Pat.node j k g qs ∈ Pat.preL ps → (k = .cpt → qs.length = 1) ∧ ∀ q, k ≠ .star q) →
    (idsL ps).Nodup → (m : Marks) → (it : PIt) → MarksIn R N (idsL ps) m → KeptL m ps → PtrIn R N it.cur →
    ∃ ok m' it', all nav vl fuel ps m it = Res.ok (ok, m', it') ∧ Same R N (idsL ps) m m' ∧ KeptL m' ps ∧ PtrIn R N it'.cur
  | [], _, _, m, it, hm, hk, hi => ⟨true, m, it, by simp [all], ⟨hm, fun _ _ => rfl⟩, hk, hi⟩
  | p :: ps, hw, hn, m, it, hm, hk, hi => by
    simp only [idsL_cons] at hn ⊢
    obtain ⟨hn1, hn2, hn3⟩ := List.nodup_append.mp hn
    have hwp : Basic p := fun j k g qs h => hw j k g qs (by simp [Pat.preL, h])
    have hwps : ∀ j k g qs, Pat.node j k g qs ∈ Pat.preL ps → (k = .cpt → qs.length = 1) ∧ ∀ q, k ≠ .star q := fun j k g qs h => hw j k g qs (by simp [Pat.preL, h])
    obtain ⟨hk1, hk2⟩ := keptL_cons.mp hk
    obtain ⟨ok, m1, it1, e1, S1, K1, _, I1⟩ := this_total S hf p hwp hn1 m it (hm.sub (by simp +contextual)) hk1 hi
    have hm1 : MarksIn R N (p.ids ++ idsL ps) m1 := S1.of_sub (by simpa using hm)
    have K2 : KeptL m1 ps := keptL_congr (fun j hj => S1.frame j (fun h => hn3 j h j hj rfl)) hk2
    simp only [all, e1, Res.ok_bind]
    cases ok with
    | false =>
      refine ⟨false, m1, it1, by simp, ⟨hm1, fun j hj => S1.frame j (fun h => hj (by simp [h]))⟩, keptL_cons.mpr ⟨K1, K2⟩, I1⟩
    | true =>
      obtain ⟨ok, m2, it2, e2, S2, K3, I2⟩ := all_total S hf ps hwps hn2 m1 it1 (hm1.sub (by simp +contextual)) K2 I1
      have hm2 : MarksIn R N (p.ids ++ idsL ps) m2 := S2.of_sub hm1
      have K1' : Kept m2 p := kept_congr (fun j hj => S2.frame j (fun h => hn3 j hj j h rfl)) K1
      have hfr : ∀ j, j ∉ p.ids ++ idsL ps → m2 j = m j := by
        intro j hj
        simp at hj
        rw [S2.frame j hj.2, S1.frame j hj.1]
      simp only [Bool.not_true, Bool.false_eq_true, if_false, e2, Res.ok_bind]
      cases ok with
      | true => exact ⟨true, m2, it2, by simp, ⟨hm2, hfr⟩, keptL_cons.mpr ⟨K1', K3⟩, I2⟩
      | false =>
        simp only [Bool.false_eq_true, if_false]
        cases hb : p.matchesNull && (m2 p.id).isSome with
        | false => exact ⟨false, m2, it2, by simp, ⟨hm2, hfr⟩, keptL_cons.mpr ⟨K1', K3⟩, I2⟩
        | true =>
          have hres : ∀ j ∈ p.ids ++ idsL ps, resetL (p :: ps) m2 j = none := by
            intro j hj; simp [resetL, List.mem_append.mp hj]
          have hk0 : KeptL (resetL (p :: ps) m2) (p :: ps) := by
            intro j g r h hj
            exact absurd (hres j (by have := mem_idsL h; simpa [idsL_cons, Pat.id] using this)) hj
          obtain ⟨ok, m3, it3, e3, S3, K4, I3⟩ := all_total S hf ps hwps hn2 (resetL (p :: ps) m2) { it2 with cur := m2 p.id }
            (resetL_in (hm2.sub (by simp +contextual))) (keptL_cons.mp hk0).2 (hm2 p.id (by simp [id_mem]))
          refine ⟨ok, m3, it3, by simp only [if_true, e3], ⟨S3.of_sub (resetL_in hm2), ?_⟩, keptL_cons.mpr ⟨?_, K4⟩, I3⟩
          · intro j hj
            have := hj
            simp at hj
            rw [S3.frame j hj.2]
            simp only [resetL, idsL_cons, if_neg this]
            exact hfr j this
          · exact kept_congr (fun j hj => S3.frame j (fun h => hn3 j hj j h rfl)) (keptL_cons.mp hk0).1
end
end Simple

/-- The nodes of `T` by the number of their following siblings. -/
def NodeOf {α : Type} (T : Tree (Addr × α)) (n : Nat) (a : Addr) : Prop :=
  ∃ fs s, plug fs s = T ∧ s.addr = a ∧ (fs.head?.elim 0 (fun f => f.rights.length)) ≤ n

namespace NodeOf
variable {α : Type} {T : Tree (Addr × α)}

theorem lt_size {fs s} (h : plug fs s = T) : (fs.head?.elim 0 (fun f => f.rights.length)) < T.size := by
  cases fs with
  | nil => simpa using size_pos T
  | cons f fs =>
    have h1 := Simple.size_le_plug fs (node f.label (f.lefts ++ s :: f.rights))
    have h2 := Simple.length_le_sizeL f.rights
    simp only [plug] at h
    rw [h] at h1
    simp only [size_node, sizeL_append, sizeL_cons] at h1
    simp
    omega

theorem exists_of {fs s} (h : plug fs s = T) : ∃ k < T.size, NodeOf T k s.addr :=
  ⟨_, lt_size h, fs, s, h, rfl, Nat.le_refl _⟩

theorem of_first {fs s b} (h : plug fs s = T) (hb : headAddr s.children = some b) : ∃ k < T.size, NodeOf T k b := by
  obtain ⟨a, cs⟩ := s
  cases cs with
  | nil => simp [headAddr] at hb
  | cons c cs =>
    simp [headAddr] at hb
    subst hb
    exact exists_of (fs := ⟨a, [], cs⟩ :: fs) h

theorem of_next {fs : List (Frame (Addr × α))} {s b n} (h : plug fs s = T) (hn : (fs.head?.elim 0 (fun f => f.rights.length)) ≤ n)
    (hb : (fs.head?.bind (fun f => headAddr f.rights)) = some b) : ∃ k, n = k + 1 ∧ NodeOf T k b := by
  cases fs with
  | nil => simp at hb
  | cons f fs =>
    obtain ⟨a, l, r⟩ := f
    cases r with
    | nil => simp [headAddr] at hb
    | cons c r =>
      simp [headAddr] at hb hn
      subst hb
      refine ⟨n - 1, by omega, ⟨a, l ++ [s], r⟩ :: fs, c, ?_, rfl, by simp; omega⟩
      simp only [plug] at h ⊢
      rw [← h]; simp
end NodeOf

theorem Nary.walkable {α : Type} {h : NHeap α} {T : Tree (Addr × α)} (H : Nary.Rep h T) :
    Walkable (Nary.nav h) (fun a => do pure (← h.read a).value) (NodeOf T) T.size := by
  refine ⟨?_, ?_, ?_, ?_⟩
  · rintro n a ⟨fs, s, rfl, rfl, _⟩
    exact ⟨_, by rw [Heap.read_of H.cell]; rfl⟩
  · rintro n a ⟨fs, s, rfl, rfl, _⟩
    exact ⟨_, by simp only [Nary.nav]; rw [Heap.read_of H.cell]; rfl⟩
  · rintro n a r ⟨fs, s, rfl, rfl, _⟩
    refine ⟨_, by simp only [Nary.nav]; rw [Heap.read_of H.cell]; rfl, ?_⟩
    intro b hb
    exact NodeOf.of_first rfl hb
  · rintro n a r ⟨fs, s, rfl, rfl, hn⟩
    simp only [Nary.nav]
    rw [Heap.read_of H.cell]
    by_cases hr : (some s.addr == r) = true
    · exact ⟨none, by simp [hr], by simp⟩
    · refine ⟨fs.head?.bind (fun f => headAddr f.rights), ?_, fun b hb => NodeOf.of_next rfl hn hb⟩
      simp only [hr, if_false, Res.ok_bind, Bool.false_eq_true]
      cases fs <;> rfl

theorem Binary.walkable {α : Type} {h : BHeap α} {t : BTree (Addr × α)} (H : Binary.Rep h t) {T : Tree (Addr × α)}
    (hT : t.toRose = [T]) : Walkable (Binary.nav h) (fun a => do pure (← h.read a).value) (NodeOf T) T.size := by
  refine ⟨?_, ?_, ?_, ?_⟩
  · rintro n a ⟨fs, s, hs, rfl, _⟩
    obtain ⟨⟨c, h1, h2⟩, _⟩ := Binary.rose_focus H hT hs
    exact ⟨_, by rw [Heap.read_of h1]; rfl⟩
  · rintro n a ⟨fs, s, hs, rfl, _⟩
    obtain ⟨⟨c, h1, h2⟩, _⟩ := Binary.rose_focus H hT hs
    exact ⟨c.parent, by simp only [Binary.nav]; rw [Heap.read_of h1]; rfl⟩
  · rintro n a r ⟨fs, s, hs, rfl, _⟩
    exact ⟨_, (Binary.rose_focus H hT hs).2.1, fun b hb => NodeOf.of_first hs hb⟩
  · rintro n a r ⟨fs, s, hs, rfl, hn⟩
    simp only [Binary.nav]
    by_cases hr : (some s.addr == r) = true
    · exact ⟨none, by simp [hr], by simp⟩
    · refine ⟨_, by rw [if_neg hr, (Binary.rose_focus H hT hs).2.2.2.1], fun b hb => NodeOf.of_next hs hn hb⟩

namespace Simple
open Pat
variable {α : Type} {nav : Ptr → Nav} {vl : Addr → Res α} {T : Tree (Addr × α)} {fuel : Nat}

/-- Any search ends. -/
theorem search_ends {R : Nat → Addr → Prop} {N : Nat} (S : Walkable nav vl R N) (hf : N < fuel) {p : Pat α} (hp : Basic p) (hn : p.ids.Nodup)
    (m : Marks) {root : Ptr} (hr : PtrIn R N root) :
    ∃ ok m', search nav vl fuel root p m = Res.ok (ok, m') ∧ Kept m' p ∧ MarksIn R N p.ids m' := by
  have h0 : ∀ i ∈ p.ids, resetL [p] m i = none := by intro i hi; simp [resetL, hi]
  obtain ⟨ok, m', it', e, h1, h2, _⟩ := this_total S hf p hp hn (resetL [p] m) ⟨true, root, root⟩
    (by intro i hi; rw [h0 i hi]; exact ptrIn_none) (by intro i f q hq hm; exact absurd (h0 i (mem_ids hq)) hm) hr
  exact ⟨ok, m', by cases ok <;> simp [search, all, e], h2, h1.inn⟩

/-- Any search in `T`, or below a node of `T`, ends. -/
theorem search_total (S : Walkable nav vl (NodeOf T) T.size) (hf : T.size < fuel) {p : Pat α} (hp : Basic p) (hn : p.ids.Nodup)
    (m : Marks) {root : Ptr} (hr : ∀ a, root = some a → ∃ fs s, plug fs s = T ∧ s.addr = a) :
    ∃ ok m', search nav vl fuel root p m = Res.ok (ok, m') ∧ Kept m' p ∧
      ∀ i ∈ p.ids, ∀ a, m' i = some a → ∃ fs s, plug fs s = T ∧ s.addr = a := by
  obtain ⟨ok, m', e, h1, h2⟩ := search_ends S hf hp hn m (root := root) (by
      intro a ha
      obtain ⟨fs, s, h3, rfl⟩ := hr a ha
      exact NodeOf.exists_of h3)
  refine ⟨ok, m', e, h1, ?_⟩
  intro i hi a ha
  obtain ⟨n, _, fs, s, h3, h4, _⟩ := h2 i hi a ha
  exact ⟨fs, s, h3, h4⟩

theorem search_total_empty (hf : 0 < fuel) {p : Pat α} (hp : Basic p) (hn : p.ids.Nodup) (m : Marks) :
    ∃ ok m', search nav vl fuel none p m = Res.ok (ok, m') ∧ ∀ i ∈ p.ids, m' i = none := by
  obtain ⟨ok, m', e, _, h2⟩ := search_ends (R := fun _ _ => False) (N := 0) (nav := nav) (vl := vl)
    ⟨by simp, by simp, by simp, by simp⟩ hf hp hn m ptrIn_none
  refine ⟨ok, m', e, ?_⟩
  intro i hi
  cases h : m' i with
  | none => rfl
  | some a => obtain ⟨_, h3, _⟩ := h2 i hi a h; omega
end Simple

namespace Nary
open Pat
variable {α : Type} {m : Marks} {T : Tree (Addr × α)}

/-- What a matcher's result is, whatever it has matched in `T`. -/
def Sound (m : Marks) (T : Tree (Addr × α)) (p : Pat α) : Prop :=
  ∀ (h : NHeap α) a, h.WF → Readable NNode.value h T → Simple.Basic p → Simple.Kept m p →
    (∀ i ∈ p.ids, ∀ a, m i = some a → ∃ fs s, plug fs s = T ∧ s.addr = a) → m p.id = some a →
    ∃ h' c, Pattern.result (Nary.kind α) NNode.value (Nary.builder α) m p h = Res.ok (h', some c.addr) ∧
      Rep h' c ∧ (∀ x ∈ c.pre, ∃ y ∈ T.pre, x.2 = y.2) ∧ Grown h h' c.addrs

/-- The same for all of a list. -/
structure Known (m : Marks) (T : Tree (Addr × α)) (ps : List (Pat α)) : Prop where
  sound : ∀ p ∈ ps, Sound m T p
  formed : ∀ p ∈ ps, Simple.Basic p
  kept : ∀ p ∈ ps, Simple.Kept m p
  inn : ∀ p ∈ ps, ∀ i ∈ p.ids, ∀ a, m i = some a → ∃ fs s, plug fs s = T ∧ s.addr = a

theorem Known.tail {p : Pat α} {ps} (K : Known m T (p :: ps)) : Known m T ps :=
  ⟨fun q hq => K.sound q (by simp [hq]), fun q hq => K.formed q (by simp [hq]), fun q hq => K.kept q (by simp [hq]),
    fun q hq => K.inn q (by simp [hq])⟩

theorem Known.head {p : Pat α} {ps} (K : Known m T (p :: ps)) {h : NHeap α} {a} (hw : h.WF) (hR : Readable NNode.value h T)
    (hm : m p.id = some a) :
    ∃ h' c, Pattern.result (Nary.kind α) NNode.value (Nary.builder α) m p h = Res.ok (h', some c.addr) ∧
      Rep h' c ∧ (∀ x ∈ c.pre, ∃ y ∈ T.pre, x.2 = y.2) ∧ Grown h h' c.addrs :=
  K.sound p (by simp) h a hw hR (K.formed p (by simp)) (K.kept p (by simp)) (K.inn p (by simp)) hm

theorem resultL_total (ps : List (Pat α)) (K : Known m T ps) (h0 h : NHeap α) (r : Addr) (v : α)
    (cs : List (Tree (Addr × α))) (hw0 : h0.WF) (hR : Readable NNode.value h0 T) (G : Grown h0 h (node (r, v) cs).addrs)
    (H : Rep h (node (r, v) cs)) (hv : ∀ x ∈ (node (r, v) cs).pre, ∃ y ∈ T.pre, x.2 = y.2) :
    ∃ h' ds, Pattern.resultL (Nary.kind α) NNode.value (Nary.builder α) m r ps h = Res.ok h' ∧
      Rep h' (node (r, v) ds) ∧ (∀ x ∈ (node (r, v) ds).pre, ∃ y ∈ T.pre, x.2 = y.2) ∧
      Grown h0 h' (node (r, v) ds).addrs := by
  induction ps generalizing h cs with
  | nil => exact ⟨h, cs, by simp [Pattern.resultL], H, hv, G⟩
  | cons p ps ih =>
    cases hm : m p.id with
    | none =>
      obtain ⟨h', ds, e, h1, h2, h3⟩ := ih K.tail h cs G H hv
      exact ⟨h', ds, by simp [Pattern.resultL, hm, e], h1, h2, h3⟩
    | some a =>
      obtain ⟨h1, c1, e1, R1, V1, G1⟩ := K.head G.wf (hR.grown hw0 G) hm
      have H1 : Rep h1 (node (r, v) cs) := ⟨G1.holds G.wf H.1, H.2⟩
      have hd : ∀ a ∈ c1.addrs, a ∉ (plug [] (node (r, v) cs)).addrs := by
        intro a ha hm
        have h1 := G1.fresh a ha
        have h2 := G.fresh a hm
        grind
      obtain ⟨h2, e2, H2, hn2, hs2⟩ := append_spec (fs := []) (fuel := h1.fuel) H1 R1 hd (by
        have h1 := size_le G1.wf H1
        have h2 := Simple.length_le_sizeL cs
        simp only [size_node, Heap.fuel] at h1 ⊢; omega)
      simp only [plug] at H2 hs2
      have G2 : Grown h0 h2 (node (r, v) (cs ++ [c1])).addrs := by
        have := G.trans G1
        refine (this.modify hn2 ?_).congr ?_
        · intro a ha
          simp only [List.mem_append, not_or] at ha
          exact hs2 a ha.1 ha.2
        · intro x; simp [addrs_node, addrsL_append]
      obtain ⟨h3, ds, e3, H3, V3, G3⟩ := ih K.tail h2 (cs ++ [c1]) G2 H2 (by
        intro x hx
        simp only [Tree.pre_node, preL_append, preL_cons, preL_nil, List.append_nil, List.mem_cons, List.mem_append] at hx hv
        rcases hx with rfl | hx | hx
        · exact hv _ (.inl rfl)
        · exact hv _ (.inr hx)
        · exact V1 x hx)
      refine ⟨h3, ds, ?_, H3, V3, G3⟩
      simp only [Pattern.resultL, hm, e1, Res.ok_bind]
      have e2' : (Nary.builder α).attach h1 r c1.addr a = Res.ok h2 := e2
      simp only [deref, Res.pure_eq, Res.ok_bind, e2', e3]

theorem clone_total (ps : List (Pat α)) (K : Known m T ps) (h : NHeap α)
    {gs s} (hw : h.WF) (hR : Readable NNode.value h T) (hs : plug gs s = T) :
    ∃ h' c, (do
        let n ← h.read s.addr
        let (h, r) := h.alloc ((Nary.kind α).leaf (NNode.value n))
        let h ← Pattern.resultL (Nary.kind α) NNode.value (Nary.builder α) m r ps h
        pure (h, some r)) = Res.ok (h', some c.addr) ∧
      Rep h' c ∧ (∀ x ∈ c.pre, ∃ y ∈ T.pre, x.2 = y.2) ∧ Grown h h' c.addrs := by
  obtain ⟨n, hn, hv⟩ := hR gs s hs
  have hcell : (h.alloc (leaf n.value)).1.cells h.next = some (leaf n.value) := by simp [Heap.alloc]
  have hmem : s.label ∈ T.pre := by
    rw [← hs, pre_plug, pre_eq_cons s]; simp
  obtain ⟨h', ds, e, H, V, G⟩ := resultL_total (m := m) (T := T) ps K h (h.alloc (leaf n.value)).1 h.next
    n.value [] hw hR (by simpa [addrs_node] using grown_alloc hw (leaf n.value))
    ⟨by simp only [cells, headAddr, lastAddr]; simpa [leaf] using hcell, by simp [addrs_node]⟩
    (by intro x hx; simp at hx; subst hx; exact ⟨_, hmem, hv⟩)
  refine ⟨h', node (h.next, n.value) ds, ?_, H, V, G⟩
  simp only [Heap.read_of hn, Res.ok_bind]
  have e1 : (Nary.kind α).leaf n.value = leaf n.value := rfl
  have e2 : (h.alloc (leaf n.value)).2 = h.next := rfl
  rw [e1, e2, e]; rfl

theorem Grown.release {h0 h : NHeap α} {A B : List Addr} (G : Grown h0 h (A ++ B)) (hd : ∀ a ∈ A, a ∉ B) : Grown h0 (h.freeAll A) B := by
  refine ⟨?_, G.le, fun a ha => G.fresh a (by simp [ha]), ?_, ?_⟩
  · intro a ha
    simp only [Heap.freeAll_cells]
    split
    · rfl
    · exact G.wf a ha
  · intro a ha hb
    simp only [Heap.freeAll_cells]
    split
    · rfl
    · exact G.only a ha (by simp [*])
  · intro a ha
    simp only [Heap.freeAll_cells]
    split
    · next hm => have := G.fresh a (by simp [hm]); exact absurd this.1 (by grind)
    · exact G.same a ha

theorem stealL_total (ps : List (Pat α)) (K : Known m T ps) (a : Addr) (h0 h : NHeap α) (o : Option (Tree (Addr × α))) (hw0 : h0.WF)
    (hR : Readable NNode.value h0 T) (G : Grown h0 h (o.elim [] Tree.addrs)) (H : ∀ c, o = some c → Rep h c)
    (V : ∀ c, o = some c → ∀ x ∈ c.pre, ∃ y ∈ T.pre, x.2 = y.2) :
    ∃ h' b o', Pattern.stealL (Nary.kind α) NNode.value (Nary.builder α) m a (o.map Tree.addr) ps h = Res.ok (h', b, o'.map Tree.addr) ∧
      Grown h0 h' (o'.elim [] Tree.addrs) ∧ (∀ c, o' = some c → Rep h' c) ∧
      (∀ c, o' = some c → ∀ x ∈ c.pre, ∃ y ∈ T.pre, x.2 = y.2) ∧ (b = false → h' = h ∧ o' = o) ∧ (b = true ∨ o.isSome → o'.isSome) := by
  induction ps generalizing h o with
  | nil => exact ⟨h, false, o, by simp [Pattern.stealL], G, H, V, by simp, by simp⟩
  | cons p ps ih =>
    by_cases hm : m p.id = some a
    · obtain ⟨h1, c1, e1, R1, V1, G1⟩ := K.head G.wf (hR.grown hw0 G) hm
      have GG := G.trans G1
      have hd : ∀ x ∈ o.elim [] Tree.addrs, x ∉ c1.addrs := by
        intro x hx hc
        have h1 := G.fresh x hx
        have h2 := G1.fresh x hc
        grind
      have G2 : Grown h0 (h1.freeAll (o.elim [] Tree.addrs)) c1.addrs := Grown.release GG hd
      have R2 : Rep (h1.freeAll (o.elim [] Tree.addrs)) c1 :=
        ⟨holds_freeAll (by rw [keys_cells]; intro x hx hm; exact hd x hm hx) R1.1, R1.2⟩
      have e2 : (match o.map Tree.addr with
          | some _ => (Nary.kind α).dealloc h1.fuel h1 (o.map Tree.addr)
          | none => pure h1) = Res.ok (h1.freeAll (o.elim [] Tree.addrs)) := by
        cases o with
        | none => simp
        | some c =>
          have Hc : Rep h1 c := ⟨G1.holds G.wf (H c rfl).1, (H c rfl).2⟩
          have := size_le G1.wf Hc
          exact dealloc_spec Hc (by simp only [Heap.fuel]; omega)
      obtain ⟨h', b, o', e3, g1, g2, g3, g4, g5⟩ := ih K.tail (h1.freeAll (o.elim [] Tree.addrs)) (some c1) G2
        (by rintro c ⟨⟩; exact R2) (by rintro c ⟨⟩; exact V1)
      refine ⟨h', true, o', ?_, g1, g2, g3, by simp, fun _ => g5 (by simp)⟩
      have e3' : Pattern.stealL (Nary.kind α) NNode.value (Nary.builder α) m a (some c1.addr) ps (h1.freeAll (o.elim [] Tree.addrs)) =
        Res.ok (h', b, o'.map Tree.addr) := e3
      cases o with
      | none =>
        simp only [Option.map_none, Res.pure_eq, Res.ok.injEq] at e2
        rw [← e2] at e3'
        simp only [Pattern.stealL, hm, if_true, e1, Res.ok_bind, Option.map_none, Res.pure_eq, e3']
      | some c =>
        simp only [Option.map_some] at e2
        simp only [Pattern.stealL, hm, if_true, e1, Res.ok_bind, Option.map_some, Res.pure_eq, e2, e3']
    · obtain ⟨h', b, o', e3, g⟩ := ih K.tail h o G H V
      exact ⟨h', b, o', by simp [Pattern.stealL, hm, e3], g⟩

theorem result_total : ∀ p : Pat α, Sound m T p := by
  intro p
  induction p using Pat.ind with
  | h i k f ps ih =>
    intro h a hw hR hp hk hi hm
    simp only [Pat.id] at hm
    obtain ⟨gs, s, hs, rfl⟩ := hi i (by simp) a hm
    have hmem : ∀ p ∈ ps, ∀ q ∈ p.pre, q ∈ (Pat.node i k f ps).pre := by
      intro p hp q hq
      rw [Pat.pre_node]
      exact List.mem_cons_of_mem _ (Simple.preL_trans ps p q (Simple.mem_preL hp) hq)
    have K : Known m T ps := by
      refine ⟨ih, ?_, ?_, ?_⟩
      · intro p hp' j k g qs hq
        exact hp j k g qs (hmem p hp' _ hq)
      · intro p hp' j g q hq
        exact hk j g q (hmem p hp' _ hq)
      · intro p hp' j hj
        obtain ⟨q, hq, rfl⟩ := List.mem_map.mp hj
        exact hi q.id (Simple.mem_ids (hmem p hp' q hq))
    cases k with
    | star q => exact absurd rfl ((hp i _ f ps (Simple.self_mem _)).2 q)
    | one =>
      obtain ⟨h', c, e, r⟩ := clone_total ps K h hw hR hs
      exact ⟨h', c, by simp only [Pattern.result, hm]; exact e, r⟩
    | cpt =>
      obtain ⟨q, rfl⟩ := List.length_eq_one_iff.mp ((hp i _ f ps (Simple.self_mem _)).1 rfl)
      have := hk i f q (Simple.self_mem _) (by simp [hm])
      obtain ⟨b, hb⟩ := Option.ne_none_iff_exists'.mp this
      obtain ⟨h', c, e, r⟩ := K.head hw hR hb
      exact ⟨h', c, by simp only [Pattern.result, hm, Pattern.resultHead]; exact e, r⟩
    | opt q =>
      obtain ⟨h1, c1, e1, r1⟩ := clone_total ps K h hw hR hs
      simp only [Pattern.result, hm]
      cases childMaySteal ps with
      | false => exact ⟨h1, c1, by simpa using e1, r1⟩
      | true =>
        obtain ⟨h', b, o', e, g1, g2, g3, g4, g5⟩ := stealL_total ps K s.addr h h none hw hR
          (by simpa using (⟨hw, Nat.le_refl _, by simp, fun a ha _ => hw a ha, fun _ _ => rfl⟩ : Grown h h [])) (by simp) (by simp)
        simp only [Option.map_none] at e
        simp only [if_true, e, Res.ok_bind]
        cases b with
        | false =>
          obtain ⟨rfl, rfl⟩ := g4 rfl
          exact ⟨h1, c1, by simpa using e1, r1⟩
        | true =>
          obtain ⟨c, rfl⟩ := Option.isSome_iff_exists.mp (g5 (.inl rfl))
          exact ⟨h', c, by simp, g2 c rfl, g3 c rfl, g1⟩
end Nary

namespace Nary
open Pat
variable {α : Type} {W : World (NNode α)} {ts : Nat → Option (Option (Tree (Addr × α)))} {x y : Nat}

theorem search_total (O : Owned (Nary.shape α) W ts) {t} (hx : ts x = some t) {p : Pat α} (hp : p.formed) (hp' : p.starless) (hn : p.ids.Nodup)
    (s : Pattern.State) :
    ∃ ok s', W.search (Nary.kind α) NNode.value p s x = Res.ok (ok, s') ∧ s'.typed = (s.typed || ok) ∧ Simple.Kept s'.marks p ∧
      ∀ i ∈ p.ids, ∀ a, s'.marks i = some a → ∃ T fs u, t = some T ∧ plug fs u = T ∧ u.addr = a := by
  obtain ⟨r, _, h2, h3, _⟩ := O.get (Nary.lawful α) hx
  have H := O.rep x t hx
  cases t with
  | none =>
    have hr : r.root = none := by rw [h3]; rfl
    obtain ⟨ok, m', e, h4⟩ := Simple.search_total_empty (nav := Nary.nav W.heap) (vl := fun a => do pure (NNode.value (← W.heap.read a)))
      (fuel := W.heap.fuel) (by simp [Heap.fuel]) (.of hp hp') hn s.marks
    refine ⟨ok, ⟨⟨m', s.memo.cuts⟩, s.typed || ok⟩, ?_, rfl, ?_, ?_⟩
    · refine World.search_simple hp' s h2 ?_
      have e' : Simple.search ((Nary.kind α).nav W.heap) (fun a => do pure (NNode.value (← W.heap.read a))) W.heap.fuel none p s.marks = Res.ok (ok, m') := e
      rw [hr, e']
    · intro i f q hq hm; exact absurd (h4 i (Simple.mem_ids hq)) hm
    · intro i hi a ha; exact absurd ((h4 i hi).symm.trans ha) (by simp)
  | some T =>
    have HT : Rep W.heap T := H T rfl
    have hr : r.root = some T.addr := by rw [h3, shape_ptr]; rfl
    have hsz := size_le O.wf HT
    obtain ⟨ok, m', e, h4, h5⟩ := Simple.search_total (Nary.walkable HT) (fuel := W.heap.fuel) (by simp only [Heap.fuel]; omega) (.of hp hp') hn s.marks
      (root := some T.addr) (by rintro a ⟨⟩; exact ⟨[], T, rfl, rfl⟩)
    refine ⟨ok, ⟨⟨m', s.memo.cuts⟩, s.typed || ok⟩, ?_, rfl, h4, fun i hi a ha => ?_⟩
    · refine World.search_simple hp' s h2 ?_
      have e' : Simple.search ((Nary.kind α).nav W.heap) (fun a => do pure (NNode.value (← W.heap.read a))) W.heap.fuel (some T.addr) p s.marks = Res.ok (ok, m') := e
      rw [hr, e']
    · obtain ⟨fs, u, h6, h7⟩ := h5 i hi a ha
      exact ⟨T, fs, u, rfl, h6, h7⟩

/-- Assigning what a matcher remembers, whatever that is, as long as the tree it was found in is still there. -/
theorem assignPart_total (O : Owned (Nary.shape α) W ts) {t u} (hx : ts x = some t) (hy : ts y = some u) {q : Pat α}
    (hq : Simple.Basic q) {s : Pattern.State} (hs : s.typed = true) (hk : Simple.Kept s.marks q)
    (hi : ∀ i ∈ q.ids, ∀ a, s.marks i = some a → ∃ T fs v, t = some T ∧ plug fs v = T ∧ v.addr = a) :
    ∃ W' c, W.assignPart (Nary.kind α) NNode.value (Nary.builder α) q s y = Res.ok (true, W') ∧
      Owned (Nary.shape α) W' (upd ts y (some c)) ∧ (∀ z, z ≠ y → W'.vars z = W.vars z) ∧
      ∀ n, c = some n → (∀ a ∈ n.pre, ∃ T, t = some T ∧ ∃ b ∈ T.pre, a.2 = b.2) ∧ ∀ a ∈ n.addrs, W.heap.cells a = none := by
  obtain ⟨O1, M⟩ := (owned_match (Nary.lawful α)).mp O
  obtain ⟨rx, g1, g2, g3, _⟩ := O.get (Nary.lawful α) hy
  cases hm : s.marks q.id with
  | none =>
    obtain ⟨e2, O3⟩ := TreeOps.assign_spec (Nary.lawful α) (rs := 0) (ra := 0) O1 hy g3
    refine ⟨⟨W.heap.freeAll ((Nary.shape α).addrs u), upd W.vars y (some ⟨none, 0, 0, none⟩)⟩, none, ?_, (owned_match (Nary.lawful α)).mpr ⟨O3, match_upd (fun z _ => M z) (.some rfl rfl)⟩, ?_, by simp⟩
    · have e : Pattern.result (Nary.kind α) NNode.value (Nary.builder α) s.marks q W.heap = Res.ok (W.heap, none) := by
        obtain ⟨i, k, f, ps⟩ := q
        simp only [Pat.id] at hm
        cases k <;> simp [Pattern.result, hm]
      have : (Nary.shape α).ptr (Nary.shape α).nil = none := rfl
      rw [this] at e2
      simp only [World.assignPart, hs, e, Res.ok_bind, g2, Bool.not_true, Bool.false_eq_true, if_false]
      rw [e2]; rfl
    · intro z hz; simp [upd, hz]
  | some a =>
    obtain ⟨T, _, _, rfl, _, _⟩ := hi q.id (id_mem q) a hm
    have HT : Rep W.heap T := O.rep x _ hx T rfl
    obtain ⟨h', n, e, H, V, G⟩ := result_total (m := s.marks) (T := T) q W.heap a O.wf (readable HT) hq hk
      (fun i hi' a ha => by obtain ⟨T', fs, v, h1, h2⟩ := hi i hi' a ha; cases h1; exact ⟨fs, v, h2⟩) hm
    have G' : Grown W.heap h' ((Nary.shape α).addrs (some n)) := G.congr (by intro x; simp [shape_addrs])
    have O2 := O1.grow (Nary.lawful α) G' (by rw [shape_rep]; exact H)
    obtain ⟨e2, O3⟩ := TreeOps.assign_spec (Nary.lawful α) (rs := 0) (ra := 0) O2 hy g3
    refine ⟨⟨h'.freeAll ((Nary.shape α).addrs u), upd W.vars y (some ⟨some n.addr, 0, 0, some n.addr⟩)⟩, some n, ?_, (owned_match (Nary.lawful α)).mpr ⟨O3, match_upd (fun z _ => M z) (.some (by rw [shape_ptr]; rfl) (by rw [shape_ptr]; rfl))⟩, ?_, ?_⟩
    · rw [shape_ptr] at e2
      simp only [Option.map_some] at e2
      simp only [World.assignPart, hs, e, Res.ok_bind, g2, Bool.not_true, Bool.false_eq_true, if_false]
      rw [e2]; rfl
    · intro z hz; simp [upd, hz]
    · rintro _ ⟨⟩
      refine ⟨fun a ha => ⟨T, rfl, V a ha⟩, ?_⟩
      have := loose_fresh O O2
      simpa [shape_addrs] using this
end Nary

namespace Binary
open Pat
variable {α : Type} {W : World (BNode α)} {ts : Nat → Option (BTree (Addr × α))} {x y : Nat}

theorem search_total (O : Owned (Binary.shape α) W ts) {t} (hx : ts x = some t) {p : Pat α} (hp : p.formed) (hp' : p.starless) (hn : p.ids.Nodup)
    (s : Pattern.State) :
    ∃ ok s', W.search (Binary.kind α) BNode.value p s x = Res.ok (ok, s') ∧ s'.typed = (s.typed || ok) ∧
      ∀ i ∈ p.ids, ∀ a, s'.marks i = some a → a ∈ t.addrs := by
  obtain ⟨r, _, h2, h3, _⟩ := O.get (Binary.lawful α) hx
  have H : Rep W.heap t := O.rep x t hx
  have hsz := size_le O.wf H
  rw [shape_ptr'] at h3
  cases t with
  | nil =>
    obtain ⟨ok, m', e, h4⟩ := Simple.search_total_empty (nav := Binary.nav W.heap) (vl := fun a => do pure (BNode.value (← W.heap.read a)))
      (fuel := W.heap.fuel) (by simp [Heap.fuel]) (.of hp hp') hn s.marks
    refine ⟨ok, ⟨⟨m', s.memo.cuts⟩, s.typed || ok⟩, ?_, rfl, ?_⟩
    · refine World.search_simple hp' s h2 ?_
      have e' : Simple.search ((Binary.kind α).nav W.heap) (fun a => do pure (BNode.value (← W.heap.read a))) W.heap.fuel none p s.marks = Res.ok (ok, m') := e
      rw [h3, BTree.addr?_nil, e']
    · intro i hi a ha; exact absurd ((h4 i hi).symm.trans ha) (by simp)
  | node a l rr =>
    have hT : (BTree.node a l rr).toRose = [roseAt a l rr] := rfl
    have hsz' : (roseAt a l rr).size = (BTree.node a l rr).size := by
      have := size_toRose (BTree.node a l rr)
      rw [hT] at this
      simpa using this
    obtain ⟨ok, m', e, h4, h5⟩ := Simple.search_total (Binary.walkable H hT) (fuel := W.heap.fuel) (by rw [hsz']; simp only [Heap.fuel]; omega) (.of hp hp') hn s.marks
      (root := some a.1) (by rintro b ⟨⟩; exact ⟨[], roseAt a l rr, rfl, rfl⟩)
    refine ⟨ok, ⟨⟨m', s.memo.cuts⟩, s.typed || ok⟩, ?_, rfl, ?_⟩
    · refine World.search_simple hp' s h2 ?_
      have e' : Simple.search ((Binary.kind α).nav W.heap) (fun a => do pure (BNode.value (← W.heap.read a))) W.heap.fuel (some a.1) p s.marks = Res.ok (ok, m') := e
      rw [h3, BTree.addr?_node, e']
    · intro i hi b hb
      obtain ⟨fs, u, h6, rfl⟩ := h5 i hi b hb
      have := BTree.preL_toRose (BTree.node a l rr)
      rw [hT] at this
      simp only [preL_cons, preL_nil, List.append_nil] at this
      rw [BTree.addrs, ← this, ← h6, pre_plug, pre_eq_cons u]
      simp [Tree.addr]
end Binary
