import Verif.Proof.YieldsWorld
import Verif.Proof.StarSearch
/-! The result of a match is matched by the pattern, and is its own result. -/
open Tree

namespace Tree
variable {β γ : Type}

theorem Opens.map {g : β → γ} {f : γ → Bool} {us vs : List (Tree β)} (h : Opens (fun b => f (g b)) us vs) :
    Opens f (us.map (Tree.map g)) (vs.map (Tree.map g)) := by
  induction h with
  | refl us => exact .refl _
  | skip _ ih => exact .skip ih
  | @into t us vs h1 _ ih =>
    refine .into ?_ ?_
    · cases t; simpa using h1
    · cases t; simpa [mapL_eq] using ih

theorem Opens.unmap {g : β → γ} {f : γ → Bool} {us' vs' : List (Tree γ)} (h : Opens f us' vs') :
    ∀ us : List (Tree β), us' = us.map (Tree.map g) → ∃ vs, vs' = vs.map (Tree.map g) ∧ Opens (fun b => f (g b)) us vs := by
  induction h with
  | refl us' => intro us e; exact ⟨us, e, .refl _⟩
  | skip _ ih =>
    intro us e
    cases us with
    | nil => simp at e
    | cons u us =>
      simp only [List.map_cons, List.cons.injEq] at e
      obtain ⟨vs, h1, h2⟩ := ih us e.2
      exact ⟨vs, h1, .skip h2⟩
  | into h1 _ ih =>
    intro us e
    cases us with
    | nil => simp at e
    | cons u us =>
      simp only [List.map_cons, List.cons.injEq] at e
      obtain ⟨rfl, rfl⟩ := e
      cases u with
      | node a cs =>
        obtain ⟨vs, h2, h3⟩ := ih (cs ++ us) (by simp [mapL_eq])
        exact ⟨vs, h2, .into (by simpa using h1) h3⟩

mutual
theorem frontier_map (g : β → γ) (f : γ → Bool) : (t : Tree β) →
    frontier f (t.map g) = (frontier (fun b => f (g b)) t).map (Tree.map g)
  | .node a cs => by
    simp only [Tree.map, frontier]
    split
    · exact frontierL_map g f cs
    · simp
theorem frontierL_map (g : β → γ) (f : γ → Bool) : (ts : List (Tree β)) →
    frontierL f (mapL g ts) = (frontierL (fun b => f (g b)) ts).map (Tree.map g)
  | [] => rfl
  | t :: ts => by simp [mapL, frontierL, frontier_map g f t, frontierL_map g f ts]
end
end Tree

namespace Pat
variable {α β γ : Type} {val : β → α} {addr : β → Nat} {m : Nat → Option Nat}

theorem label_map (g : β → γ) (t : Tree β) : (t.map g).label = g t.label := by cases t; rfl
theorem children_map (g : β → γ) (t : Tree β) : (t.map g).children = t.children.map (Tree.map g) := by cases t; simp [mapL_eq]

/-- Whether a pattern matches depends on the values only. -/
theorem fits_map (p : Pat α) : ∀ t : Tree β, Fits (fun v : α => v) p (t.map val) ↔ Fits val p t := by
  induction p using Pat.ind with
  | h i k f ps ih =>
    intro t
    have hL : ∀ (ps' : List (Pat α)), (∀ p ∈ ps', p ∈ ps) → ∀ us : List (Tree β),
        FitsL (fun v : α => v) ps' (us.map (Tree.map val)) ↔ FitsL val ps' us := by
      intro ps'
      induction ps' with
      | nil => intro _ us; simp [FitsL]
      | cons p ps' ih' =>
        intro hm us
        simp only [FitsL]
        constructor
        · rintro ⟨l, t, r, e, h1, h2⟩
          obtain ⟨l', r', rfl, rfl, e2⟩ := List.map_eq_append_iff.mp e
          obtain ⟨t', r'', rfl, rfl, rfl⟩ := List.map_eq_cons_iff.mp e2
          exact ⟨l', t', r'', rfl, (ih p (hm p (by simp)) t').mp h1, (ih' (fun q hq => hm q (by simp [hq])) r'').mp h2⟩
        · rintro ⟨l, t, r, rfl, h1, h2⟩
          exact ⟨l.map (Tree.map val), t.map val, r.map (Tree.map val), by simp, (ih p (hm p (by simp)) t).mpr h1,
            (ih' (fun q hq => hm q (by simp [hq])) r).mpr h2⟩
    have hS : ∀ (ps' : List (Pat α)), (∀ p ∈ ps', p ∈ ps) → ∀ us : List (Tree β),
        FitsS (fun v : α => v) f ps' (us.map (Tree.map val)) ↔ FitsS val (fun b => f (val b)) ps' us := by
      intro ps'
      induction ps' with
      | nil => intro _ us; simp [FitsS]
      | cons p ps' ih' =>
        intro hm us
        simp only [FitsS]
        constructor
        · rintro ⟨t, r, e, h1, h2⟩
          obtain ⟨vs, e1, e2⟩ := e.unmap us rfl
          obtain ⟨t', r', rfl, rfl, rfl⟩ := List.map_eq_cons_iff.mp e1.symm
          exact ⟨t', r', e2, (ih p (hm p (by simp)) t').mp h1, (ih' (fun q hq => hm q (by simp [hq])) r').mp h2⟩
        · rintro ⟨t, r, e, h1, h2⟩
          exact ⟨t.map val, r.map (Tree.map val), e.map, (ih p (hm p (by simp)) t).mpr h1,
            (ih' (fun q hq => hm q (by simp [hq])) r).mpr h2⟩
    have h1 := hL ps (fun _ h => h) [t]
    have h2 := hL ps (fun _ h => h) t.children
    have h3 := hS ps (fun _ h => h) t.children
    have h4 := hL ps (fun _ h => h) (frontierL (fun b => f (val b)) t.children)
    simp only [List.map_cons, List.map_nil] at h1
    rw [← frontierL_map, mapL_eq] at h4
    cases k <;> simp only [Fits, label_map, children_map, h1, h2, h3, h4]

theorem fits_vals {t : Tree β} {val' : γ → α} {u : Tree γ} {p : Pat α} (h : t.map val = u.map val') : Fits val p t ↔ Fits val' p u := by
  rw [← fits_map, h, fits_map]

theorem yields_mark {p : Pat α} {t c : Tree β} (h : Yields val addr m p t c) : m p.id = some (addr t.label) := by
  obtain ⟨i, k, f, ps⟩ := p
  cases k <;> simp only [Yields] at h <;> exact h.1

theorem part_label {c t : Tree β} (h : Tree.Part c t) : c.label = t.label := by
  cases c; simp only [Tree.Part] at h; exact h.1

theorem yields_label {p : Pat α} {t c : Tree β} (h : Yields val addr m p t c) : c.label = t.label := part_label (yields_part p t c h)

theorem fitsS_into {f : β → Bool} {ps : List (Pat α)} {a : β} {ds cs : List (Tree β)} (ha : f a = true) (h : FitsS val f ps (ds ++ cs)) :
    FitsS val f ps (.node a ds :: cs) := fitsS_open (.into (t := .node a ds) ha (.refl _)) h

/-- The pattern of a `star` in what it keeps. -/
theorem kept_fits {q : Quantifier} {f : β → Bool} {n d us cs vs} (h : Tree.Kept q f n d us cs vs) (hq : q ≠ .possessive) :
    ∀ (ps1 ps2 : List (Pat α)) (rest : List (Tree β)), ps1.length = vs.length → (∀ x ∈ ps1.zip vs, Fits val x.1 x.2.2) →
      FitsS val f ps2 rest → FitsS val f (ps1 ++ ps2) (cs ++ rest) := by
  induction h with
  | nil =>
    intro ps1 ps2 rest hl _ h
    obtain rfl : ps1 = [] := by simpa using hl
    exact h
  | drop _ _ _ ih => exact ih
  | @stop d u c us cs vs _ _ _ ih =>
    intro ps1 ps2 rest hl hz h
    cases ps1 with
    | nil => simp at hl
    | cons p ps1 =>
      simp only [List.cons_append, FitsS]
      exact ⟨c, cs ++ rest, .refl _, hz (p, (u, c)) (by simp), ih ps1 ps2 rest (by simpa using hl) (fun x hx => hz x (by simp [hx])) h⟩
  | @pass d u ds ws us cs vs hf _ _ _ _ ih1 ih2 =>
    intro ps1 ps2 rest hl hz h
    refine fitsS_into hf ?_
    have e : ps1 = ps1.take ws.length ++ ps1.drop ws.length := (List.take_append_drop _ _).symm
    simp only [List.length_append] at hl
    have hl1 : (ps1.take ws.length).length = ws.length := by rw [List.length_take]; omega
    have hz' : ps1.zip (ws ++ vs) = (ps1.take ws.length).zip ws ++ (ps1.drop ws.length).zip vs := by
      conv => lhs; rw [e]
      exact List.zip_append hl1
    rw [e, List.append_assoc]
    refine ih1 _ _ _ hl1 (fun x hx => hz x (by rw [hz']; simp [hx])) ?_
    exact ih2 _ _ _ (by rw [List.length_drop]; omega) (fun x hx => hz x (by rw [hz']; simp [hx])) h

theorem fitsL_of_pairs {ps : List (Pat α)} {ts : List (Tree β)} (hl : ps.length = ts.length) (h : ∀ x ∈ ps.zip ts, Fits val x.1 x.2) :
    FitsL val ps ts := by
  induction ps generalizing ts with
  | nil => simp [FitsL]
  | cons p ps ih =>
    cases ts with
    | nil => simp at hl
    | cons t ts =>
      simp only [FitsL]
      exact ⟨[], t, ts, rfl, h (p, t) (by simp), ih (by simpa using hl) (fun x hx => h x (by simp [hx]))⟩

theorem kept_frontier {f : β → Bool} {n d us cs vs} (h : Tree.Kept .possessive f n d us cs vs) :
    (∀ v ∈ vs, v.2.label = v.1.label) → frontierL f cs = vs.map Prod.snd := by
  generalize hq : Quantifier.possessive = q at h
  induction h with
  | nil => intro _; rfl
  | drop _ _ _ ih => exact ih
  | @stop d u c us cs vs h1 _ _ ih =>
    intro hv
    have hc : f c.label = false := by rw [hv (u, c) (by simp)]; exact h1 hq.symm
    simp only [frontierL, List.map_cons]
    rw [ih (fun v h => hv v (by simp [h]))]
    cases c; simp only [label_node] at hc; simp [frontier, hc]
  | @pass d u ds ws us cs vs hf _ _ _ _ ih1 ih2 =>
    intro hv
    simp only [frontierL, frontier, hf, if_true, List.map_append]
    rw [ih1 (fun v h => hv v (by simp [h])), ih2 (fun v h => hv v (by simp [h]))]

/-- What a match gives is matched by the pattern. -/
theorem yields_fits (p : Pat α) : ∀ t c : Tree β, Yields val addr m p t c → Fits val p c := by
  induction p using Pat.ind with
  | h i k f ps ih =>
    intro t c h
    have hL : ∀ (ps' : List (Pat α)), (∀ p ∈ ps', p ∈ ps) → ∀ us cs : List (Tree β), YieldsL val addr m ps' us cs → FitsL val ps' cs := by
      intro ps'
      induction ps' with
      | nil => intro _ us cs _; simp [FitsL]
      | cons p ps' ih' =>
        intro hm us cs h
        simp only [YieldsL] at h
        obtain ⟨l, t, r, c, cs', rfl, rfl, h1, h2⟩ := h
        simp only [FitsL]
        exact ⟨[], c, cs', rfl, ih p (hm p (by simp)) t c h1, ih' (fun q hq => hm q (by simp [hq])) r cs' h2⟩
    have hP : ∀ (ps' : List (Pat α)), (∀ p ∈ ps', p ∈ ps) → ∀ vs : List (Tree β × Tree β), YieldsP val addr m ps' vs →
        ps'.length = vs.length ∧ (∀ x ∈ ps'.zip vs, Fits val x.1 x.2.2) ∧ ∀ v ∈ vs, v.2.label = v.1.label := by
      intro ps'
      induction ps' with
      | nil => intro _ vs h; simp only [YieldsP] at h; subst h; simp
      | cons p ps' ih' =>
        intro hm vs h
        simp only [YieldsP] at h
        obtain ⟨t, c, vs', rfl, h1, h2⟩ := h
        obtain ⟨k1, k2, k3⟩ := ih' (fun q hq => hm q (by simp [hq])) vs' h2
        refine ⟨by simp [k1], ?_, ?_⟩
        · intro x hx
          simp only [List.zip_cons_cons, List.mem_cons] at hx
          rcases hx with rfl | hx
          · exact ih p (hm p (by simp)) t c h1
          · exact k2 x hx
        · intro v hv
          rcases List.mem_cons.mp hv with rfl | hv
          · exact yields_label h1
          · exact k3 v hv
    have hl := yields_label h
    cases k with
    | one =>
      simp only [Yields] at h
      simp only [Fits, hl]
      exact ⟨h.2.2.1, hL ps (fun _ h => h) _ _ h.2.2.2⟩
    | cpt =>
      simp only [Yields] at h
      simp only [Fits]
      exact hL ps (fun _ h => h) _ _ h.2
    | opt q =>
      simp only [Yields] at h
      simp only [Fits, hl]
      rcases h.2 with h | h
      · exact .inl ⟨h.2.1, hL ps (fun _ h => h) _ _ h.2.2⟩
      · exact .inr ⟨h.1, hL ps (fun _ h => h) _ _ h.2⟩
    | star q =>
      simp only [Yields] at h
      simp only [Fits, hl]
      rcases h.2 with ⟨h1, h2, _, vs, h3, h4, _⟩ | h
      · refine .inl ⟨h2, ?_, ?_⟩
        · intro hq
          obtain ⟨k1, k2, k3⟩ := hP ps (fun _ h => h) vs h4
          have := kept_fits h3 hq ps [] [] k1 k2 (by simp [FitsS])
          simpa using this
        · intro hq
          subst hq
          obtain ⟨k1, k2, k3⟩ := hP ps (fun _ h => h) vs h4
          rw [kept_frontier h3 k3]
          refine fitsL_of_pairs (by simpa using k1) ?_
          intro x hx
          rw [List.zip_map_right] at hx
          obtain ⟨y, hy, rfl⟩ := List.mem_map.mp hx
          exact k2 y hy
      · exact .inr ⟨h.1, hL ps (fun _ h => h) _ _ h.2⟩

/-! ## Patterns without `star`: the result is its own result -/

theorem fitsL_of_part {ps : List (Pat α)} (ih : ∀ p ∈ ps, ∀ c t : Tree β, Tree.Part c t → Fits val p c → Fits val p t) :
    ∀ cs ts : List (Tree β), Tree.PartL cs ts → FitsL val ps cs → FitsL val ps ts := by
  have drop : ∀ (l : List (Tree β)) (t : Tree β) (r ts : List (Tree β)), Tree.PartL (l ++ t :: r) ts →
      ∃ l' t' r', ts = l' ++ t' :: r' ∧ Tree.Part t t' ∧ Tree.PartL r r' := by
    intro l
    induction l with
    | nil => intro t r ts h; simpa [Tree.PartL] using h
    | cons u l ihl =>
      intro t r ts h
      simp only [List.cons_append, Tree.PartL] at h
      obtain ⟨l0, t0, r0, rfl, -, h⟩ := h
      obtain ⟨l', t', r', rfl, h1, h2⟩ := ihl t r r0 h
      exact ⟨l0 ++ t0 :: l', t', r', by simp, h1, h2⟩
  induction ps with
  | nil => intro cs ts _ _; simp [FitsL]
  | cons p ps ih' =>
    intro cs ts hp h
    simp only [FitsL] at h ⊢
    obtain ⟨l, t, r, rfl, h1, h2⟩ := h
    obtain ⟨l', t', r', rfl, k1, k2⟩ := drop l t r ts hp
    exact ⟨l', t', r', rfl, ih p (by simp) t t' k1 h1, ih' (fun q hq => ih q (by simp [hq])) r r' k2 h2⟩

/-- A pattern without `star` that matches a part of a tree matches the tree. -/
theorem fits_of_part (p : Pat α) : p.plain → ∀ c t : Tree β, Tree.Part c t → Fits val p c → Fits val p t := by
  induction p using Pat.ind with
  | h i k f ps ih =>
    intro hp c t hc h
    have hl := part_label hc
    have hch : Tree.PartL c.children t.children := by cases c; simp only [Tree.Part] at hc; exact hc.2
    have hself : Tree.PartL [c] [t] := by simp only [Tree.PartL]; exact ⟨[], t, [], rfl, hc, trivial⟩
    cases k with
    | one =>
      simp only [plain] at hp
      have hL := fitsL_of_part (fun p hm => ih p hm (plainL_mem hp p hm))
      simp only [Fits] at h ⊢
      exact ⟨hl ▸ h.1, hL _ _ hch h.2⟩
    | cpt =>
      simp only [plain] at hp
      have hL := fitsL_of_part (fun p hm => ih p hm (plainL_mem hp.2 p hm))
      simp only [Fits] at h ⊢
      exact hL _ _ hself h
    | opt q =>
      simp only [plain] at hp
      have hL := fitsL_of_part (fun p hm => ih p hm (plainL_mem hp.2 p hm))
      simp only [Fits, hl] at h ⊢
      rcases h with h | h
      · exact .inl ⟨h.1, hL _ _ hch h.2⟩
      · exact .inr ⟨h.1, hL _ _ hself h.2⟩
    | star q => simp [plain] at hp

theorem mem_self (t : Tree β) : t.label ∈ t.pre := by cases t; simp [Tree.pre]

theorem yieldsL_length {ps : List (Pat α)} {us cs : List (Tree β)} (h : YieldsL val addr m ps us cs) : cs.length = ps.length := by
  induction ps generalizing us cs with
  | nil => simp only [YieldsL] at h; simp [h]
  | cons p ps ih =>
    simp only [YieldsL] at h
    obtain ⟨l, t, r, c, cs', -, rfl, -, h2⟩ := h
    simp [ih h2]

theorem yieldsL_le {ps : List (Pat α)} {us cs : List (Tree β)} (h : YieldsL val addr m ps us cs) : ps.length ≤ us.length := by
  induction ps generalizing us cs with
  | nil => simp
  | cons p ps ih =>
    simp only [YieldsL] at h
    obtain ⟨l, t, r, c, cs', rfl, rfl, -, h2⟩ := h
    have := ih h2
    simp; omega

theorem foundL_le {ps : List (Pat α)} {us : List (Tree β)} (h : FoundL val addr m ps us) : ps.length ≤ us.length := by
  induction ps generalizing us with
  | nil => simp
  | cons p ps ih =>
    simp only [FoundL] at h
    obtain ⟨l, t, r, rfl, -, -, h2⟩ := h
    have := ih h2
    simp; omega

/-- The same root is at one place of a list of subtrees only. -/
theorem place_unique {l l' r r' : List (Tree β)} {t t' : Tree β} (hn : ((Tree.preL (l ++ t :: r)).map addr).Nodup)
    (e : l ++ t :: r = l' ++ t' :: r') (h : addr t.label = addr t'.label) : t = t' ∧ r = r' := by
  induction l generalizing l' with
  | nil =>
    cases l' with
    | nil => simpa using e
    | cons u l' =>
      simp only [List.nil_append, List.cons_append, List.cons.injEq] at e
      obtain ⟨rfl, rfl⟩ := e
      exfalso
      simp only [List.nil_append, Tree.preL, List.map_append, List.nodup_append] at hn
      refine hn.2.2 (addr t.label) (List.mem_map_of_mem (mem_self t)) (addr t.label) ?_ rfl
      rw [h]
      refine List.mem_map_of_mem ?_
      rw [Tree.preL_eq, List.mem_flatMap]
      exact ⟨t', by simp, mem_self t'⟩
  | cons u l ih =>
    cases l' with
    | nil =>
      simp only [List.nil_append, List.cons_append, List.cons.injEq] at e
      obtain ⟨rfl, rfl⟩ := e
      exfalso
      simp only [List.cons_append, Tree.preL, List.map_append, List.nodup_append] at hn
      refine hn.2.2 (addr u.label) (List.mem_map_of_mem (mem_self u)) (addr u.label) ?_ rfl
      rw [← h]
      refine List.mem_map_of_mem ?_
      rw [Tree.preL_eq, List.mem_flatMap]
      exact ⟨t, by simp, mem_self t⟩
    | cons u' l' =>
      simp only [List.cons_append, List.cons.injEq] at e
      obtain ⟨rfl, e⟩ := e
      simp only [List.cons_append, Tree.preL, List.map_append, List.nodup_append] at hn
      exact ih hn.2.1 e

theorem nodupL_mid {l r : List (Tree β)} {t : Tree β} (hn : ((Tree.preL (l ++ t :: r)).map addr).Nodup) :
    (t.pre.map addr).Nodup ∧ ((Tree.preL r).map addr).Nodup := by
  induction l with
  | nil =>
    simp only [List.nil_append, Tree.preL, List.map_append, List.nodup_append] at hn
    exact ⟨hn.1, hn.2.1⟩
  | cons u l ih =>
    simp only [List.cons_append, Tree.preL, List.map_append, List.nodup_append] at hn
    exact ih hn.2.1

theorem foundL_first {p : Pat α} {ps : List (Pat α)} {us : List (Tree β)} (h : FoundL val addr m (p :: ps) us) :
    ∃ t ∈ us, m p.id = some (addr t.label) := by
  simp only [FoundL] at h
  obtain ⟨l, t, r, rfl, -, h1, -⟩ := h
  exact ⟨t, by simp, found_mark h1⟩

theorem yieldsL_first {p : Pat α} {ps : List (Pat α)} {us cs : List (Tree β)} (h : YieldsL val addr m (p :: ps) us cs) :
    ∃ t ∈ us, m p.id = some (addr t.label) := by
  simp only [YieldsL] at h
  obtain ⟨l, t, r, c, cs', rfl, -, h1, -⟩ := h
  exact ⟨t, by simp, yields_mark h1⟩

/-- A node is not its own child. -/
theorem child_ne {t u : Tree β} (hn : (t.pre.map addr).Nodup) (hu : u ∈ t.children) : addr u.label ≠ addr t.label := by
  cases t with
  | node a cs =>
    simp only [Tree.pre, List.map_cons, List.nodup_cons] at hn
    intro e
    refine hn.1 ?_
    simp only [label_node] at e
    rw [← e]
    refine List.mem_map_of_mem ?_
    rw [Tree.preL_eq, List.mem_flatMap]
    exact ⟨u, hu, mem_self u⟩

theorem modes_agree {ps : List (Pat α)} {t : Tree β} (hn : (t.pre.map addr).Nodup) {P Q : List (Pat α) → List (Tree β) → Prop}
    (hP : ∀ p ps us, P (p :: ps) us → ∃ t ∈ us, m p.id = some (addr t.label))
    (hQ : ∀ p ps us, Q (p :: ps) us → ∃ t ∈ us, m p.id = some (addr t.label)) (hne : ps ≠ []) :
    P ps t.children → Q ps [t] → False := by
  intro h1 h2
  cases ps with
  | nil => exact hne rfl
  | cons p ps =>
    obtain ⟨u, hu, e1⟩ := hP _ _ _ h1
    obtain ⟨v, hv, e2⟩ := hQ _ _ _ h2
    obtain rfl := List.mem_singleton.mp hv
    rw [e1] at e2
    exact child_ne hn hu (Option.some.inj e2)

theorem yields_again {γ : Type} {val' : γ → α} {addr' : γ → Nat} {m' : Nat → Option Nat} (p : Pat α) : p.plain →
    ∀ (t c : Tree β) (n d : Tree γ), (t.pre.map addr).Nodup → (n.pre.map addr').Nodup → Found val addr m p t → Yields val addr m p t c →
      c.map val = n.map val' → Found val' addr' m' p n → Yields val' addr' m' p n d → d = n := by
  induction p using Pat.ind with
  | h i k f ps ih =>
    intro hp t c n d hnt hnn hF hY hv hF' hY'
    have hL : ∀ (ps' : List (Pat α)), (∀ p ∈ ps', p ∈ ps) → plainL ps' → ∀ (us cs : List (Tree β)) (ns ds : List (Tree γ)),
        ((Tree.preL us).map addr).Nodup → ((Tree.preL ns).map addr').Nodup → FoundL val addr m ps' us → YieldsL val addr m ps' us cs →
        cs.map (Tree.map val) = ns.map (Tree.map val') → FoundL val' addr' m' ps' ns → YieldsL val' addr' m' ps' ns ds → ds = ns := by
      intro ps'
      induction ps' with
      | nil =>
        intro _ _ us cs ns ds _ _ _ h1 h2 _ h3
        simp only [YieldsL] at h1 h3
        subst h1 h3
        simpa using h2
      | cons p ps' ih' =>
        intro hm hpl us cs ns ds hu hns k1 k2 k3 k4 k5
        simp only [plainL] at hpl
        have len1 := yieldsL_length k2
        have len2 : cs.length = ns.length := by simpa using congrArg List.length k3
        simp only [FoundL] at k1 k4
        simp only [YieldsL] at k2 k5
        obtain ⟨l, t, r, rfl, -, a1, a2⟩ := k1
        obtain ⟨l', t', r', c, cs', e, rfl, b1, b2⟩ := k2
        have hmark : addr t.label = addr t'.label := Option.some.inj ((found_mark a1).symm.trans (yields_mark b1))
        obtain ⟨rfl, rfl⟩ := place_unique hu e hmark
        obtain ⟨l2, t2, r2, rfl, -, c1, c2⟩ := k4
        obtain ⟨l3, t3, r3, d, ds', e', rfl, d1, d2⟩ := k5
        have := foundL_le c2
        have := yieldsL_le d2
        have el2 : l2 = [] := by
          apply List.eq_nil_of_length_eq_zero
          simp at len1 len2; omega
        have el3 : l3 = [] := by
          apply List.eq_nil_of_length_eq_zero
          have := congrArg List.length e'
          simp at len1 len2 this; omega
        subst el2 el3
        simp only [List.nil_append, List.cons.injEq] at e'
        obtain ⟨rfl, rfl⟩ := e'
        simp only [List.map_cons, List.nil_append, List.cons.injEq] at k3
        obtain ⟨n1, n2⟩ := nodupL_mid hu
        obtain ⟨n3, n4⟩ := nodupL_mid hns
        rw [ih p (hm p (by simp)) hpl.1 t c t2 d n1 n3 a1 b1 k3.1 c1 d1,
          ih' (fun q hq => hm q (by simp [hq])) hpl.2 r cs' r2 ds' n2 n4 a2 b2 k3.2 c2 d2]
        rfl
    have ndc : ∀ {δ : Type} {ad : δ → Nat} {t : Tree δ}, (t.pre.map ad).Nodup → ((Tree.preL t.children).map ad).Nodup := by
      intro δ ad t h; cases t; simp only [Tree.pre, List.map_cons, List.nodup_cons] at h; exact h.2
    have nds : ∀ {δ : Type} {ad : δ → Nat} {t : Tree δ}, (t.pre.map ad).Nodup → ((Tree.preL [t]).map ad).Nodup := by
      intro δ ad t h; simpa [Tree.preL] using h
    have hvc : c.children.map (Tree.map val) = n.children.map (Tree.map val') := by
      rw [← children_map val, ← children_map val', hv]
    have hvs : [c].map (Tree.map val) = [n].map (Tree.map val') := by simp [hv]
    have hd := yields_label hY'
    have hc := yields_label hY
    have hvl : val c.label = val' n.label := by rw [← label_map val, ← label_map val', hv]
    have eta : ∀ {δ : Type} {a b : Tree δ}, a.label = b.label → a.children = b.children → a = b := by
      intro δ a b h1 h2; cases a; cases b; simp at h1 h2; rw [h1, h2]
    cases k with
    | one =>
      simp only [plain] at hp
      simp only [Found] at hF hF'
      simp only [Yields] at hY hY'
      exact eta hd (hL ps (fun _ h => h) hp _ _ _ _ (ndc hnt) (ndc hnn) hF.2.2 hY.2.2.2 hvc hF'.2.2 hY'.2.2.2)
    | cpt =>
      simp only [plain] at hp
      simp only [Found] at hF hF'
      simp only [Yields] at hY hY'
      simpa using hL ps (fun _ h => h) hp.2 _ _ _ _ (nds hnt) (nds hnn) hF.2 hY.2 hvs hF'.2 hY'.2
    | opt q =>
      simp only [plain] at hp
      have hpart := yields_part _ _ _ hY
      have fit : FitsL val ps c.children ↔ FitsL val' ps n.children := by
        have h1 := fits_vals (p := Pat.node i .one (fun _ => true) ps) hv
        simpa [Fits] using h1
      have mono : FitsL val ps c.children → FitsL val ps t.children :=
        fitsL_of_part (fun p hm => fits_of_part p (plainL_mem hp.2 p hm)) _ _
          (by cases c; simp only [Tree.Part] at hpart; exact hpart.2)
      have yfit : YieldsL val addr m ps t.children c.children → FitsL val ps c.children := by
        intro h
        have key : ∀ (ps' : List (Pat α)) (us cs : List (Tree β)), YieldsL val addr m ps' us cs → FitsL val ps' cs := by
          intro ps'
          induction ps' with
          | nil => intro us cs _; simp [FitsL]
          | cons p ps' ih' =>
            intro us cs h
            simp only [YieldsL] at h
            obtain ⟨l, t, r, c, cs', rfl, rfl, h1, h2⟩ := h
            simp only [FitsL]
            exact ⟨[], c, cs', rfl, yields_fits p t c h1, ih' r cs' h2⟩
        exact key _ _ _ h
      simp only [Found] at hF hF'
      simp only [Yields] at hY hY'
      have fF := fun p ps us => @foundL_first _ _ val addr m p ps us
      have fF' := fun p ps us => @foundL_first _ _ val' addr' m' p ps us
      have fY := fun p ps us => @yieldsL_first _ _ val addr m p ps us
      have fY' := fun p ps us => @yieldsL_first _ _ val' addr' m' p ps us
      rcases hF.2 with hF1 | hF1 <;> rcases hY.2 with hY1 | hY1 <;> rcases hF'.2 with hF2 | hF2 <;> rcases hY'.2 with hY2 | hY2
      · exact eta hd (hL ps (fun _ h => h) hp.2 _ _ _ _ (ndc hnt) (ndc hnn) hF1.2 hY1.2.2 hvc hF2.2 hY2.2.2)
      · exact (modes_agree (P := FoundL val' addr' m') (Q := fun ps us => YieldsL val' addr' m' ps us [d]) hnn fF'
          (fun p ps us h => fY' p ps us h) hp.1 hF2.2 hY2.2).elim
      · exact absurd ⟨by rw [← hvl, hc]; exact hF1.1, fit.mp (yfit hY1.2.2)⟩ hF2.1
      · exact absurd ⟨by rw [← hvl, hc]; exact hF1.1, fit.mp (yfit hY1.2.2)⟩ hF2.1
      all_goals first
        | exact (modes_agree (P := FoundL val addr m) (Q := fun ps us => YieldsL val addr m ps us [c]) hnt fF
            (fun p ps us h => fY p ps us h) hp.1 hF1.2 hY1.2).elim
        | exact (modes_agree (P := fun ps us => YieldsL val addr m ps us c.children) (Q := FoundL val addr m) hnt
            (fun p ps us h => fY p ps us h) fF hp.1 hY1.2.2 hF1.2.2).elim
        | exact (modes_agree (P := fun ps us => YieldsL val' addr' m' ps us d.children) (Q := FoundL val' addr' m') hnn
            (fun p ps us h => fY' p ps us h) fF' hp.1 hY2.2.2 hF2.2.2).elim
        | exact absurd ⟨by rw [← hc, hvl]; exact hF2.1, mono (fit.mpr (foundL_fits _ _ hF2.2))⟩ hF1.1
        | simpa using hL ps (fun _ h => h) hp.2 _ _ _ _ (nds hnt) (nds hnn) hF1.2.2 hY1.2 hvs hF2.2.2 hY2.2
    | star q => simp [plain] at hp

end Pat
