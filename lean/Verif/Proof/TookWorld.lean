import Verif.Proof.StarWorld
import Verif.Proof.Again
import Verif.Proof.Frame
/-! What a search with `star` remembers: the first nodes. -/
open Tree

namespace Pat
variable {α β : Type} {val : β → α} {addr : β → Nat} {m m' : Nat → Option Nat}

mutual
theorem took_fits : (p : Pat α) → (t : Tree β) → Took val addr m p t → Fits val p t
  | node i .one f ps, t, H => by
    simp only [Took, Fits] at H ⊢
    exact ⟨H.2.1, tookL_fits ps _ H.2.2⟩
  | node i .cpt f ps, t, H => by
    simp only [Took, Fits] at H ⊢
    exact tookL_fits ps _ H.2
  | node i (.opt q) f ps, t, H => by
    simp only [Took, Fits] at H ⊢
    rcases H.2 with ⟨h1, h2⟩ | ⟨-, h1, h2⟩
    · exact .inl ⟨h1, tookL_fits ps _ h2⟩
    · exact .inr ⟨h1, tookL_fits ps _ h2⟩
  | node i (.star q) f ps, t, H => by
    simp only [Took, Fits] at H ⊢
    rcases H.2 with ⟨h1, h2, h3⟩ | ⟨h1, h2⟩
    · exact .inl ⟨h1, fun hq => tookS_fits _ ps _ (h2 hq), fun hq => tookL_fits ps _ (h3 hq)⟩
    · exact .inr ⟨h1, tookL_fits ps _ h2⟩
theorem tookL_fits : (ps : List (Pat α)) → (ts : List (Tree β)) → TookL val addr m ps ts → FitsL val ps ts
  | [], _, _ => by simp [FitsL]
  | p :: ps, ts, H => by
    simp only [TookL, FitsL] at H ⊢
    obtain ⟨l, t, r, e, -, h1, h2⟩ := H
    exact ⟨l, t, r, e, took_fits p t h1, tookL_fits ps r h2⟩
theorem tookS_fits (f : β → Bool) : (ps : List (Pat α)) → (ts : List (Tree β)) → TookS val addr m f ps ts → FitsS val f ps ts
  | [], _, _ => by simp [FitsS]
  | p :: ps, ts, H => by
    simp only [TookS, FitsS] at H ⊢
    obtain ⟨t, r, e, h1, h2⟩ := H
    exact ⟨t, r, e.opens, took_fits p t h1, tookS_fits f ps r h2⟩
end

theorem took_mark {p : Pat α} {t : Tree β} (h : Took val addr m p t) : m p.id = some (addr t.label) := by
  obtain ⟨i, k, f, ps⟩ := p
  cases k <;> simp only [Took] at h <;> exact h.1

/-- A `star` of a sharp pattern stands for a node or not: only one of the two is possible. -/
theorem sharp_not {i : Nat} {q : Quantifier} {f : α → Bool} {ps : List (Pat α)} (hne : ps ≠ [])
    (h : q ≠ .possessive → ∀ a ∈ ps, ∀ t : Tree α, Fits (fun v => v) a t → f t.label = false) {t : Tree β}
    (h1 : q = .possessive → f (val t.label) = false) (h2 : FitsL val ps [t]) : f (val t.label) = false := by
  by_cases hq : q = .possessive
  · exact h1 hq
  · match ps, hne, h, h2 with
    | a :: ps, _, h, h2 =>
      simp only [FitsL] at h2
      obtain ⟨l, u, r, e, h3, -⟩ := h2
      cases l with
      | cons b l => simp at e
      | nil =>
        simp at e
        obtain ⟨rfl, -⟩ := e
        have := h hq a (by simp) (t.map val) ((fits_map a t).mpr h3)
        simpa using this

mutual
/-- The nodes remembered are fixed by the pattern and the tree. -/
theorem took_unique : (p : Pat α) → p.sharp → p.solid → (t : Tree β) → Took val addr m p t → Took val addr m' p t → ∀ i ∈ p.ids, m i = m' i
  | Pat.node i .one f ps, hs, hp, t, h, h', j, hj => by
    simp only [Took] at h h'
    simp only [solid] at hp
    simp only [ids_node, List.mem_cons] at hj
    have hs' : ∀ a q f' ps', Pat.node a (.star q) f' ps' ∈ preL ps → q ≠ .possessive → ∀ b ∈ ps', ∀ t : Tree α, Fits (fun v => v) b t → f' t.label = false :=
      fun a q f' ps' hm => hs a q f' ps' (by rw [Pat.pre_node]; simp [hm])
    rcases hj with rfl | hj
    · rw [h.1, h'.1]
    · exact tookL_unique ps hs' hp _ h.2.2 h'.2.2 j hj
  | Pat.node i .cpt f ps, hs, hp, t, h, h', j, hj => by
    simp only [Took] at h h'
    simp only [solid] at hp
    simp only [ids_node, List.mem_cons] at hj
    have hs' : ∀ a q f' ps', Pat.node a (.star q) f' ps' ∈ preL ps → q ≠ .possessive → ∀ b ∈ ps', ∀ t : Tree α, Fits (fun v => v) b t → f' t.label = false :=
      fun a q f' ps' hm => hs a q f' ps' (by rw [Pat.pre_node]; simp [hm])
    rcases hj with rfl | hj
    · rw [h.1, h'.1]
    · exact tookL_unique ps hs' hp.2 _ h.2 h'.2 j hj
  | Pat.node i (.opt q) f ps, hs, hp, t, h, h', j, hj => by
    simp only [Took] at h h'
    simp only [solid] at hp
    simp only [ids_node, List.mem_cons] at hj
    have hs' : ∀ a q f' ps', Pat.node a (.star q) f' ps' ∈ preL ps → q ≠ .possessive → ∀ b ∈ ps', ∀ t : Tree α, Fits (fun v => v) b t → f' t.label = false :=
      fun a q f' ps' hm => hs a q f' ps' (by rw [Pat.pre_node]; simp [hm])
    rcases hj with rfl | hj
    · rw [h.1, h'.1]
    · rcases h.2 with ⟨a, b⟩ | ⟨a, _, b⟩ <;> rcases h'.2 with ⟨a', b'⟩ | ⟨a', _, b'⟩
      · exact tookL_unique ps hs' hp.2 _ b b' j hj
      · exact absurd ⟨a, tookL_fits _ _ b⟩ a'
      · exact absurd ⟨a', tookL_fits _ _ b'⟩ a
      · exact tookL_unique ps hs' hp.2 _ b b' j hj
  | Pat.node i (.star q) f ps, hs, hp, t, h, h', j, hj => by
    simp only [Took] at h h'
    simp only [solid] at hp
    simp only [ids_node, List.mem_cons] at hj
    have hs' : ∀ a q f' ps', Pat.node a (.star q) f' ps' ∈ preL ps → q ≠ .possessive → ∀ b ∈ ps', ∀ t : Tree α, Fits (fun v => v) b t → f' t.label = false :=
      fun a q f' ps' hm => hs a q f' ps' (by rw [Pat.pre_node]; simp [hm])
    have h0 := hs i q f ps (by rw [Pat.pre_node]; simp)
    rcases hj with rfl | hj
    · rw [h.1, h'.1]
    · rcases h.2 with ⟨a, b, c⟩ | ⟨a, b⟩ <;> rcases h'.2 with ⟨a', b', c'⟩ | ⟨a', b'⟩
      · by_cases hq : q = .possessive
        · exact tookL_unique ps hs' hp.2 _ (c hq) (c' hq) j hj
        · exact tookS_unique _ ps hs' hp.2 _ (b hq) (b' hq) j hj
      · have := sharp_not (i := i) hp.1 h0 a' (tookL_fits _ _ b')
        rw [a] at this; cases this
      · have := sharp_not (i := i) hp.1 h0 a (tookL_fits _ _ b)
        rw [a'] at this; cases this
      · exact tookL_unique ps hs' hp.2 _ b b' j hj
theorem tookL_unique : (ps : List (Pat α)) →
    (∀ a q f' ps', Pat.node a (.star q) f' ps' ∈ preL ps → q ≠ .possessive → ∀ b ∈ ps', ∀ t : Tree α, Fits (fun v => v) b t → f' t.label = false) →
    solidL ps → (ts : List (Tree β)) → TookL val addr m ps ts → TookL val addr m' ps ts → ∀ i ∈ idsL ps, m i = m' i
  | [], _, _, _, _, _, j, hj => by simp at hj
  | p :: ps, hs, hp, ts, h, h', j, hj => by
    simp only [TookL] at h h'
    simp only [solidL] at hp
    obtain ⟨l, t, r, e, h1, h2, h3⟩ := h
    obtain ⟨l', t', r', e', h1', h2', h3'⟩ := h'
    obtain ⟨rfl, rfl⟩ := (First.false_iff.mpr ⟨l, e, h1⟩).unique (took_fits _ _ h2) (First.false_iff.mpr ⟨l', e', h1'⟩) (took_fits _ _ h2')
    simp only [idsL_cons, List.mem_append] at hj
    rcases hj with hj | hj
    · exact took_unique p (fun a q f' ps' hm => hs a q f' ps' (by simp [Pat.preL, hm])) hp.1 t h2 h2' j hj
    · exact tookL_unique ps (fun a q f' ps' hm => hs a q f' ps' (by simp [Pat.preL, hm])) hp.2 r h3 h3' j hj
theorem tookS_unique (g : β → Bool) : (ps : List (Pat α)) →
    (∀ a q f' ps', Pat.node a (.star q) f' ps' ∈ preL ps → q ≠ .possessive → ∀ b ∈ ps', ∀ t : Tree α, Fits (fun v => v) b t → f' t.label = false) →
    solidL ps → (ts : List (Tree β)) → TookS val addr m g ps ts → TookS val addr m' g ps ts → ∀ i ∈ idsL ps, m i = m' i
  | [], _, _, _, _, _, j, hj => by simp at hj
  | p :: ps, hs, hp, ts, h, h', j, hj => by
    simp only [TookS] at h h'
    simp only [solidL] at hp
    obtain ⟨t, r, h1, h2, h3⟩ := h
    obtain ⟨t', r', h1', h2', h3'⟩ := h'
    obtain ⟨rfl, rfl⟩ := h1.unique (took_fits _ _ h2) h1' (took_fits _ _ h2')
    simp only [idsL_cons, List.mem_append] at hj
    rcases hj with hj | hj
    · exact took_unique p (fun a q f' ps' hm => hs a q f' ps' (by simp [Pat.preL, hm])) hp.1 t h2 h2' j hj
    · exact tookS_unique g ps (fun a q f' ps' hm => hs a q f' ps' (by simp [Pat.preL, hm])) hp.2 r h3 h3' j hj
end
end Pat

namespace Search
open Pat
variable {α : Type} {nav : Ptr → Nav} {vl : Addr → Res α} {T : Tree (Addr × α)} {fuel : Nat} {R : Nat → Addr → Prop}

theorem search_took (S : Starable nav vl T) (hf : T.size < fuel) {p : Pat α} (hp : p.solid) (hn : p.ids.Nodup) {s s' : Memo}
    {gs u} (h : plug gs u = T) (hc : CutsOk T R p.pre s.cuts) (e : search nav vl fuel (some u.addr) p s = Res.ok (true, s')) :
    Took Prod.snd Prod.fst s'.marks p u := by
  obtain ⟨ok, s1, it', e1, O⟩ := this_spec (R := R) S hf p hp hn none (s.reset [p]) ⟨.fixed, some u.addr, some u.addr, []⟩ [u]
    (.at_ _ h) (by simp) (by simp)
  simp only [search, all_single, e1] at e
  cases e
  obtain ⟨t, r, g1, -, -, -, -, -, g2⟩ := O.found rfl
  obtain ⟨g3, g4⟩ := g2 hc (by simp)
  obtain ⟨l, g5⟩ := Opens.of_false g1
  cases l with
  | nil => simp at g5; rw [g5.1]; exact g4
  | cons a l => simp at g5

/-- A `star` that has not been used before goes below the node when it can. -/
theorem search_descends (S : Starable nav vl T) (hf : T.size < fuel) {i : Nat} {q : Quantifier} {f : α → Bool} {a : Pat α}
    (hq : q ≠ .possessive) (hp : (Pat.node i (.star q) f [a]).solid) (hs : (Pat.node i (.star q) f [a]).single)
    (hn : (Pat.node i (.star q) f [a]).ids.Nodup) {s : Memo} {gs u} (h : plug gs u = T) (hc : ∀ j, s.cuts j = none)
    (ht : f u.label.2 = true) (hfit : FitsS Prod.snd (fun b : Addr × α => f b.2) [a] u.children) :
    ∃ s', search nav vl fuel (some u.addr) (Pat.node i (.star q) f [a]) s = Res.ok (true, s') ∧ s'.marks i = some u.addr ∧
      TookS Prod.snd Prod.fst s'.marks (fun b : Addr × α => f b.2) [a] u.children := by
  have hnull := matchesNull_solid _ hp
  have hpn : prefersNull (Pat.node i (.star q) f [a]) = false := by simp [prefersNull, hnull]
  simp only [solid] at hp
  simp only [ids_node, List.nodup_cons] at hn
  obtain ⟨n, rfl⟩ : ∃ n, fuel = n + 1 := ⟨fuel - 1, by omega⟩
  have hv : vl u.addr = Res.ok u.label.2 := by
    have H : SOver s.cuts T (⟨.fixed, some u.addr, some u.addr, []⟩ : SIt α) [u] := .at_ _ h
    obtain ⟨-, hv, -⟩ := H.cons S (Nat.le_of_lt hf)
    exact hv
  generalize hs0 : s.reset [Pat.node i (.star q) f [a]] = s0
  have hc0 : s0.cuts = s.cuts := by rw [← hs0]; rfl
  obtain ⟨it2, e1, -, e3⟩ := target_spec S (Nat.le_of_lt hf) h i q f ht s0
  obtain ⟨w1, w2⟩ := e3 hq
  have hacc : accOf (s0.cuts i) f u.label = true := by
    rw [hc0, hc]; simp [accOf, ht]
  rw [if_pos hacc] at w2
  have hE : CutsOk T (fun _ _ => True) (preL [a]) s0.cuts := by
    rw [hc0]
    intro j q' f' ps hm hq'
    exact ⟨hs j q' f' ps (by rw [Pat.pre_node]; simp [hm]) hq', by simp [hc], by simp [hc]⟩
  have hsome : ∀ k, some i = some k → k ∉ idsL [a] := by rintro k ⟨⟩; exact hn.1
  obtain ⟨ok, s1, it', h1, O⟩ := all_spec (R := fun _ _ => True) S hf [a] hp.2 hn.2 (some i) (some i) s0 it2 _ w2 (by simp [w1]) hsome
    (by rintro k ⟨⟩; exact ⟨f, w1⟩)
  have O2 := O.missing
  have O3 := O.took
  rw [w1] at O2 O3
  have hcut : ∀ k (test : α → Bool) gs v, Walk.pre i f = .pre k test → plug gs v = T → s0.cuts k = some v.addr → FitsL Prod.snd [a] [v] := by
    intro k test gs v _ _ e
    rw [hc0, hc] at e; cases e
  cases ok with
  | false => exact absurd hfit (O2 rfl hE (.inr (by simp)) hcut)
  | true =>
    have key := O3 rfl hE (.inr (by simp)) hcut
    refine ⟨s1.mark i (some u.addr), ?_, set_same, ?_⟩
    · rw [all_single] at h1
      simp only [search, all_single, hs0, this, hpn, hnull, loop, hv, ht, e1, h1, Res.ok_bind, Bool.not_true, Bool.false_eq_true, if_false,
        hq, Bool.false_and, acknowledge, if_true, next, Res.pure_eq]
    · exact tookS_congr _ [a] _ (fun j hj => Simple.set_ne (fun e => hn.1 (e ▸ hj))) key
end Search

namespace World
open Pat Search
variable {ν α lit T V C : Type} {K : Kind ν α lit} {S : Shape K T V C} {value : ν → α} {rose : T → List (Tree (Addr × α))}
variable (RS : Rosy S value rose) {W : World ν} {ts : Nat → Option T} {x : Nat} {t : T}

include RS in
theorem search_took (L : Lawful S) (O : Owned S W ts) (hx : ts x = some t) {p : Pat α} (hp : p.solid) (hs : p.single) (hn : p.ids.Nodup)
    {s s' : Pattern.State} (H : SearchedIn S value ts p s) (e : W.search K value p s x = Res.ok (true, s')) :
    ∃ A, rose t = [A] ∧ Took Prod.snd Prod.fst s'.marks p A := by
  obtain ⟨ok, s1, e1, -, k1, -⟩ := search_star RS L O hx hp hn s
  cases e.symm.trans e1
  obtain ⟨A, h, -⟩ := k1 rfl
  refine ⟨A, h, ?_⟩
  have hc := cutsOk_of_searched RS L O hp hs hn H x t A hx h
  obtain ⟨r, _, h2, h3, _⟩ := O.get L hx
  obtain ⟨g1, S1, g2⟩ := RS.tree W ts x t A O hx h
  simp only [World.search, h2, Res.ok_bind, h3] at e
  rw [g1] at e
  rw [Res.bind_eq_ok] at e
  obtain ⟨⟨ok, m⟩, e2, e3⟩ := e
  simp only [Res.pure_eq, Res.ok.injEq, Prod.mk.injEq] at e3
  obtain ⟨rfl, rfl⟩ := e3
  exact Search.search_took S1 g2 hp hn (gs := []) (u := A) rfl hc e2
end World
