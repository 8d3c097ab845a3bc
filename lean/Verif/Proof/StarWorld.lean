import Verif.Proof.StarSearch
import Verif.Proof.PatternWorld
import Verif.Spec.Searched
/-! Searching the trees of a program state with patterns that contain `star`. -/
open Tree

set_option linter.unusedSimpArgs false

namespace Search
open Pat
variable {α : Type} {nav : Ptr → Nav} {vl : Addr → Res α} {T : Tree (Addr × α)} {fuel : Nat}

/-- Searching below any node `u` of the tree. -/
theorem search_spec (S : Starable nav vl T) (hf : T.size < fuel) {p : Pat α} (hp : p.solid) (hn : p.ids.Nodup) (s : Memo)
    {gs u} (h : plug gs u = T) :
    ∃ ok s', search nav vl fuel (some u.addr) p s = Res.ok (ok, s') ∧
      (∀ j, j ∉ p.ids → s'.marks j = s.marks j ∧ s'.cuts j = s.cuts j) ∧
      (∀ R, CutsOk T R p.pre s.cuts → CutsOk T R p.pre s'.cuts) ∧
      (ok = true → Placed Prod.snd Prod.fst s'.marks p u) ∧
      (ok = false → s'.marks p.id = none ∧ ∀ R, CutsOk T R p.pre s.cuts → ¬ Fits Prod.snd p u) := by
  have key : ∀ R, ∃ ok s', search nav vl fuel (some u.addr) p s = Res.ok (ok, s') ∧
      (∀ j, j ∉ p.ids → s'.marks j = s.marks j ∧ s'.cuts j = s.cuts j) ∧
      (CutsOk T R p.pre s.cuts → CutsOk T R p.pre s'.cuts) ∧
      (ok = true → Placed Prod.snd Prod.fst s'.marks p u) ∧
      (ok = false → s'.marks p.id = none ∧ (CutsOk T R p.pre s.cuts → ¬ Fits Prod.snd p u)) := by
    intro R
    obtain ⟨ok, s', it', e, O⟩ := this_spec (R := R) S hf p hp hn none (s.reset [p]) ⟨.fixed, some u.addr, some u.addr, []⟩ [u]
      (.at_ _ h) (by simp) (by simp)
    refine ⟨ok, s', ?_, ?_, O.keep, ?_, ?_⟩
    · simp only [search, all_single, e]; rfl
    · intro j hj
      refine ⟨?_, by rw [O.cuts j hj (by simp)]; rfl⟩
      rw [O.marks j hj]
      simp [Memo.reset, resetL, hj]
    · intro hok
      obtain ⟨t, r, g1, -, g3, -⟩ := O.found hok
      obtain ⟨l, g1⟩ := Opens.of_false g1
      cases l with
      | nil => simp at g1; rw [g1.1]; exact g3
      | cons a l => simp at g1
    · intro hok
      obtain ⟨-, g1, -, g3⟩ := O.missing hok
      refine ⟨?_, fun he => g3 he (by simp) u [] (.refl _)⟩
      rw [g1]
      simp [Memo.reset, resetL, id_mem]
  obtain ⟨ok, s', e, h1, -, h3, h4⟩ := key (fun _ _ => True)
  refine ⟨ok, s', e, h1, ?_, h3, fun hok => ⟨(h4 hok).1, ?_⟩⟩
  · intro R
    obtain ⟨ok2, s2, e2, -, k, -⟩ := key R
    cases e.symm.trans e2
    exact k
  · intro R
    obtain ⟨ok2, s2, e2, -, -, -, k⟩ := key R
    cases e.symm.trans e2
    exact (k hok).2

theorem this_nowhere {fuel : Nat} (hf : 0 < fuel) (p : Pat α) : p.solid → ∀ (s : Memo) (it : SIt α), it.cur = none →
    this nav vl fuel p none s it = Res.ok (false, s, it) := by
  obtain ⟨fuel, rfl⟩ : ∃ n, fuel = n + 1 := ⟨fuel - 1, by omega⟩
  induction p using Pat.ind with
  | h i k f ps ih =>
    intro hp s it h
    have hnull := matchesNull_solid _ hp
    cases k with
    | one => simp only [this, loop, h]; rfl
    | cpt =>
      simp only [solid] at hp
      match ps, hp, ih with
      | [p], hp, ih =>
        simp only [solidL] at hp
        simp only [this, all_single, ih p (by simp) hp.2.1 s it h, Res.ok_bind]; rfl
    | opt q => simp only [this, prefersNull, hnull, Bool.false_and, Bool.false_eq_true, if_false, loop, h]; rfl
    | star q => simp only [this, prefersNull, hnull, Bool.false_and, Bool.false_eq_true, if_false, loop, h]; rfl

theorem search_nowhere (hf : 0 < fuel) {p : Pat α} (hp : p.solid) (s : Memo) :
    search nav vl fuel none p s = Res.ok (false, s.reset [p]) := by
  simp only [search, all_single, this_nowhere hf p hp (s.reset [p]) ⟨.fixed, none, none, []⟩ rfl]; rfl
end Search

theorem Nary.starable {α : Type} {h : NHeap α} {T : Tree (Addr × α)} (H : Nary.Rep h T) :
    Starable (Nary.nav h) (fun a => do pure (← h.read a).value) T := by
  have S := Nary.searchable H
  refine ⟨S.nodup, S.val, ?_, S.parent⟩
  rintro gs u rfl
  exact Nary.nav_spec H

theorem Binary.starable {α : Type} {h : BHeap α} {t : BTree (Addr × α)} (H : Binary.Rep h t) {T : Tree (Addr × α)}
    (hT : t.toRose = [T]) : Starable (Binary.nav h) (fun a => do pure (← h.read a).value) T := by
  have S := Binary.searchable H hT
  refine ⟨S.nodup, S.val, ?_, S.parent⟩
  rintro gs u hu
  obtain ⟨bs, p, l, r, rfl, -, rfl⟩ := BTree.plug_toRose hT hu
  refine Binary.nav_spec (gs := bs) (s := .node p l r) H (x := p.1) rfl ?_
  rw [BTree.addrTree, BTree.toRose_map]
  simp [addrTree, mapL_eq]

namespace World
open Pat Search
variable {ν α lit T V C : Type} {K : Kind ν α lit} (S : Shape K T V C) (value : ν → α) (rose : T → List (Tree (Addr × α)))

/-- How to search the trees of the kind `S`. -/
structure Rosy : Prop where
  empty : ∀ t, rose t = [] → S.ptr t = none
  tree : ∀ (W : World ν) ts x t (A : Tree (Addr × α)), Owned S W ts → ts x = some t → rose t = [A] → S.ptr t = some A.addr ∧
    Starable (K.nav W.heap) (fun a => do pure (value (← W.heap.read a))) A ∧ A.size < W.heap.fuel
  addrs : ∀ t (A : Tree (Addr × α)), rose t = [A] → ∀ a ∈ A.addrs, a ∈ S.addrs t
  cases : ∀ t, rose t = [] ∨ ∃ A, rose t = [A]

variable {S value rose} (RS : Rosy S value rose) {W : World ν} {ts : Nat → Option T} {x : Nat} {t : T}

include RS in
theorem search_star (L : Lawful S) (O : Owned S W ts) (hx : ts x = some t) {p : Pat α} (hp : p.solid) (hn : p.ids.Nodup) (s : Pattern.State) :
    ∃ ok s', W.search K value p s x = Res.ok (ok, s') ∧ s'.typed = (s.typed || ok) ∧
      (ok = true → ∃ A, rose t = [A] ∧ Placed Prod.snd Prod.fst s'.marks p A) ∧
      (rose t = [] → s'.memo.cuts = s.memo.cuts) ∧
      (∀ A, rose t = [A] → ∀ R, CutsOk A R p.pre s.memo.cuts → CutsOk A R p.pre s'.memo.cuts) ∧
      (ok = false → s'.marks p.id = none ∧ ∀ A, rose t = [A] → ∀ R, CutsOk A R p.pre s.memo.cuts → ¬ Fits Prod.snd p A) := by
  obtain ⟨r, _, h2, h3, _⟩ := O.get L hx
  simp only [World.search, h2, Res.ok_bind, h3]
  rcases RS.cases t with h | ⟨A, h⟩
  · rw [RS.empty t h, search_nowhere (by simp [Heap.fuel]) hp]
    refine ⟨false, ⟨s.memo.reset [p], s.typed || false⟩, rfl, rfl, by simp, fun _ => rfl, by simp [h], fun _ => ⟨by simp [Pattern.State.marks, Memo.reset, resetL, id_mem], by simp [h]⟩⟩
  · obtain ⟨e1, S1, e2⟩ := RS.tree W ts x t A O hx h
    obtain ⟨ok, m, e, -, k1, k2, k3⟩ := search_spec S1 e2 hp hn s.memo (gs := []) (u := A) rfl
    rw [e1, e]
    refine ⟨ok, ⟨m, s.typed || ok⟩, rfl, rfl, fun hok => ⟨A, h, k2 hok⟩, by simp [h], ?_, fun hok => ⟨(k3 hok).1, ?_⟩⟩
    · rintro A' h'
      rw [h] at h'
      simp only [List.cons.injEq, and_true] at h'
      subst h'; exact k1
    · rintro A' h'
      rw [h] at h'
      simp only [List.cons.injEq, and_true] at h'
      subst h'; exact (k3 hok).2

include RS in
/-- Searches of trees that are still there leave nothing behind that would hide something. -/
theorem cutsOk_of_searched (L : Lawful S) (O : Owned S W ts) {p : Pat α} (hp : p.solid) (hs : p.single) (hn : p.ids.Nodup) {s : Pattern.State}
    (H : SearchedIn S value ts p s) : ∀ x t A, ts x = some t → rose t = [A] → CutsOk A (fun _ _ => True) p.pre s.memo.cuts := by
  induction H with
  | new s h =>
    intro x t A _ _ i q f ps hm hq
    refine ⟨hs i q f ps hm hq, ?_, ?_⟩ <;> simp [h]
  | @search W0 ts0 s s' x ok H O0 hx hsearch ih =>
    intro y u B hy hB
    cases h0 : ts0 x with
    | none =>
      have := O0.alive x
      rw [h0] at this
      simp [World.search, World.get] at hsearch
      cases hv : W0.vars x with
      | none => simp [hv] at hsearch
      | some r => simp [hv] at this
    | some t =>
      have hxt : ts x = some t := by rw [← hx]; exact h0
      obtain ⟨ok', s1, e, -, -, k1, k2, -⟩ := search_star RS L O0 h0 hp hn s
      cases hsearch.symm.trans e
      rcases RS.cases t with h | ⟨A, h⟩
      · rw [k1 h]; exact ih y u B hy hB
      · by_cases hxy : x = y
        · subst hxy
          cases hxt.symm.trans hy
          exact k2 B hB _ (ih x u B hy hB)
        · have hA := k2 A h (fun i a => s.memo.cuts i = some a) (by
            intro i q f ps hm hq
            obtain ⟨g1, g2, -⟩ := ih x t A hxt h i q f ps hm hq
            exact ⟨g1, g2, fun a ha => .inl ha⟩)
          intro i q f ps hm hq
          obtain ⟨g1, g2, -⟩ := ih y u B hy hB i q f ps hm hq
          obtain ⟨-, -, g3⟩ := hA i q f ps hm hq
          refine ⟨g1, fun gs v hv hc => ?_, fun _ _ => .inl trivial⟩
          rcases g3 _ hc with g | ⟨gs', v', hv', hvv⟩
          · exact g2 gs v hv g
          · exfalso
            have m1 : v.addr ∈ S.addrs u := RS.addrs u B hB _ (by rw [← hv]; simp [Tree.addrs, pre_plug, pre_eq_cons v, Tree.addr])
            have m2 : v'.addr ∈ S.addrs t := RS.addrs t A h _ (by rw [← hv']; simp [Tree.addrs, pre_plug, pre_eq_cons v', Tree.addr])
            exact O.disjoint x y t u hxt hy hxy _ m2 (hvv ▸ m1)

include RS in
theorem search_star_exact (L : Lawful S) (O : Owned S W ts) (hx : ts x = some t) {p : Pat α} (hp : p.solid) (hs : p.single) (hn : p.ids.Nodup)
    {s : Pattern.State} (H : SearchedIn S value ts p s) :
    ∃ ok s', W.search K value p s x = Res.ok (ok, s') ∧ (ok = true ↔ ∃ A, rose t = [A] ∧ Fits Prod.snd p A) := by
  obtain ⟨ok, s', e, -, k1, -, -, k2⟩ := search_star RS L O hx hp hn s
  refine ⟨ok, s', e, ?_⟩
  constructor
  · intro hok
    obtain ⟨A, h1, h2⟩ := k1 hok
    exact ⟨A, h1, placed_fits _ _ h2⟩
  · rintro ⟨A, h1, h2⟩
    cases ok with
    | true => rfl
    | false => exact absurd h2 ((k2 rfl).2 A h1 _ (cutsOk_of_searched RS L O hp hs hn H x t A hx h1))
end World

theorem Nary.rosy (α : Type) : World.Rosy (Nary.shape α) NNode.value (fun t => t.toList) := by
  refine ⟨?_, ?_, ?_, ?_⟩
  · rintro (_ | t) h
    · rfl
    · cases h
  · intro W ts x t A O hx h
    cases t with
    | none => cases h
    | some T =>
      cases h
      have HT : Rep W.heap A := O.rep x _ hx A rfl
      have := size_le O.wf HT
      exact ⟨by rw [shape_ptr]; rfl, Nary.starable HT, by simp only [Heap.fuel]; omega⟩
  · rintro (_ | t) A h
    · cases h
    · cases h
      intro a ha
      rw [shape_addrs]; exact ha
  · rintro (_ | t)
    · exact .inl rfl
    · exact .inr ⟨t, rfl⟩

theorem Binary.rosy (α : Type) : World.Rosy (Binary.shape α) BNode.value (fun t => t.toRose) := by
  have hr : ∀ t : BTree (Addr × α), (Binary.shape α).rose t = t.toRose.map addrTree := by
    intro t
    show t.addrTree.toRose = _
    rw [BTree.addrTree, BTree.toRose_map]; rfl
  refine ⟨?_, ?_, ?_, ?_⟩
  · rintro t h
    simp [Shape.ptr, hr, h]
  · intro W ts x t A O hx h
    have HT : Rep W.heap t := O.rep x _ hx
    have := size_le O.wf HT
    have hsz := Binary.size_of_toRose h
    exact ⟨by simp [Shape.ptr, hr, h, addrTree, Tree.addr], Binary.starable HT h, by rw [hsz]; simp only [Heap.fuel]; omega⟩
  · intro t A h a ha
    simp only [Shape.addrs, hr, h]
    simpa [addrTree_pre] using ha
  · rintro (_ | ⟨a, l, r⟩)
    · exact .inl rfl
    · exact .inr ⟨_, rfl⟩
