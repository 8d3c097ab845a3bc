import Verif.Proof.PatternSafe
import Verif.Proof.PatternEnds
/-! Searches of the trees of a program: safe, and when they end. -/
open Tree

namespace Pat
variable {α : Type}
mutual
theorem skippable_iff : (p : Pat α) → (p.skippable ↔ p.matchesNull = true)
  | node _ .one _ _ => by simp [skippable, matchesNull]
  | node _ .cpt _ ps => by simp [skippable, matchesNull, skippableL_iff ps]
  | node _ (.opt _) _ ps => by simp [skippable, matchesNull, skippableL_iff ps]
  | node _ (.star _) _ ps => by simp [skippable, matchesNull, skippableL_iff ps]
theorem skippableL_iff : (ps : List (Pat α)) → (skippableL ps ↔ allNull ps = true)
  | [] => by simp [skippableL, allNull]
  | p :: ps => by simp [skippableL, allNull, skippable_iff p, skippableL_iff ps]
end

theorem fine_of {p : Pat α} (hp : p.formed) (hs : p.settled) : ∀ q ∈ p.pre, Search.Ending.Fine q := by
  rintro ⟨i, k, f, ps⟩ hq
  cases k with
  | one => trivial
  | opt q => trivial
  | cpt => exact hp i f ps hq
  | star q =>
    intro h a ha
    have := hs i q f ps hq h a ha
    rw [skippable_iff] at this
    simpa using this
end Pat

namespace World
open Pat Search
variable {ν α lit T V C : Type} {K : Kind ν α lit} {S : Shape K T V C} {value : ν → α} {rose : T → List (Tree (Addr × α))}
  (RS : Rosy S value rose) {W : World ν} {ts : Nat → Option T} {x : Nat} {t : T}

include RS in
theorem search_sane (L : Lawful S) (O : Owned S W ts) (hx : ts x = some t)
    (hw : ∀ A, rose t = [A] → Wired (K.nav W.heap) (fun a => do pure (value (← W.heap.read a))) A)
    (hroot : ∀ h r, (K.nav h r).root = r) (p : Pat α) (s : Pattern.State) :
    W.search K value p s x ≠ Res.ub ∧ ∀ ok s', W.search K value p s x = Res.ok (ok, s') →
      ∀ i ∈ p.ids, ∀ a, s'.marks i = some a → a ∈ S.addrs t := by
  obtain ⟨r, -, h2, h3, -⟩ := O.get L hx
  have hs : Res.Safe (Search.search (K.nav W.heap) (fun a => do pure (value (← W.heap.read a))) W.heap.fuel r.root p s.memo)
      (fun x => Search.Inv (fun a => a ∈ S.addrs t) p.ids x.2) := by
    rw [h3]
    rcases RS.cases t with h | ⟨A, h⟩
    · rw [RS.empty t h]
      refine (Search.search_safe (A := fun _ => False) ⟨by simp, hroot _, by simp, by simp, by simp, by simp⟩ p s.memo (by intro a h; cases h)).mono ?_
      intro y hy i hi a ha
      exact (hy i hi a ha).elim
    · obtain ⟨e1, -, -⟩ := RS.tree W ts x t A O hx h
      rw [e1]
      refine (Search.search_safe (hw A h).steady p s.memo (by rintro _ ⟨⟩; exact ⟨[], A, rfl, rfl⟩)).mono ?_
      intro y hy i hi a ha
      exact RS.addrs t A h a (hy i hi a ha).mem
  have hall : Res.Safe (W.search K value p s x) (fun y => Search.Inv (fun a => a ∈ S.addrs t) p.ids y.2.memo) := by
    simp only [World.search, h2, Res.ok_bind]
    exact hs.bind fun y hy => Res.Safe.ok hy
  exact ⟨hall.1, fun ok s' e i hi a ha => hall.2 _ e i hi a ha⟩

include RS in
theorem search_ending (L : Lawful S) (O : Owned S W ts) (hx : ts x = some t)
    (hw : ∀ A, rose t = [A] → Wired (K.nav W.heap) (fun a => do pure (value (← W.heap.read a))) A ∧ A.size + 1 < W.heap.fuel)
    (hroot : ∀ h r, (K.nav h r).root = r) {p : Pat α} (hp : p.formed) (hp' : p.settled) (hn : p.ids.Nodup) (s : Pattern.State) :
    ∃ ok s', W.search K value p s x = Res.ok (ok, s') ∧ ∀ i ∈ p.ids, ∀ a, s'.marks i = some a → a ∈ S.addrs t := by
  have hsane := search_sane RS L O hx (fun A h => (hw A h).1) hroot p s
  obtain ⟨r, -, h2, h3, -⟩ := O.get L hx
  have hs : Res.Ends (Search.search (K.nav W.heap) (fun a => do pure (value (← W.heap.read a))) W.heap.fuel r.root p s.memo) (fun _ => True) := by
    rw [h3]
    rcases RS.cases t with h | ⟨A, h⟩
    · rw [RS.empty t h]
      refine (Search.Ending.search_ends (A := fun _ => False) (rk := fun _ => 0) (fin := fun _ => 0) (N := 0)
        ⟨by simp, by simp, by simp, hroot _, by simp, by simp, by simp, by simp, by simp, by simp⟩ (by simp only [Heap.fuel]; omega)
        (fine_of hp hp') hn s.memo (by intro a h; cases h)).mono fun _ _ => trivial
    · obtain ⟨e1, -, -⟩ := RS.tree W ts x t A O hx h
      rw [e1]
      exact (Search.Ending.search_ends (hw A h).1.ranked (hw A h).2 (fine_of hp hp') hn s.memo
        (by rintro _ ⟨⟩; exact ⟨[], A, rfl, rfl⟩)).mono fun _ _ => trivial
  obtain ⟨⟨ok, m⟩, e, -⟩ := hs
  have e' : W.search K value p s x = Res.ok (ok, ⟨m, s.typed || ok⟩) := by
    simp only [World.search, h2, Res.ok_bind, e]
    rfl
  exact ⟨ok, _, e', hsane.2 _ _ e'⟩
end World
