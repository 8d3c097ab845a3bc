import Verif.Spec.Took
import Verif.Proof.StarWalk
/-! What is remembered by a pattern with `star`. -/
open Tree

namespace Tree
variable {β : Type} {f : β → Bool} {P P' : Tree β → Prop}

theorem First.congr (h : ∀ t, P' t ↔ P t) {us t r} (H : First f P us t r) : First f P' us t r := by
  induction H with
  | here => exact .here
  | skip h1 h2 _ ih => exact .skip (by rw [h]; exact h1) h2 ih
  | into h1 h2 _ ih => exact .into (by rw [h]; exact h1) h2 ih

theorem First.opens {us t r} (H : First f P us t r) : Opens f us (t :: r) := by
  induction H with
  | here => exact .refl _
  | skip _ _ _ ih => exact .skip ih
  | into _ h2 _ ih => exact .into h2 ih

theorem First.false_iff {us t r} : First (fun _ => false) P us t r ↔ ∃ l, us = l ++ t :: r ∧ ∀ u ∈ l, ¬ P u := by
  constructor
  · intro H
    induction H with
    | here => exact ⟨[], rfl, by simp⟩
    | @skip u us t r h1 _ _ ih =>
      obtain ⟨l, e, h⟩ := ih
      exact ⟨u :: l, by rw [e]; rfl, List.forall_mem_cons.mpr ⟨h1, h⟩⟩
    | into _ h2 => cases h2
  · rintro ⟨l, rfl, h⟩
    induction l with
    | nil => exact .here
    | cons u l ih => exact .skip (h u (by simp)) rfl (ih fun v hv => h v (by simp [hv]))

/-- There is one first subtree. -/
theorem First.unique {us t r t' r'} (H : First f P us t r) (h : P t) (H' : First f P us t' r') (h' : P t') : t = t' ∧ r = r' := by
  induction H with
  | here => cases H' with
    | here => exact ⟨rfl, rfl⟩
    | skip h1 => exact absurd h h1
    | into h1 => exact absurd h h1
  | skip h1 h2 _ ih => cases H' with
    | here => exact absurd h' h1
    | skip _ _ h3 => exact ih h h3
    | into _ h3 => rw [h2] at h3; cases h3
  | into h1 h2 _ ih => cases H' with
    | here => exact absurd h' h1
    | skip _ h3 => rw [h2] at h3; cases h3
    | into _ _ h3 => exact ih h h3
end Tree

namespace Pat
variable {α β : Type} {val : β → α} {addr : β → Nat} {m m' : Nat → Option Nat}

mutual
theorem took_congr : (p : Pat α) → (t : Tree β) → (∀ i ∈ p.ids, m' i = m i) → Took val addr m p t → Took val addr m' p t
  | node i .one f ps, t, h, H => by
    simp only [Took] at H ⊢
    simp only [ids_node, List.mem_cons] at h
    exact ⟨by rw [h i (.inl rfl)]; exact H.1, H.2.1, tookL_congr ps _ (fun j hj => h j (.inr hj)) H.2.2⟩
  | node i .cpt f ps, t, h, H => by
    simp only [Took] at H ⊢
    simp only [ids_node, List.mem_cons] at h
    exact ⟨by rw [h i (.inl rfl)]; exact H.1, tookL_congr ps _ (fun j hj => h j (.inr hj)) H.2⟩
  | node i (.opt q) f ps, t, h, H => by
    simp only [Took] at H ⊢
    simp only [ids_node, List.mem_cons] at h
    refine ⟨by rw [h i (.inl rfl)]; exact H.1, ?_⟩
    rcases H.2 with ⟨h1, h2⟩ | ⟨h0, h1, h2⟩
    · exact .inl ⟨h1, tookL_congr ps _ (fun j hj => h j (.inr hj)) h2⟩
    · exact .inr ⟨h0, h1, tookL_congr ps _ (fun j hj => h j (.inr hj)) h2⟩
  | node i (.star q) f ps, t, h, H => by
    simp only [Took] at H ⊢
    simp only [ids_node, List.mem_cons] at h
    refine ⟨by rw [h i (.inl rfl)]; exact H.1, ?_⟩
    rcases H.2 with ⟨h1, h2, h3⟩ | ⟨h1, h2⟩
    · exact .inl ⟨h1, fun hq => tookS_congr _ ps _ (fun j hj => h j (.inr hj)) (h2 hq),
        fun hq => tookL_congr ps _ (fun j hj => h j (.inr hj)) (h3 hq)⟩
    · exact .inr ⟨h1, tookL_congr ps _ (fun j hj => h j (.inr hj)) h2⟩
theorem tookL_congr : (ps : List (Pat α)) → (ts : List (Tree β)) → (∀ i ∈ idsL ps, m' i = m i) → TookL val addr m ps ts →
    TookL val addr m' ps ts
  | [], _, _, _ => by simp [TookL]
  | p :: ps, ts, h, H => by
    simp only [TookL] at H ⊢
    simp only [idsL_cons, List.mem_append] at h
    obtain ⟨l, t, r, e, h1, h2, h3⟩ := H
    exact ⟨l, t, r, e, h1, took_congr p t (fun j hj => h j (.inl hj)) h2, tookL_congr ps r (fun j hj => h j (.inr hj)) h3⟩
theorem tookS_congr (f : β → Bool) : (ps : List (Pat α)) → (ts : List (Tree β)) → (∀ i ∈ idsL ps, m' i = m i) →
    TookS val addr m f ps ts → TookS val addr m' f ps ts
  | [], _, _, _ => by simp [TookS]
  | p :: ps, ts, h, H => by
    simp only [TookS] at H ⊢
    simp only [idsL_cons, List.mem_append] at h
    obtain ⟨t, r, e, h2, h3⟩ := H
    exact ⟨t, r, e, took_congr p t (fun j hj => h j (.inl hj)) h2, tookS_congr f ps r (fun j hj => h j (.inr hj)) h3⟩
end

theorem tookS_false {ps : List (Pat α)} {ts : List (Tree β)} : TookS val addr m (fun _ => false) ps ts ↔ TookL val addr m ps ts := by
  induction ps generalizing ts with
  | nil => simp [TookS, TookL]
  | cons p ps ih =>
    simp only [TookS, TookL, ih, First.false_iff]
    constructor
    · rintro ⟨t, r, ⟨l, e, h0⟩, h⟩; exact ⟨l, t, r, e, h0, h⟩
    · rintro ⟨l, t, r, e, h0, h⟩; exact ⟨t, r, ⟨l, e, h0⟩, h⟩
end Pat
