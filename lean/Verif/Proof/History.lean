import Verif.Proof.Steps
import Verif.Proof.Unique
/-! Histories of supported calls. -/
open Tree World

section
variable {ν α lit T V C : Type} {K : Kind ν α lit} {S : Shape K T V C} {ts : Nat → Option T} {W : World ν}

theorem start_owned (L : Lawful S) : Owned S (start : World ν) (fun _ => none) := by
  constructor <;> simp [start, Heap.empty, Heap.WF]

/-- A supported history runs, and each of its calls has its effect. -/
theorem history_trace (L : Lawful S) (D : Determined S) (ops : List (Op α lit)) : ∀ {W : World ν} {ts : Nat → Option T},
    Owned S W ts → Supports S W ops →
    ∃ W' as ts', W.run K ops = Res.ok (W', as) ∧ as.length = ops.length ∧ Trace S W ts (ops.zip as) W' ts' ∧ Owned S W' ts' := by
  induction ops with
  | nil => intro W ts O _; exact ⟨W, [], ts, rfl, rfl, .done W ts O, O⟩
  | cons op ops ih =>
    intro W ts O ⟨⟨ts0, O0, hl⟩, hrest⟩
    have e := OwnedBut.unique D O0 O
    subst e
    obtain ⟨W1, o, ts1, h1, h2, h3, _⟩ := step_spec L O op hl
    obtain ⟨W2, as, ts2, h4, h5, h6, h7⟩ := ih h2 (hrest W1 o h1)
    exact ⟨W2, o :: as, ts2, by simp [World.run, h1, h4], by simp [h5], .step _ _ _ _ _ _ _ _ _ O h1 h3 h6, h7⟩

/-- … and when all its calls keep the counts right, they are right at the end. -/
theorem history_counts (L : Lawful S) (D : Determined S) (ops : List (Op α lit)) : ∀ {W : World ν} {ts : Nat → Option T},
    Owned S W ts → Cached S W ts → Supports S W ops → KeepsCounts S W ops →
    ∃ W' as ts', W.run K ops = Res.ok (W', as) ∧ Owned S W' ts' ∧ Cached S W' ts' := by
  induction ops with
  | nil => intro W ts O hC _ _; exact ⟨W, [], ts, rfl, O, hC⟩
  | cons op ops ih =>
    intro W ts O hC ⟨⟨ts0, O0, hl⟩, hrest⟩ ⟨hk, hkrest⟩
    have e := OwnedBut.unique D O0 O
    subst e
    obtain ⟨W1, o, ts1, h1, h2, h3, h4⟩ := step_spec L O op hl
    have hk1 := hkrest W1 o h1
    have hsm : Small S ts1 := by
      cases ops with
      | nil => exact hk1 ts1 h2
      | cons op' ops => exact (hk1.1 ts1 h2).2
    have hC1 := (h4 hC).2 (hk ts0 O).1 (hk ts0 O).2 hsm
    obtain ⟨W2, as, ts2, h5, h6, h7⟩ := ih h2 hC1 (hrest W1 o h1) hk1
    exact ⟨W2, o :: as, ts2, by simp [World.run, h1, h5], h6, h7⟩

end
