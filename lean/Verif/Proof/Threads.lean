import Verif.Spec.Threads
/-! # Threads: which schedules race -/

namespace Prog
variable {ν β γ : Type} {e : Still ν}

/-- A thread does the same with other members changed. -/
theorem local' : ∀ (p : Prog ν β) (c c' : Cells), (∀ a ∈ p.accesses e c, c' a.1 = c a.1) →
    p.accesses e c' = p.accesses e c ∧ p.steps e c' = p.steps e c ∧ (p.alone e c').map (·.2) = (p.alone e c).map (·.2) ∧
      ∀ d b, p.alone e c = some (d, b) → ∃ d', p.alone e c' = some (d', b) ∧ (∀ a ∈ p.accesses e c, d' a.1 = d a.1) ∧
        ∀ l, c' l = c l → d' l = d l
  | done b, c, c', h => by
      refine ⟨rfl, rfl, rfl, ?_⟩
      intro d b' e'
      cases e'
      exact ⟨_, rfl, h, fun _ hl => hl⟩
  | bad, c, c', h => ⟨rfl, rfl, rfl, by rintro d b ⟨⟩⟩
  | get l k, c, c', h => by
      have hl : c' l = c l := h (l, false) (by simp [accesses])
      have ih := local' (k (c l)) c c' (fun a ha => h a (by simp [accesses, ha]))
      simp only [accesses, steps, alone, hl]
      refine ⟨by rw [ih.1], by rw [ih.2.1], ih.2.2.1, fun d b hd => ?_⟩
      obtain ⟨d', e1, e2, e3⟩ := ih.2.2.2 d b hd
      refine ⟨d', e1, ?_, e3⟩
      intro a ha
      rcases List.mem_cons.mp ha with rfl | ha
      · exact e3 _ hl
      · exact e2 a ha
  | set l v k, c, c', h => by
      have ih := local' k (fun m => if m = l then v else c m) (fun m => if m = l then v else c' m)
        (fun a ha => by
          by_cases hm : a.1 = l
          · simp [hm]
          · simp [hm, h a (by simp [accesses, ha])])
      simp only [accesses, steps, alone]
      refine ⟨by rw [ih.1], by rw [ih.2.1], ih.2.2.1, fun d b hd => ?_⟩
      obtain ⟨d', e1, e2, e3⟩ := ih.2.2.2 d b hd
      refine ⟨d', e1, ?_, fun m hm => e3 m (by simp [hm])⟩
      intro a ha
      rcases List.mem_cons.mp ha with rfl | ha
      · exact e3 l (by simp)
      · exact e2 a ha
  | look k, c, c', h => by
      have ih := local' (k e.heap e.roots) c c' (fun a ha => h a (by simpa [accesses] using ha))
      simp only [accesses, steps, alone]
      exact ⟨ih.1, by rw [ih.2.1], ih.2.2⟩

theorem next_mem {p : Prog ν β} {c : Cells} {a : Loc × Bool} (h : p.next = some a) : a ∈ p.accesses e c := by
  cases p <;> simp [next] at h <;> subst h <;> simp [accesses]

/-- One step of a thread leaves the rest to be done. -/
theorem accesses_step (p : Prog ν β) (c : Cells) :
    p.accesses e c = p.next.toList ++ (p.step e c).2.accesses e (p.step e c).1 := by
  cases p <;> simp [next, step, accesses]

theorem steps_step (p : Prog ν β) (c : Cells) : (p.step e c).2.steps e (p.step e c).1 = p.steps e c - 1 := by
  cases p <;> simp [step, steps]

theorem alone_step (p : Prog ν β) (c : Cells) : (p.step e c).2.alone e (p.step e c).1 = p.alone e c := by
  cases p <;> simp [step, alone]

theorem step_cells (p : Prog ν β) (c : Cells) (m : Loc) (h : p.next ≠ some (m, true)) : (p.step e c).1 m = c m := by
  cases p <;> simp [step, next] at h ⊢
  intro hm; subst hm; exact absurd rfl h

theorem steps_zero {p : Prog ν β} {c : Cells} (h : p.steps e c = 0) : (∃ b, p = done b) ∨ p = bad := by
  cases p <;> simp [steps] at h ⊢
end Prog

namespace Running
variable {ν β : Type} {e : Still ν}

/-- No two threads conflict. -/
def Apart (e : Still ν) (R : Running ν β) : Prop := ∀ i j, i ≠ j → ¬ Conflict e R.cells (R.threads i) (R.threads j)

theorem step_other {R : Running ν β} {i j : Nat} (h : j ≠ i) : (R.step e i).threads j = R.threads j := by simp [step, h]

theorem agree_after {R : Running ν β} {i j : Nat} (hne : j ≠ i) (hA : ¬ Conflict e R.cells (R.threads i) (R.threads j)) :
    ∀ a ∈ (R.threads j).accesses e R.cells, (R.step e i).cells a.1 = R.cells a.1 := by
  intro a ha
  refine Prog.step_cells (e := e) _ _ _ (fun hn => hA ⟨a.1, true, a.2, Prog.next_mem hn, ha, by simp⟩)

theorem apart_step {R : Running ν β} (hA : Apart e R) (i : Nat) : Apart e (R.step e i) ∧ ∀ j,
    ((R.step e i).threads j).steps e (R.step e i).cells = (R.threads j).steps e R.cells - (if j = i then 1 else 0) ∧
    (((R.step e i).threads j).alone e (R.step e i).cells).map (·.2) = ((R.threads j).alone e R.cells).map (·.2) := by
  have key : ∀ j, (∀ a ∈ ((R.step e i).threads j).accesses e (R.step e i).cells, a ∈ (R.threads j).accesses e R.cells) ∧
      ((R.step e i).threads j).steps e (R.step e i).cells = (R.threads j).steps e R.cells - (if j = i then 1 else 0) ∧
      (((R.step e i).threads j).alone e (R.step e i).cells).map (·.2) = ((R.threads j).alone e R.cells).map (·.2) := by
    intro j
    by_cases hj : j = i
    · subst hj
      have h2 : (R.step e j).threads j = ((R.threads j).step e R.cells).2 := by simp [step]
      have h1 : (R.step e j).cells = ((R.threads j).step e R.cells).1 := rfl
      rw [h2, h1]
      refine ⟨fun a ha => ?_, by simp [Prog.steps_step], by rw [Prog.alone_step]⟩
      rw [Prog.accesses_step]
      exact List.mem_append_right _ ha
    · rw [step_other hj]
      have := Prog.local' (e := e) (R.threads j) R.cells (R.step e i).cells (agree_after hj (hA i j (Ne.symm hj)))
      refine ⟨fun a ha => by rw [this.1] at ha; exact ha, by simp [hj, this.2.1], this.2.2.1⟩
  refine ⟨fun a b hab hc => ?_, fun j => (key j).2⟩
  obtain ⟨l, w, w', h1, h2, h3⟩ := hc
  exact hA a b hab ⟨l, w, w', (key a).1 _ h1, (key b).1 _ h2, h3⟩

theorem apart_run : ∀ (sched : List Nat) (R : Running ν β), Apart e R → Apart e (R.run e sched) ∧ ∀ j,
    ((R.run e sched).threads j).steps e (R.run e sched).cells = (R.threads j).steps e R.cells - sched.count j ∧
    (((R.run e sched).threads j).alone e (R.run e sched).cells).map (·.2) = ((R.threads j).alone e R.cells).map (·.2)
  | [], R, h => ⟨h, fun j => ⟨rfl, rfl⟩⟩
  | i :: sched, R, h => by
    have h1 := apart_step h i
    have h2 := apart_run sched (R.step e i) h1.1
    refine ⟨h2.1, fun j => ⟨?_, ?_⟩⟩
    · show ((Running.run e (R.step e i) sched).threads j).steps e (Running.run e (R.step e i) sched).cells = _
      rw [(h2.2 j).1, (h1.2 j).1, List.count_cons]
      by_cases hj : j = i
      · subst hj; simp; omega
      · have : (i == j) = false := by simp [Ne.symm hj]
        simp [hj, this]
    · exact (h2.2 j).2.trans (h1.2 j).2

theorem apart_no_race {R : Running ν β} (h : Apart e R) : ¬ R.Race := by
  rintro ⟨i, j, l, w, w', hne, h1, h2, h3⟩
  exact h i j hne ⟨l, w, w', Prog.next_mem h1, Prog.next_mem h2, h3⟩

/-- A thread brought to the access of a member in question, while another one is about to write it. -/
theorem reach {i j : Nat} (hne : i ≠ j) {l : Loc} {w : Bool} (hw : w = true) : ∀ (q : Prog ν β) (R : Running ν β), R.threads j = q →
    (R.threads i).next = some (l, w) → (∃ w', (l, w') ∈ q.accesses e R.cells) → ∃ sched, (R.run e sched).Race := by
  have done : ∀ (q : Prog ν β) (R : Running ν β) w', R.threads j = q → (R.threads i).next = some (l, w) → q.next = some (l, w') →
      ∃ sched, (R.run e sched).Race := fun q R w' hq hi hn => ⟨[], i, j, l, w, w', hne, hi, by
        rw [show R.run e [] = R from rfl, hq]; exact hn, by simp [hw]⟩
  have more : ∀ (R : Running ν β), (R.threads i).next = some (l, w) → (∃ sched, ((R.step e j).run e sched).Race) →
      ∃ sched, (R.run e sched).Race := fun R hi ⟨sched, h⟩ => ⟨j :: sched, h⟩
  intro q
  induction q with
  | done b => rintro R _ _ ⟨w', h⟩; simp [Prog.accesses] at h
  | bad => rintro R _ _ ⟨w', h⟩; simp [Prog.accesses] at h
  | get m k ih =>
    rintro R hq hi ⟨w', h⟩
    by_cases hm : m = l
    · subst hm; exact done _ R false hq hi rfl
    · refine more R hi (ih (R.cells m) (R.step e j) (by simp [step, hq, Prog.step]) (by rw [step_other hne]; exact hi) ⟨w', ?_⟩)
      simp only [Prog.accesses, List.mem_cons, Prod.mk.injEq] at h
      rcases h with h | h
      · exact absurd h.1.symm hm
      · simpa [step, hq, Prog.step] using h
  | set m v k ih =>
    rintro R hq hi ⟨w', h⟩
    by_cases hm : m = l
    · subst hm; exact done _ R true hq hi rfl
    · refine more R hi (ih (R.step e j) (by simp [step, hq, Prog.step]) (by rw [step_other hne]; exact hi) ⟨w', ?_⟩)
      simp only [Prog.accesses, List.mem_cons, Prod.mk.injEq] at h
      rcases h with h | h
      · exact absurd h.1.symm hm
      · simpa [step, hq, Prog.step] using h
  | look k ih =>
    rintro R hq hi ⟨w', h⟩
    exact more R hi (ih e.heap e.roots (R.step e j) (by simp [step, hq, Prog.step]) (by rw [step_other hne]; exact hi)
      ⟨w', by simpa [step, hq, Prog.step, Prog.accesses] using h⟩)

/-- The first thread brought to a write that is in the way of the other one. -/
theorem reach_write {i j : Nat} (hne : i ≠ j) : ∀ (p : Prog ν β) (R : Running ν β), R.threads i = p →
    (∃ l w', (l, true) ∈ p.accesses e R.cells ∧ (l, w') ∈ (R.threads j).accesses e R.cells) → ∃ sched, (R.run e sched).Race := by
  have more : ∀ (R : Running ν β) (p' : Prog ν β), (∀ m, (R.threads i).next = some (m, true) → ∀ w', (m, w') ∉ (R.threads j).accesses e R.cells) →
      (∃ l w', (l, true) ∈ ((R.step e i).threads i).accesses e (R.step e i).cells ∧ (l, w') ∈ (R.threads j).accesses e R.cells) →
      ((∃ l w', (l, true) ∈ ((R.step e i).threads i).accesses e (R.step e i).cells ∧
          (l, w') ∈ ((R.step e i).threads j).accesses e (R.step e i).cells) → ∃ sched, ((R.step e i).run e sched).Race) →
      ∃ sched, (R.run e sched).Race := by
    rintro R p' hn ⟨l, w', h1, h2⟩ hs
    have hag : ∀ a ∈ (R.threads j).accesses e R.cells, (R.step e i).cells a.1 = R.cells a.1 := by
      intro a ha
      exact Prog.step_cells (e := e) _ _ _ (fun hx => hn a.1 hx a.2 ha)
    have := Prog.local' (e := e) (R.threads j) R.cells (R.step e i).cells hag
    obtain ⟨sched, hr⟩ := hs ⟨l, w', h1, by rw [step_other (Ne.symm hne), this.1]; exact h2⟩
    exact ⟨i :: sched, hr⟩
  intro p
  induction p with
  | done b => rintro R _ ⟨l, w', h, _⟩; simp [Prog.accesses] at h
  | bad => rintro R _ ⟨l, w', h, _⟩; simp [Prog.accesses] at h
  | get m k ih =>
    rintro R hp ⟨l, w', h, h'⟩
    refine more R (k (R.cells m)) (by simp [hp, Prog.next]) ⟨l, w', ?_, h'⟩
      (fun hx => ih (R.cells m) (R.step e i) (by simp [step, hp, Prog.step]) (by
        rw [show (R.step e i).threads i = (k (R.cells m)) by simp [step, hp, Prog.step]] at hx; exact hx))
    simpa [step, hp, Prog.step, Prog.accesses] using h
  | set m v k ih =>
    rintro R hp ⟨l, w', h, h'⟩
    by_cases hm : ∃ w', (m, w') ∈ (R.threads j).accesses e R.cells
    · exact reach hne rfl _ R rfl (by rw [hp]; rfl) hm
    · have hl : l ≠ m := by rintro rfl; exact hm ⟨_, h'⟩
      refine more R k (by
        intro m' hx; rw [hp] at hx; simp [Prog.next] at hx; subst hx; exact fun w' hw' => hm ⟨w', hw'⟩) ⟨l, w', ?_, h'⟩
        (fun hx => ih (R.step e i) (by simp [step, hp, Prog.step]) (by
        rw [show (R.step e i).threads i = k by simp [step, hp, Prog.step]] at hx; exact hx))
      simpa [step, hp, Prog.step, Prog.accesses, hl] using h
  | look k ih =>
    rintro R hp ⟨l, w', h, h'⟩
    refine more R (k e.heap e.roots) (by simp [hp, Prog.next]) ⟨l, w', ?_, h'⟩
      (fun hx => ih e.heap e.roots (R.step e i) (by simp [step, hp, Prog.step]) (by
        rw [show (R.step e i).threads i = (k e.heap e.roots) by simp [step, hp, Prog.step]] at hx; exact hx))
    simpa [step, hp, Prog.step, Prog.accesses] using h

/-- Some schedule has a race if and only if two threads conflict. -/
theorem race_iff (R : Running ν β) : (∃ sched, (R.run e sched).Race) ↔
    ∃ i j, i ≠ j ∧ Conflict e R.cells (R.threads i) (R.threads j) := by
  constructor
  · rintro ⟨sched, hr⟩
    apply Classical.byContradiction
    intro hn
    have hA : Apart e R := fun i j hne hc => hn ⟨i, j, hne, hc⟩
    exact apart_no_race (apart_run sched R hA).1 hr
  · rintro ⟨i, j, hne, l, w, w', h1, h2, h3⟩
    cases w with
    | true => exact reach_write hne _ R rfl ⟨l, w', h1, h2⟩
    | false =>
      cases w' with
      | true => exact reach_write (Ne.symm hne) _ R rfl ⟨l, false, h2, h1⟩
      | false => cases h3

end Running
