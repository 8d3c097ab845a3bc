import Verif.Spec.Refresh
import Verif.Proof.Frame
import Verif.Proof.Compare
/-! `update_size_arity()`: the counts are right until the next change. -/
open Tree World

section
variable {ν α lit T V C : Type} {K : Kind ν α lit} {S : Shape K T V C} {ts ts' : Nat → Option T} {W W' : World ν}
  {t u : T} {x y z : Nat} {src : Src α lit} {r : TreeRec}

theorem afterSrc_changes (h : z ∉ src.changes) : afterSrc S ts src z = ts z := by
  cases src with
  | moveOf y =>
    have : z ≠ y := by simpa [Src.changes] using h
    simp [afterSrc, upd, this]
  | _ => rfl

theorem effect_reads (L : Lawful S) {h h' : Heap ν} {op : Op α lit} {o : Ans} (E : Effect S h ts h' ts' o op) (hz : z ∉ op.changes) : (ts' z).map S.rose = (ts z).map S.rose := by
  by_cases hw : ∃ x pos v, op = .write x pos v
  · obtain ⟨x, pos, v, rfl⟩ := hw
    obtain ⟨t, c, s, hx, A, rfl, _⟩ := E
    unfold upd
    split
    · subst z; rw [hx, Option.map_some, Option.map_some, rose_write L, A.1]
    · rfl
  suffices ts' z = ts z by rw [this]
  cases op with
  | newEmpty x => simp [Op.changes] at hz; rw [E.1]; exact upd_other _ _ hz
  | newCopy x y => simp [Op.changes] at hz; obtain ⟨_, _, _, _, _, rfl, _⟩ := E; exact upd_other _ _ hz
  | newMove x y => simp [Op.changes] at hz; obtain ⟨_, _, rfl, _⟩ := E; rw [upd_other _ _ hz.2, upd_other _ _ hz.1]
  | newLit x l => simp [Op.changes] at hz; obtain ⟨_, _, _, rfl, _⟩ := E; exact upd_other _ _ hz
  | destroy x => simp [Op.changes] at hz; rw [E.1]; exact upd_other _ _ hz
  | clear x => simp [Op.changes] at hz; rw [E.1]; exact upd_other _ _ hz
  | assignCopy x y => simp [Op.changes] at hz; obtain ⟨_, _, _, _, _, rfl, _⟩ := E; exact upd_other _ _ hz
  | assignMove x y => simp [Op.changes] at hz; obtain ⟨_, _, rfl, _⟩ := E; rw [upd_other _ _ hz.2, upd_other _ _ hz.1]
  | assignLit x l => simp [Op.changes] at hz; obtain ⟨_, _, _, rfl, _⟩ := E; exact upd_other _ _ hz
  | swap x y => simp [Op.changes] at hz; obtain ⟨_, _, _, _, rfl, _⟩ := E; rw [upd_other _ _ hz.2, upd_other _ _ hz.1]
  | size x => rw [E.1]
  | arity x => rw [E.1]
  | updateCounts x => rw [E.1]
  | insertOver sb ab P x pos src =>
    simp [Op.changes] at hz
    obtain ⟨t, _, h1, h2⟩ := E
    by_cases hT : OverThrows S x t pos src
    · rw [(h1 hT).1]
    · obtain ⟨_, _, _, _, _, rfl, _⟩ := h2 hT
      rw [upd_other _ _ hz.1, afterSrc_changes hz.2]
  | insertChild front P x pos src =>
    simp [Op.changes] at hz
    obtain ⟨t, _, h1, h2⟩ := E
    by_cases hT : ChildThrows S h P x t pos src
    · rw [(h1 hT).1]
    · obtain ⟨_, _, _, _, _, _, _, _, _, rfl, _⟩ := h2 hT
      rw [upd_other _ _ hz.1, afterSrc_changes hz.2]
  | erase x pos =>
    simp [Op.changes] at hz
    obtain ⟨t, _, ⟨_, _, _, _, _, rfl, _⟩ | ⟨_, rfl, _⟩⟩ := E
    · exact upd_other _ _ hz
    · rfl
  | eraseRange x first last =>
    simp [Op.changes] at hz
    obtain ⟨_, _, _, _, _, _, _, rfl, _⟩ := E
    exact upd_other _ _ hz
  | write x pos v => exact absurd ⟨x, pos, v, rfl⟩ hw

variable (L : Lawful S)
include L

/-- A call that only reads an object leaves what the object remembers right. -/
theorem step_reads (O : Owned S W ts) {op : Op α lit} {o : Ans} (hl : Legal S W.heap ts op) (hz : z ∉ op.changes) (hx : ts z = some t)
    (hr : W.vars z = some r) (hc : CacheOk S r t) (e : W.step K op = Res.ok (W', o)) :
    ∃ r', W'.vars z = some r' ∧ CacheOk S r' t := by
  by_cases hn : z ∈ op.objects
  rotate_left
  · exact ⟨r, by rw [step_vars e hn, hr], hc⟩
  cases op with
  | newCopy x y =>
    simp [Op.changes] at hz
    simp only [step, newCopy, Res.bind_eq_ok] at e
    obtain ⟨_, ⟨r, _, ⟨W1, p⟩, h1, e1⟩, e⟩ := e
    cases e1; cases e
    exact ⟨_, by rw [put_other _ hz, copyNodes_vars h1, hr], hc⟩
  | assignCopy x y =>
    simp [Op.changes] at hz
    simp only [step, assignCopy, Res.bind_eq_ok] at e
    obtain ⟨_, ⟨r, _, ⟨W1, p⟩, h1, r', _, ⟨_, _⟩, _, e1⟩, e⟩ := e
    cases e1; cases e
    exact ⟨_, by rw [put_other _ hz]; exact (congrFun (copyNodes_vars h1) z).trans hr, hc⟩
  | size x =>
    simp [Op.objects] at hn; subst hn
    obtain ⟨e1, _⟩ := size_spec L O hx hr
    simp only [step, e1, Res.ok_bind] at e
    cases e
    exact ⟨_, upd_same .., Or.inr (sizeAns_ok L hc), hc.2⟩
  | arity x =>
    simp [Op.objects] at hn; subst hn
    obtain ⟨e1, _⟩ := arity_spec L O hx hr
    simp only [step, e1, Res.ok_bind] at e
    cases e
    exact ⟨_, upd_same .., hc.1, Or.inr (arityAns_ok L hc)⟩
  | updateCounts x =>
    simp [Op.objects] at hn; subst hn
    obtain ⟨e1, _⟩ := updateCounts_spec L O hx hr
    simp only [step, e1, Res.ok_bind] at e
    cases e
    exact ⟨_, upd_same .., Or.inl rfl, Or.inl rfl⟩
  | insertOver sb ab P x pos src =>
    simp [Op.changes] at hz
    obtain ⟨_, _, hok, _⟩ := hl
    cases src with
    | copyOf y =>
      simp [Op.objects, Src.objects, hz.1] at hn; subst hn
      simp only [step, insertOver, Res.bind_eq_ok] at e
      obtain ⟨⟨_, _⟩, ⟨⟨W1, q⟩, h1, r', _, ⟨_, _, _⟩, _, e1⟩, e⟩ := e
      cases e1; cases e
      obtain ⟨W1', n, rs, ra, h2, D, _⟩ := overNode_spec L O hok sb ab
      rw [h1] at h2; cases h2
      obtain ⟨r1, h3, _, _, h4⟩ := D.vars z r hr
      exact ⟨r1, by rw [put_other _ hz.1]; exact h3, h4 t hx hc⟩
    | moveOf y => simp [Op.objects, Src.objects, Src.changes] at hz hn; grind
    | _ => simp [Op.objects, Src.objects] at hn; exact absurd hn hz.1
  | insertChild front P x pos src =>
    simp [Op.changes] at hz
    obtain ⟨_, _, hok, _⟩ := hl
    cases src with
    | copyOf y =>
      simp [Op.objects, Src.objects, hz.1] at hn; subst hn
      simp only [step, insertChild, Res.bind_eq_ok] at e
      obtain ⟨⟨_, _⟩, ⟨⟨W1, q⟩, h1, r', _, ⟨_, _, _⟩, _, e1⟩, e⟩ := e
      cases e1; cases e
      obtain ⟨W1', n, rs, ra, h2, D, _⟩ := childNode_spec L O hok front
      rw [h1] at h2; cases h2
      obtain ⟨r1, h3, _, _, h4⟩ := D.vars z r hr
      exact ⟨r1, by rw [put_other _ hz.1]; exact h3, h4 t hx hc⟩
    | moveOf y => simp [Op.objects, Src.objects, Src.changes] at hz hn; grind
    | _ => simp [Op.objects, Src.objects] at hn; exact absurd hn hz.1
  | write x pos v =>
    simp only [step, World.write, Res.bind_eq_ok] at e
    obtain ⟨W1, e1, e⟩ := e
    split at e1
    · cases e1
    · simp only [Res.bind_eq_ok] at e1
      obtain ⟨_, _, e1⟩ := e1
      cases e1; cases e
      exact ⟨r, hr, hc⟩
  | _ => exact absurd hn (by simpa [Op.objects, Op.changes] using hz)

theorem CacheOk.sameRose (h : CacheOk S r t) (e : S.rose u = S.rose t) : CacheOk S r u := by
  simpa only [CacheOk, Shape.size, Shape.arity, e] using h

theorem reads_history (D : Determined S) {ops : List (Op α lit)} : ∀ {W : World ν} {ts : Nat → Option T} {r : TreeRec},
    Owned S W ts → Supports S W ops → (∀ op ∈ ops, z ∉ op.changes) → ts z = some t → W.vars z = some r → CacheOk S r t →
    ∃ W' as ts' r' t', W.run K ops = Res.ok (W', as) ∧ Owned S W' ts' ∧ ts' z = some t' ∧ W'.vars z = some r' ∧ CacheOk S r' t' := by
  induction ops generalizing t with
  | nil => intro W ts r O _ _ hx hr hc; exact ⟨W, [], ts, r, t, rfl, O, hx, hr, hc⟩
  | cons op ops ih =>
    intro W ts r O ⟨⟨ts0, O0, hl⟩, hrest⟩ hz hx hr hc
    have e := OwnedBut.unique D O0 O
    subst e
    have hop := hz op (List.mem_cons_self ..)
    obtain ⟨W1, o, ts1, h1, O1, E, _⟩ := step_spec L O op hl
    obtain ⟨r1, hr1, hc1⟩ := step_reads L O hl hop hx hr hc h1
    have hR := effect_reads L E hop
    rw [hx] at hR
    obtain ⟨u, hu⟩ : ∃ u, ts1 z = some u := by cases h : ts1 z <;> simp_all
    have hR' : S.rose u = S.rose t := by simpa [hu] using hR
    obtain ⟨W2, as, ts2, r2, t2, h2, O2, h3, h4, h5⟩ := ih O1 (hrest W1 o h1) (fun op' h => hz op' (List.mem_cons_of_mem _ h))
      hu hr1 (CacheOk.sameRose L hc1 hR')
    exact ⟨W2, o :: as, ts2, r2, t2, by simp [World.run, h1, h2], O2, h3, h4, h5⟩

/-- After a history in which `x` was refreshed, it remembers nothing wrong. -/
theorem refreshed (D : Determined S) {ops : List (Op α lit)} : ∀ {W : World ν} {ts : Nat → Option T}, Owned S W ts → Supports S W ops →
    Refreshed ops x → ∃ W' as ts' r t, W.run K ops = Res.ok (W', as) ∧ Owned S W' ts' ∧ ts' x = some t ∧ W'.vars x = some r ∧ CacheOk S r t := by
  induction ops with
  | nil => rintro W ts O _ ⟨before, after, h, _⟩; simp at h
  | cons op ops ih =>
    rintro W ts O ⟨⟨ts0, O0, hl⟩, hrest⟩ ⟨before, after, h, hz⟩
    have e := OwnedBut.unique D O0 O
    subst e
    obtain ⟨W1, o, ts1, h1, O1, E, _⟩ := step_spec L O op hl
    cases before with
    | nil =>
      simp only [List.nil_append, List.cons.injEq] at h
      obtain ⟨rfl, rfl⟩ := h
      obtain ⟨t, hx⟩ := Option.isSome_iff_exists.mp (show (ts0 x).isSome = true from hl)
      obtain ⟨r, hr, _⟩ := O.get L hx
      obtain ⟨e1, _⟩ := updateCounts_spec L O hx hr
      have h2 := h1
      simp only [step, e1, Res.ok_bind] at h2
      cases h2
      obtain ⟨W2, as, ts2, r2, t2, h3, O2, h4, h5, h6⟩ := reads_history L D O1 (hrest _ _ h1) hz (t := t) (by rw [E.1, hx]) (upd_same ..)
        ⟨Or.inl rfl, Or.inl rfl⟩
      exact ⟨W2, .unit :: as, ts2, r2, t2, by simp [World.run, h1, h3], O2, h4, h5, h6⟩
    | cons b before =>
      simp only [List.cons_append, List.cons.injEq] at h
      obtain ⟨W2, as, ts2, r2, t, h3, O2, h4, h5, h6⟩ := ih O1 (hrest W1 o h1) ⟨before, after, h.2, hz⟩
      exact ⟨W2, o :: as, ts2, r2, t, by simp [World.run, h1, h3], O2, h4, h5, h6⟩

end
