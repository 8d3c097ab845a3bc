import Verif.Proof.Edits
import Verif.Proof.History
/-! What a call does not touch. -/
open Tree World

theorem Res.bind_eq_ok {α β : Type} {m : Res α} {f : α → Res β} {b : β} : (m >>= f) = Res.ok b ↔ ∃ a, m = Res.ok a ∧ f a = Res.ok b := by
  cases m <;> simp

section
variable {ν α lit T V C : Type} {K : Kind ν α lit} {S : Shape K T V C} {ts ts' : Nat → Option T} {W W' : World ν}
  {n s t : T} {c : C} {x y z : Nat} {a : Addr} {P : Policy} {pos : It} {src : Src α lit}

namespace World

theorem put_other (r : Option TreeRec) (h : z ≠ x) : (W.put x r).vars z = W.vars z := by simp [put, h]
@[simp] theorem setHeap_vars (h : Heap ν) : (W.setHeap h).vars = W.vars := rfl

theorem copyNodes_vars {r : TreeRec} {p : Ptr} (e : copyNodes K W r = Res.ok (W', p)) : W'.vars = W.vars := by
  unfold copyNodes at e
  cases hr : r.root with
  | none => rw [hr] at e; cases e; rfl
  | some b =>
    rw [hr] at e
    simp only [Res.bind_eq_ok] at e
    obtain ⟨⟨h, q⟩, _, e⟩ := e
    cases e; rfl

theorem size_vars {n : Nat} (e : W.size K y = Res.ok (W', n)) (h : z ≠ y) : W'.vars z = W.vars z := by
  simp only [size, Res.bind_eq_ok] at e
  obtain ⟨r, _, ⟨m, r'⟩, _, e⟩ := e
  cases e; exact put_other _ h
theorem arity_vars {n : Nat} (e : W.arity K y = Res.ok (W', n)) (h : z ≠ y) : W'.vars z = W.vars z := by
  simp only [arity, Res.bind_eq_ok] at e
  obtain ⟨r, _, ⟨m, r'⟩, _, e⟩ := e
  cases e; exact put_other _ h

theorem overNode_vars {sb ab : Bool} {q : Ptr × Nat × Nat} (e : overNode K sb ab W src = Res.ok (W', q)) (h : z ∉ src.objects) :
    W'.vars z = W.vars z := by
  cases src with
  | value v => cases e; rfl
  | lit l =>
    simp only [overNode, Res.bind_eq_ok] at e
    obtain ⟨⟨h, q⟩, _, e⟩ := e
    cases e; rfl
  | emplaceLit l =>
    simp only [overNode, Res.bind_eq_ok] at e
    obtain ⟨⟨h, q⟩, _, e⟩ := e
    cases e; rfl
  | copyOf y =>
    have hz : z ≠ y := by simpa [Src.objects] using h
    simp only [overNode, Res.bind_eq_ok] at e
    obtain ⟨r, _, ⟨W1, p⟩, h1, ⟨W2, m⟩, h2, ⟨W3, k⟩, h3, e⟩ := e
    cases e
    rw [arity_vars h3 hz, size_vars h2 hz, copyNodes_vars h1]
  | moveOf y =>
    have hz : z ≠ y := by simpa [Src.objects] using h
    cases sb <;> cases ab <;>
      simp [overNode, takeNodes, Res.bind_eq_ok] at e <;>
      grind [put_other, setHeap_vars]

theorem childNode_vars {front : Bool} {q : Ptr × Nat × Nat} (e : childNode K front W src = Res.ok (W', q)) (h : z ∉ src.objects) :
    W'.vars z = W.vars z := by
  cases src with
  | value v => cases e; rfl
  | lit l =>
    simp only [childNode, Res.bind_eq_ok] at e
    obtain ⟨⟨h, q⟩, _, e⟩ := e
    cases front <;> cases e <;> rfl
  | emplaceLit l =>
    simp only [childNode, Res.bind_eq_ok] at e
    obtain ⟨⟨h, q⟩, _, e⟩ := e
    cases e; rfl
  | copyOf y =>
    simp only [childNode, Res.bind_eq_ok] at e
    obtain ⟨r, _, ⟨W1, p⟩, h1, e⟩ := e
    cases e
    exact congrFun (copyNodes_vars h1) z
  | moveOf y =>
    have hz : z ≠ y := by simpa [Src.objects] using h
    simp only [childNode, Res.bind_eq_ok] at e
    obtain ⟨r, _, ⟨_, _, _⟩, _, e⟩ := e
    cases e
    exact put_other _ hz

theorem insertOver_vars {sb ab : Bool} {o : Out It} (e : W.insertOver K sb ab P x pos src = Res.ok (W', o)) (hx : z ≠ x)
    (h : z ∉ src.objects) : W'.vars z = W.vars z := by
  have key : ∀ {W1 : World ν} {q : Ptr × Nat × Nat}, overNode K sb ab W src = Res.ok (W1, q) → W1.vars z = W.vars z :=
    fun e => overNode_vars e h
  cases src with
  | moveOf y =>
    have hz : z ≠ y := by simpa [Src.objects] using h
    simp only [insertOver] at e
    split at e
    · cases e; rfl
    · simp only [Res.bind_eq_ok] at e
      obtain ⟨⟨W1, q⟩, h1, r, _, ⟨h', r', o'⟩, _, e⟩ := e
      cases o' with
      | threw => cases e; rw [put_other _ hx]; have := key h1; exact this
      | ret it => cases e; rw [put_other _ hz, put_other _ hx]; have := key h1; exact this
  | _ =>
    simp only [insertOver, Res.bind_eq_ok] at e
    obtain ⟨⟨W1, q⟩, h1, r, _, ⟨h', r', o'⟩, _, e⟩ := e
    cases e; rw [put_other _ hx]; have := key h1; exact this

theorem insertChild_vars {front : Bool} {o : Out It} (e : W.insertChild K front P x pos src = Res.ok (W', o)) (hx : z ≠ x)
    (h : z ∉ src.objects) : W'.vars z = W.vars z := by
  have key : ∀ {W1 : World ν} {q : Ptr × Nat × Nat}, childNode K front W src = Res.ok (W1, q) → W1.vars z = W.vars z :=
    fun e => childNode_vars e h
  cases src with
  | moveOf y =>
    have hz : z ≠ y := by simpa [Src.objects] using h
    simp only [insertChild] at e
    split at e
    · cases e; rfl
    · simp only [Res.bind_eq_ok] at e
      obtain ⟨⟨W1, q⟩, h1, r, _, ⟨h', r', o'⟩, _, e⟩ := e
      cases o' with
      | threw => cases e; rw [put_other _ hx]; have := key h1; exact this
      | ret it => cases e; rw [put_other _ hz, put_other _ hx]; have := key h1; exact this
  | _ =>
    simp only [insertChild, Res.bind_eq_ok] at e
    obtain ⟨⟨W1, q⟩, h1, r, _, ⟨h', r', o'⟩, _, e⟩ := e
    cases e; rw [put_other _ hx]; have := key h1; exact this

/-- A call changes only the objects it names, whether or not it is supported. -/
theorem step_vars {op : Op α lit} {o : Ans} (e : W.step K op = Res.ok (W', o)) (hz : z ∉ op.objects) : W'.vars z = W.vars z := by
  cases op with
  | newEmpty x => cases e; exact put_other _ (by simpa [Op.objects] using hz)
  | newCopy x y =>
    have h := hz; simp [Op.objects] at h
    simp only [step, newCopy, Res.bind_eq_ok] at e
    obtain ⟨_, ⟨r, _, ⟨W1, p⟩, h1, e1⟩, e⟩ := e
    cases e1; cases e
    rw [put_other _ h.1, copyNodes_vars h1]
  | newMove x y =>
    have h := hz; simp [Op.objects] at h
    simp only [step, newMove, Res.bind_eq_ok] at e
    obtain ⟨_, ⟨r, _, e1⟩, e⟩ := e
    cases e1; cases e
    rw [put_other _ h.2, put_other _ h.1]
  | newLit x l =>
    simp only [step, newLit, Res.bind_eq_ok] at e
    obtain ⟨_, ⟨⟨_, _⟩, _, e1⟩, e⟩ := e
    cases e1; cases e
    rw [put_other _ (by simpa [Op.objects] using hz)]; rfl
  | destroy x =>
    simp only [step, destroy, Res.bind_eq_ok] at e
    obtain ⟨_, ⟨r, _, ⟨_, _⟩, _, e1⟩, e⟩ := e
    cases e1; cases e
    rw [put_other _ (by simpa [Op.objects] using hz)]; rfl
  | clear x =>
    simp only [step, clear, Res.bind_eq_ok] at e
    obtain ⟨_, ⟨r, _, ⟨_, _⟩, _, e1⟩, e⟩ := e
    cases e1; cases e
    rw [put_other _ (by simpa [Op.objects] using hz)]; rfl
  | assignCopy x y =>
    have h := hz; simp [Op.objects] at h
    simp only [step, assignCopy, Res.bind_eq_ok] at e
    obtain ⟨_, ⟨r, _, ⟨W1, p⟩, h1, r', _, ⟨_, _⟩, _, e1⟩, e⟩ := e
    cases e1; cases e
    rw [put_other _ h.1]; exact congrFun (copyNodes_vars h1) z
  | assignMove x y =>
    have h := hz; simp [Op.objects] at h
    simp only [step, assignMove, Res.bind_eq_ok] at e
    obtain ⟨_, ⟨r, _, r', _, ⟨_, _⟩, _, e1⟩, e⟩ := e
    cases e1; cases e
    rw [put_other _ h.2, put_other _ h.1]; rfl
  | assignLit x l =>
    simp only [step, assignLit, Res.bind_eq_ok] at e
    obtain ⟨_, ⟨⟨_, _⟩, _, r, _, ⟨_, _⟩, _, e1⟩, e⟩ := e
    cases e1; cases e
    rw [put_other _ (by simpa [Op.objects] using hz)]; rfl
  | swap x y =>
    have h := hz; simp [Op.objects] at h
    simp only [step, swap, Res.bind_eq_ok] at e
    obtain ⟨_, ⟨r, _, r', _, e1⟩, e⟩ := e
    cases e1; cases e
    rw [put_other _ h.2, put_other _ h.1]
  | size x =>
    simp only [step, Res.bind_eq_ok] at e
    obtain ⟨⟨_, _⟩, e1, e⟩ := e
    cases e
    exact size_vars e1 (by simpa [Op.objects] using hz)
  | arity x =>
    simp only [step, Res.bind_eq_ok] at e
    obtain ⟨⟨_, _⟩, e1, e⟩ := e
    cases e
    exact arity_vars e1 (by simpa [Op.objects] using hz)
  | updateCounts x =>
    simp only [step, updateCounts, Res.bind_eq_ok] at e
    obtain ⟨_, ⟨r, _, e1⟩, e⟩ := e
    cases e1; cases e
    exact put_other _ (by simpa [Op.objects] using hz)
  | insertOver sb ab P x pos src =>
    have h := hz; simp [Op.objects] at h
    simp only [step, Res.bind_eq_ok] at e
    obtain ⟨⟨_, _⟩, e1, e⟩ := e
    cases e
    exact insertOver_vars e1 h.1 h.2
  | insertChild front P x pos src =>
    have h := hz; simp [Op.objects] at h
    simp only [step, Res.bind_eq_ok] at e
    obtain ⟨⟨_, _⟩, e1, e⟩ := e
    cases e
    exact insertChild_vars e1 h.1 h.2
  | erase x pos =>
    simp only [step, World.erase, Res.bind_eq_ok] at e
    obtain ⟨⟨_, _⟩, ⟨r, _, ⟨_, _, _⟩, _, e1⟩, e⟩ := e
    cases e1; cases e
    rw [put_other _ (by simpa [Op.objects] using hz)]; rfl
  | eraseRange x first last =>
    simp only [step, World.eraseRange, Res.bind_eq_ok] at e
    obtain ⟨⟨_, _⟩, ⟨r, _, ⟨_, _, _⟩, _, e1⟩, e⟩ := e
    cases e1; cases e
    rw [put_other _ (by simpa [Op.objects] using hz)]; rfl
  | write x pos v =>
    simp only [step, World.write, Res.bind_eq_ok] at e
    obtain ⟨_, e1, e⟩ := e
    cases e
    cases hp : pos.st.cur with
    | none => rw [hp] at e1; cases e1
    | some a =>
      rw [hp] at e1
      simp only [Res.bind_eq_ok] at e1
      obtain ⟨_, _, e1⟩ := e1
      cases e1; rfl

theorem run_vars {ops : List (Op α lit)} : ∀ {W W' : World ν} {as : List Ans}, W.run K ops = Res.ok (W', as) →
    (∀ op ∈ ops, z ∉ op.objects) → W'.vars z = W.vars z := by
  induction ops with
  | nil => intro W W' as e _; cases e; rfl
  | cons op ops ih =>
    intro W W' as e hz
    simp only [run, Res.bind_eq_ok] at e
    obtain ⟨⟨W1, o⟩, h1, ⟨W2, as'⟩, h2, e⟩ := e
    cases e
    rw [ih h2 (fun op' h => hz op' (List.mem_cons_of_mem _ h)), step_vars h1 (hz op (List.mem_cons_self ..))]

end World

theorem afterSrc_objects (h : z ∉ src.objects) : afterSrc S ts src z = ts z := by
  cases src with
  | moveOf y =>
    have : z ≠ y := by simpa [Src.objects] using h
    simp [afterSrc, upd, this]
  | _ => rfl

theorem effect_frame {h h' : Heap ν} {op : Op α lit} {o : Ans} (E : Effect S h ts h' ts' o op) (hz : z ∉ op.objects) : ts' z = ts z := by
  cases op with
  | newEmpty x => simp [Op.objects] at hz; rw [E.1]; exact upd_other _ _ hz
  | newCopy x y => simp [Op.objects] at hz; obtain ⟨_, _, _, _, _, rfl, _⟩ := E; exact upd_other _ _ hz.1
  | newMove x y => simp [Op.objects] at hz; obtain ⟨_, _, rfl, _⟩ := E; rw [upd_other _ _ hz.2, upd_other _ _ hz.1]
  | newLit x l => simp [Op.objects] at hz; obtain ⟨_, _, _, rfl, _⟩ := E; exact upd_other _ _ hz
  | destroy x => simp [Op.objects] at hz; rw [E.1]; exact upd_other _ _ hz
  | clear x => simp [Op.objects] at hz; rw [E.1]; exact upd_other _ _ hz
  | assignCopy x y => simp [Op.objects] at hz; obtain ⟨_, _, _, _, _, rfl, _⟩ := E; exact upd_other _ _ hz.1
  | assignMove x y => simp [Op.objects] at hz; obtain ⟨_, _, rfl, _⟩ := E; rw [upd_other _ _ hz.2, upd_other _ _ hz.1]
  | assignLit x l => simp [Op.objects] at hz; obtain ⟨_, _, _, rfl, _⟩ := E; exact upd_other _ _ hz
  | swap x y => simp [Op.objects] at hz; obtain ⟨_, _, _, _, rfl, _⟩ := E; rw [upd_other _ _ hz.2, upd_other _ _ hz.1]
  | size x => rw [E.1]
  | arity x => rw [E.1]
  | updateCounts x => rw [E.1]
  | insertOver sb ab P x pos src =>
    simp [Op.objects] at hz
    obtain ⟨t, _, h1, h2⟩ := E
    by_cases hT : OverThrows S x t pos src
    · rw [(h1 hT).1]
    · obtain ⟨_, _, _, _, _, rfl, _⟩ := h2 hT
      rw [upd_other _ _ hz.1, afterSrc_objects hz.2]
  | insertChild front P x pos src =>
    simp [Op.objects] at hz
    obtain ⟨t, _, h1, h2⟩ := E
    by_cases hT : ChildThrows S h P x t pos src
    · rw [(h1 hT).1]
    · obtain ⟨_, _, _, _, _, _, _, _, _, rfl, _⟩ := h2 hT
      rw [upd_other _ _ hz.1, afterSrc_objects hz.2]
  | erase x pos =>
    simp [Op.objects] at hz
    obtain ⟨t, _, ⟨_, _, _, _, _, rfl, _⟩ | ⟨_, rfl, _⟩⟩ := E
    · exact upd_other _ _ hz
    · rfl
  | eraseRange x first last =>
    simp [Op.objects] at hz
    obtain ⟨_, _, _, _, _, _, _, rfl, _⟩ := E
    exact upd_other _ _ hz
  | write x pos v =>
    simp [Op.objects] at hz
    obtain ⟨_, _, _, _, _, rfl, _⟩ := E
    exact upd_other _ _ hz

namespace Generic
variable {val : ν → α} {labels : T → List (Addr × α)}

/-- A supported call leaves every tree it does not name exactly as it is: the object with its counts, the nodes and their
contents. -/
theorem others (L : Lawful S) (X : Exact S val labels) (O : Owned S W ts) {op : Op α lit} (hl : Legal S W.heap ts op) (hz : z ∉ op.objects) :
    ∃ W' o ts', W.step K op = Res.ok (W', o) ∧ Owned S W' ts' ∧ ts' z = ts z ∧ W'.vars z = W.vars z ∧
      ∀ t, ts z = some t → ∀ a ∈ S.addrs t, W'.heap.cells a = W.heap.cells a := by
  obtain ⟨W', o, ts', e, O', E, _⟩ := step_spec L O op hl
  have h1 := effect_frame E hz
  exact ⟨W', o, ts', e, O', h1, step_vars e hz, fun t ht a ha =>
    X.rep_cells _ _ t (O'.rep z t (by rw [h1]; exact ht)) (O.rep z t ht) a ha⟩

/-- The same for a whole history. -/
theorem othersHistory (L : Lawful S) (D : Determined S) (X : Exact S val labels) {ops : List (Op α lit)} : ∀ {W : World ν} {ts : Nat → Option T},
    Owned S W ts → Supports S W ops → (∀ op ∈ ops, z ∉ op.objects) →
    ∃ W' as ts', W.run K ops = Res.ok (W', as) ∧ Owned S W' ts' ∧ ts' z = ts z ∧ W'.vars z = W.vars z ∧
      ∀ t, ts z = some t → ∀ a ∈ S.addrs t, W'.heap.cells a = W.heap.cells a := by
  induction ops with
  | nil => intro W ts O _ _; exact ⟨W, [], ts, rfl, O, rfl, rfl, fun _ _ _ _ => rfl⟩
  | cons op ops ih =>
    intro W ts O ⟨⟨ts0, O0, hl⟩, hrest⟩ hz
    have e := OwnedBut.unique D O0 O
    subst e
    obtain ⟨W1, o, ts1, h1, O1, h2, h3, h4⟩ := others L X O hl (hz op (List.mem_cons_self ..))
    obtain ⟨W2, as, ts2, h5, O2, h6, h7, h8⟩ := ih O1 (hrest W1 o h1) (fun op' h => hz op' (List.mem_cons_of_mem _ h))
    refine ⟨W2, o :: as, ts2, by simp [World.run, h1, h5], O2, h6.trans h2, h7.trans h3, fun t ht a ha => ?_⟩
    rw [h8 t (by rw [h2]; exact ht) a ha, h4 t ht a ha]

/-! ### nodes and iterators outside the replaced subtree -/

/-- Nodes of the context keep their value. -/
theorem outside (L : Lawful S) (X : Exact S val labels) (O : Owned S W ts) (O' : Owned S W' ts') {s' : T}
    (hx : ts x = some (S.plug c s)) (hx' : ts' x = some (S.plug c s')) :
    ∀ a ∈ S.addrs (S.plug c s), a ∉ S.addrs s →
      a ∈ S.addrs (S.plug c s') ∧ (W'.heap.cells a).isSome ∧ (W'.heap.cells a).map val = (W.heap.cells a).map val := by
  intro a ha hs
  have hac : a ∈ S.addrs (S.plug c S.nil) := (L.mem_plug.mp ha).resolve_right hs
  have ha' : a ∈ S.addrs (S.plug c s') := L.mem_plug.mpr (Or.inl hac)
  rw [← X.labels_addrs, List.mem_map] at hac
  obtain ⟨⟨b, v⟩, hp, rfl⟩ := hac
  refine ⟨ha', L.rep_alive _ _ (O'.rep _ _ hx') _ ha', ?_⟩
  rw [X.rep_val _ _ (O'.rep _ _ hx') b v ((X.labels_plug _ _ _).mpr (Or.inl hp)),
    X.rep_val _ _ (O.rep _ _ hx) b v ((X.labels_plug _ _ _).mpr (Or.inl hp))]

theorem outsideChild (L : Lawful S) (X : Exact S val labels) (O : Owned S W ts) (O' : Owned S W' ts') {front : Bool}
    (hx : ts x = some (S.plug c s)) (hs : s ≠ S.nil) (hf : S.isFull s = false)
    (hx' : ts' x = some (S.plug c (if front then S.front n s else S.back n s))) :
    ∀ a ∈ S.addrs (S.plug c s),
      a ∈ S.addrs (S.plug c (if front then S.front n s else S.back n s)) ∧ (W'.heap.cells a).isSome ∧
        (W'.heap.cells a).map val = (W.heap.cells a).map val := by
  intro a ha
  have ha0 := ha
  rw [← X.labels_addrs, List.mem_map] at ha
  obtain ⟨⟨b, v⟩, hp, rfl⟩ := ha
  have hp' : (b, v) ∈ labels (S.plug c (if front then S.front n s else S.back n s)) := by
    rw [X.labels_plug] at hp ⊢
    rcases hp with hp | hp
    · exact Or.inl hp
    · right
      cases front
      · exact (X.labels_back n s _ hf hs).mpr (Or.inr hp)
      · exact (X.labels_front n s _ hf hs).mpr (Or.inr hp)
  have ha' : b ∈ S.addrs (S.plug c (if front then S.front n s else S.back n s)) := by
    rw [← X.labels_addrs]; exact List.mem_map_of_mem hp'
  refine ⟨ha', L.rep_alive _ _ (O'.rep _ _ hx') _ ha', ?_⟩
  rw [X.rep_val _ _ (O'.rep _ _ hx') b v hp', X.rep_val _ _ (O.rep _ _ hx) b v hp]

/-- An iterator without queue stays valid as long as its node does. -/
theorem iterator (L : Lawful S) {h' : Heap ν} {h : Heap ν} {Q : Policy} {p : It} {c2 : C} {s2 t' : T} (A : At S Q h t p c2 s2)
    (hQ : Q ≠ Policy.breadthFirst) (ha : p.st.cur = some a) (ha' : a ∈ S.addrs t') (hroot : S.ptr t' = S.ptr t) :
    ∃ c3 s3, At S Q h' t' p c3 s3 := by
  obtain ⟨c3, s3, h1, h2⟩ := L.locate ha'
  refine ⟨c3, s3, A.policy, h1, fun e => ?_, by rw [ha, h2], A.root.trans hroot.symm, fun h => absurd h hQ⟩
  rw [e, L.ptr_nil] at h2; cases h2

end Generic

end
