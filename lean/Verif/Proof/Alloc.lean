import Verif.Spec.Alloc
import Verif.Proof.Frame
import Verif.Proof.History
/-! Trees whose allocators differ. -/
open Tree World

section
variable {ν α lit T V C : Type} {K : Kind ν α lit} {S : Shape K T V C} {ts ts' : Nat → Option T} {A : AWorld ν} {W' : World ν} {o : Ans}

/-- The check of `AWorld.step`. -/
def GivesBack (A : AWorld ν) (W' : World ν) (i : Nat) : Prop :=
  ∀ a, (A.W.heap.cells a).isSome → W'.heap.cells a = none → A.origin a = i

/-- The state after a call that passes the check. -/
def AWorld.next (A : AWorld ν) (W' : World ν) (op : Op α lit) : AWorld ν :=
  ⟨W', op.allocators A.al, fun a => if (A.W.heap.cells a).isNone && (W'.heap.cells a).isSome then op.allocators A.al op.target
    else A.origin a⟩

theorem check_iff (hw : A.W.heap.WF) (i : Nat) : (List.range A.W.heap.next).all (fun a =>
    (A.W.heap.cells a).isNone || (W'.heap.cells a).isSome || A.origin a == i) = true ↔ GivesBack A W' i := by
  simp only [List.all_eq_true, List.mem_range, Bool.or_eq_true, beq_iff_eq]
  constructor
  · intro h a h1 h2
    have hlt : a < A.W.heap.next := by
      rcases Nat.lt_or_ge a A.W.heap.next with h3 | h3
      · exact h3
      · rw [hw a h3] at h1; cases h1
    have := h a hlt
    simp only [h2, Option.isSome_none, Bool.false_eq_true, or_false] at this
    rcases this with h3 | h3
    · rw [Option.isNone_iff_eq_none.mp h3] at h1; cases h1
    · exact h3
  · intro h a _
    cases h1 : A.W.heap.cells a with
    | none => simp
    | some v =>
      cases h2 : W'.heap.cells a with
      | none => exact Or.inr (h a (by simp [h1]) h2)
      | some w => simp

theorem call_ok {op : Op α lit} (hw : A.W.heap.WF) (hb : op.beforeLifetime A.W = false) (e : A.W.step K op = Res.ok (W', o))
    (hg : GivesBack A W' (op.allocators A.al op.target)) : A.step K (.call op) = Res.ok (A.next W' op, o) := by
  have := (check_iff (W' := W') hw (op.allocators A.al op.target)).mpr hg
  simp only [AWorld.step, hb, e, Res.ok_bind, this]
  rfl

theorem call_of_ok {op : Op α lit} (hw : A.W.heap.WF) (e : A.W.step K op = Res.ok (W', o)) {A' : AWorld ν} {o' : Ans}
    (h : A.step K (.call op) = Res.ok (A', o')) : op.beforeLifetime A.W = false ∧ GivesBack A W' (op.allocators A.al op.target) ∧
      A' = A.next W' op ∧ o' = o := by
  cases hb : op.beforeLifetime A.W with
  | true => simp [AWorld.step, hb] at h
  | false =>
    simp only [AWorld.step, hb, e, Res.ok_bind, Bool.false_eq_true, if_false] at h
    split at h
    · rename_i hc
      cases h
      exact ⟨rfl, (check_iff hw _).mp hc, rfl, rfl⟩
    · cases h

/-- Blocks that were there keep their origin. -/
theorem next_origin (op : Op α lit) {a : Addr} (h : (A.W.heap.cells a).isSome) : (A.next W' op).origin a = A.origin a := by
  obtain ⟨v, hv⟩ := Option.isSome_iff_exists.mp h
  simp [AWorld.next, hv]

/-- A call that changes one tree and may take the nodes of others. -/
theorem homed_core (L : Lawful S) (O : Owned S A.W ts) (O' : Owned S W' ts') (H : Homed S A ts) (op : Op α lit)
    (h1 : ∀ z, z ≠ op.target → op.allocators A.al z = A.al z)
    (h2 : ∀ z, z ≠ op.target → ts' z = ts z ∨ ts' z = some S.nil)
    (h3 : ∀ w t, ts w = some t → t ≠ S.nil → (w ≠ op.target ∧ ts' w = ts w) ∨ A.al w = op.allocators A.al op.target) :
    GivesBack A W' (op.allocators A.al op.target) ∧ Homed S (A.next W' op) ts' := by
  have hne : ∀ {t : T} {a : Addr}, a ∈ S.addrs t → t ≠ S.nil := by
    rintro t a ha rfl
    rw [L.addrs_nil] at ha; cases ha
  constructor
  · intro a ha hd
    obtain ⟨w, t, hw, hat⟩ := O.noLeak a ha
    rw [H w t hw a hat]
    rcases h3 w t hw (hne hat) with ⟨_, h⟩ | h
    · have := L.rep_alive _ _ (O'.rep w t (h.trans hw)) a hat
      rw [hd] at this; cases this
    · exact h
  · intro z t' hz a ha
    by_cases hzt : z = op.target
    · subst hzt
      by_cases hal : (A.W.heap.cells a).isSome
      · rw [next_origin op hal]
        obtain ⟨w, t, hw, hat⟩ := O.noLeak a hal
        rw [H w t hw a hat]
        rcases h3 w t hw (hne hat) with ⟨hwt, h⟩ | h
        · exact absurd ha (O'.disjoint w _ t t' (h.trans hw) hz hwt a hat)
        · exact h
      · have h4 := L.rep_alive _ _ (O'.rep _ t' hz) a ha
        have h5 : A.W.heap.cells a = none := by simpa using hal
        simp [AWorld.next, h4, h5]
    · rcases h2 z hzt with h | h
      · rw [next_origin op (L.rep_alive _ _ (O.rep z t' (h.symm.trans hz)) a ha)]
        exact (H z t' (h.symm.trans hz) a ha).trans (h1 z hzt).symm
      · rw [h] at hz; cases hz
        exact absurd rfl (hne ha)

/-- The trees a call moves from. -/
def Op.moves {α lit : Type} : Op α lit → List Nat
  | .newMove _ y => [y]
  | .assignMove _ y => [y]
  | .swap _ y => [y]
  | .insertOver _ _ _ _ _ (.moveOf y) => [y]
  | .insertChild _ _ _ _ (.moveOf y) => [y]
  | _ => []

theorem effect_kept {h h' : Heap ν} {op : Op α lit} (E : Effect S h ts h' ts' o op) {z : Nat} (hz : z ≠ op.target) (hm : z ∉ op.moves) :
    ts' z = ts z := by
  cases op with
  | newEmpty x => rw [E.1]; exact upd_other _ _ hz
  | newCopy x y => obtain ⟨_, _, _, _, _, rfl, _⟩ := E; exact upd_other _ _ hz
  | newMove x y =>
    simp [Op.moves] at hm; obtain ⟨_, _, rfl, _⟩ := E; rw [upd_other _ _ hm, upd_other _ _ (show z ≠ x from hz)]
  | newLit x l => obtain ⟨_, _, _, rfl, _⟩ := E; exact upd_other _ _ hz
  | destroy x => rw [E.1]; exact upd_other _ _ hz
  | clear x => rw [E.1]; exact upd_other _ _ hz
  | assignCopy x y => obtain ⟨_, _, _, _, _, rfl, _⟩ := E; exact upd_other _ _ hz
  | assignMove x y => simp [Op.moves] at hm; obtain ⟨_, _, rfl, _⟩ := E; rw [upd_other _ _ hm, upd_other _ _ (show z ≠ x from hz)]
  | assignLit x l => obtain ⟨_, _, _, rfl, _⟩ := E; exact upd_other _ _ hz
  | swap x y => simp [Op.moves] at hm; obtain ⟨_, _, _, _, rfl, _⟩ := E; rw [upd_other _ _ hm, upd_other _ _ (show z ≠ x from hz)]
  | size x => rw [E.1]
  | arity x => rw [E.1]
  | updateCounts x => rw [E.1]
  | insertOver sb ab P x pos src =>
    obtain ⟨t, _, h1, h2⟩ := E
    by_cases hT : OverThrows S x t pos src
    · rw [(h1 hT).1]
    · obtain ⟨_, _, _, _, _, rfl, _⟩ := h2 hT
      rw [upd_other _ _ (show z ≠ x from hz)]
      cases src with
      | moveOf y => simp [Op.moves] at hm; exact upd_other _ _ hm
      | _ => rfl
  | insertChild front P x pos src =>
    obtain ⟨t, _, h1, h2⟩ := E
    by_cases hT : ChildThrows S h P x t pos src
    · rw [(h1 hT).1]
    · obtain ⟨_, _, _, _, _, _, _, _, _, rfl, _⟩ := h2 hT
      rw [upd_other _ _ (show z ≠ x from hz)]
      cases src with
      | moveOf y => simp [Op.moves] at hm; exact upd_other _ _ hm
      | _ => rfl
  | erase x pos =>
    obtain ⟨t, _, ⟨_, _, _, _, _, rfl, _⟩ | ⟨_, rfl, _⟩⟩ := E
    · exact upd_other _ _ hz
    · rfl
  | eraseRange x first last =>
    obtain ⟨_, _, _, _, _, _, _, rfl, _⟩ := E
    exact upd_other _ _ hz
  | write x pos v =>
    obtain ⟨_, _, _, _, _, rfl, _⟩ := E
    exact upd_other _ _ hz

theorem allocators_other (op : Op α lit) (al : Nat → Nat) {z : Nat} (hz : z ≠ op.target) : op.allocators al z = al z := by
  cases op <;> first | rfl | exact upd_other _ _ hz

/-- Calls that move from no tree. -/
theorem homed_plain (L : Lawful S) (O : Owned S A.W ts) (O' : Owned S W' ts') (H : Homed S A ts) {op : Op α lit}
    (E : Effect S A.W.heap ts W'.heap ts' o op) (hm : op.moves = [])
    (ha : (ts op.target).isSome → op.allocators A.al op.target = A.al op.target) :
    GivesBack A W' (op.allocators A.al op.target) ∧ Homed S (A.next W' op) ts' := by
  refine homed_core L O O' H op (fun z hz => allocators_other op _ hz) (fun z hz => Or.inl (effect_kept E hz (by simp [hm]))) ?_
  intro w t hw _
  by_cases h : w = op.target
  · subst h
    exact Or.inr (ha (by simp [hw])).symm
  · exact Or.inl ⟨h, effect_kept E h (by simp [hm])⟩

theorem mem_ne_nil (L : Lawful S) {t : T} {a : Addr} (ha : a ∈ S.addrs t) : t ≠ S.nil := by
  rintro rfl
  rw [L.addrs_nil] at ha; cases ha

theorem mem_of_ne (L : Lawful S) {t : T} (h : t ≠ S.nil) : ∃ a, a ∈ S.addrs t := by
  obtain ⟨a, ha⟩ := L.ptr_of_ne h
  exact ⟨a, L.ptr_mem ha⟩

/-- A call that moves a tree into another one which keeps its allocator. -/
theorem homed_moved (L : Lawful S) (O : Owned S A.W ts) (O' : Owned S W' ts') (H : Homed S A ts) {op : Op α lit} {x y : Nat} {t n m : T}
    (hx : ts x = some t) (hy : ts y = some n) (hxy : x ≠ y) (hop : op.target = x) (hal : op.allocators A.al = A.al)
    (hts : ts' = upd (upd ts y (some S.nil)) x (some m)) (hm : ∀ a ∈ S.addrs n, a ∈ S.addrs m) :
    (A.al x = A.al y ∨ n = S.nil) ↔ (GivesBack A W' (op.allocators A.al op.target) ∧ Homed S (A.next W' op) ts') := by
  subst hop
  constructor
  · intro hok
    refine homed_core L O O' H op (fun z hz => allocators_other op _ hz) (fun z hz => ?_) ?_
    · rw [hts, upd_other _ _ hz]
      by_cases h : z = y
      · subst h; exact Or.inr (upd_same _ _ _)
      · exact Or.inl (upd_other _ _ h)
    · intro w u hw hu
      rw [hal]
      by_cases h1 : w = op.target
      · subst h1; exact Or.inr rfl
      · by_cases h2 : w = y
        · subst h2
          rw [hy] at hw; cases hw
          rcases hok with h | h
          · exact Or.inr h.symm
          · exact absurd h hu
        · exact Or.inl ⟨h1, by rw [hts, upd_other _ _ h1, upd_other _ _ h2]⟩
  · rintro ⟨_, hH⟩
    by_cases hn : n = S.nil
    · exact Or.inr hn
    · obtain ⟨a, ha⟩ := mem_of_ne L hn
      have h1 := hH op.target m (by rw [hts]; exact upd_same _ _ _) a (hm a ha)
      rw [next_origin op (L.rep_alive _ _ (O.rep y n hy) a ha), H y n hy a ha] at h1
      exact Or.inl (by rw [h1, AWorld.next]; simp only [hal])

theorem homed_same (O : Owned S A.W ts) (L : Lawful S) (H : Homed S A ts) {op : Op α lit} (hal : op.allocators A.al = A.al)
    (O' : Owned S W' ts) : GivesBack A W' (op.allocators A.al op.target) ∧ Homed S (A.next W' op) ts :=
  homed_core L O O' H op (fun z hz => allocators_other op _ hz) (fun z _ => Or.inl rfl) fun w t hw _ => by
    by_cases h : w = op.target
    · subst h; exact Or.inr (by rw [hal])
    · exact Or.inl ⟨h, rfl⟩

/-- A supported call respects the allocators exactly if `AllocOk` says so. -/
theorem alloc_step (L : Lawful S) (O : Owned S A.W ts) (H : Homed S A ts) (c : ACall α lit) (hl : Legal S A.W.heap ts c.plain) :
    ∃ W' o ts', A.W.step K c.plain = Res.ok (W', o) ∧ Owned S W' ts' ∧ Effect S A.W.heap ts W'.heap ts' o c.plain ∧
      (AllocOk S A ts c ↔ ∃ A', A.step K c = Res.ok (A', o) ∧ A'.W = W' ∧ Homed S A' ts') := by
  obtain ⟨W', o, ts', e, O', E, _⟩ := step_spec L O c.plain hl
  refine ⟨W', o, ts', e, O', E, ?_⟩
  cases c with
  | newWith x i =>
    simp only [ACall.plain] at e E hl
    refine ⟨fun _ => ?_, fun _ => trivial⟩
    refine ⟨⟨W', upd A.al x i, A.origin⟩, by simp [AWorld.step, e], rfl, ?_⟩
    intro z t hz a ha
    rw [E.1] at hz
    by_cases h : z = x
    · subst h
      rw [upd_same] at hz; cases hz
      exact absurd rfl (mem_ne_nil L ha)
    · rw [upd_other _ _ h] at hz
      exact (H z t hz a ha).trans (upd_other _ _ h).symm
  | call op =>
    simp only [ACall.plain] at e E hl
    have key : (∃ A', A.step K (.call op) = Res.ok (A', o) ∧ A'.W = W' ∧ Homed S A' ts') ↔ op.beforeLifetime A.W = false ∧
        GivesBack A W' (op.allocators A.al op.target) ∧ Homed S (A.next W' op) ts' := by
      constructor
      · rintro ⟨A', h1, _, h2⟩
        obtain ⟨h3, h4, rfl, _⟩ := call_of_ok O.wf e h1
        exact ⟨h3, h4, h2⟩
      · rintro ⟨h1, h2, h3⟩
        exact ⟨_, call_ok O.wf h1 e h2, rfl, h3⟩
    rw [key]
    have plain : op.moves = [] → op.beforeLifetime A.W = false → AllocOk S A ts (.call op) →
        ((ts op.target).isSome → op.allocators A.al op.target = A.al op.target) →
        (AllocOk S A ts (.call op) ↔ op.beforeLifetime A.W = false ∧ GivesBack A W' (op.allocators A.al op.target) ∧
          Homed S (A.next W' op) ts') := fun h1 h2 h3 h4 => ⟨fun _ => ⟨h2, homed_plain L O O' H E h1 h4⟩, fun _ => h3⟩
    cases op with
    | newEmpty x =>
      refine plain rfl rfl trivial fun h => ?_
      rw [show ts (Op.newEmpty x : Op α lit).target = none from hl] at h; cases h
    | newCopy x y =>
      obtain ⟨t, hy⟩ := Option.isSome_iff_exists.mp hl.2
      obtain ⟨r, hr, _, hrt, _⟩ := O.get L hy
      by_cases ht : t = S.nil
      · subst ht
        refine plain rfl (by simp [Op.beforeLifetime, hr, hrt, L.ptr_nil]) hy fun h => ?_
        rw [show ts (Op.newCopy x y : Op α lit).target = none from hl.1] at h; cases h
      · obtain ⟨a, ha⟩ := L.ptr_of_ne ht
        refine ⟨fun h => ?_, fun h => ?_⟩
        · have h' : ts y = some S.nil := h
          rw [hy] at h'; cases h'; exact absurd rfl ht
        · have := h.1
          simp [Op.beforeLifetime, hr, hrt, ha] at this
    | newMove x y =>
      refine ⟨fun _ => ⟨rfl, ?_⟩, fun _ => trivial⟩
      obtain ⟨t, hy, rfl, _⟩ := E
      have hxy : x ≠ y := by rintro rfl; rw [hl.1] at hy; cases hy
      refine homed_core L O O' H _ (fun z hz => allocators_other _ _ hz) (fun z hz => ?_) ?_
      · by_cases h : z = y
        · subst h; exact Or.inr (upd_same _ _ _)
        · rw [upd_other _ _ h, upd_other _ _ (show z ≠ x from hz)]; exact Or.inl rfl
      · intro w u hw hu
        have h1 : w ≠ x := by rintro rfl; rw [hl.1] at hw; cases hw
        by_cases h2 : w = y
        · subst h2; exact Or.inr (upd_same _ _ _).symm
        · exact Or.inl ⟨h1, by rw [upd_other _ _ h2, upd_other _ _ h1]⟩
    | newLit x l => exact ⟨fun h => h.elim, fun h => by simp [Op.beforeLifetime] at h⟩
    | assignMove x y =>
      obtain ⟨t, hx⟩ := Option.isSome_iff_exists.mp hl.1
      obtain ⟨u, hy, rfl, _⟩ := E
      constructor
      · intro hok
        refine ⟨rfl, homed_core L O O' H _ (fun z hz => allocators_other _ _ hz) (fun z hz => ?_) ?_⟩
        · by_cases h : z = y
          · subst h; exact Or.inr (upd_same _ _ _)
          · rw [upd_other _ _ h, upd_other _ _ (show z ≠ x from hz)]; exact Or.inl rfl
        · intro w v hw hv
          by_cases h1 : w = x
          · subst h1
            rcases hok with h | h
            · exact Or.inr (h.trans (upd_same _ _ _).symm)
            · rw [h] at hw; cases hw; exact absurd rfl hv
          · by_cases h2 : w = y
            · subst h2; exact Or.inr (upd_same _ _ _).symm
            · exact Or.inl ⟨h1, by rw [upd_other _ _ h2, upd_other _ _ h1]⟩
      · rintro ⟨_, hG, _⟩
        by_cases ht : t = S.nil
        · subst ht; exact Or.inr hx
        · obtain ⟨a, ha⟩ := mem_of_ne L ht
          by_cases hxy : x = y
          · subst hxy; exact Or.inl rfl
          have hal := L.rep_alive _ _ (O.rep x t hx) a ha
          have hd : W'.heap.cells a = none := by
            cases h : W'.heap.cells a with
            | none => rfl
            | some v =>
              exfalso
              obtain ⟨w, v', hw, hav⟩ := O'.noLeak a (by simp [h])
              by_cases h2 : w = y
              · subst h2; rw [upd_same] at hw; cases hw; exact mem_ne_nil L hav rfl
              · rw [upd_other _ _ h2] at hw
                by_cases h1 : w = x
                · subst h1; rw [upd_same] at hw; cases hw
                  exact O.disjoint w y t _ hx hy hxy a ha hav
                · rw [upd_other _ _ h1] at hw
                  exact O.disjoint x w t v' hx hw (Ne.symm h1) a ha hav
          have := hG a hal hd
          rw [H x t hx a ha] at this
          exact Or.inl (this.trans (upd_same _ _ _))
    | swap x y =>
      obtain ⟨t, u, hx, hy, rfl, _⟩ := E
      have hG : GivesBack A W' (Op.allocators A.al (.swap x y : Op α lit) (Op.target (.swap x y : Op α lit))) := by
        intro a ha hd
        exfalso
        obtain ⟨w, v, hw, hav⟩ := O.noLeak a ha
        have : ∃ z, upd (upd ts x (some u)) y (some t) z = some v := by
          by_cases h1 : w = x
          · subst h1; rw [hx] at hw; cases hw; exact ⟨y, upd_same _ _ _⟩
          · by_cases h2 : w = y
            · subst h2; rw [hy] at hw; cases hw
              exact ⟨x, by rw [upd_other _ _ (Ne.symm h1), upd_same]⟩
            · exact ⟨w, by rw [upd_other _ _ h2, upd_other _ _ h1, hw]⟩
        obtain ⟨z, hz⟩ := this
        have := L.rep_alive _ _ (O'.rep z v hz) a hav
        rw [hd] at this; cases this
      constructor
      · intro hok
        refine ⟨rfl, hG, ?_⟩
        intro z v hz a ha
        by_cases h2 : z = y
        · subst h2; rw [upd_same] at hz; cases hz
          rw [next_origin _ (L.rep_alive _ _ (O.rep x t hx) a ha), H x t hx a ha]
          rcases hok with h | h
          · exact h
          · have := h.1; rw [hx] at this; cases this; exact absurd rfl (mem_ne_nil L ha)
        · rw [upd_other _ _ h2] at hz
          by_cases h1 : z = x
          · subst h1; rw [upd_same] at hz; cases hz
            rw [next_origin _ (L.rep_alive _ _ (O.rep y u hy) a ha), H y u hy a ha]
            rcases hok with h | h
            · exact h.symm
            · have := h.2; rw [hy] at this; cases this; exact absurd rfl (mem_ne_nil L ha)
          · rw [upd_other _ _ h1] at hz
            rw [next_origin _ (L.rep_alive _ _ (O.rep z v hz) a ha)]
            exact H z v hz a ha
      · rintro ⟨_, _, hH⟩
        by_cases hxy : x = y
        · subst hxy; exact Or.inl rfl
        by_cases ht : t = S.nil
        · by_cases hu : u = S.nil
          · subst ht; subst hu; exact Or.inr ⟨hx, hy⟩
          · obtain ⟨a, ha⟩ := mem_of_ne L hu
            have := hH x u (by rw [upd_other _ _ hxy, upd_same]) a ha
            rw [next_origin _ (L.rep_alive _ _ (O.rep y u hy) a ha), H y u hy a ha] at this
            exact Or.inl this.symm
        · obtain ⟨a, ha⟩ := mem_of_ne L ht
          have := hH y t (upd_same _ _ _) a ha
          rw [next_origin _ (L.rep_alive _ _ (O.rep x t hx) a ha), H x t hx a ha] at this
          exact Or.inl this
    | insertOver sb ab P x pos src =>
      cases src with
      | moveOf y =>
        obtain ⟨t, hx, h1, h2⟩ := E
        by_cases hT : OverThrows S x t pos (.moveOf y : Src α lit)
        · obtain ⟨rfl, _⟩ := h1 hT
          exact ⟨fun _ => ⟨rfl, homed_same O L H rfl O'⟩, fun _ => Or.inr (Or.inr ⟨t, hx, hT⟩)⟩
        · obtain ⟨n, c, it, hn, _, hts, _⟩ := h2 hT
          have hy : ts y = some n := hn
          have hxy : x ≠ y := by rintro rfl; exact hT (Or.inl rfl)
          have := homed_moved L O O' H (op := .insertOver sb ab P x pos (.moveOf y)) hx hy hxy rfl rfl hts
            (fun a ha => L.mem_plug.mpr (Or.inr ha))
          refine Iff.trans ⟨fun h => ?_, fun h => ?_⟩ (Iff.trans this ⟨fun h => ⟨rfl, h⟩, fun h => h.2⟩)
          · rcases h with h | h | ⟨t', hx', hT'⟩
            · exact Or.inl h
            · rw [hy] at h; cases h; exact Or.inr rfl
            · rw [hx] at hx'; cases hx'; exact absurd hT' hT
          · rcases h with h | h
            · exact Or.inl h
            · subst h; exact Or.inr (Or.inl hy)
      | _ => exact plain rfl rfl trivial fun _ => rfl
    | insertChild front P x pos src =>
      cases src with
      | moveOf y =>
        obtain ⟨t, hx, h1, h2⟩ := E
        by_cases hT : ChildThrows S A.W.heap P x t pos (.moveOf y : Src α lit)
        · obtain ⟨rfl, _⟩ := h1 hT
          exact ⟨fun _ => ⟨rfl, homed_same O L H rfl O'⟩, fun _ => Or.inr (Or.inr ⟨t, hx, hT⟩)⟩
        · obtain ⟨n, c, s, s', it, hn, _, hA, hs', hts, _⟩ := h2 hT
          have hy : ts y = some n := hn
          have hxy : x ≠ y := by rintro rfl; exact hT (Or.inl rfl)
          have hf : S.isFull s = false := by
            cases hf : S.isFull s with
            | false => rfl
            | true => exact absurd (Or.inr (Or.inr ⟨c, s, hA, hf⟩)) hT
          obtain ⟨b, hb⟩ := L.ptr_of_ne hA.node
          have := homed_moved L O O' H (op := .insertChild front P x pos (.moveOf y)) hx hy hxy rfl rfl hts
            (fun a ha => L.mem_plug.mpr (Or.inr (by
              subst hs'
              cases front
              · exact (L.mem_back hb hf).mpr (Or.inl ha)
              · exact (L.mem_front hb hf).mpr (Or.inl ha))))
          refine Iff.trans ⟨fun h => ?_, fun h => ?_⟩ (Iff.trans this ⟨fun h => ⟨rfl, h⟩, fun h => h.2⟩)
          · rcases h with h | h | ⟨t', hx', hT'⟩
            · exact Or.inl h
            · rw [hy] at h; cases h; exact Or.inr rfl
            · rw [hx] at hx'; cases hx'; exact absurd hT' hT
          · rcases h with h | h
            · exact Or.inl h
            · subst h; exact Or.inr (Or.inl hy)
      | _ => exact plain rfl rfl trivial fun _ => rfl
    | _ => exact plain rfl rfl trivial fun _ => rfl

theorem call_ub {op : Op α lit} (hw : A.W.heap.WF) (e : A.W.step K op = Res.ok (W', o))
    (hg : ¬ GivesBack A W' (op.allocators A.al op.target)) : A.step K (.call op) = Res.ub := by
  cases hb : op.beforeLifetime A.W with
  | true => simp [AWorld.step, hb]
  | false =>
    simp only [AWorld.step, hb, e, Res.ok_bind, Bool.false_eq_true, if_false]
    split
    · rename_i hc
      exact absurd ((check_iff hw _).mp hc) hg
    · rfl

namespace Generic

/-- A tree with a node from another allocator cannot be destroyed or cleared. -/
theorem strange_node (L : Lawful S) (O : Owned S A.W ts) {x : Nat} {t : T} {a : Addr} (hx : ts x = some t) (ha : a ∈ S.addrs t)
    (hne : A.origin a ≠ A.al x) : A.step K (.call (.destroy x)) = Res.ub ∧ A.step K (.call (.clear x)) = Res.ub := by
  have go : ∀ op : Op α lit, Legal S A.W.heap ts op → op.allocators A.al op.target = A.al x →
      (∀ h' ts' o, Effect S A.W.heap ts h' ts' o op → ∀ z u, ts' z = some u → u = S.nil ∨ (z ≠ x ∧ ts z = some u)) →
      A.step K (.call op) = Res.ub := by
    intro op hl hal hE
    obtain ⟨W', o, ts', e, O', E, _⟩ := step_spec L O op hl
    refine call_ub O.wf e fun hg => hne ?_
    rw [hal] at hg
    refine hg a (L.rep_alive _ _ (O.rep x t hx) a ha) ?_
    cases h : W'.heap.cells a with
    | none => rfl
    | some v =>
      exfalso
      obtain ⟨z, u, hz, hau⟩ := O'.noLeak a (by simp [h])
      rcases hE _ _ _ E z u hz with h1 | ⟨h1, h2⟩
      · exact mem_ne_nil L hau h1
      · exact O.disjoint x z t u hx h2 (Ne.symm h1) a ha hau
  constructor
  · refine go _ (by simp [Legal, hx]) rfl ?_
    rintro h' ts' o ⟨rfl, _⟩ z u hz
    by_cases h : z = x
    · subst h; rw [upd_same] at hz; cases hz
    · rw [upd_other _ _ h] at hz; exact Or.inr ⟨h, hz⟩
  · refine go _ (by simp [Legal, hx]) rfl ?_
    rintro h' ts' o ⟨rfl, _⟩ z u hz
    by_cases h : z = x
    · subst h; rw [upd_same] at hz; cases hz; exact Or.inl rfl
    · rw [upd_other _ _ h] at hz; exact Or.inr ⟨h, hz⟩

/-- A call that does not respect the allocators is undefined itself or leaves a tree behind that cannot be destroyed. -/
theorem disrespect (L : Lawful S) (O : Owned S A.W ts) (H : Homed S A ts) (c : ACall α lit) (hl : Legal S A.W.heap ts c.plain)
    (hn : ¬ AllocOk S A ts c) : A.step K c = Res.ub ∨
      ∃ A' o x, A.step K c = Res.ok (A', o) ∧ (A'.W.vars x).isSome ∧ A'.step K (.call (.destroy x)) = Res.ub := by
  obtain ⟨W', o, ts', e, O', E, h2⟩ := alloc_step L O H c hl
  cases c with
  | newWith x i => exact absurd trivial hn
  | call op =>
    simp only [ACall.plain] at e E hl
    by_cases hb : op.beforeLifetime A.W = true
    · exact Or.inl (by simp [AWorld.step, hb])
    by_cases hg : GivesBack A W' (op.allocators A.al op.target)
    · have h3 := call_ok O.wf (by simpa using hb) e hg
      have h4 : ¬ Homed S (A.next W' op) ts' := fun h => hn (h2.mpr ⟨_, h3, rfl, h⟩)
      unfold Homed at h4
      simp only [Classical.not_forall] at h4
      obtain ⟨x, t, hx, a, ha, hne⟩ := h4
      exact Or.inr ⟨_, o, x, h3, by rw [show (A.next W' op).W = W' from rfl, O'.alive x, hx]; rfl, (strange_node L (A := A.next W' op) O' hx ha hne).1⟩
    · exact Or.inl (call_ub O.wf e hg)

/-- A program whose calls respect the allocators. -/
theorem alloc_history (L : Lawful S) (D : Determined S) : ∀ (l : List (ACall α lit)) (A : AWorld ν) (ts : Nat → Option T),
    Owned S A.W ts → Homed S A ts → SupportsA S A l →
    ∃ A' as ts', A.run K l = Res.ok (A', as) ∧ A.W.run K (l.map ACall.plain) = Res.ok (A'.W, as) ∧
      Trace S A.W ts ((l.map ACall.plain).zip as) A'.W ts' ∧ Owned S A'.W ts' ∧ Homed S A' ts' := by
  intro l
  induction l with
  | nil => intro A ts O H _; exact ⟨A, [], ts, rfl, rfl, .done _ _ O, O, H⟩
  | cons c cs ih =>
    intro A ts O H ⟨⟨ts0, O0, hl, hok⟩, hrest⟩
    have e := OwnedBut.unique D O0 O
    subst e
    obtain ⟨W1, o, ts1, h1, O1, E, h2⟩ := alloc_step L O H c hl
    obtain ⟨A1, h3, rfl, H1⟩ := h2.mp hok
    obtain ⟨A2, as, ts2, h4, h5, h6, O2, H2⟩ := ih A1 ts1 O1 H1 (hrest A1 o h3)
    exact ⟨A2, o :: as, ts2, by simp [AWorld.run, h3, h4], by simp [World.run, h1, h5], .step _ _ _ _ _ _ _ _ _ O h1 E h6, O2, H2⟩

end Generic

end

/-! ### which allocator a tree holds -/
theorem held_step {ν α lit : Type} {K : Kind ν α lit} {A A' : AWorld ν} {c : ACall α lit} {o : Ans} {b : List (ACall α lit)}
    (h : ∀ x, A.al x = heldAfter b x) (e : A.step K c = Res.ok (A', o)) (x : Nat) : A'.al x = heldAfter (c :: b) x := by
  have hu : ∀ y i, _root_.upd A.al y i x = if x = y then i else heldAfter b x := by
    intro y i; simp only [_root_.upd, h x]; try rfl
  cases c with
  | newWith y i =>
    simp only [AWorld.step, Res.bind_eq_ok, Res.pure_eq] at e
    obtain ⟨⟨W, o'⟩, _, e⟩ := e
    cases e
    simp only [heldAfter, hu]
  | call op =>
    have e' : A'.al = op.allocators A.al := by
      simp only [AWorld.step] at e
      split at e
      · cases e
      · simp only [Res.bind_eq_ok, Res.pure_eq] at e
        obtain ⟨⟨W, o'⟩, _, e⟩ := e
        split at e
        · cases e; rfl
        · cases e
    rw [e']
    cases op <;> simp only [Op.allocators, heldAfter, hu, h]

theorem held_run {ν α lit : Type} {K : Kind ν α lit} : ∀ (l : List (ACall α lit)) (A A' : AWorld ν) (as : List Ans) (b : List (ACall α lit)),
    (∀ x, A.al x = heldAfter b x) → A.run K l = Res.ok (A', as) → ∀ x, A'.al x = heldAfter (l.reverse ++ b) x
  | [], A, A', as, b, h, e => by cases e; exact h
  | c :: cs, A, A', as, b, h, e => by
    simp only [AWorld.run, Res.bind_eq_ok, Res.pure_eq] at e
    obtain ⟨⟨A1, a⟩, e1, ⟨A2, as'⟩, e2, e⟩ := e
    cases e
    have := held_run cs A1 A2 as' (c :: b) (held_step h e1) e2
    simpa using this
