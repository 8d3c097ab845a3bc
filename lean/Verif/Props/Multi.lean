import Verif.Proof.Multi
import Verif.Proof.Makes
import Verif.Proof.MakesBin
import Verif.Proof.StarWalk
import Verif.Props.Samples
/-!
# C51: multiple_node_pointer
-/

variable {α : Type}

theorem Multi.allValid_of {ι P : Type} {l : List ι} {mvs : ι → Option P} {loc : ι → P → Ptr}
    (h : ∀ x ∈ l, ∀ p, mvs x = some p → (loc x p).isSome) {m : Multi} (hm : m.ptrs = l.map (fun x => (mvs x).bind (loc x))) :
    (m.allValid = true ↔ ∀ x ∈ l, (mvs x).isSome) := by
  simp only [Multi.allValid, hm, List.all_map, List.all_eq_true, Function.comp_apply]
  refine forall_congr' fun x => forall_congr' fun hx => ?_
  cases e : mvs x with
  | none => simp
  | some p => simp [h x hx p e]

/-! ## Every pointer moves on its own, as in `Spec/Position.lean`; a null pointer stays null -/

theorem C51_moves_nary {h : NHeap α} (l : List (Tree (Addr × α) × Option (List Nat))) (hr : ∀ x ∈ l, Nary.Rep h x.1)
    (hv : ∀ x ∈ l, ∀ p, x.2 = some p → (x.1.at? p).isSome) (ms : List Move) (hms : ∀ m ∈ ms, m ≠ .left ∧ m ≠ .right) (fl : List Bool) :
    ∃ m', Multi.run (Nary.step h) ms ⟨l.map (fun x => x.2.bind x.1.addrAt), fl⟩ = Res.ok m' ∧
      m'.ptrs = l.map (fun x => (x.1.moves ms x.2).bind x.1.addrAt) ∧
      (m'.allValid = true ↔ ∀ x ∈ l, (x.1.moves ms x.2).isSome) := by
  suffices ∃ m', Multi.run (Nary.step h) ms ⟨l.map (fun x => x.2.bind x.1.addrAt), fl⟩ = Res.ok m' ∧
      m'.ptrs = l.map (fun x => (x.1.moves ms x.2).bind x.1.addrAt) by
    obtain ⟨m', e1, e2⟩ := this
    exact ⟨m', e1, e2, Multi.allValid_of (l := l) (mvs := fun x => x.1.moves ms x.2) (loc := fun x => x.1.addrAt)
      (fun x hx p hp => by simpa [Tree.addrAt] using Nary.moves_some (hv x hx) hp) e2⟩
  refine Multi.run_spec (Nary.step h) Tree.addrAt Tree.move Tree.moves (fun _ _ => rfl) (fun _ _ _ _ => rfl)
    (fun m => m ≠ .left ∧ m ≠ .right) (Nary.Rep h) ?_ ?_ ms hms _ l ?_ rfl
  · intro t m p a H hm ha
    simp only [Tree.addrAt, Option.map_eq_some_iff] at ha
    obtain ⟨s, hs, rfl⟩ := ha
    exact Nary.step_at H hs hm
  · intro t m p q _ hp h
    simpa [Tree.addrAt] using Nary.move_some (by simpa [Tree.addrAt] using hp) h
  · intro x hx
    exact ⟨hr x hx, fun p hp => by simpa [Tree.addrAt] using hv x hx p hp⟩

theorem C51_moves_binary {h : BHeap α} (l : List (BTree (Addr × α) × Option (List Bool))) (hr : ∀ x ∈ l, Binary.Rep h x.1)
    (hv : ∀ x ∈ l, ∀ p, x.2 = some p → (x.1.addrAt p).isSome) (ms : List Move) (fl : List Bool) :
    ∃ m', Multi.run (Binary.step h) ms ⟨l.map (fun x => x.2.bind x.1.addrAt), fl⟩ = Res.ok m' ∧
      m'.ptrs = l.map (fun x => (x.1.moves ms x.2).bind x.1.addrAt) ∧
      (m'.allValid = true ↔ ∀ x ∈ l, (x.1.moves ms x.2).isSome) := by
  suffices ∃ m', Multi.run (Binary.step h) ms ⟨l.map (fun x => x.2.bind x.1.addrAt), fl⟩ = Res.ok m' ∧
      m'.ptrs = l.map (fun x => (x.1.moves ms x.2).bind x.1.addrAt) by
    obtain ⟨m', e1, e2⟩ := this
    exact ⟨m', e1, e2, Multi.allValid_of (l := l) (mvs := fun x => x.1.moves ms x.2) (loc := fun x => x.1.addrAt)
      (fun x hx p hp => Binary.moves_some (hv x hx) hp) e2⟩
  refine Multi.run_spec (Binary.step h) BTree.addrAt BTree.move BTree.moves (fun _ _ => rfl) (fun _ _ _ _ => rfl)
    (fun _ => True) (Binary.Rep h) ?_ ?_ ms (fun _ _ => trivial) _ l ?_ rfl
  · intro t m p a H _ ha
    exact Binary.step_at H ha m
  · intro t m p q _ hp h
    exact Binary.move_some hp h
  · intro x hx
    exact ⟨hr x hx, hv x hx⟩

/-! ## On trees of the same shape all pointers stay together -/

theorem Multi.valid_all {ι P : Type} {ts : List ι} (hne : ts ≠ []) {loc : ι → P → Ptr} {o : Option P}
    (h : ∀ t ∈ ts, ∀ p, o = some p → (loc t p).isSome) (fl : List Bool) :
    (Multi.mk (ts.map (fun t => o.bind (loc t))) fl).allValid = o.isSome ∧
    (Multi.mk (ts.map (fun t => o.bind (loc t))) fl).valid = o.isSome := by
  cases ts with
  | nil => exact absurd rfl hne
  | cons t ts =>
    cases o with
    | none => simp [Multi.allValid, Multi.valid, Multi.master]
    | some p =>
      have h1 := h t (by simp) p rfl
      have h2 : ∀ u ∈ ts, (loc u p).isSome := fun u hu => h u (by simp [hu]) p rfl
      simp only [List.map_cons, Option.bind_some, Multi.allValid, Multi.valid, Multi.master, List.head?_cons, Option.join_some, h1,
        Option.isSome_some, List.all_cons, Bool.true_and, and_true]
      simp only [List.all_map, List.all_eq_true]
      exact h2

/-- Started at the roots of trees of one shape, all pointers are always at the same position, or all null; so the object is
valid (`operator bool`) exactly if all its pointers are. -/
theorem C51_together_nary {h : NHeap α} {ts : List (Tree (Addr × α))} (hne : ts ≠ []) (hr : ∀ t ∈ ts, Nary.Rep h t) {s : Tree Unit}
    (hs : ∀ t ∈ ts, t.map (fun _ => ()) = s) (ms : List Move) (hms : ∀ m ∈ ms, m ≠ .left ∧ m ≠ .right) :
    ∃ m', Multi.run (Nary.step h) ms (Multi.of (ts.map (fun t => some t.addr))) = Res.ok m' ∧
      m'.ptrs = ts.map (fun t => (s.moves ms (some [])).bind t.addrAt) ∧
      m'.allValid = (s.moves ms (some [])).isSome ∧ m'.valid = (s.moves ms (some [])).isSome := by
  have hm : ∀ t ∈ ts, t.moves ms (some []) = s.moves ms (some []) := by
    intro t ht; rw [← hs t ht, Tree.moves_map]
  obtain ⟨⟨ps, fl⟩, e1, e2, _⟩ := C51_moves_nary (h := h) (ts.map (fun t => (t, some []))) (by simpa using hr)
    (by rintro x hx p hp; simp at hx; obtain ⟨t, _, rfl⟩ := hx; simp at hp; subst hp; simp [Tree.at?]) ms hms
    (ts.map (fun _ => false))
  have e3 : ps = ts.map (fun t => (s.moves ms (some [])).bind t.addrAt) := by
    simp only [List.map_map, Function.comp_def] at e2
    rw [e2]
    exact List.map_congr_left (fun t ht => by rw [hm t ht])
  refine ⟨⟨ps, fl⟩, ?_, e3, ?_⟩
  · rw [← e1]
    congr 1
    simp [Multi.of, Tree.addrAt, Tree.at?, Function.comp_def]
  · subst e3
    refine Multi.valid_all hne ?_ fl
    intro t ht p hp
    simpa [Tree.addrAt] using Nary.moves_some (t := t) (o := some []) (by intro p hp; simp at hp; subst hp; simp [Tree.at?])
      ((hm t ht).trans hp)

theorem C51_together_binary {h : BHeap α} {ts : List (BTree (Addr × α))} (hne : ts ≠ []) (hr : ∀ t ∈ ts, Binary.Rep h t)
    {s : BTree Unit} (hs : ∀ t ∈ ts, t.map (fun _ => ()) = s) (hs0 : s ≠ .nil) (ms : List Move) :
    ∃ m', Multi.run (Binary.step h) ms (Multi.of (ts.map BTree.addr?)) = Res.ok m' ∧
      m'.ptrs = ts.map (fun t => (s.moves ms (some [])).bind t.addrAt) ∧
      m'.allValid = (s.moves ms (some [])).isSome ∧ m'.valid = (s.moves ms (some [])).isSome := by
  have hm : ∀ t ∈ ts, t.moves ms (some []) = s.moves ms (some []) := by
    intro t ht; rw [← hs t ht, BTree.moves_map]
  have h0 : ∀ t ∈ ts, (t.addrAt []).isSome := by
    intro t ht
    cases t with
    | nil => exact absurd (hs _ ht).symm hs0
    | node p l r => simp [BTree.addrAt, BTree.at?]
  obtain ⟨⟨ps, fl⟩, e1, e2, _⟩ := C51_moves_binary (h := h) (ts.map (fun t => (t, some []))) (by simpa using hr)
    (by rintro x hx p hp; simp at hx; obtain ⟨t, ht, rfl⟩ := hx; simp at hp; subst hp; exact h0 t ht) ms
    (ts.map (fun _ => false))
  have e3 : ps = ts.map (fun t => (s.moves ms (some [])).bind t.addrAt) := by
    simp only [List.map_map, Function.comp_def] at e2
    rw [e2]
    exact List.map_congr_left (fun t ht => by rw [hm t ht])
  refine ⟨⟨ps, fl⟩, ?_, e3, ?_⟩
  · rw [← e1]
    congr 1
    simp [Multi.of, BTree.addrAt, BTree.at?, Function.comp_def]
  · subst e3
    refine Multi.valid_all hne ?_ fl
    intro t ht p hp
    exact Binary.moves_some (t := t) (o := some []) (by intro p hp; simp at hp; subst hp; exact h0 t ht) ((hm t ht).trans hp)

/-! ## Assignments and their flags -/

/-- `assign_pointer` changes one pointer and sets its flag only; the next move clears all flags. -/
theorem C51_assign {m m' : Multi} {i : Nat} {p : Ptr} (hl : m.ptrs.length = m.assigned.length) (h : m.assignPointer i p = Res.ok m') :
    m'.ptrs[i]? = some p ∧ m'.isAssigned i = Res.ok true ∧
    (∀ j, j ≠ i → m'.ptrs[j]? = m.ptrs[j]? ∧ m'.isAssigned j = m.isAssigned j) := by
  simp only [Multi.assignPointer] at h
  split at h
  · next hi =>
    simp at h; subst h
    refine ⟨by simp [hl, hi], by simp [Multi.isAssigned, hi], ?_⟩
    intro j hj
    have : i ≠ j := fun e => hj e.symm
    simp [Multi.isAssigned, this]
  · simp at h

theorem Multi.callAll_length {call : Addr → Res Ptr} {ps qs : List Ptr} (h : callAll call ps = Res.ok qs) : qs.length = ps.length := by
  induction ps generalizing qs with
  | nil => simp [callAll] at h; simp [← h]
  | cons p ps ih =>
    simp only [callAll, Res.bind_eq_ok, Res.pure_eq] at h
    obtain ⟨q, _, qs', h2, h3⟩ := h
    have := Res.ok.inj h3
    subst this
    simp [ih h2]

theorem C51_move_clears {step : Move → Addr → Res Ptr} {mv : Move} {m m' : Multi} (h : m.go step mv = Res.ok m') {i : Nat}
    (hi : i < m.ptrs.length) : m'.isAssigned i = Res.ok false := by
  simp only [Multi.go, Res.bind_eq_ok, Res.pure_eq] at h
  obtain ⟨ps, h1, h2⟩ := h
  have := Res.ok.inj h2
  subst this
  have hl := Multi.callAll_length h1
  have : i < ps.length := by omega
  simp [Multi.isAssigned, Multi.of, this]

/-! ## Equality looks at the master only, which is enough for objects that move over the same trees -/

theorem Tree.at_path {β : Type} {t s : Tree β} {p : List Nat} (h : t.at? p = some s) :
    ∃ fs, plug fs s = t ∧ fs.map (fun f => f.lefts.length) = p := by
  induction p generalizing s with
  | nil => simp [at?] at h; exact ⟨[], by simp [h], rfl⟩
  | cons i p ih =>
    simp [at?, Option.bind_eq_some_iff] at h
    obtain ⟨u, hu, hs⟩ := h
    obtain ⟨fs, h1, h2⟩ := ih hu
    cases u with
    | node a cs =>
    simp at hs
    obtain ⟨hi, hs⟩ := List.getElem?_eq_some_iff.mp hs
    have hc : cs = cs.take i ++ s :: cs.drop (i + 1) := by
      conv => lhs; rw [← List.take_append_drop i cs]
      rw [List.drop_eq_getElem_cons hi, hs]
    refine ⟨⟨a, cs.take i, cs.drop (i + 1)⟩ :: fs, ?_, ?_⟩
    · simp only [plug_cons]; rw [← hc]; exact h1
    · simp [h2]; omega

theorem BTree.at_path {β : Type} {t : BTree β} {p : List Bool} {a : β} {l r : BTree β} (h : t.at? p = .node a l r) :
    ∃ fs, plug fs (.node a l r) = t ∧ fs.map (fun f => f.holeLeft) = p := by
  induction p generalizing a l r with
  | nil => exact ⟨[], by simpa [at?] using h.symm, rfl⟩
  | cons b p ih =>
    simp only [at?] at h
    cases e : t.at? p with
    | nil => cases b <;> simp [e, left, right] at h
    | node a' l' r' =>
      obtain ⟨fs, h1, h2⟩ := ih e
      rw [e] at h
      cases b
      · simp [right] at h
        exact ⟨⟨a', false, l'⟩ :: fs, by simp [plug, Frame.fill, ← h, h1], by simp [h2]⟩
      · simp [left] at h
        exact ⟨⟨a', true, r'⟩ :: fs, by simp [plug, Frame.fill, ← h, h1], by simp [h2]⟩

theorem C51_eq_nary {h : NHeap α} {t : Tree (Addr × α)} {ts : List (Tree (Addr × α))} (H : Nary.Rep h t) {o o' : Option (List Nat)}
    (ho : ∀ p, o = some p → (t.at? p).isSome) (ho' : ∀ p, o' = some p → (t.at? p).isSome) (fl fl' : List Bool) :
    (Multi.eq ⟨(t :: ts).map (fun t => o.bind t.addrAt), fl⟩ ⟨(t :: ts).map (fun t => o'.bind t.addrAt), fl'⟩ = true ↔ o = o') := by
  simp only [Multi.eq, Multi.master, List.map_cons, List.head?_cons, Option.join_some, beq_iff_eq]
  refine ⟨?_, fun e => by rw [e]⟩
  cases o with
  | none =>
    cases o' with
    | none => simp
    | some q => have := ho' q rfl; cases e : t.at? q <;> simp_all [Tree.addrAt]
  | some p =>
    have hp := ho p rfl
    obtain ⟨s, hs⟩ := Option.isSome_iff_exists.mp hp
    cases o' with
    | none => simp [Tree.addrAt, hs]
    | some q =>
      obtain ⟨u, hu⟩ := Option.isSome_iff_exists.mp (ho' q rfl)
      simp only [Option.bind_some, Tree.addrAt, hs, hu, Option.map_some, Option.some.injEq]
      intro e
      obtain ⟨fs, f1, f2⟩ := Tree.at_path hs
      obtain ⟨gs, g1, g2⟩ := Tree.at_path hu
      have := (Tree.sub_unique (g := Prod.fst) H.2 f1 g1 e).1
      rw [← f2, ← g2, this]

theorem C51_eq_binary {h : BHeap α} {t : BTree (Addr × α)} {ts : List (BTree (Addr × α))} (H : Binary.Rep h t)
    {o o' : Option (List Bool)} (ho : ∀ p, o = some p → (t.addrAt p).isSome) (ho' : ∀ p, o' = some p → (t.addrAt p).isSome)
    (fl fl' : List Bool) :
    (Multi.eq ⟨(t :: ts).map (fun t => o.bind t.addrAt), fl⟩ ⟨(t :: ts).map (fun t => o'.bind t.addrAt), fl'⟩ = true ↔ o = o') := by
  simp only [Multi.eq, Multi.master, List.map_cons, List.head?_cons, Option.join_some, beq_iff_eq]
  refine ⟨?_, fun e => by rw [e]⟩
  cases o with
  | none =>
    cases o' with
    | none => simp
    | some q =>
      intro e
      have := ho' q rfl
      simp only [Option.bind_none, Option.bind_some] at e
      rw [← e] at this
      simp at this
  | some p =>
    have hp := ho p rfl
    cases o' with
    | none =>
      intro e
      simp only [Option.bind_none, Option.bind_some] at e
      rw [e] at hp
      simp at hp
    | some q =>
      have hq := ho' q rfl
      simp only [Option.bind_some, BTree.addrAt] at hp hq ⊢
      intro e
      cases e1 : t.at? p with
      | nil => simp [e1] at hp
      | node a l r =>
        cases e2 : t.at? q with
        | nil => simp [e2] at hq
        | node a' l' r' =>
          rw [e1, e2] at e
          simp at e
          obtain ⟨fs, f1, f2⟩ := BTree.at_path e1
          obtain ⟨gs, g1, g2⟩ := BTree.at_path e2
          have := (BTree.place_unique (g := Prod.fst) H.2 f1 g1 e).1
          rw [← f2, ← g2, this]

/-! Instances: two pointers to the root of `1(2(5,6(7)),3,4)`, moved to the first child, its last child and back to the next
sibling of the first child; pointers to roots of different binary trees in one heap. -/
example : Multi.run (Nary.step Samples.deepHeap) [.first, .last, .parent, .next] (Multi.of [some 0, some 0]) =
    Res.ok (Multi.of [some 2, some 2]) := by decide +kernel
example := C51_together_nary (ts := [Samples.deep, Samples.deep]) (by simp) (h := Samples.deepHeap)
  (by simp; exact Samples.deep_rep) (s := Samples.deep.map (fun _ => ())) (by simp) [.first, .last, .parent, .child 1] (by decide)
example := C51_moves_nary (h := Samples.deepHeap) [(Samples.deep, some [1, 0]), (Samples.deep, none)] (by simp; exact Samples.deep_rep)
  (by simp; rfl) [.first, .next] (by decide) [true, false]
example := C51_together_binary (ts := [Samples.bin]) (by simp) (h := Samples.binHeap)
  (by simp; exact Samples.bin_rep) (s := Samples.bin.map (fun _ => ())) (by simp) (by simp [Samples.bin]) [.left, .right, .parent, .child 1]
example := C51_assign (m := Multi.of [some 3, none]) (i := 1) (p := some 7) rfl rfl
example := C51_eq_nary Samples.deep_rep (ts := []) (o := some [1, 0]) (o' := some [0, 0]) (by simp; rfl) (by simp; rfl) [] []
