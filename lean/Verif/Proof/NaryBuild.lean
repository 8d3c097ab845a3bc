import Verif.Proof.NaryChild
/-! Copying nary nodes and building them from literals: both allocate a node, build the chain of its following siblings,
build its children and fix the `last_child` links. -/
open Tree

set_option linter.unusedSimpArgs false

namespace Nary
variable {α : Type} {h : NHeap α}

/-- `h'` arose from `h` by allocating the sibling subtrees `ts` below `par` (whose last child they now end with). -/
structure Built (h h' : NHeap α) (par prev : Ptr) (ts : List (Tree (Addr × α))) : Prop where
  holds : Holds h' (cellsL par prev none 0 ts)
  nodup : (addrsL ts).Nodup
  fresh : ∀ a ∈ addrsL ts, h.next ≤ a ∧ a < h'.next
  wf : h'.WF
  le : h.next ≤ h'.next
  only : ∀ a, h.next ≤ a → a ∉ addrsL ts → h'.cells a = none
  same : ∀ a, a < h.next → par ≠ some a → h'.cells a = h.cells a
  par : ∀ p, par = some p → h'.cells p = (h.cells p).map (fun m => { m with last := lastAddr ts })

/-- The node being constructed at `x`, with its following siblings `ts` and its children `cs` done. -/
structure Stage (h h' : NHeap α) (x : Addr) (v : α) (par : Ptr) (fol : Nat) (prev : Ptr)
    (ts cs : List (Tree (Addr × α))) : Prop where
  cell : h'.cells x = some ⟨v, par, fol, prev, headAddr ts, headAddr cs, lastAddr cs⟩
  holdsN : Holds h' (cellsL par (some x) none 0 ts)
  holdsC : Holds h' (cellsL (some x) none none 0 cs)
  nodup : (addrsL ts ++ addrsL cs).Nodup
  fresh : ∀ a ∈ addrsL ts ++ addrsL cs, x < a ∧ a < h'.next
  wf : h'.WF
  lt : x < h'.next
  only : ∀ a, x < a → a ∉ addrsL ts ++ addrsL cs → h'.cells a = none
  same : ∀ a, a < x → par ≠ some a → h'.cells a = h.cells a
  par : ∀ p, par = some p → h'.cells p = (h.cells p).map (fun m => { m with last := (lastAddr ts).or m.last })

/-- The two optional construction steps. -/
def buildSub {γ : Type} (h : NHeap α) (this : Addr) (on : Option γ) (F : NHeap α → γ → Res (NHeap α × Addr))
    (upd : Addr → NNode α → NNode α) : Res (NHeap α) :=
  match on with
  | some nx => do
    let (h, a) ← F h nx
    h.modify this (upd a)
  | none => pure h

/-- One construction step, with the recursive constructions abstracted as `F` and `G`. -/
def buildStep {γ δ : Type} (h : NHeap α) (v : α) (par : Ptr) (fol : Nat) (prev : Ptr) (on : Option γ) (oc : Option δ)
    (F : NHeap α → Addr → γ → Res (NHeap α × Addr)) (G : NHeap α → Addr → δ → Res (NHeap α × Addr)) :
    Res (NHeap α × Addr) := do
  let (h, this) := h.alloc ⟨v, par, fol, prev, none, none, none⟩
  let h ← buildSub h this on (fun h => F h this) (fun a m => { m with next := some a })
  let h ← buildSub h this oc (fun h => G h this) (fun a m => { m with first := some a })
  let h ← manageParentLast h this
  pure (h, this)

theorem stage_alloc (hw : h.WF) (v : α) {par : Ptr} (fol : Nat) (prev : Ptr) (hp : ∀ p, par = some p → p < h.next) :
    Stage h (h.alloc ⟨v, par, fol, prev, none, none, none⟩).1 h.next v par fol prev [] [] := by
  refine ⟨by simp [Heap.alloc], by simp, by simp, by simp, by simp, ?_, by simp [Heap.alloc], ?_, ?_, ?_⟩
  · intro a ha
    simp only [Heap.alloc] at ha ⊢
    have h1 : a ≠ h.next := by grind
    simp [h1]
    exact hw a (by grind)
  · intro a ha _
    have h1 : a ≠ h.next := by grind
    simp [Heap.alloc, h1]
    exact hw a (by grind)
  · intro a ha _
    have h1 : a ≠ h.next := by grind
    simp [Heap.alloc, h1]
  · intro p hpp
    have h1 : p ≠ h.next := by have := hp p hpp; grind
    simp [Heap.alloc, h1]

theorem stage_next {γ : Type} {g : NHeap α} {x : Addr} {v : α} {par : Ptr} {fol : Nat} {prev : Ptr} {on : Option γ}
    {F : NHeap α → γ → Res (NHeap α × Addr)} {P : List (Tree (Addr × α)) → Prop}
    (hp : ∀ p, par = some p → p < x)
    (H : Stage h g x v par fol prev [] [])
    (h0 : on = none → P [])
    (h1 : ∀ nx, on = some nx →
      ∃ g' a ts, F g nx = Res.ok (g', a) ∧ headAddr ts = some a ∧ Built g g' par (some x) ts ∧ P ts) :
    ∃ g' ts, buildSub g x on F (fun a m => { m with next := some a }) = Res.ok g' ∧
      Stage h g' x v par fol prev ts [] ∧ P ts := by
  cases on with
  | none => exact ⟨g, [], rfl, H, h0 rfl⟩
  | some nx =>
    obtain ⟨g', a, ts, e1, e2, B, hP⟩ := h1 nx rfl
    have hxp : par ≠ some x := fun e => by have := hp _ e; grind
    have hlt := H.lt
    have hc : g'.cells x = some ⟨v, par, fol, prev, none, none, none⟩ := by
      rw [B.same x H.lt hxp, H.cell]; rfl
    have hxt : x ∉ addrsL ts := fun hm => by have := B.fresh x hm; grind
    refine ⟨_, ts, by simp only [buildSub, e1, Res.ok_bind]; exact Heap.modify_of hc _, ?_, hP⟩
    have hfr : ∀ a ∈ addrsL ts, x < a ∧ a < g'.next := fun a ha => by have := B.fresh a ha; grind
    refine ⟨by simp [e2], ?_, by simp, by simpa using B.nodup, by simpa using hfr, ?_, ?_, ?_, ?_, ?_⟩
    · rw [holds_set (by rw [keys_cellsL]; exact hxt)]; exact B.holds
    · intro a ha
      have h1 := B.le
      simp only [Heap.set_next] at ha
      simp only [Heap.set_cells]
      rw [if_neg (by grind)]
      exact B.wf a ha
    · have := B.le; simp; grind
    · intro a ha hm
      simp only [Heap.set_cells]
      rw [if_neg (by grind)]
      simp at hm
      by_cases hg : g.next ≤ a
      · exact B.only a hg hm
      · rw [B.same a (by grind) (fun e => by have := hp _ e; grind), H.only a ha (by simp)]
    · intro a ha hpa
      simp only [Heap.set_cells]
      rw [if_neg (by grind), B.same a (by grind) hpa, H.same a ha hpa]
    · intro p hpp
      have := hp p hpp
      simp only [Heap.set_cells]
      rw [if_neg (by grind), B.par p hpp, H.par p hpp]
      have : ∃ l, lastAddr ts = some l := by
        cases ts with
        | nil => simp at e2
        | cons t ts => obtain ⟨z, _, hz⟩ := lastAddr_some (ts := t :: ts) (by simp); exact ⟨z, hz⟩
      obtain ⟨l, hl⟩ := this
      cases h.cells p <;> simp [hl]

theorem stage_first {γ : Type} {g : NHeap α} {x : Addr} {v : α} {par : Ptr} {fol : Nat} {prev : Ptr} {oc : Option γ}
    {G : NHeap α → γ → Res (NHeap α × Addr)} {P : List (Tree (Addr × α)) → Prop} {ts : List (Tree (Addr × α))}
    (hp : ∀ p, par = some p → p < x)
    (H : Stage h g x v par fol prev ts [])
    (h0 : oc = none → P [])
    (h1 : ∀ c, oc = some c →
      ∃ g' a cs, G g c = Res.ok (g', a) ∧ headAddr cs = some a ∧ Built g g' (some x) none cs ∧ P cs) :
    ∃ g' cs, buildSub g x oc G (fun a m => { m with first := some a }) = Res.ok g' ∧
      Stage h g' x v par fol prev ts cs ∧ P cs := by
  cases oc with
  | none => exact ⟨g, [], rfl, H, h0 rfl⟩
  | some c =>
    obtain ⟨g', a, cs, e1, e2, B, hP⟩ := h1 c rfl
    have hxp : par ≠ some x := fun e => by have := hp _ e; grind
    have hlt := H.lt
    have hle := B.le
    have hc : g'.cells x = some ⟨v, par, fol, prev, headAddr ts, none, lastAddr cs⟩ := by
      rw [B.par x rfl, H.cell]; rfl
    have hxt : x ∉ addrsL cs := fun hm => by have := B.fresh x hm; grind
    have hfr0 := H.fresh
    simp only [addrsL_nil, List.append_nil] at hfr0
    have hxs : x ∉ addrsL ts := fun hm => by have := hfr0 x hm; grind
    have hfr : ∀ a ∈ addrsL cs, x < a ∧ a < g'.next := fun a ha => by have := B.fresh a ha; grind
    have hd : ∀ a ∈ addrsL ts, a ∉ addrsL cs := fun a h1 h2 => by
      have := B.fresh a h2; have := hfr0 a h1; grind
    refine ⟨_, cs, by simp only [buildSub, e1, Res.ok_bind]; exact Heap.modify_of hc _, ?_, hP⟩
    refine ⟨by simp [e2], ?_, ?_, ?_, ?_, ?_, ?_, ?_, ?_, ?_⟩
    · rw [holds_set (by rw [keys_cellsL]; exact hxs)]
      refine H.holdsN.congr ?_
      rw [keys_cellsL]
      intro b hb
      exact B.same b (hfr0 b hb).2 (fun e => by have := hfr0 b hb; grind)
    · rw [holds_set (by rw [keys_cellsL]; exact hxt)]; exact B.holds
    · rw [List.nodup_append]
      have := H.nodup
      simp only [addrsL_nil, List.append_nil] at this
      exact ⟨this, B.nodup, fun a ha b hb e => hd a ha (e ▸ hb)⟩
    · intro a ha
      simp only [List.mem_append, Heap.set_next] at ha ⊢
      rcases ha with ha | ha
      · have := hfr0 a ha; grind
      · exact hfr a ha
    · intro a ha
      simp only [Heap.set_next] at ha
      simp only [Heap.set_cells]
      rw [if_neg (by grind)]
      exact B.wf a ha
    · simp; grind
    · intro a ha hm
      simp only [Heap.set_cells]
      rw [if_neg (by grind)]
      simp at hm
      by_cases hg : g.next ≤ a
      · exact B.only a hg hm.2
      · rw [B.same a (by grind) (by grind), H.only a ha (by simpa using hm.1)]
    · intro a ha hpa
      simp only [Heap.set_cells]
      rw [if_neg (by grind), B.same a (by grind) (by grind), H.same a ha hpa]
    · intro p hpp
      have := hp p hpp
      simp only [Heap.set_cells]
      rw [if_neg (by grind), B.same p (by grind) (by grind), H.par p hpp]

theorem stage_done {g : NHeap α} {x : Addr} {v : α} {par : Ptr} {fol : Nat} {prev : Ptr}
    {ts cs : List (Tree (Addr × α))} (hx : x = h.next)
    (hp : ∀ p, par = some p → p < x ∧ (h.cells p).isSome)
    (H : Stage h g x v par fol prev ts cs) (hf : fol = ts.length) :
    ∃ h', manageParentLast g x = Res.ok h' ∧ Built h h' par prev (node (x, v) cs :: ts) := by
  have hne : ∀ p, par = some p → p ≠ x := fun p e => by have := hp p e; grind
  -- the step itself
  have key : ∃ h', manageParentLast g x = Res.ok h' ∧ h'.next = g.next ∧
      (∀ a, par ≠ some a → h'.cells a = g.cells a) ∧
      (∀ p, par = some p → h'.cells p = (h.cells p).map (fun m => { m with last := (lastAddr ts).or (some x) })) := by
    have hl : ∀ h' : NHeap α, h'.cells x = g.cells x → headAddr cs = none →
        h'.modify x (fun m => { m with last := none }) = Res.ok h' := by
      intro h' e hn
      cases cs with
      | cons c cs => simp at hn
      | nil =>
        have hc := e.trans H.cell
        rw [Heap.modify_of hc]
        congr 1
        cases h' with
        | mk c n =>
          simp only [Heap.set]
          congr 1
          funext y
          by_cases hy : y = x
          · subst hy; simp; exact hc.symm
          · simp [hy]
    have hfin : ∀ h' : NHeap α, h'.cells x = g.cells x →
        (if (headAddr cs).isNone then h'.modify x (fun m => { m with last := none }) else pure h') = Res.ok h' := by
      intro h' e
      by_cases hn : headAddr cs = none
      · simp [hn, hl h' e hn]
      · cases hh : headAddr cs with
        | none => exact absurd hh hn
        | some c => simp
    simp only [manageParentLast, Heap.read_of H.cell, Res.ok_bind]
    cases hpar : par with
    | none =>
      subst hpar
      refine ⟨g, by simpa using hfin g rfl, rfl, by simp, by simp⟩
    | some p =>
      obtain ⟨hpx, hps⟩ := hp p hpar
      obtain ⟨m, hm⟩ := Option.isSome_iff_exists.mp hps
      have hgp := H.par p hpar
      rw [hm] at hgp
      simp only [Option.map_some] at hgp
      have hxp : x ≠ p := (hne p hpar).symm
      cases ts with
      | nil =>
        refine ⟨g.set p { m with last := some x }, ?_, rfl, ?_, ?_⟩
        · have := hfin (g.set p { m with last := some x }) (by simp [hxp])
          simpa [Heap.modify_of hgp] using this
        · intro a ha
          have : a ≠ p := fun e => ha (by rw [e])
          simp [this]
        · intro q hq
          obtain rfl : p = q := by simpa using hq
          simp [hm]
      | cons t ts =>
        refine ⟨g, by simpa using hfin g rfl, rfl, by simp, ?_⟩
        intro q hq
        obtain rfl : p = q := by simpa using hq
        obtain ⟨l, _, hl⟩ := lastAddr_some (ts := t :: ts) (by simp)
        simp only [hl, Option.some_or] at hgp ⊢
        simp [hm, hgp]
  obtain ⟨h', e, hn, hs, hpp⟩ := key
  have hlt := H.lt
  have hcx : h'.cells x = g.cells x := hs x (fun e => hne x e rfl)
  have hcs : ∀ a, x < a → h'.cells a = g.cells a := fun a ha => hs a (fun e => by have := hp a e; grind)
  have hfr := H.fresh
  refine ⟨h', e, ?_, ?_, ?_, ?_, ?_, ?_, ?_, ?_⟩
  · simp only [cellsL_cons, holds_append, cells_eq, holds_cons]
    refine ⟨⟨?_, ?_⟩, ?_⟩
    · simp only [addr_node, hcx, H.cell]; simp [rec_, hf]
    · refine H.holdsC.congr ?_
      rw [keys_cellsL]
      intro b hb; exact hcs b (hfr b (by simp [hb])).1
    · refine H.holdsN.congr ?_
      rw [keys_cellsL]
      intro b hb; exact hcs b (hfr b (by simp [hb])).1
  · have := H.nodup
    simp only [addrsL_cons, addrs_node, List.cons_append, List.nodup_cons]
    refine ⟨?_, (List.perm_append_comm.nodup_iff).mp this⟩
    intro hm
    have := hfr x (by simp only [List.mem_append] at hm ⊢; exact hm.symm)
    grind
  · intro a ha
    simp only [addrsL_cons, addrs_node, List.cons_append, List.mem_cons, List.mem_append] at ha
    rcases ha with ha | ha
    · grind
    · have := hfr a (by simp only [List.mem_append]; exact ha.symm); grind
  · intro a ha
    rw [hcs a (by grind)]; exact H.wf a (by grind)
  · grind
  · intro a ha hm
    simp only [addrsL_cons, addrs_node, List.cons_append, List.mem_cons, List.mem_append, not_or] at hm
    have hxa : x < a := Nat.lt_of_le_of_ne (hx ▸ ha) (fun e => hm.1 e.symm)
    rw [hcs a hxa]
    exact H.only a hxa (by simp [hm])
  · intro a ha hpa
    rw [hs a hpa]; exact H.same a (hx ▸ ha) hpa
  · intro p hq
    rw [hpp p hq, lastAddr_cons]; simp

theorem buildStep_spec {γ δ : Type} (hw : h.WF) {v : α} {par : Ptr} {fol : Nat} {prev : Ptr} {on : Option γ} {oc : Option δ}
    {F : NHeap α → Addr → γ → Res (NHeap α × Addr)} {G : NHeap α → Addr → δ → Res (NHeap α × Addr)}
    (hp : ∀ p, par = some p → p < h.next ∧ (h.cells p).isSome)
    {Pn Pc : List (Tree (Addr × α)) → Prop}
    (hfol : ∀ ts, Pn ts → fol = ts.length)
    (hn0 : on = none → Pn []) (hc0 : oc = none → Pc [])
    (hF : ∀ nx, on = some nx → ∀ g : NHeap α, g.WF → h.next < g.next → (∀ a, a < h.next → par ≠ some a → g.cells a = h.cells a) →
      (∀ p, par = some p → p < g.next ∧ (g.cells p).isSome) →
      ∃ g' a ts, F g h.next nx = Res.ok (g', a) ∧ headAddr ts = some a ∧ Built g g' par (some h.next) ts ∧ Pn ts)
    (hG : ∀ c, oc = some c → ∀ g : NHeap α, g.WF → h.next < g.next → (∀ a, a < h.next → par ≠ some a → g.cells a = h.cells a) →
      (g.cells h.next).isSome →
      ∃ g' a cs, G g h.next c = Res.ok (g', a) ∧ headAddr cs = some a ∧ Built g g' (some h.next) none cs ∧ Pc cs) :
    ∃ h' ts cs, buildStep h v par fol prev on oc F G = Res.ok (h', h.next) ∧
      Built h h' par prev (node (h.next, v) cs :: ts) ∧ Pn ts ∧ Pc cs := by
  have hp' : ∀ p, par = some p → p < h.next := fun p e => (hp p e).1
  have S0 := stage_alloc hw v fol prev hp'
  obtain ⟨g1, ts, e1, S1, P1⟩ := stage_next (on := on) (F := fun g => F g h.next) (P := Pn) hp' S0 hn0
    (fun nx e => hF nx e _ S0.wf S0.lt S0.same (fun p e => by
      have := hp p e
      refine ⟨Nat.lt_trans this.1 S0.lt, ?_⟩
      rw [S0.par p e]; simp [this.2]))
  obtain ⟨g2, cs, e2, S2, P2⟩ := stage_first (oc := oc) (G := fun g => G g h.next) (P := Pc) hp' S1 hc0
    (fun c e => hG c e _ S1.wf S1.lt S1.same (by rw [S1.cell]; rfl))
  obtain ⟨h', e3, B⟩ := stage_done rfl hp S2 (hfol ts P1)
  refine ⟨h', ts, cs, ?_, B, P1, P2⟩
  have : buildStep h v par fol prev on oc F G = (do
    let g ← buildSub (h.alloc ⟨v, par, fol, prev, none, none, none⟩).1 h.next on (fun g => F g h.next)
      (fun a m => { m with next := some a })
    let g ← buildSub g h.next oc (fun g => G g h.next) (fun a m => { m with first := some a })
    let g ← manageParentLast g h.next
    pure (g, h.next)) := rfl
  rw [this, e1, Res.ok_bind, e2, Res.ok_bind, e3]; rfl

theorem copy_step (fuel : Nat) (h : NHeap α) (other : Addr) (par prev : Ptr) (o : NNode α)
    (ho : h.cells other = some o) :
    copy (fuel + 1) h other par prev = buildStep h o.value par o.following prev o.next o.first
      (fun g x nx => copy fuel g nx par (some x)) (fun g x c => copy fuel g c (some x) none) := by
  rw [copy, Heap.read_of ho, Res.ok_bind]
  cases o.next <;> cases o.first <;> simp [buildStep, buildSub, Res.bind_assoc]

/-- The values of a list of stored trees. -/
def valsL (ts : List (Tree (Addr × α))) : List (Tree α) := ts.map vals

@[simp] theorem valsL_cons (t : Tree (Addr × α)) (ts) : valsL (t :: ts) = t.vals :: valsL ts := rfl
@[simp] theorem valsL_nil : valsL ([] : List (Tree (Addr × α))) = [] := rfl
theorem vals_node (a : Addr) (v : α) (cs : List (Tree (Addr × α))) : vals (node (a, v) cs) = node v (valsL cs) := by
  simp [valsL, vals, mapL_eq]

/-- Copying a node copies it, everything below it and all its following siblings with everything below them. -/
theorem copy_deep (t : Tree (Addr × α)) (ts : List (Tree (Addr × α))) (fuel : Nat) (hf : ladder (t :: ts) ≤ fuel)
    {par prev par' prev' : Ptr} (hw : h.WF)
    (hs : Holds h (cellsL par prev none 0 (t :: ts))) (hps : ∀ p, par' = some p → p ∉ addrsL (t :: ts))
    (hp : ∀ p, par' = some p → p < h.next ∧ (h.cells p).isSome) :
    ∃ h' a ts', copy fuel h t.addr par' prev' = Res.ok (h', a) ∧ headAddr ts' = some a ∧ Built h h' par' prev' ts' ∧
      valsL ts' = valsL (t :: ts) := by
  induction fuel generalizing h t ts par prev par' prev' with
  | zero => simp at hf
  | succ fuel ih =>
    obtain ⟨⟨b, v⟩, cs⟩ := t
    have hc : h.cells b = some ⟨v, par, ts.length, prev, headAddr ts, headAddr cs, lastAddr cs⟩ := by
      simp [cells_eq, rec_] at hs
      exact hs.1
    have hcs : Holds h (cellsL (some b) none none 0 cs) := by
      simp [cells_eq, rec_, below] at hs
      exact hs.2.1
    have hts : Holds h (cellsL par (some b) none 0 ts) := by
      simp [cells_eq, rec_, below] at hs
      exact hs.2.2
    have hlt : ∀ a ∈ addrsL (node (b, v) cs :: ts), a < h.next := fun a ha => by
      have := hs.lt_next hw (a := a) (by rw [keys_cellsL]; exact ha)
      exact this
    simp only [addrsL_cons, addrs_node, List.mem_append, List.mem_cons] at hlt hps
    simp only [ladder_cons, children_node] at hf
    rw [addr_node, copy_step fuel h b par' prev' _ hc]
    obtain ⟨h', ts', cs', e, B, P1, P2⟩ := buildStep_spec (h := h) (v := v) (fol := ts.length) (prev := prev') (par := par')
      (on := headAddr ts) (oc := headAddr cs)
      (F := fun g x nx => copy fuel g nx par' (some x)) (G := fun g x c => copy fuel g c (some x) none)
      (Pn := fun l => valsL l = valsL ts) (Pc := fun l => valsL l = valsL cs)
      hw hp
      (fun l hl => by have := congrArg List.length hl; simpa [valsL] using this.symm)
      (by cases ts <;> simp) (by cases cs <;> simp)
      (by
        intro nx hnx g gw gl gs gp
        cases ts with
        | nil => simp at hnx
        | cons t2 ts =>
          simp only [headAddr_cons, Option.some.injEq] at hnx
          subst hnx
          refine ih t2 ts (by simp only [ladder_cons] at hf ⊢; omega) gw (hts.congr ?_) ?_ gp
          · rw [keys_cellsL]; intro a ha
            exact gs a (hlt a (Or.inr ha)) (fun e => hps a e (Or.inr ha))
          · intro p e hm; exact hps p e (Or.inr hm))
      (by
        intro c hcc g gw gl gs gx
        cases cs with
        | nil => simp at hcc
        | cons t2 ts =>
          simp only [headAddr_cons, Option.some.injEq] at hcc
          subst hcc
          refine ih t2 ts (by simp only [ladder_cons] at hf ⊢; omega) gw (hcs.congr ?_) ?_ ?_
          · rw [keys_cellsL]; intro a ha
            exact gs a (hlt a (Or.inl (Or.inr ha))) (fun e => hps a e (Or.inl (Or.inr ha)))
          · intro p e hm
            simp only [Option.some.injEq] at e
            subst e
            have := hlt _ (Or.inl (Or.inr hm)); exact absurd this (Nat.lt_irrefl _)
          · intro p e
            simp only [Option.some.injEq] at e
            subst e
            exact ⟨gl, gx⟩)
    refine ⟨h', h.next, _, e, rfl, B, ?_⟩
    simp only [valsL_cons, P1, vals_node, P2]

theorem copy_spec (t : Tree (Addr × α)) (ts : List (Tree (Addr × α))) (fuel : Nat) (hf : sizeL (t :: ts) ≤ fuel)
    {par prev par' prev' : Ptr} (hw : h.WF)
    (hs : Holds h (cellsL par prev none 0 (t :: ts))) (hps : ∀ p, par' = some p → p ∉ addrsL (t :: ts))
    (hp : ∀ p, par' = some p → p < h.next ∧ (h.cells p).isSome) :
    ∃ h' a ts', copy fuel h t.addr par' prev' = Res.ok (h', a) ∧ headAddr ts' = some a ∧ Built h h' par' prev' ts' ∧
      valsL ts' = valsL (t :: ts) :=
  copy_deep t ts fuel (Nat.le_trans (ladder_le _) hf) hw hs hps hp

theorem ofLits_step (fuel : Nat) (h : NHeap α) (t : Tree α) (ts : List (Tree α)) (par prev : Ptr) :
    ofLits (fuel + 1) h t ts par prev = buildStep h t.label par ts.length prev
      (match ts with | [] => none | s :: ss => some (s, ss)) (match t.children with | [] => none | s :: ss => some (s, ss))
      (fun g x nx => ofLits fuel g nx.1 nx.2 par (some x)) (fun g x c => ofLits fuel g c.1 c.2 (some x) none) := by
  rw [ofLits]
  cases ts <;> cases t.children <;> simp [buildStep, buildSub, Res.bind_assoc]

/-- Building from literals yields the literals. -/
theorem ofLits_deep (t : Tree α) (ts : List (Tree α)) (fuel : Nat) (hf : ladder (t :: ts) ≤ fuel)
    {par prev : Ptr} (hw : h.WF)
    (hp : ∀ p, par = some p → p < h.next ∧ (h.cells p).isSome) :
    ∃ h' a ts', ofLits fuel h t ts par prev = Res.ok (h', a) ∧ headAddr ts' = some a ∧ Built h h' par prev ts' ∧
      valsL ts' = t :: ts := by
  induction fuel generalizing h t ts par prev with
  | zero => simp at hf
  | succ fuel ih =>
    obtain ⟨v, cs⟩ := t
    simp only [ladder_cons, children_node] at hf
    rw [ofLits_step]
    obtain ⟨h', ts', cs', e, B, P1, P2⟩ := buildStep_spec (h := h) (v := v) (fol := ts.length) (prev := prev) (par := par)
      (on := (match ts with | [] => none | s :: ss => some (s, ss)))
      (oc := (match cs with | [] => none | s :: ss => some (s, ss)))
      (F := fun g x nx => ofLits fuel g nx.1 nx.2 par (some x)) (G := fun g x c => ofLits fuel g c.1 c.2 (some x) none)
      (Pn := fun l => valsL l = ts) (Pc := fun l => valsL l = cs)
      hw hp
      (fun l hl => by have := congrArg List.length hl; simpa [valsL] using this.symm)
      (by cases ts <;> simp [valsL]) (by cases cs <;> simp [valsL])
      (by
        intro nx hnx g gw gl gs gp
        cases ts with
        | nil => simp at hnx
        | cons t2 ts =>
          simp only [Option.some.injEq] at hnx
          subst hnx
          exact ih t2 ts (by simp only [ladder_cons] at hf ⊢; omega) gw gp)
      (by
        intro c hcc g gw gl gs gx
        cases cs with
        | nil => simp at hcc
        | cons t2 ts =>
          simp only [Option.some.injEq] at hcc
          subst hcc
          refine ih t2 ts (by simp only [ladder_cons] at hf ⊢; omega) gw ?_
          intro p e
          simp only [Option.some.injEq] at e
          subst e
          exact ⟨gl, gx⟩)
    refine ⟨h', h.next, _, e, rfl, B, ?_⟩
    simp only [valsL_cons, P1, vals_node, P2]

theorem ofLits_spec (t : Tree α) (ts : List (Tree α)) (fuel : Nat) (hf : sizeL (t :: ts) ≤ fuel)
    {par prev : Ptr} (hw : h.WF)
    (hp : ∀ p, par = some p → p < h.next ∧ (h.cells p).isSome) :
    ∃ h' a ts', ofLits fuel h t ts par prev = Res.ok (h', a) ∧ headAddr ts' = some a ∧ Built h h' par prev ts' ∧
      valsL ts' = t :: ts :=
  ofLits_deep t ts fuel (Nat.le_trans (ladder_le _) hf) hw hp

theorem Built.grown {h' : NHeap α} {prev : Ptr} {ts : List (Tree (Addr × α))} (B : Built h h' none prev ts) :
    Grown h h' (addrsL ts) := ⟨B.wf, B.le, B.fresh, B.only, fun a ha => B.same a ha (by simp)⟩

theorem built_single {h' : NHeap α} {t : Tree (Addr × α)} (B : Built h h' none none [t]) : Rep h' t := by
  refine ⟨?_, ?_⟩
  · have := B.holds; simpa using this
  · have := B.nodup; simpa using this

/-- Copying a free-standing tree. -/
theorem copy_root (hw : h.WF) (t : Tree (Addr × α)) (H : Rep h t) (fuel : Nat) (hf : t.size ≤ fuel) :
    ∃ h' t', copy fuel h t.addr none none = Res.ok (h', t'.addr) ∧ Rep h' t' ∧ t'.vals = t.vals ∧
      Grown h h' t'.addrs := by
  obtain ⟨h', a, ts', e, ha, B, hv⟩ := copy_spec (h := h) t [] fuel (by simpa [sizeL] using hf) (par := none) (prev := none)
    (par' := none) (prev' := none) hw (by simpa using H.1) (by simp) (by simp)
  obtain ⟨t', rfl⟩ : ∃ t', ts' = [t'] := by
    rw [← List.length_eq_one_iff]
    have := congrArg List.length hv
    simpa [valsL] using this
  simp at ha
  subst ha
  exact ⟨h', t', e, built_single B, by simpa [valsL] using hv, by simpa using B.grown⟩

/-- Building a tree from a literal. -/
theorem ofLit_spec (hw : h.WF) (t : Tree α) :
    ∃ h' t', ofLit h t = Res.ok (h', t'.addr) ∧ Rep h' t' ∧ t'.vals = t ∧ Grown h h' t'.addrs := by
  obtain ⟨h', a, ts', e, ha, B, hv⟩ := ofLits_spec (h := h) t [] t.size (by simp [sizeL]) (par := none) (prev := none)
    hw (by simp)
  obtain ⟨t', rfl⟩ : ∃ t', ts' = [t'] := by
    rw [← List.length_eq_one_iff]
    have := congrArg List.length hv
    simpa [valsL] using this
  simp at ha
  subst ha
  exact ⟨h', t', e, built_single B, by simpa [valsL] using hv, by simpa using B.grown⟩

/-! ### equality -/

theorem children_spec {par prev nx : Ptr} {fol : Nat} {t : Tree (Addr × α)} (H : Holds h (cells par prev nx fol t)) :
    children h t.addr = Res.ok t.children.length := by
  rw [cells_eq] at H
  simp only [holds_cons] at H
  simp only [children, Heap.read_of H.1, Res.ok_bind, rec_]
  cases hc : t.children with
  | nil => simp
  | cons c cs =>
    have h2 := H.2
    rw [below, hc, cellsL_cons, cells_eq, holds_append, holds_cons] at h2
    simp [Heap.read_of h2.1.1, rec_]

theorem eq_deep (eqv : α → α → Bool) (h2 : NHeap α) (fuel : Nat) (t u : Tree (Addr × α)) (ts us : List (Tree (Addr × α)))
    (hf : ladder (t :: ts) ≤ fuel) (hl : ts.length = us.length) {par prev par' prev' : Ptr}
    (H : Holds h (cellsL par prev none 0 (t :: ts))) (K : Holds h2 (cellsL par' prev' none 0 (u :: us))) :
    eq eqv fuel h t.addr h2 u.addr = Res.ok (eqByL eqv (valsL (t :: ts)) (valsL (u :: us))) := by
  induction fuel generalizing t u ts us par prev par' prev' with
  | zero => simp at hf
  | succ fuel ih =>
    obtain ⟨⟨b, v⟩, cs⟩ := t
    obtain ⟨⟨b', v'⟩, cs'⟩ := u
    simp only [ladder_cons, children_node] at hf
    simp only [cellsL_cons, holds_append] at H K
    have c1 := children_spec H.1
    have c2 := children_spec K.1
    have H1 := H.1
    have K1 := K.1
    rw [cells_eq, holds_cons] at H1 K1
    simp only [addr_node, children_node] at c1 c2 H1 K1
    simp only [addr_node, eq, c1, c2, Res.ok_bind, Heap.read_of H1.1, Heap.read_of K1.1, rec_, label_node, children_node]
    simp only [valsL_cons, vals_node, eqByL, eqBy]
    by_cases hcl : cs.length = cs'.length
    · by_cases hv : eqv v v' = true
      · have e1 : ∀ c c' ds ds', cs = c :: ds → cs' = c' :: ds' →
            eq eqv fuel h c.addr h2 c'.addr = Res.ok (eqByL eqv (valsL cs) (valsL cs')) := by
          rintro c c' ds ds' rfl rfl
          exact ih c c' ds ds' (by simp only [ladder_cons] at hf ⊢; omega) (by simpa using hcl) H1.2 K1.2
        have e2 : ∀ c c' ds ds', ts = c :: ds → us = c' :: ds' →
            eq eqv fuel h c.addr h2 c'.addr = Res.ok (eqByL eqv (valsL ts) (valsL us)) := by
          rintro c c' ds ds' rfl rfl
          exact ih c c' ds ds' (by simp only [ladder_cons] at hf ⊢; omega) (by simpa using hl) H.2 K.2
        clear H K H1 K1 c1 c2 hf ih
        rcases cs with _ | ⟨c, cs⟩ <;> rcases cs' with _ | ⟨c', cs'⟩ <;> simp at hcl <;>
          rcases ts with _ | ⟨s, ts⟩ <;> rcases us with _ | ⟨s', us⟩ <;> simp at hl <;>
          simp [hv, hcl, hl, e1, e2] <;>
          (try generalize eqByL eqv (c.vals :: valsL cs) (c'.vals :: valsL cs') = b; cases b) <;> simp [eqByL]
      · simp [hcl, hv]
    · have : eqByL eqv (valsL cs) (valsL cs') = false := eqByL_length _ (by simpa [valsL] using hcl)
      simp [hcl, this]

theorem eq_spec (eqv : α → α → Bool) (h2 : NHeap α) (fuel : Nat) (t u : Tree (Addr × α)) (ts us : List (Tree (Addr × α)))
    (hf : sizeL (t :: ts) ≤ fuel) (hl : ts.length = us.length) {par prev par' prev' : Ptr}
    (H : Holds h (cellsL par prev none 0 (t :: ts))) (K : Holds h2 (cellsL par' prev' none 0 (u :: us))) :
    eq eqv fuel h t.addr h2 u.addr = Res.ok (eqByL eqv (valsL (t :: ts)) (valsL (u :: us))) :=
  eq_deep eqv h2 fuel t u ts us (Nat.le_trans (ladder_le _) hf) hl H K

end Nary
