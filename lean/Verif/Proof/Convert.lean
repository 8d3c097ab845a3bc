import Verif.Proof.BinQuery
/-! Nary nodes against literals and binary nodes. -/
open Tree

set_option linter.unusedSimpArgs false

namespace Nary
variable {α : Type} {h : NHeap α}

/-- The comparison of a value with a slot: an empty slot is never equal. -/
def slotEq (eqv : α → α → Bool) (v : α) (o : Option α) : Bool := o.any (eqv v)

def validCount (us : List (Lit α)) : Nat := (us.filter (fun c => c.label.isSome)).length

theorem eqByL_of_ne {ts : List (Tree α)} {us : List (Lit α)} (eqv : α → α → Bool) (hl : ts.length ≠ validCount us) :
    eqByL (slotEq eqv) ts us = false := by
  induction ts generalizing us with
  | nil =>
    cases us with
    | nil => simp [validCount] at hl
    | cons => simp [eqByL]
  | cons t ts ih =>
    cases us with
    | nil => simp [eqByL]
    | cons u us =>
      obtain ⟨v, cs⟩ := t
      obtain ⟨w, ds⟩ := u
      cases w with
      | none => simp [eqByL, eqBy, slotEq]
      | some w =>
        have := ih (us := us) (by simpa [validCount, List.filter_cons] using hl)
        simp [eqByL, this]

theorem eqLit_spec (eqv : α → α → Bool) (fuel : Nat) (t : Tree (Addr × α)) (u : Lit α) (ts : List (Tree (Addr × α)))
    (us : List (Lit α)) (hu : u.label.isSome)
    (hf : sizeL (t :: ts) ≤ fuel) (hl : ts.length = validCount us) {par prev : Ptr}
    (H : Holds h (cellsL par prev none 0 (t :: ts))) :
    eqLit eqv fuel h t.addr u us = Res.ok (eqByL (slotEq eqv) (valsL (t :: ts)) (u :: us)) := by
  induction fuel generalizing t u ts us par prev with
  | zero => cases t; simp [sizeL, size] at hf
  | succ fuel ih =>
    obtain ⟨⟨b, v⟩, cs⟩ := t
    obtain ⟨v', cs'⟩ := u
    cases v' with
    | none => simp at hu
    | some v' =>
    simp only [sizeL, size] at hf
    simp only [cellsL_cons, holds_append] at H
    have c1 := children_spec H.1
    have H1 := H.1
    rw [cells_eq, holds_cons] at H1
    simp only [addr_node, children_node] at c1 H1
    have hcc : Lit.childCount (node (some v') cs') = validCount cs' := rfl
    simp only [addr_node, eqLit, c1, Res.ok_bind, Heap.read_of H1.1, rec_, label_node, children_node, hcc]
    simp only [valsL_cons, vals_node, eqByL, eqBy]
    by_cases hcl : cs.length = validCount cs'
    · by_cases hv : eqv v v' = true
      · have e1 : ∀ c' ds', cs' = c' :: ds' → c'.label.isSome → ∃ c ds, cs = c :: ds ∧
            eqLit eqv fuel h c.addr c' ds' = Res.ok (eqByL (slotEq eqv) (valsL cs) cs') := by
          rintro c' ds' rfl hc'
          cases cs with
          | nil => simp [validCount, List.filter_cons, hc'] at hcl
          | cons c ds =>
            refine ⟨c, ds, rfl, ?_⟩
            exact ih c c' ds ds' hc' (by simp only [sizeL] at hf ⊢; omega) (by simpa [validCount, List.filter_cons, hc'] using hcl) H1.2
        have e2 : ∀ c' ds', us = c' :: ds' → c'.label.isSome → ∃ c ds, ts = c :: ds ∧
            eqLit eqv fuel h c.addr c' ds' = Res.ok (eqByL (slotEq eqv) (valsL ts) us) := by
          rintro c' ds' rfl hc'
          cases ts with
          | nil => simp [validCount, List.filter_cons, hc'] at hl
          | cons c ds =>
            refine ⟨c, ds, rfl, ?_⟩
            exact ih c c' ds ds' hc' (by simp only [sizeL] at hf ⊢; omega) (by simpa [validCount, List.filter_cons, hc'] using hl) H.2
        clear H H1 c1 hf ih
        have n1 : ∀ c' ds', cs' = c' :: ds' → c'.label = none → eqByL (slotEq eqv) (valsL cs) cs' = false := by
          rintro c' ds' rfl hc'
          obtain ⟨_, _⟩ := c'
          simp at hc'; subst hc'
          cases cs with
          | nil => simp [eqByL]
          | cons c cs => obtain ⟨⟨_, _⟩, _⟩ := c; simp [eqByL, eqBy, slotEq, vals_node]
        have n2 : ∀ c' ds', us = c' :: ds' → c'.label = none → eqByL (slotEq eqv) (valsL ts) us = false := by
          rintro c' ds' rfl hc'
          obtain ⟨_, _⟩ := c'
          simp at hc'; subst hc'
          cases ts with
          | nil => simp [eqByL]
          | cons c cs => obtain ⟨⟨_, _⟩, _⟩ := c; simp [eqByL, eqBy, slotEq, vals_node]
        have e0 : slotEq eqv v (some v') = true := by simp [slotEq, hv]
        have z1 : cs' = [] → cs = [] := by rintro rfl; simpa [validCount] using hcl
        have z2 : us = [] → ts = [] := by rintro rfl; simpa [validCount] using hl
        have hbne : (cs.length != validCount cs') = false := by simp [hcl]
        simp only [hbne, hv, Bool.not_true, Bool.false_eq_true, if_false, e0, Bool.true_and]
        -- the sibling part
        cases us with
        | nil =>
          have := z2 rfl
          subst this
          cases cs' with
          | nil =>
            have := z1 rfl
            subst this
            simp [eqByL]
          | cons c' cs' =>
            cases hc' : c'.label with
            | none => simp [hc', n1 c' cs' rfl hc', eqByL]
            | some x =>
              obtain ⟨c, ds, rfl, e⟩ := e1 c' cs' rfl (by simp [hc'])
              simp [hc', e]
              generalize eqByL (slotEq eqv) _ (c' :: cs') = b
              cases b <;> simp [eqByL]
        | cons s us =>
          cases hs : s.label with
          | none =>
            have w := n2 s us rfl hs
            cases cs' with
            | nil =>
              have := z1 rfl
              subst this
              simp [eqByL, hs, w]
            | cons c' cs' =>
              cases hc' : c'.label with
              | none => simp [hc', n1 c' cs' rfl hc', w]
              | some x =>
                obtain ⟨c, ds, rfl, e⟩ := e1 c' cs' rfl (by simp [hc'])
                simp [hc', e, w, hs]
          | some y =>
            obtain ⟨d, es, rfl, w⟩ := e2 s us rfl (by simp [hs])
            cases cs' with
            | nil =>
              have := z1 rfl
              subst this
              simp [eqByL, hs, w]
            | cons c' cs' =>
              cases hc' : c'.label with
              | none => simp [hc', n1 c' cs' rfl hc', w]
              | some x =>
                obtain ⟨c, ds, rfl, e⟩ := e1 c' cs' rfl (by simp [hc'])
                simp [hc', e, w, hs]
                generalize eqByL (slotEq eqv) _ (c' :: cs') = b
                cases b <;> simp [w]
      · have e0 : slotEq eqv v (some v') = false := by simp [slotEq, hv]
        simp [hcl, hv, e0]
    · have : eqByL (slotEq eqv) (valsL cs) cs' = false := eqByL_of_ne _ (by simpa [valsL] using hcl)
      simp [hcl, this]

/-! ### binary nodes -/

theorem ofBinary_step (fuel : Nat) (hb : BHeap α) (other : Addr) (h : NHeap α) (par prev : Ptr) (o : BNode α)
    (ho : hb.cells other = some o) (k : Nat) (hk : Binary.followingSiblings hb other = Res.ok k) (nx fc : Ptr)
    (hn : Binary.next hb other = Res.ok nx) (hf : Binary.first hb other = Res.ok fc) :
    ofBinary (fuel + 1) hb other h par prev = buildStep h o.value par k prev nx fc
      (fun g x nx => ofBinary fuel hb nx g par (some x)) (fun g x c => ofBinary fuel hb c g (some x) none) := by
  rw [ofBinary, Heap.read_of ho, Res.ok_bind, hk, Res.ok_bind]
  simp only [hn, hf]
  cases nx <;> cases fc <;> simp [buildStep, buildSub, Res.bind_assoc]

/-- The nodes after a position on its level: the following siblings. -/
def sibs : List (Frame (Addr × α)) → List (Tree (Addr × α))
  | [] => []
  | f :: _ => f.rights

/-- Converting a binary node converts it, everything below it and its following sibling. -/
theorem ofBinary_spec {hb : BHeap α} {t : BTree (Addr × α)} (HB : Binary.Rep hb t) {T : Tree (Addr × α)} (hT : t.toRose = [T])
    (fuel : Nat) {fs : List (Frame (Addr × α))} {u : Tree (Addr × α)} (hu : plug fs u = T)
    (hf : sizeL (u :: sibs fs) ≤ fuel) {par prev : Ptr} (hw : h.WF)
    (hp : ∀ p, par = some p → p < h.next ∧ (h.cells p).isSome) :
    ∃ h' a ts', ofBinary fuel hb u.addr h par prev = Res.ok (h', a) ∧ headAddr ts' = some a ∧ Built h h' par prev ts' ∧
      valsL ts' = valsL (u :: sibs fs) := by
  induction fuel generalizing h fs u par prev with
  | zero => cases u; simp [sizeL, size] at hf
  | succ fuel ih =>
    obtain ⟨⟨n, hn, hnv⟩, h1, _, h3, _, h5, _, _⟩ := Binary.rose_focus HB hT hu
    have e3 : (fs.head?.bind (fun f => headAddr f.rights)) = headAddr (sibs fs) := by cases fs <;> rfl
    have e5 : (fs.head?.elim 0 (fun f => f.rights.length)) = (sibs fs).length := by cases fs <;> rfl
    rw [e3] at h3
    rw [e5] at h5
    rw [ofBinary_step fuel hb u.addr h par prev n hn _ h5 _ _ h3 h1]
    obtain ⟨⟨b, v⟩, cs⟩ := u
    simp only [sizeL, size] at hf
    simp only [label_node] at hnv
    simp only [children_node, addr_node] at h1 ⊢
    obtain ⟨h', ts', cs', e, B, P1, P2⟩ := buildStep_spec (h := h) (v := n.value) (fol := (sibs fs).length) (prev := prev)
      (par := par) (on := headAddr (sibs fs)) (oc := headAddr cs)
      (F := fun g x nx => ofBinary fuel hb nx g par (some x)) (G := fun g x c => ofBinary fuel hb c g (some x) none)
      (Pn := fun l => valsL l = valsL (sibs fs)) (Pc := fun l => valsL l = valsL cs)
      hw hp
      (fun l hl => by have := congrArg List.length hl; simpa [valsL] using this.symm)
      (by cases sibs fs <;> simp) (by cases cs <;> simp)
      (by
        intro nx hnx g gw gl gs gp
        cases fs with
        | nil => simp [sibs] at hnx
        | cons f fs =>
          obtain ⟨p, ls, rs⟩ := f
          cases rs with
          | nil => simp [sibs] at hnx
          | cons s rs =>
            simp [sibs] at hnx
            subst hnx
            have hu' : plug (⟨p, ls ++ [node (b, v) cs], rs⟩ :: fs) s = T := by simpa using hu
            exact ih hu' (by simp only [sibs, sizeL] at hf ⊢; omega) gw gp)
      (by
        intro c hcc g gw gl gs gx
        cases cs with
        | nil => simp at hcc
        | cons s rs =>
          simp only [headAddr_cons, Option.some.injEq] at hcc
          subst hcc
          have hu' : plug (⟨(b, v), [], rs⟩ :: fs) s = T := by simpa using hu
          refine ih hu' (by simp only [sibs, sizeL] at hf ⊢; omega) gw ?_
          intro p e
          simp only [Option.some.injEq] at e
          subst e
          exact ⟨gl, gx⟩)
    refine ⟨h', h.next, _, e, rfl, B, ?_⟩
    simp only [valsL_cons, P1, vals_node, P2, hnv]

/-- Converting a whole binary tree. -/
theorem ofBinary_root {hb : BHeap α} {t : BTree (Addr × α)} (HB : Binary.Rep hb t) {T : Tree (Addr × α)} (hT : t.toRose = [T])
    (hw : h.WF) (fuel : Nat) (hf : T.size ≤ fuel) :
    ∃ h' t', ofBinary fuel hb T.addr h none none = Res.ok (h', t'.addr) ∧ Rep h' t' ∧ t'.vals = T.vals ∧
      Grown h h' t'.addrs := by
  obtain ⟨h', a, ts', e, ha, B, hv⟩ := ofBinary_spec (h := h) HB hT fuel (fs := []) (u := T) rfl (by simpa [sizeL, sibs] using hf)
    (par := none) (prev := none) hw (by simp)
  obtain ⟨t', rfl⟩ : ∃ t', ts' = [t'] := by
    rw [← List.length_eq_one_iff]
    have := congrArg List.length hv
    simpa [valsL, sibs] using this
  simp at ha
  subst ha
  exact ⟨h', t', e, built_single B, by simpa [valsL, sibs] using hv, by simpa using B.grown⟩

theorem eqBinary_spec (eqv : α → α → Bool) {hb : BHeap α} {tb : BTree (Addr × α)} (HB : Binary.Rep hb tb)
    {T : Tree (Addr × α)} (hT : tb.toRose = [T]) (fuel : Nat) (t u : Tree (Addr × α)) (ts : List (Tree (Addr × α)))
    {fs : List (Frame (Addr × α))} (hu : plug fs u = T)
    (hf : sizeL (t :: ts) ≤ fuel) (hl : ts.length = (sibs fs).length) {par prev : Ptr}
    (H : Holds h (cellsL par prev none 0 (t :: ts))) :
    eqBinary eqv fuel h t.addr hb u.addr = Res.ok (eqByL eqv (valsL (t :: ts)) (valsL (u :: sibs fs))) := by
  induction fuel generalizing t u ts fs par prev with
  | zero => cases t; simp [sizeL, size] at hf
  | succ fuel ih =>
    obtain ⟨⟨m, hm, hmv⟩, k1, _, k3, _, _, k6, _⟩ := Binary.rose_focus HB hT hu
    have e3 : (fs.head?.bind (fun f => headAddr f.rights)) = headAddr (sibs fs) := by cases fs <;> rfl
    rw [e3] at k3
    obtain ⟨⟨b, v⟩, cs⟩ := t
    obtain ⟨⟨b', v'⟩, cs'⟩ := u
    simp only [sizeL, size] at hf
    simp only [cellsL_cons, holds_append] at H
    have c1 := children_spec H.1
    have H1 := H.1
    rw [cells_eq, holds_cons] at H1
    simp only [addr_node, children_node, label_node] at c1 H1 hm hmv k1 k3 k6
    simp only [addr_node, eqBinary, c1, k1, k3, k6, Res.ok_bind, Heap.read_of H1.1, Heap.read_of hm, hmv, rec_, label_node, children_node]
    simp only [valsL_cons, vals_node, eqByL, eqBy]
    by_cases hcl : cs.length = cs'.length
    · by_cases hv : eqv v v' = true
      · have e1 : ∀ c c' ds ds', cs = c :: ds → cs' = c' :: ds' →
            eqBinary eqv fuel h c.addr hb c'.addr = Res.ok (eqByL eqv (valsL cs) (valsL cs')) := by
          rintro c c' ds ds' rfl rfl
          have hu' : plug (⟨(b', v'), [], ds'⟩ :: fs) c' = T := by simpa using hu
          exact ih c c' ds hu' (by simp only [sizeL] at hf ⊢; omega) (by simpa [sibs] using hcl) H1.2
        have e2 : ∀ c c' ds ds', ts = c :: ds → sibs fs = c' :: ds' →
            eqBinary eqv fuel h c.addr hb c'.addr = Res.ok (eqByL eqv (valsL ts) (valsL (sibs fs))) := by
          rintro c c' ds ds' rfl e
          cases fs with
          | nil => simp [sibs] at e
          | cons f fs =>
            obtain ⟨p, ls, rs⟩ := f
            simp [sibs] at e
            subst e
            have hu' : plug (⟨p, ls ++ [node (b', v') cs'], ds'⟩ :: fs) c' = T := by simpa using hu
            exact ih c c' ds hu' (by simp only [sizeL] at hf ⊢; omega) (by simpa [sibs] using hl) H.2
        clear H H1 c1 hf ih
        generalize sibs fs = us at *
        rcases cs with _ | ⟨c, cs⟩ <;> rcases cs' with _ | ⟨c', cs'⟩ <;> simp at hcl <;>
          rcases ts with _ | ⟨s, ts⟩ <;> rcases us with _ | ⟨s', us⟩ <;> simp at hl <;>
          simp [hv, hcl, hl, e1, e2] <;>
          (try generalize eqByL eqv (c.vals :: valsL cs) (c'.vals :: valsL cs') = b; cases b) <;> simp [eqByL]
      · simp [hcl, hv]
    · have : eqByL eqv (valsL cs) (valsL cs') = false := eqByL_length _ (by simpa [valsL] using hcl)
      simp [hcl, this]

end Nary
