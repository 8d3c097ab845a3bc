import Verif.Model.Faults
import Verif.Proof.Edits
/-! Insertions in which the queue of an iterator throws. -/
open Tree World

section
variable {ν α lit T V C : Type} {K : Kind ν α lit} {Z : Addr → Prop} {S : Shape K T V C} {ts : Nat → Option T} {W : World ν}
  {s t u : T} {c : C} {x y : Nat} {src : Src α lit} {P : Policy} {pos : It}

theorem overQ_go (hsrc : src ≠ .moveOf x) (q : QueueAt) (sb ab : Bool) : insertOverQ K q sb ab W x src = (do
    let (W, p, _, _) ← overNode K sb ab W src
    match q with
    | .copy => pure (W.setHeap (← K.dealloc W.heap.fuel W.heap p))
    | .inside => pure W) := by
  cases src with
  | moveOf y =>
    have hxy : x ≠ y := by rintro rfl; exact hsrc rfl
    simp only [insertOverQ, hxy, if_false]
    rfl
  | _ => rfl

theorem childQ_go (hsrc : src ≠ .moveOf x) (q : QueueAt) (front : Bool) : insertChildQ K q front P W x pos src = (do
    let (W, p, rs, ra) ← childNode K front W src
    match q with
    | .copy => pure (W.setHeap (← K.dealloc W.heap.fuel W.heap p))
    | .inside => do
      let (h, r, _) ← TreeOps.addChild K front P W.heap (← W.get x) pos p rs ra
      pure ((W.setHeap h).put x (some r))) := by
  cases src with
  | moveOf y =>
    have hxy : x ≠ y := by rintro rfl; exact hsrc rfl
    simp only [insertChildQ, hxy, if_false]
    rfl
  | _ => rfl

/-- A state in which an object refers to freed memory is no family of trees. -/
theorem dangles (L : Lawful S) {r : TreeRec} {a : Addr} (hr : W.vars y = some r) (ha : r.root = some a) (hc : W.heap.cells a = none) :
    ∀ ts', ¬ OwnedBut Z S W ts' := by
  intro ts' O'
  have h1 := O'.alive y
  rw [hr] at h1
  obtain ⟨v, hv⟩ := Option.isSome_iff_exists.mp h1.symm
  have h2 := (O'.root y _ _ hr hv).1
  rw [ha] at h2
  have h3 := L.rep_alive _ _ (O'.rep y v hv) a (L.ptr_mem h2.symm)
  rw [hc] at h3; cases h3

namespace Generic

theorem overCopyNew (L : Lawful S) (O : OwnedBut Z S W ts) (hok : SrcOk S ts src) (hm : ∀ y, src ≠ .moveOf y) (sb ab : Bool) :
    ∃ W', insertOverQ K .copy sb ab W x src = Res.ok W' ∧ OwnedBut Z S W' ts := by
  rw [overQ_go (hm x)]
  obtain ⟨W1, n, rs, ra, e1, D, _⟩ := overNode_spec L O hok sb ab
  obtain ⟨e2, O'⟩ := D.own.release L
  rw [afterSrc_eq (Or.inl hm)] at O'
  exact ⟨_, by simp only [e1, Res.ok_bind, e2]; rfl, finish_threw L O D O'⟩

theorem childCopyNew (L : Lawful S) (O : OwnedBut Z S W ts) (hok : SrcOk S ts src) (hm : ∀ y, src ≠ .moveOf y) (front : Bool) :
    ∃ W', insertChildQ K .copy front P W x pos src = Res.ok W' ∧ OwnedBut Z S W' ts := by
  rw [childQ_go (hm x)]
  obtain ⟨W1, n, rs, ra, e1, D, _⟩ := childNode_spec L O hok front
  obtain ⟨e2, O'⟩ := D.own.release L
  rw [afterSrc_eq (Or.inl hm)] at O'
  exact ⟨_, by simp only [e1, Res.ok_bind, e2]; rfl, finish_threw L O D O'⟩

theorem overCopyMove (L : Lawful S) (O : OwnedBut Z S W ts) (hy : ts y = some u) (hu : u ≠ S.nil) (hxy : x ≠ y) (sb ab : Bool) :
    ∃ W' r a, insertOverQ K .copy sb ab W x (.moveOf y) = Res.ok W' ∧ W'.vars y = some r ∧ r.root = some a ∧ W'.heap.cells a = none ∧
      ∀ Z' ts', ¬ OwnedBut Z' S W' ts' := by
  have hsrc : (Src.moveOf y : Src α lit) ≠ .moveOf x := fun e => hxy (by cases e; rfl)
  rw [overQ_go hsrc]
  obtain ⟨W1, n, rs, ra, e1, D, _⟩ := overNode_spec L O (src := .moveOf y) (by simp [SrcOk, hy]) sb ab
  obtain ⟨e2, O'⟩ := D.own.release L
  obtain ⟨ry, hry, _, hryt, _⟩ := O.get L hy
  obtain ⟨ry1, hry1, hry2, _⟩ := D.vars y ry hry
  have hn : n = u := by
    have := D.tree
    simp only [SrcTree, hy, Option.some.injEq] at this
    exact this.symm
  subst hn
  obtain ⟨a, ha⟩ := L.ptr_of_ne hu
  have hroot : ry1.root = some a := by rw [hry2, hryt, ha]
  have hfree : (W1.setHeap (W1.heap.freeAll (S.addrs n))).heap.cells a = none := by simp [setHeap, L.ptr_mem ha]
  exact ⟨W1.setHeap (W1.heap.freeAll (S.addrs n)), ry1, a, by simp only [e1, Res.ok_bind, e2]; rfl, hry1, hroot, hfree, fun _ => dangles L hry1 hroot hfree⟩

theorem childCopyMove (L : Lawful S) (O : OwnedBut Z S W ts) (hy : ts y = some u) (hu : u ≠ S.nil) (hxy : x ≠ y) (front : Bool) :
    ∃ W' r a, insertChildQ K .copy front P W x pos (.moveOf y) = Res.ok W' ∧ W'.vars y = some r ∧ r.root = some a ∧
      W'.heap.cells a = none ∧ ∀ Z' ts', ¬ OwnedBut Z' S W' ts' := by
  have hsrc : (Src.moveOf y : Src α lit) ≠ .moveOf x := fun e => hxy (by cases e; rfl)
  rw [childQ_go hsrc]
  obtain ⟨W1, n, rs, ra, e1, D, _⟩ := childNode_spec L O (src := .moveOf y) (by simp [SrcOk, hy]) front
  obtain ⟨e2, O'⟩ := D.own.release L
  obtain ⟨ry, hry, _, hryt, _⟩ := O.get L hy
  obtain ⟨ry1, hry1, hry2, _⟩ := D.vars y ry hry
  have hn : n = u := by
    have := D.tree
    simp only [SrcTree, hy, Option.some.injEq] at this
    exact this.symm
  subst hn
  obtain ⟨a, ha⟩ := L.ptr_of_ne hu
  have hroot : ry1.root = some a := by rw [hry2, hryt, ha]
  have hfree : (W1.setHeap (W1.heap.freeAll (S.addrs n))).heap.cells a = none := by simp [setHeap, L.ptr_mem ha]
  exact ⟨W1.setHeap (W1.heap.freeAll (S.addrs n)), ry1, a, by simp only [e1, Res.ok_bind, e2]; rfl, hry1, hroot, hfree, fun _ => dangles L hry1 hroot hfree⟩

theorem overUpdateNew (L : Lawful S) (O : OwnedBut Z S W ts) (hok : SrcOk S ts src) (hm : ∀ y, src ≠ .moveOf y) (sb ab : Bool) :
    ∃ W' n, insertOverQ K .inside sb ab W x src = Res.ok W' ∧ SrcTree S ts src n ∧ SrcFresh S W.heap src n ∧
      OwnedBut (fun a => Z a ∨ a ∈ S.addrs n) S W' ts := by
  rw [overQ_go (hm x)]
  obtain ⟨W1, n, rs, ra, e1, D, _⟩ := overNode_spec L O hok sb ab
  have O' := D.own.lose L
  rw [afterSrc_eq (Or.inl hm)] at O'
  exact ⟨_, n, by simp only [e1, Res.ok_bind]; rfl, D.tree, D.fresh O, finish_threw L O D O'⟩

theorem overUpdateMove (L : Lawful S) (O : OwnedBut Z S W ts) (hy : ts y = some u) (hxy : x ≠ y) (sb ab : Bool) :
    ∃ W', insertOverQ K .inside sb ab W x (.moveOf y) = Res.ok W' ∧ OwnedBut Z S W' ts := by
  have hsrc : (Src.moveOf y : Src α lit) ≠ .moveOf x := fun e => hxy (by cases e; rfl)
  rw [overQ_go hsrc]
  obtain ⟨W1, n, rs, ra, e1, D, _⟩ := overNode_spec L O (src := .moveOf y) (by simp [SrcOk, hy]) sb ab
  refine ⟨W1, by simp only [e1, Res.ok_bind]; rfl, finish_threw (h' := W1.heap) L O D ?_⟩
  have hy : ts y = some n := D.tree
  have := D.own.exchange L (x := y) (t := S.nil) (upd_same _ _ _)
  simp only [afterSrc] at this
  rw [upd_twice, ← hy, upd_self] at this
  exact this

/-- The child stays. -/
theorem childMakeNew (L : Lawful S) (O : OwnedBut Z S W ts) (hx : ts x = some t) (hok : SrcOk S ts src) (hm : ∀ y, src ≠ .moveOf y)
    (A : At S P W.heap t pos c s) (hf : S.isFull s = false) (front : Bool) :
    ∃ W' n, insertChildQ K .inside front P W x pos src = Res.ok W' ∧ SrcTree S ts src n ∧ SrcFresh S W.heap src n ∧
      OwnedBut Z S W' (upd ts x (some (S.plug c (if front then S.front n s else S.back n s)))) := by
  rw [childQ_go (hm x)]
  obtain ⟨W1, n, rs, ra, r1, h', it, e1, D, _, _, hr1, _, e, O', _⟩ := insertChild_at L O hx hok (hm x) A hf front
  have hl : ∀ f, leaveVars src f = f := by
    intro f
    cases src with
    | moveOf y => exact absurd rfl (hm y)
    | _ => rfl
  rw [hl] at e O'
  rw [afterSrc_eq (Or.inl hm)] at O'
  refine ⟨_, n, ?_, D.tree, D.fresh O, O'⟩
  have : World.insertChild K front P W x pos src = (do
      let (W, p, rs, ra) ← childNode K front W src
      let (h, r, o) ← TreeOps.addChild K front P W.heap (← W.get x) pos p rs ra
      pure ((W.setHeap h).put x (some r), o)) := by
    cases src <;> first | rfl | exact absurd rfl (hm _)
  rw [this, e1] at e
  simp only [e1, Res.ok_bind] at e ⊢
  have hg : W1.get x = Res.ok r1 := by simp [World.get, hr1]
  rw [hg] at e ⊢
  simp only [Res.ok_bind] at e ⊢
  cases ha : TreeOps.addChild K front P W1.heap r1 pos (S.ptr n) rs ra with
  | ub => rw [ha] at e; cases e
  | diverge => rw [ha] at e; cases e
  | ok q =>
    rw [ha] at e
    simp only [Res.ok_bind, Res.pure_eq, Res.ok.injEq, Prod.mk.injEq] at e ⊢
    exact e.1

/-- Two tree objects have the same nodes. -/
theorem childMakeMove (L : Lawful S) (Dt : Determined S) (O : OwnedBut Z S W ts) (hx : ts x = some t) (hy : ts y = some u) (hu : u ≠ S.nil)
    (hxy : x ≠ y) (A : At S P W.heap t pos c s) (hf : S.isFull s = false) (front : Bool) :
    ∃ W' rx ry t' a, insertChildQ K .inside front P W x pos (.moveOf y) = Res.ok W' ∧ W'.vars x = some rx ∧ W'.vars y = some ry ∧
      S.Rep W'.heap t' ∧ rx.root = S.ptr t' ∧ a ∈ S.addrs t' ∧ ry.root = some a ∧ ∀ Z' ts', ¬ OwnedBut Z' S W' ts' := by
  have hsrc : (Src.moveOf y : Src α lit) ≠ .moveOf x := fun e => hxy (by cases e; rfl)
  rw [childQ_go hsrc]
  obtain ⟨W1, n, rs, ra, e1, D, _⟩ := childNode_spec L O (src := .moveOf y) (by simp [SrcOk, hy]) front
  obtain ⟨r, hr, _, hrt, hnt⟩ := O.get L hx
  obtain ⟨r1, hr1, hroot1, hnav1, _⟩ := D.vars x r hr
  have hx' : afterSrc S ts (.moveOf y : Src α lit) x = some t := by rw [afterSrc_other hsrc]; exact hx
  obtain ⟨b, hb⟩ := L.ptr_of_ne A.node
  have hcur : pos.st.cur = some b := by rw [A.cur, hb]
  have hpl := A.place
  subst hpl
  obtain ⟨h', st, e2, O', hstc, hst⟩ := TreeOps.addChild_spec L (rs := rs) (ra := ra) front D.own hx' hb hf (hnav1.trans hnt)
    hcur A.policy
  have hps : S.ptr (if front then S.front n s else S.back n s) = some b := by
    cases front
    · exact L.ptr_back hb hf
    · exact L.ptr_front hb hf
  have hp : S.ptr (S.plug c (if front then S.front n s else S.back n s)) = S.ptr (S.plug c s) := by
    by_cases hc : c = S.top
    · subst hc; rw [L.plug_top, L.plug_top, hps, hb]
    · exact L.ptr_plug c _ _ hc
  obtain ⟨ry, hry, _, hryt, _⟩ := O.get L hy
  obtain ⟨ry1, hry1, hry2, _⟩ := D.vars y ry hry
  have hn : n = u := by
    have := D.tree
    simp only [SrcTree, hy, Option.some.injEq] at this
    exact this.symm
  subst hn
  obtain ⟨a, ha⟩ := L.ptr_of_ne hu
  have hroot : ry1.root = some a := by rw [hry2, hryt, ha]
  have hmem : a ∈ S.addrs (S.plug c (if front then S.front n s else S.back n s)) := by
    refine L.mem_plug.mpr (Or.inr ?_)
    cases front
    · exact (L.mem_back hb hf).mpr (Or.inl (L.ptr_mem ha))
    · exact (L.mem_front hb hf).mpr (Or.inl (L.ptr_mem ha))
  have Hrep := O'.rep x _ (upd_same _ _ _)
  have hg : W1.get x = Res.ok r1 := by simp [World.get, hr1]
  have hvx : ((W1.setHeap h').put x (some (TreeOps.childRec S r1 (if front then S.front n s else S.back n s) rs ra))).vars x =
    some (TreeOps.childRec S r1 (if front then S.front n s else S.back n s) rs ra) := by simp [World.put]
  have hvy : ((W1.setHeap h').put x (some (TreeOps.childRec S r1 (if front then S.front n s else S.back n s) rs ra))).vars y =
    some ry1 := by simp [World.put, Ne.symm hxy, setHeap, hry1]
  have hrx : (TreeOps.childRec S r1 (if front then S.front n s else S.back n s) rs ra).root =
      S.ptr (S.plug c (if front then S.front n s else S.back n s)) := hroot1.trans (hrt.trans hp.symm)
  refine ⟨_, _, ry1, _, a, by simp only [e1, Res.ok_bind, hg, e2]; rfl, hvx, hvy, Hrep, hrx, hmem, hroot, fun Z' ts' O2 => ?_⟩
  have h1 := O2.alive y
  rw [hvy] at h1
  obtain ⟨v, hv⟩ := Option.isSome_iff_exists.mp h1.symm
  have h2 := (O2.root y _ _ hvy hv).1
  have h3 := O2.alive x
  rw [hvx] at h3
  obtain ⟨w, hw⟩ := Option.isSome_iff_exists.mp h3.symm
  have h4 := (O2.root x _ _ hvx hw).1
  have h5 := Dt _ _ _ (O2.rep x w hw) Hrep (h4.symm.trans hrx)
  subst h5
  exact O2.disjoint x y _ _ hw hv hxy a hmem (L.ptr_mem (h2.symm.trans hroot))

end Generic
end
