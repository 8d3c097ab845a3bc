import Verif.Proof.Update
/-! The operations on one tree record: tree.hpp's protected helpers. -/
open Tree

section
variable {ν α lit T V C : Type} {K : Kind ν α lit} {Z : Addr → Prop} {S : Shape K T V C} {h h' : Heap ν} {ts : Nat → Option T}
  {n s t : T} {x : Nat} {c : C} {a : Addr} {P : Policy} {r : TreeRec} {pos : It} {rs ra : Nat}

/-- The answer of `size()`: the cached count, or the count of the nodes when nothing is cached. -/
def sizeAns (S : Shape K T V C) (r : TreeRec) (t : T) : Nat := if r.size = 0 then S.size t else r.size
/-- The answer of `arity()`. -/
def arityAns (S : Shape K T V C) (r : TreeRec) (t : T) : Nat := if r.arity = 0 then S.arity t else r.arity

namespace TreeOps
variable (L : Lawful S)
include L

theorem assign_spec (O : Own Z S h ts n) (hx : ts x = some t) (hr : r.root = S.ptr t) :
    assign K h r (S.ptr n) rs ra = Res.ok (h.freeAll (S.addrs t), ⟨S.ptr n, rs, ra, S.ptr n⟩) ∧
      Own Z S (h.freeAll (S.addrs t)) (upd ts x (some n)) S.nil := by
  have E := O.exchange L hx
  obtain ⟨e, F⟩ := E.release L
  refine ⟨?_, F⟩
  unfold assign
  rw [hr]
  rcases L.rose_cases t with rfl | ⟨R, hR⟩
  · simp [L.ptr_nil, L.addrs_nil]
  · have : S.ptr t = some R.label := by simp [Shape.ptr, hR]
    rw [this] at e ⊢
    simp [e]

theorem sizeQ_spec (hw : h.WF) (H : S.Rep h t) (hr : r.root = S.ptr t) :
    sizeQ K h r = Res.ok (sizeAns S r t, { r with size := sizeAns S r t }) := by
  unfold sizeQ
  rw [hr]
  cases hp : S.ptr t with
  | none =>
    have := L.ptr_none_iff.mp hp
    subst this
    obtain ⟨_, sz, _, _⟩ := r
    by_cases h0 : sz = 0 <;> simp_all [sizeAns, L.size_nil]
  | some a =>
    obtain ⟨_, sz, _, _⟩ := r
    simp only at hr
    by_cases h0 : sz = 0
    · simp [h0, hr, hp, L.calcSize h t a hw H hp, sizeAns]
    · simp [h0, sizeAns, hr, hp]

theorem arity_leaf (hp : S.ptr t = some a) {R : Tree Addr} (hR : S.rose t = [R]) (hc : R.children = []) : S.arity t = 0 := by
  cases R with | node b cs =>
  simp at hc
  simp [Shape.arity, hR, hc, arityL]

theorem first_spec (H : S.Rep h t) (hp : S.ptr t = some a) {R : Tree Addr} (hR : S.rose t = [R]) :
    K.first h a = Res.ok (R.children.head?.map label) := by
  have : R.label = a := by simpa [Shape.ptr, hR] using hp
  subst this
  rw [← L.nav_first h (S.ptr t)]
  exact (L.nav h t R H hR).first [] R rfl

theorem arityQ_spec (hw : h.WF) (H : S.Rep h t) (hr : r.root = S.ptr t) :
    arityQ K h r = Res.ok (arityAns S r t, { r with arity := arityAns S r t }) := by
  unfold arityQ
  rw [hr]
  cases hp : S.ptr t with
  | none =>
    have := L.ptr_none_iff.mp hp
    subst this
    obtain ⟨_, _, sz, _⟩ := r
    by_cases h0 : sz = 0 <;> simp_all [arityAns, L.arity_nil]
  | some a =>
    obtain ⟨R, hR, rfl⟩ := L.rose_of_ptr hp
    obtain ⟨_, _, sz, _⟩ := r
    simp only at hr
    rw [hp] at hr
    by_cases h0 : sz = 0
    · simp only [h0, beq_self_eq_true, if_true, first_spec L H hp hR, Res.ok_bind, arityAns]
      cases hc : R.children with
      | nil =>
        simp [arity_leaf L hp hR hc, hr]
      | cons y cs => simp [L.calcArity h t _ hw H hp, hr]
    · simp [h0, arityAns, hr]

/-- The record of a tree in which the subtree `s` (not the whole tree) was replaced: tree.hpp 293-300. -/
def replacedRec (S : Shape K T V C) (r : TreeRec) (s : T) (rs : Nat) : TreeRec :=
  { r with size := if S.kids s = 0 then wadd r.size (wsub rs 1) else 0, arity := 0 }

theorem replaceNode_inner (O : Own Z S h ts n) (hx : ts x = some (S.plug c s)) (ha : S.ptr s = some a) (hc : c ≠ S.top)
    (hn : n ≠ S.nil ∨ S.removable c) (hr : r.root = S.ptr (S.plug c s)) :
    ∃ h', replaceNode K h r (some a) (S.ptr n) rs ra = Res.ok (h', replacedRec S r s rs, some a) ∧
      Own Z S h' (upd ts x (some (S.plug c n))) s := by
  obtain ⟨h', e, O', _⟩ := O.replace L hx ha hc hn
  refine ⟨h', ?_, O'⟩
  have hne : S.ptr (S.plug c s) ≠ some a := fun hp => hc ((L.root_iff (O.rep x _ hx) ha).mp hp)
  obtain ⟨b, hb⟩ := L.ptr_plug_mem c hc
  have hb' : S.ptr (S.plug c s) = some b := by rw [L.ptr_plug c s S.nil hc, hb]
  obtain ⟨R, hR, rfl⟩ := L.rose_of_ptr ha
  have hf := first_spec L O'.repN ha hR
  have hne2 : ¬ (some R.label == r.root) = true := by rw [hr]; simp; exact fun e => hne e.symm
  have hk : S.kids s = R.children.length := by simp [Shape.kids, hR]
  simp only [replaceNode, hr, hb', Option.isSome_some, Res.assert_true, Res.ok_bind, e]
  rw [← hb', ← hr, if_neg hne2, hf]
  cases hcs : R.children with
  | nil => simp [replacedRec, hk, hcs]
  | cons y cs => simp [replacedRec, hk, hcs]

/-- Replacing a subtree that is not the whole tree. -/
theorem modify_inner (hP : P ∈ libraryPolicies) (O : Own Z S h ts n) (hx : ts x = some (S.plug c s)) (ha : S.ptr s = some a)
    (hc : c ≠ S.top) (hn : n ≠ S.nil ∨ S.removable c) (hr : r.root = S.ptr (S.plug c s)) (hcur : pos.st.cur = some a)
    {st : ItState} (hu : P.update (K.nav h pos.root) pos.st a (S.ptr n) = Res.ok st) :
    ∃ h', modifySubtree K P h r pos (S.ptr n) rs ra = Res.ok (h', replacedRec S r s rs, .ret ⟨st, pos.root⟩) ∧
      Own Z S h' (upd ts x (some (S.plug c n))) S.nil := by
  obtain ⟨h', e, O'⟩ := replaceNode_inner L (rs := rs) (ra := ra) O hx ha hc hn hr
  obtain ⟨e2, O2⟩ := O'.release L
  refine ⟨_, ?_, O2⟩
  have hne : S.ptr (S.plug c s) ≠ some a := fun hp => hc ((L.root_iff (O.rep x _ hx) ha).mp hp)
  obtain ⟨b, hb⟩ := L.ptr_plug_mem c hc
  have hb' : S.ptr (S.plug c s) = some b := by rw [L.ptr_plug c s S.nil hc, hb]
  have hne2 : ¬ (some a == r.root) = true := by rw [hr]; simp; exact fun e => hne e.symm
  simp only [modifySubtree, hcur]
  have hs : r.root.isSome = true := by rw [hr, hb']; rfl
  rw [hs, Res.assert_true, Res.ok_bind, hu, Res.ok_bind, if_neg hne2, e]
  rw [ha] at e2
  simp only [Res.ok_bind, e2, Res.pure_eq]

/-- Replacing the whole tree. -/
theorem modify_root (O : Own Z S h ts n) (hx : ts x = some t) (ha : S.ptr t = some a)
    (hr : r.root = S.ptr t) (hcur : pos.st.cur = some a)
    {st : ItState} (hu : P.update (K.nav h pos.root) pos.st a (S.ptr n) = Res.ok st) :
    ∃ h', modifySubtree K P h r pos (S.ptr n) rs ra = Res.ok (h', ⟨S.ptr n, rs, ra, S.ptr n⟩, .ret ⟨st, pos.root⟩) ∧
      Own Z S h' (upd ts x (some n)) S.nil := by
  obtain ⟨e, O'⟩ := assign_spec L (rs := rs) (ra := ra) O hx hr
  refine ⟨_, ?_, O'⟩
  simp only [modifySubtree, hcur]
  have hs : r.root.isSome = true := by rw [hr, ha]; rfl
  have he : (some a == r.root) = true := by rw [hr, ha]; simp
  rw [hs, Res.assert_true, Res.ok_bind, hu, Res.ok_bind, if_pos he, e]
  simp

/-- Inserting in an empty tree. -/
theorem modify_empty (O : Own Z S h ts n) (hx : ts x = some S.nil) (hr : r.root = none) (hcur : pos.st.cur = none) :
    ∃ h', modifySubtree K P h r pos (S.ptr n) rs ra = Res.ok (h', ⟨S.ptr n, rs, ra, S.ptr n⟩, .ret pos) ∧
      Own Z S h' (upd ts x (some n)) S.nil := by
  obtain ⟨e, O'⟩ := assign_spec L (rs := rs) (ra := ra) O hx (by rw [hr, L.ptr_nil])
  refine ⟨_, ?_, O'⟩
  simp only [modifySubtree, hcur, hr, e]
  simp

omit L in
/-- `end()` of a non-empty tree: the exception. -/
theorem modify_end {p : Ptr} (hr : r.root.isSome) (hcur : pos.st.cur = none) :
    modifySubtree K P h r pos p rs ra = Res.ok (h, r, .threw) := by
  obtain ⟨b, hb⟩ := Option.isSome_iff_exists.mp hr
  simp [modifySubtree, hcur, hb]

/-- The record after `add_child`: `s'` is the new subtree at the position. -/
def childRec (S : Shape K T V C) (r : TreeRec) (s' : T) (rs ra : Nat) : TreeRec :=
  { r with size := wadd r.size rs, arity := max ra (max r.arity (if S.kids s' = 0 then 1 else S.kids s')) }

theorem addChild_spec (front : Bool) (O : Own Z S h ts n) (hx : ts x = some (S.plug c s)) (ha : S.ptr s = some a)
    (hf : S.isFull s = false) (hr : r.navRoot = S.ptr (S.plug c s)) (hcur : pos.st.cur = some a) (hP : P ∈ libraryPolicies) :
    ∃ h' st, addChild K front P h r pos (S.ptr n) rs ra =
        Res.ok (h', childRec S r (if front then S.front n s else S.back n s) rs ra, .ret ⟨st, r.navRoot⟩) ∧
      Own Z S h' (upd ts x (some (S.plug c (if front then S.front n s else S.back n s)))) S.nil ∧
      st.cur = some a ∧ P.make (K.nav h' r.navRoot) h'.fuel (some a) = Res.ok st := by
  obtain ⟨h', e, O', _⟩ := O.addChild L front hx ha hf
  obtain ⟨R, hR, rfl⟩ := L.rose_of_ptr ha
  have hs' : ∃ R', S.rose (if front then S.front n s else S.back n s) = [R'] ∧ R'.label = R.label := by
    cases front
    · exact ⟨_, L.rose_back s R n hR hf, rfl⟩
    · exact ⟨_, L.rose_front s R n hR hf, rfl⟩
  generalize (if front then S.front n s else S.back n s) = s' at *
  obtain ⟨R', hR', hl⟩ := hs'
  have Hrep := O'.rep x (S.plug c s') (by simp [upd])
  have hroot : S.ptr (S.plug c s') = S.ptr (S.plug c s) := by
    by_cases hc : c = S.top
    · subst hc
      simp [L.plug_top, Shape.ptr, hR', hR, hl]
    · exact L.ptr_plug c _ _ hc
  obtain ⟨fs, hfs, hrp⟩ := L.rose_plug c
  have hT := hrp s' R' hR'
  have hN := L.nav h' _ _ Hrep hT
  have hfirst : K.first h' R.label = Res.ok (R'.children.head?.map label) := by
    rw [← L.nav_first h' (S.ptr (S.plug c s')), ← hl]
    exact hN.first fs R' rfl
  have hk : S.kids s' = R'.children.length := by simp [Shape.kids, hR']
  have hmk : ∃ st, P.make (K.nav h' r.navRoot) h'.fuel (some R.label) = Res.ok st ∧ st.cur = some R.label := by
    have hb : Policy.breadthFirst.make (K.nav h' r.navRoot) h'.fuel (some R.label) = Res.ok ⟨some R.label, queue fs R'⟩ := by
      rw [hr, ← hroot, ← hl]; exact L.bfs_make O'.wf Hrep hT
    simp only [libraryPolicies, List.mem_cons, List.not_mem_nil, or_false] at hP
    rcases hP with rfl | rfl | rfl | rfl | rfl | rfl | rfl
    · exact ⟨_, rfl, rfl⟩
    · exact ⟨_, rfl, rfl⟩
    · exact ⟨_, rfl, rfl⟩
    · exact ⟨_, hb, rfl⟩
    · exact ⟨_, rfl, rfl⟩
    · exact ⟨_, rfl, rfl⟩
    · exact ⟨_, rfl, rfl⟩
  obtain ⟨st, hst, hstc⟩ := hmk
  refine ⟨h', st, ?_, O', hstc, hst⟩
  have hfull := L.full h c s _ (O.rep x _ hx) ha
  have hfol : ∀ y cs, R'.children = y :: cs → K.following h' y.label = Res.ok cs.length := by
    intro y cs hy
    have := L.following h' _ _ (⟨R'.label, [], cs⟩ :: fs) y Hrep hT (by simp [plug, ← hy, node_eta])
    simpa using this
  have hc1 : childRec S r s' rs ra =
      { r with size := wadd r.size rs, arity := max ra (max r.arity (if R'.children.length = 0 then 1 else R'.children.length)) } := by
    simp [childRec, hk]
  rw [hc1]
  cases front
  · simp only [Bool.false_eq_true, if_false] at e
    simp only [addChild, hcur, hfull, hf, Res.ok_bind, Bool.false_eq_true, if_false, e]
    cases hcs : R'.children with
    | nil => simp [hfirst, hcs, hst]
    | cons y cs => simp [hfirst, hcs, hst, hfol y cs hcs]
  · simp only [if_true] at e
    simp only [addChild, hcur, hfull, hf, Res.ok_bind, Bool.false_eq_true, if_false, if_true, e]
    cases hcs : R'.children with
    | nil => simp [hfirst, hcs, hst]
    | cons y cs => simp [hfirst, hcs, hst, hfol y cs hcs]

/-- The throwing calls of `add_child`: the loose tree is released. -/
theorem addChild_threw (front : Bool) (O : Own Z S h ts n)
    (hbad : pos.st.cur = none ∨ ∃ x c s a, ts x = some (S.plug c s) ∧ S.ptr s = some a ∧ pos.st.cur = some a ∧ S.isFull s = true) :
    addChild K front P h r pos (S.ptr n) rs ra = Res.ok (h.freeAll (S.addrs n), r, .threw) ∧
      Own Z S (h.freeAll (S.addrs n)) ts S.nil := by
  obtain ⟨e, O'⟩ := O.release L
  refine ⟨?_, O'⟩
  rcases hbad with hn | ⟨x, c, s, a, hx, ha, hcur, hf⟩
  · simp [addChild, hn, e]
  · simp [addChild, hcur, L.full h c s a (O.rep x _ hx) ha, hf, e]

end TreeOps
end
