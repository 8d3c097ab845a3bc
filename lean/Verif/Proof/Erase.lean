import Verif.Proof.TreeOps
import Verif.Proof.PrePost
/-! `erase`. -/
open Tree

namespace Tree
variable {β : Type}
/-- What comes before and after a subtree in post-order. -/
theorem post_plug_split (fs : List (Frame β)) :
    ∃ l1 l2, ∀ u, (plug fs u).post = l1 ++ u.post ++ l2 := by
  induction fs with
  | nil => exact ⟨[], [], by simp⟩
  | cons f fs ih =>
    obtain ⟨l1, l2, h⟩ := ih
    exact ⟨l1 ++ postL f.lefts, postL f.rights ++ [f.label] ++ l2, fun u => by simp [h]⟩

theorem post_remove_split (f : Frame β) (fs : List (Frame β)) :
    ∃ l1 l2, (∀ u, (plug (f :: fs) u).post = l1 ++ u.post ++ l2) ∧
      (plug fs (node f.label (f.lefts ++ f.rights))).post = l1 ++ l2 := by
  obtain ⟨l1, l2, h⟩ := post_plug_split fs
  exact ⟨l1 ++ postL f.lefts, postL f.rights ++ [f.label] ++ l2, fun u => by simp [h], by simp [h]⟩
end Tree

section
variable {ν α lit T V C : Type} {K : Kind ν α lit} {Z : Addr → Prop} {S : Shape K T V C} {h h' : Heap ν} {ts : Nat → Option T}
  {n s t : T} {x : Nat} {c : C} {a : Addr} {P : Policy} {r : TreeRec} {pos : It} {rs ra : Nat}

theorem Lawful.post_split (L : Lawful S) (hc : c ≠ S.top) (hs : s ≠ S.nil) :
    ∃ l1 l2, S.post (S.plug c s) = l1 ++ S.post s ++ l2 ∧ S.post (S.plug c S.nil) = l1 ++ l2 := by
  obtain ⟨f, fs, h1, h2⟩ := L.rose_remove c hc
  rcases L.rose_cases s with rfl | ⟨u, hu⟩
  · exact absurd rfl hs
  · obtain ⟨l1, l2, h3, h4⟩ := post_remove_split f fs
    exact ⟨l1, l2, by rw [Shape.post, Shape.post, h1 s u hu, hu, postL_cons, postL_cons, h3]; simp, by simp [Shape.post, h2, postL, h4]⟩

theorem Lawful.post_last (L : Lawful S) (ha : S.ptr s = some a) : ∃ l, S.post s = l ++ [a] := by
  obtain ⟨u, hu, rfl⟩ := L.rose_of_ptr ha
  exact ⟨postL u.children, by simp [Shape.post, hu, postL, post_eq u]⟩

theorem Lawful.fuel_ok (L : Lawful S) (hw : h.WF) (H : S.Rep h t) {R : Tree Addr} (hR : S.rose t = [R]) : R.size ≤ h.fuel := by
  have := L.size_le hw H
  simp [Shape.size, hR, sizeL] at this
  simp only [Heap.fuel]; omega

/-- `++` of a post_order iterator. -/
theorem Lawful.postInc (L : Lawful S) (hw : h.WF) (H : S.Rep h t) {l1 l2 : List Addr} (hp : S.post t = l1 ++ a :: l2)
    {pos : It} (hcur : pos.st.cur = some a) (hroot : pos.root = S.ptr t) :
    Iter.inc Policy.postOrder (K.nav h pos.root) h.fuel pos.st = Res.ok ⟨l2.head?, []⟩ := by
  rcases L.rose_cases t with rfl | ⟨R, hR⟩
  · simp [Shape.post, L.rose_nil] at hp
  · have hp' : R.post = l1 ++ a :: l2 := by simpa [Shape.post, hR, postL] using hp
    have := postInc_list (L.nav h t R H hR) (L.fuel_ok hw H hR) hp'
    rw [hroot]
    simp [Iter.inc, hcur, Policy.postOrder, Policy.stateless, this]

/-- `++` of the end iterator goes to the first node, and does nothing on an empty tree. -/
theorem Lawful.postIncEnd (L : Lawful S) (hw : h.WF) (H : S.Rep h t)
    {pos : It} (hcur : pos.st.cur = none) (hroot : pos.root = S.ptr t) :
    ∃ st, Iter.inc Policy.postOrder (K.nav h pos.root) h.fuel pos.st = Res.ok st := by
  rcases L.rose_cases t with rfl | ⟨R, hR⟩
  · refine ⟨pos.st, ?_⟩
    rw [hroot, L.ptr_nil]
    simp [Iter.inc, hcur, L.nav_root]
  · have hN := L.nav h t R H hR
    have := postFirst_spec hN h.fuel (L.fuel_ok hw H hR)
    rw [hroot]
    refine ⟨⟨R.post.head?, []⟩, ?_⟩
    simp [Iter.inc, hcur, Policy.postOrder, Policy.stateless, this, hN.root]

namespace TreeOps
variable (L : Lawful S)
include L

theorem eraseSubtree_inner (O : Own Z S h ts S.nil) (hx : ts x = some (S.plug c s)) (ha : S.ptr s = some a)
    (hc : c ≠ S.top) (hn : S.removable c) (hr : r.root = S.ptr (S.plug c s)) (hcur : pos.st.cur = some a) :
    ∃ h', eraseSubtree K h r pos = Res.ok (h', replacedRec S r s 0, .ret ()) ∧
      Own Z S h' (upd ts x (some (S.plug c S.nil))) S.nil := by
  obtain ⟨h', e, O'⟩ := replaceNode_inner L (rs := 0) (ra := 0) O hx ha hc (Or.inr hn) hr
  obtain ⟨e2, O2⟩ := O'.release L
  refine ⟨_, ?_, O2⟩
  have hne : S.ptr (S.plug c s) ≠ some a := fun hp => hc ((L.root_iff (O.rep x _ hx) ha).mp hp)
  obtain ⟨b, hb⟩ := L.ptr_plug_mem c hc
  have hb' : S.ptr (S.plug c s) = some b := by rw [L.ptr_plug c s S.nil hc, hb]
  have hne2 : ¬ (some a == r.root) = true := by rw [hr]; simp; exact fun e => hne e.symm
  rw [L.ptr_nil] at e
  simp only [eraseSubtree, hcur]
  have hs : r.root.isSome = true := by rw [hr, hb']; rfl
  rw [hs, Res.assert_true, Res.ok_bind]
  rw [ha] at e2
  have hu : Policy.postOrder.update (K.nav h pos.root) pos.st a none = Res.ok ⟨none, pos.st.aux⟩ := by
    simp [Policy.postOrder, Policy.stateless, hcur]
  rw [hu, Res.ok_bind, if_neg hne2, e]
  simp only [Res.ok_bind, e2, Res.pure_eq]

theorem eraseSubtree_root (O : Own Z S h ts S.nil) (hx : ts x = some t) (ha : S.ptr t = some a)
    (hr : r.root = S.ptr t) (hcur : pos.st.cur = some a) :
    ∃ h', eraseSubtree K h r pos = Res.ok (h', TreeRec.empty, .ret ()) ∧
      Own Z S h' (upd ts x (some S.nil)) S.nil := by
  obtain ⟨e, O'⟩ := assign_spec L (rs := 0) (ra := 0) O hx hr
  refine ⟨_, ?_, O'⟩
  simp only [eraseSubtree, hcur]
  have hs : r.root.isSome = true := by rw [hr, ha]; rfl
  have he : (some a == r.root) = true := by rw [hr, ha]; simp
  have hu : Policy.postOrder.update (K.nav h pos.root) pos.st a none = Res.ok ⟨none, pos.st.aux⟩ := by
    simp [Policy.postOrder, Policy.stateless, hcur]
  rw [L.ptr_nil] at e
  rw [hs, Res.assert_true, Res.ok_bind, hu, Res.ok_bind, if_pos he, clear, e]
  simp [TreeRec.empty]

theorem erase_inner (O : Own Z S h ts S.nil) (hx : ts x = some (S.plug c s)) (ha : S.ptr s = some a)
    (hc : c ≠ S.top) (hn : S.removable c) (hr : r.root = S.ptr (S.plug c s)) (hcur : pos.st.cur = some a)
    (hroot : pos.root = S.ptr (S.plug c s)) {l1 l2 : List Addr} (hp : S.post (S.plug c s) = l1 ++ S.post s ++ l2) :
    ∃ h', erase K h r pos = Res.ok (h', replacedRec S r s 0, .ret ⟨⟨l2.head?, []⟩, pos.root⟩) ∧
      Own Z S h' (upd ts x (some (S.plug c S.nil))) S.nil := by
  obtain ⟨h', e, O'⟩ := eraseSubtree_inner L O hx ha hc hn hr hcur
  refine ⟨h', ?_, O'⟩
  obtain ⟨l, hl⟩ := L.post_last ha
  rw [hl] at hp
  have hi := L.postInc O.wf (O.rep x _ hx) (l1 := l1 ++ l) (l2 := l2) (by simpa using hp) hcur hroot
  obtain ⟨b, hb⟩ := L.ptr_plug_mem c hc
  have hb' : S.ptr (S.plug c s) = some b := by rw [L.ptr_plug c s S.nil hc, hb]
  have hrr : (replacedRec S r s 0).root = some b := by simp [replacedRec, hr, hb']
  simp only [erase, hi, Res.ok_bind, e, hrr, Res.pure_eq]

theorem erase_root (O : Own Z S h ts S.nil) (hx : ts x = some t) (ha : S.ptr t = some a)
    (hr : r.root = S.ptr t) (hcur : pos.st.cur = some a) (hroot : pos.root = S.ptr t) :
    ∃ h', erase K h r pos = Res.ok (h', TreeRec.empty, .ret ⟨⟨none, []⟩, none⟩) ∧
      Own Z S h' (upd ts x (some S.nil)) S.nil := by
  obtain ⟨h', e, O'⟩ := eraseSubtree_root L O hx ha hr hcur
  refine ⟨h', ?_, O'⟩
  obtain ⟨l, hl⟩ := L.post_last ha
  have hi := L.postInc O.wf (O.rep x _ hx) (l1 := l) (l2 := []) (by simpa using hl) hcur hroot
  simp only [erase, hi, Res.ok_bind, e, TreeRec.empty, Res.pure_eq]

theorem erase_end (O : Own Z S h ts S.nil) (hx : ts x = some t) (hr : r.root = S.ptr t) (hcur : pos.st.cur = none)
    (hroot : pos.root = S.ptr t) :
    erase K h r pos = Res.ok (h, r, if (S.ptr t).isNone then .ret ⟨⟨none, []⟩, none⟩ else .threw) := by
  obtain ⟨st, hi⟩ := L.postIncEnd O.wf (O.rep x _ hx) hcur hroot
  cases hp : S.ptr t with
  | none =>
    rw [hp] at hr
    simp [erase, hi, eraseSubtree, hcur, hr]
  | some b =>
    rw [hp] at hr
    simp [erase, hi, eraseSubtree, hcur, hr]

end TreeOps
end
