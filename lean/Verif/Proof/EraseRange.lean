import Verif.Proof.Erase
import Verif.Proof.Caches
import Verif.Spec.Tally
/-! `erase(first, last)`. -/
open Tree

section
variable {ν α lit T V C : Type} {K : Kind ν α lit} {Z : Addr → Prop} {S : Shape K T V C} {h h' : Heap ν} {ts : Nat → Option T}
  {n s t t' : T} {x : Nat} {c : C} {a : Addr} {P : Policy} {r : TreeRec} {pos : It} {rs ra : Nat}

theorem Lawful.post_perm (L : Lawful S) (t : T) : (S.post t).Perm (S.addrs t) := by
  rcases L.rose_cases t with rfl | ⟨R, hR⟩
  · simp [Shape.post, Shape.addrs, L.rose_nil]
  · simpa [Shape.post, Shape.addrs, hR] using post_perm_pre R

theorem Lawful.post_nodup (L : Lawful S) (H : S.Rep h t) : (S.post t).Nodup := (L.post_perm t).nodup_iff.mpr (L.rep_nodup _ _ H)

theorem Lawful.post_length (L : Lawful S) (t : T) : (S.post t).length = S.size t := by
  rw [(L.post_perm t).length_eq, L.length_addrs]

theorem kids_zero_of_size (L : Lawful S) (h : S.size s = 1) : S.kids s = 0 := by
  rcases L.rose_cases s with rfl | ⟨R, hR⟩
  · simp [Shape.kids, L.rose_nil]
  · cases R with
    | node b cs =>
      cases cs with
      | nil => simp [Shape.kids, hR, children]
      | cons d cs =>
        have := Tree.size_pos d
        simp [Shape.size, hR] at h
        omega

theorem prune_size (L : Lawful S) {m : List Addr} (H : Prune S t m t') : S.size t' + m.length ≤ S.size t := by
  induction H with
  | done t => simp
  | step c s a l t' ha _ _ ih =>
    have h1 := size_plug L (c := c) (s := s)
    have hne : s ≠ S.nil := by rintro rfl; rw [L.ptr_nil] at ha; cases ha
    have := size_pos L hne
    simp; omega

/-- What is left of the post-order when the subtree below the first node of a range goes. -/
theorem Lawful.range_inner (L : Lawful S) (hn : (S.post (S.plug c s)).Nodup) (ha : S.ptr s = some a) {l1 l : List Addr} (hc : c ≠ S.top)
    (hp : S.post (S.plug c s) = l1 ++ a :: l) : ∃ k1, S.post (S.plug c S.nil) = k1 ++ l := by
  have hne : s ≠ S.nil := by rintro rfl; rw [L.ptr_nil] at ha; cases ha
  obtain ⟨k1, k2, h1, h2⟩ := L.post_split hc hne
  obtain ⟨q, hq⟩ := L.post_last ha
  rw [hp] at hn
  have e : l1 ++ a :: l = (k1 ++ q) ++ a :: k2 := by rw [← hp, h1, hq]; simp
  have := split_unique hn e
  exact ⟨k1, by rw [h2, this.2]⟩

theorem Lawful.range_root (L : Lawful S) (hn : (S.post s).Nodup) (ha : S.ptr s = some a) {l1 l : List Addr}
    (hp : S.post s = l1 ++ a :: l) : l = [] := by
  obtain ⟨q, hq⟩ := L.post_last ha
  rw [hp] at hn
  have e : l1 ++ a :: l = q ++ a :: [] := by rw [← hp, hq]
  exact (split_unique hn e).2

theorem PruneCount.nil {k k' : Known} (H : PruneCount S t k [] t' k') : t' = t ∧ k' = k := by
  generalize hm : ([] : List Addr) = m at H
  cases H with
  | done => exact ⟨rfl, rfl⟩
  | all => cases hm
  | step => cases hm

theorem replacedRec_known (r : TreeRec) (s : T) (rs : Nat) :
    (⟨(TreeOps.replacedRec S r s rs).size, (TreeOps.replacedRec S r s rs).arity⟩ : Known) = Known.replaced S ⟨r.size, r.arity⟩ s rs := by
  simp only [TreeOps.replacedRec, Known.replaced, wadd, wsub, sizeT, Known.mk.injEq, and_true]
  by_cases h : S.kids s = 0
  · rw [if_pos h, if_pos h]; omega
  · rw [if_neg h, if_neg h]

namespace TreeOps
variable (L : Lawful S)
include L

theorem eraseRange_spec {m : List Addr} {t t' : T} (R : Prune S t m t') : ∀ {n : Nat} {h : Heap ν} {ts : Nat → Option T} {r : TreeRec} {first last : It}
    {l1 l2 : List Addr} {p : Ptr}, m.length < n → Own Z S h ts S.nil → ts x = some t → r.root = S.ptr t → r.navRoot = S.ptr t →
    S.post t = l1 ++ m ++ l2 → first.st.cur = (m ++ l2).head? → last.st.cur = l2.head? → first.root = p → last.root = p →
    (t ≠ S.nil → p = S.ptr t) →
    ∃ h' r' it, eraseRange K n h r first last = Res.ok (h', r', .ret it) ∧ Own Z S h' (upd ts x (some t')) S.nil ∧
      r'.root = S.ptr t' ∧ r'.navRoot = S.ptr t' ∧ it.st.cur = last.st.cur ∧ it.root = S.ptr t' ∧
      (CacheOk S r t → S.size t < 2 ^ 64 → (m = [] ∨ (r.size ≠ 0 ∧ S.size t' + m.length = S.size t)) → CacheOk S r' t') ∧
      PruneCount S t ⟨r.size, r.arity⟩ m t' ⟨r'.size, r'.arity⟩ := by
  induction R with
  | done t =>
    intro n h ts r first last l1 l2 p hn O hx hr hnr hp hf hl hfr hlr hpp
    cases n with
    | zero => cases hn
    | succ n =>
      have hcond : (first.st.cur == last.st.cur && first.root == last.root) = true := by
        rw [hf, hl, hfr, hlr]; simp
      rw [eraseRange, if_pos hcond, ← hx, upd_self]
      cases hrr : r.root with
      | none =>
        have hpt : S.ptr t = none := by rw [← hr, hrr]
        have ht : t = S.nil := L.ptr_none_iff.mp hpt
        refine ⟨h, r, ⟨⟨none, []⟩, none⟩, rfl, O, hr, hnr, ?_, hpt.symm, fun hc _ _ => hc, .done _ _⟩
        subst ht
        have : l1 ++ [] ++ l2 = [] := by rw [← hp]; simp [Shape.post, L.rose_nil]
        simp at this
        rw [hl, this.2]; rfl
      | some b =>
        have hpt : S.ptr t = some b := by rw [← hr, hrr]
        refine ⟨h, r, last, rfl, O, hr, hnr, rfl, ?_, fun hc _ _ => hc, .done _ _⟩
        rw [hlr]; apply hpp; rintro rfl; rw [L.ptr_nil] at hpt; cases hpt
  | step c s a l t' ha hrem R ih =>
    intro n h ts r first last l1 l2 p hn O hx hr hnr hp hf hl hfr hlr hpp
    cases n with
    | zero => cases hn
    | succ n =>
      have H := O.rep x _ hx
      have hp' : S.post (S.plug c s) = l1 ++ a :: (l ++ l2) := by rw [hp]; simp
      have hnd := L.post_nodup H
      have hcur : first.st.cur = some a := by rw [hf]; rfl
      have hsne : s ≠ S.nil := by rintro rfl; rw [L.ptr_nil] at ha; cases ha
      have htne : S.plug c s ≠ S.nil := by
        intro e
        have h1 := size_plug L (c := c) (s := s)
        have := size_pos L hsne
        rw [e, L.size_nil] at h1; omega
      have hroot : first.root = S.ptr (S.plug c s) := by rw [hfr, hpp htne]
      have hcond : (first.st.cur == last.st.cur && first.root == last.root) = false := by
        have : first.st.cur ≠ last.st.cur := by
          rw [hcur, hl]
          intro e
          rw [hp'] at hnd
          cases l2 with
          | nil => cases e
          | cons b l2 =>
            simp only [List.head?_cons, Option.some.injEq] at e
            subst e
            have := (List.nodup_append.mp hnd).2.1
            simp at this
        simp [this]
      have hi := L.postInc O.wf H hp' hcur hroot
      rw [eraseRange, hcond, if_neg (by simp), hi, Res.ok_bind]
      by_cases hc : c = S.top
      · subst hc
        have ha' : S.ptr (S.plug S.top s) = some a := by rw [L.plug_top]; exact ha
        obtain ⟨h1, e1, O1⟩ := eraseSubtree_root L O hx ha' hr hcur
        have hll := L.range_root hnd ha' hp'
        simp only [List.append_eq_nil_iff] at hll
        obtain ⟨rfl, rfl⟩ := hll
        rw [e1, Res.ok_bind]
        rw [L.plug_top] at R ih
        have hpn : S.post S.nil = [] := by simp [Shape.post, L.rose_nil]
        obtain ⟨h2, r2, it, e2, O2, g1, g2, g3, g4, g5, g6⟩ := ih (n := n) (h := h1) (r := TreeRec.empty) (first := ⟨⟨none, []⟩, first.root⟩) (last := last)
          (l1 := []) (l2 := []) (p := p) (by simp at hn; simpa using hn) O1 (upd_same _ _ _) L.ptr_nil.symm L.ptr_nil.symm (by simpa using hpn) rfl hl
          hfr hlr (fun h => absurd rfl h)
        refine ⟨h2, r2, it, e2, ?_, g1, g2, g3, g4, fun _ _ _ => ?_, ?_⟩
        · rwa [upd_twice] at O2
        · refine g5 ⟨Or.inl rfl, Or.inl rfl⟩ (by rw [L.size_nil]; decide) (Or.inl rfl)
        · rw [L.plug_top]
          obtain ⟨rfl, hk⟩ := g6.nil
          rw [hk]
          exact .all s a _ ha
      · have hrm := hrem.resolve_left hc
        obtain ⟨h1, e1, O1⟩ := eraseSubtree_inner L O hx ha hc hrm hr hcur
        obtain ⟨k1, hk⟩ := L.range_inner hnd ha hc hp'
        have hpe : S.ptr (S.plug c S.nil) = S.ptr (S.plug c s) := L.ptr_plug c _ _ hc
        rw [e1, Res.ok_bind]
        obtain ⟨h2, r2, it, e2, O2, g1, g2, g3, g4, g5, g6⟩ := ih (n := n) (h := h1) (r := replacedRec S r s 0)
          (first := ⟨⟨(l ++ l2).head?, []⟩, first.root⟩) (last := last)
          (l1 := k1) (l2 := l2) (p := p) (by simp at hn; omega) O1 (upd_same _ _ _) (by simp [replacedRec, hr, hpe])
          (by simp [replacedRec, hnr, hpe]) (by rw [hk]; simp) rfl hl hfr hlr (fun _ => by rw [hpe]; exact hpp htne)
        refine ⟨h2, r2, it, e2, ?_, g1, g2, g3, g4, fun hC hsm hcnt => ?_, .step c s a l t' _ _ ha hc hrm (by rw [← replacedRec_known]; exact g6)⟩
        · rwa [upd_twice] at O2
        · rcases hcnt with hcnt | ⟨hz, hcnt⟩
          · cases hcnt
          · have q1 := prune_size L R
            have q2 := size_plug L (c := c) (s := s)
            have q3 := size_pos L hsne
            simp only [List.length_cons] at hcnt
            have hs1 : S.size s = 1 := by omega
            have hok := replacedRec_ok L (c := c) (n := S.nil) (rs := 0) hsne hC L.size_nil.symm (Or.inr (Or.inl hz)) (by omega) hsm
            refine g5 hok (by omega) (Or.inr ⟨?_, by omega⟩)
            obtain ⟨b, hb⟩ := L.ptr_plug_mem c hc
            have hne' : S.plug c S.nil ≠ S.nil := by intro e; rw [e, L.ptr_nil] at hb; cases hb
            have q4 := size_pos L hne'
            rcases hok.1 with hh | hh
            · have hk0 : S.kids s = 0 := kids_zero_of_size L hs1
              have hz' := hC.1.resolve_left hz
              simp only [replacedRec, hk0, if_true, wadd, wsub, sizeT] at hh ⊢
              omega
            · rw [hh]; omega
end TreeOps
end
