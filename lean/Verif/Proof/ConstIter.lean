import Verif.Spec.ConstIter
import Verif.Proof.PrePost
import Verif.Proof.InOrder
import Verif.Proof.Bfs
import Verif.Proof.Leaves
import Verif.Proof.Frame
/-! Converting iterators. -/
open Policy Iter

variable {nav : Nav} {fuel : Nat} {P : Policy} {L : List Addr} {Q : Nat → ItState → Prop}

/-- If making a policy object at the position of a good state gives that state. -/
theorem CursorInv.made (H : CursorInv P nav fuel L Q) (hm : ∀ i s, i ≤ L.length → Q i s → P.make nav fuel s.cur = Res.ok s) :
    Converts P nav fuel L ∧ OtherNodeIs P nav fuel L := by
  have key : ∀ ms i, Cursor.walk L.length ms L.length = some i →
      ∃ e s, Iter.end_ P nav fuel = Res.ok e ∧ Iter.moves P nav fuel ms e = Res.ok s ∧ s.cur = L[i]? ∧ P.make nav fuel s.cur = Res.ok s := by
    intro ms i hw
    obtain ⟨e, he, hQe⟩ := H.endQ
    obtain ⟨s, h1, h2, h3⟩ := H.moves_spec ms (Nat.le_refl _) hQe hw
    exact ⟨e, s, he, h1, H.cur h3 h2, hm i s h3 h2⟩
  refine ⟨key, fun ms i hw => ?_⟩
  obtain ⟨e, s, h1, h2, h3, h4⟩ := key ms i hw
  exact ⟨e, s, h1, h2, fun _ => by rw [← h3]; exact h4⟩

/-- The states of a policy without a container. -/
theorem stateless_made {inc dec : Nav → Nat → Addr → Res Ptr} {goFirst goLast : Nav → Nat → Res Ptr}
    (H : CursorInv (stateless inc dec goFirst goLast) nav fuel L Q) :
    Converts (stateless inc dec goFirst goLast) nav fuel L ∧ OtherNodeIs (stateless inc dec goFirst goLast) nav fuel L := by
  refine CursorInv.made (Q := fun i s => Q i s ∧ s.aux = []) ?_ ?_
  · refine ⟨H.root, fun hi h => H.cur hi h.1, ?_, ?_, ?_, ?_, ?_⟩
    · obtain ⟨s, h1, h2⟩ := H.endQ
      refine ⟨s, h1, h2, ?_⟩
      cases h1; rfl
    · intro i s a ha hs
      obtain ⟨s', h1, h2⟩ := H.inc ha hs.1
      refine ⟨s', h1, h2, ?_⟩
      simp only [stateless] at h1
      cases h3 : inc nav fuel a <;> simp [h3] at h1
      rw [← h1]
    · intro i s a h0 ha hs
      obtain ⟨s', h1, h2⟩ := H.dec h0 ha hs.1
      refine ⟨s', h1, h2, ?_⟩
      simp only [stateless] at h1
      cases h3 : dec nav fuel a <;> simp [h3] at h1
      rw [← h1]
    · intro s hs
      obtain ⟨s', h1, h2⟩ := H.goFirst hs.1
      refine ⟨s', h1, h2, ?_⟩
      simp only [stateless] at h1
      cases h3 : goFirst nav fuel <;> simp [h3] at h1
      rw [← h1]
    · intro s hs
      obtain ⟨s', h1, h2⟩ := H.goLast hs.1
      refine ⟨s', h1, h2, ?_⟩
      simp only [stateless] at h1
      cases h3 : goLast nav fuel <;> simp [h3] at h1
      rw [← h1]
  · rintro i ⟨c, aux⟩ _ ⟨_, rfl⟩
    rfl

theorem bfs_made {t : Tree Addr} (H : NavSpec nav t) (hf : t.size ≤ fuel) :
    Converts breadthFirst nav fuel t.bfs ∧ OtherNodeIs breadthFirst nav fuel t.bfs := by
  have I := bfs_inv H hf
  have hn : ∀ s s' : ItState, s = s' → s'.aux = [] → s.aux = [] := fun _ _ e h => e ▸ h
  refine CursorInv.made (Q := fun i s => BfsQ t i s ∧ (s.cur = none → s.aux = [])) ?_ ?_
  · have hlt : ∀ {i : Nat} {s : ItState}, i < t.bfs.length → BfsQ t i s → (s.cur = none → s.aux = []) := by
      intro i s hi h hc
      rw [h.1, List.getElem?_eq_getElem hi] at hc
      cases hc
    refine ⟨I.root, fun hi h => I.cur hi h.1, ?_, ?_, ?_, ?_, ?_⟩
    · obtain ⟨s, h1, h2⟩ := I.endQ
      refine ⟨s, h1, h2, fun _ => ?_⟩
      have : breadthFirst.make nav fuel none = Res.ok ⟨none, []⟩ := rfl
      rw [this] at h1
      cases h1; rfl
    · intro i s a ha hs
      obtain ⟨s', h1, h2⟩ := I.inc ha hs.1
      refine ⟨s', h1, h2, fun hc => ?_⟩
      have h3 : bfsInc nav s.aux = Res.ok s' := h1
      unfold bfsInc at h3
      split at h3
      · cases h3; rfl
      · rename_i r rest _
        exfalso
        simp only [Res.bind_eq_ok] at h3
        obtain ⟨x, _, y, _, h3⟩ := h3
        split at h3 <;> (cases h3; simp at hc)
    · intro i s a h0 ha hs
      obtain ⟨s', h1, h2⟩ := I.dec h0 ha hs.1
      have := (List.getElem?_eq_some_iff.mp ha).1
      exact ⟨s', h1, h2, hlt (by omega) h2⟩
    · intro s hs
      obtain ⟨s', h1, h2⟩ := I.goFirst hs.1
      refine ⟨s', h1, h2, hlt ?_ h2⟩
      rw [(Tree.bfs_perm t).length_eq, Tree.length_pre]; exact Tree.size_pos t
    · intro s hs
      obtain ⟨s', h1, h2⟩ := I.goLast hs.1
      refine ⟨s', h1, h2, hlt ?_ h2⟩
      have : 0 < t.bfs.length := by rw [(Tree.bfs_perm t).length_eq, Tree.length_pre]; exact Tree.size_pos t
      omega
  · rintro i ⟨c, aux⟩ _ ⟨⟨hc, hq⟩, ha⟩
    cases c with
    | none =>
      simp only [forall_const] at ha
      subst ha; rfl
    | some a =>
      obtain ⟨fs, x, h1, rfl, h3⟩ := hq a rfl
      simp only at h3
      subst h3
      exact bfsMake_spec H hf h1
