import Verif.Proof.Own
import Verif.Proof.Bfs
/-! `update` of the policies, and the state of the iterator afterwards. -/
open Tree

section
variable {ν α lit T V C : Type} {K : Kind ν α lit} {S : Shape K T V C} {h h' : Heap ν} {n s t : T} {c : C} {a : Addr} {P : Policy}

theorem plain_or_bfs (hP : P ∈ libraryPolicies) :
    (∀ nav st b r, P.update nav st b r = Res.ok (if st.cur == some b then ⟨r, st.aux⟩ else st)) ∨ P = Policy.breadthFirst := by
  simp only [libraryPolicies, List.mem_cons, List.not_mem_nil, or_false] at hP
  rcases hP with rfl | rfl | rfl | rfl | rfl | rfl | rfl
  all_goals first | exact Or.inr rfl | exact Or.inl (fun _ _ _ _ => rfl)

theorem queue_split (fs : List (Frame Addr)) (x : Tree Addr) : queue fs x = queue fs (node x.label []) ++ fcs [x] := by
  cases fs <;> simp [queue, fcs_append, fcs]

theorem Lawful.size_le (L : Lawful S) (hw : h.WF) (H : S.Rep h t) : S.size t ≤ h.next := by
  rw [← L.length_addrs]
  refine list_length_le_of_lt (L.rep_nodup _ _ H) fun a ha => ?_
  refine Nat.lt_of_not_le fun hle => ?_
  have := L.rep_alive _ _ H a ha
  rw [hw a hle] at this; cases this

/-- The queue of a breadth_first iterator made at a node. -/
theorem Lawful.bfs_make (L : Lawful S) (hw : h.WF) (H : S.Rep h t) {fs : List (Frame Addr)} {u : Tree Addr}
    (hR : S.rose t = [plug fs u]) :
    Policy.breadthFirst.make (K.nav h (S.ptr t)) h.fuel (some u.label) = Res.ok ⟨some u.label, queue fs u⟩ := by
  refine bfsMake_spec (L.nav h t _ H hR) ?_ rfl
  have := L.size_le hw H
  simp [Shape.size, hR, sizeL] at this
  simp [Heap.fuel]; omega

/-- `update` succeeds and moves the iterator to the replacement. -/
theorem update_spec (L : Lawful S) (hP : P ∈ libraryPolicies) {pos : It} {g : Heap ν} (hgw : g.WF) (Hg : S.Rep g t)
    (hplace : S.plug c s = t) (ha : S.ptr s = some a) (hcur : pos.st.cur = some a) (hroot : pos.root = S.ptr t)
    (hq : P = Policy.breadthFirst → P.make (K.nav g pos.root) g.fuel pos.st.cur = Res.ok pos.st)
    (H : S.Rep h t) (N : S.Rep h n) :
    ∃ st, P.update (K.nav h pos.root) pos.st a (S.ptr n) = Res.ok st ∧ st.cur = S.ptr n ∧
      (P ≠ Policy.breadthFirst → st.aux = pos.st.aux) ∧
      (P = Policy.breadthFirst → n ≠ S.nil → ∀ (h' : Heap ν), h'.WF → S.Rep h' (S.plug c n) →
        P.make (K.nav h' (S.ptr (S.plug c n))) h'.fuel st.cur = Res.ok st) := by
  rcases plain_or_bfs hP with hp | rfl
  · by_cases hb : P = Policy.breadthFirst
    · subst hb
      -- impossible in fact, but the general argument below covers it
      exact ⟨_, hp _ _ _ _, by simp [hcur], by simp, fun _ hn => by
        exfalso
        have := hp ⟨none, fun _ => Res.ub, fun _ => Res.ub, fun _ => Res.ub, fun _ => Res.ub, fun _ => Res.ub,
          fun _ => Res.ub, fun _ => Res.ub, fun _ => Res.ub, fun _ => Res.ub, fun _ => Res.ub, fun _ => Res.ub⟩ ⟨none, []⟩ 0 none
        cases this⟩
    · exact ⟨_, hp _ _ _ _, by simp [hcur], fun _ => by simp [hcur], fun hb' => absurd hb' hb⟩
  · obtain ⟨u, hu, rfl⟩ := L.rose_of_ptr ha
    obtain ⟨fs, hfs, hrp⟩ := L.rose_plug c
    have hR : S.rose t = [plug fs u] := by rw [← hplace]; exact hrp s u hu
    have hst := L.bfs_make hgw Hg hR
    have hq' := hq rfl
    rw [hcur, hroot, hst] at hq'
    simp only [Res.ok.injEq] at hq'
    have hN := L.nav h t _ H hR
    rw [hroot, ← hq']
    have h1 : (K.nav h (S.ptr t)).first u.label = Res.ok (u.children.head?.map label) := hN.first fs u rfl
    have h2 : ∀ y cs, u.children = y :: cs → (K.nav h (S.ptr t)).parent y.label = Res.ok (some u.label) := by
      intro y cs hy
      have := hN.parent (⟨u.label, [], cs⟩ :: fs) y (by simp [plug, ← hy, node_eta])
      simpa using this
    have hopen : ∃ q, q = queue fs (node u.label []) ∧ ∀ _ : Unit,
        Policy.bfsUpdate (K.nav h (S.ptr t)) ⟨some u.label, queue fs u⟩ u.label (S.ptr n) =
        (match S.ptr n with
          | some y => (K.nav h (S.ptr t)).first y >>= fun o =>
            match o with
            | some c => Res.ok ⟨S.ptr n, q ++ [c]⟩
            | none => Res.ok ⟨S.ptr n, q⟩
          | none => Res.ok ⟨S.ptr n, q⟩) := by
      refine ⟨_, rfl, fun _ => ?_⟩
      rw [queue_split]
      cases hc : u.children with
      | nil => simp [Policy.bfsUpdate, h1, hc, fcs]; cases S.ptr n <;> rfl
      | cons y cs =>
        simp [Policy.bfsUpdate, h1, hc, fcs, h2 y cs hc]; cases S.ptr n <;> rfl
    obtain ⟨q, hq0, hopen⟩ := hopen
    have hopen := hopen ()
    rcases L.rose_cases n with rfl | ⟨v, hv⟩
    · refine ⟨⟨none, q⟩, ?_, ?_, by simp, by simp⟩
      · show Policy.bfsUpdate _ _ _ _ = _
        rw [hopen, L.ptr_nil]
      · simp [L.ptr_nil]
    · have hpn : S.ptr n = some v.label := by simp [Shape.ptr, hv]
      have h3 : (K.nav h (S.ptr t)).first v.label = Res.ok (v.children.head?.map label) := by
        rw [L.nav_first, ← L.nav_first h (S.ptr n)]
        exact (L.nav h n v N hv).first [] v rfl
      refine ⟨⟨some v.label, queue fs v⟩, ?_, by simp [hpn], by simp, ?_⟩
      · show Policy.bfsUpdate _ _ _ _ = _
        rw [hopen, hpn]
        simp only [h3, Res.ok_bind]
        rw [queue_split fs v, hq0]
        have e : queue fs (node u.label []) = queue fs (node v.label []) := by cases fs <;> simp [queue, fcs_append, fcs_cons]
        cases hc : v.children.head? <;> simp [fcs, hc, e]
      · intro _ _ h' hw' H'
        exact L.bfs_make hw' H' (hrp n v hv)

end
