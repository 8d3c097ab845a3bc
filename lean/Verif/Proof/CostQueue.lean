import Verif.Proof.Cost
import Verif.Proof.Leaves
/-! The rounds of the loops inside of `++` of breadth_first and leaves. -/
open Tree Policy Iter

variable {nav : Nav} {t : Tree Addr}

/-! ### breadth_first: no loop -/

theorem breadthFirst_forward (H : NavSpec nav t) : ForwardTakes breadthFirst nav t.size 0 0 := by
  have I := bfs_inv H (Nat.le_refl _)
  have key : ∀ (v i : Nat) (s : ItState), i + v = t.bfs.length → BfsQ t i s → Loop (Iter.inc breadthFirst nav) none 0 s 0 v := by
    intro v
    induction v with
    | zero =>
      intro i s hi hQ
      refine .done ?_
      rw [I.cur (by omega) hQ, List.getElem?_eq_none (by omega)]
    | succ v ih =>
      intro i s hi hQ
      have hlt : i < t.bfs.length := by omega
      have hc := I.cur (by omega) hQ
      rw [List.getElem?_eq_getElem hlt] at hc
      obtain ⟨s', h1, h2⟩ := I.inc (List.getElem?_eq_getElem hlt) hQ
      refine Loop.step (k := 0) (s' := s') (by simp [hc]) ?_ (Nat.le_refl _) (ih (i + 1) s' (by omega) h2)
      refine (Takes.const s').congr fun n => ?_
      simp only [Iter.inc, hc]
      exact h1
  have hlen : t.bfs.length = t.size := by rw [(bfs_perm t).length_eq, length_pre]
  obtain ⟨e, he, hQ⟩ := I.endQ
  obtain ⟨s, hs, hQ0⟩ := I.goFirst hQ
  have he : e = ⟨none, []⟩ := by
    have : breadthFirst.make nav t.size none = Res.ok ⟨none, []⟩ := rfl
    rw [this] at he
    simpa using he.symm
  subst he
  refine ⟨s, 0, 0, (Takes.const s).congr fun n => ?_, Nat.le_refl _, key t.size 0 s (by omega) hQ0, rfl⟩
  have h1 : Iter.begin_ breadthFirst nav n = Iter.inc breadthFirst nav n ⟨none, []⟩ := rfl
  rw [h1]
  simp only [Iter.inc, H.root]
  exact hs

/-! ### leaves -/

/-- The number of nodes behind a hole that are not above it. -/
def restSize : List (Frame Addr) → Nat
  | [] => 0
  | f :: fs => sizeL f.rights + restSize fs

theorem descend_takes (H : NavSpec nav t) : ∀ (s : Tree Addr) (fs : List (Frame Addr)), plug fs s = t →
    ∃ gs a k, plug gs (node a []) = t ∧ Takes (fun n => leavesDescend nav n s.label (stkTail fs)) k ⟨some a, stk a gs⟩ ∧
      s.leaves ++ leavesAfter fs = a :: leavesAfter gs ∧ k + restSize gs = s.size + restSize fs ∧ k + fs.length = gs.length + 1 := by
  intro s
  induction s using Tree.ind with
  | h p cs ih =>
    intro fs h
    have hst : (if (fs.head?.bind (fun f => f.rights.head?.map label) : Option Addr).isSome = true then p :: stkTail fs else stkTail fs)
        = stk p fs := by
      cases fs with
      | nil => rfl
      | cons f fs => cases hr : f.rights <;> simp [stk, stkTail, hr]
    have hn : nav.next p = _ := H.next _ _ h
    have hf : nav.first p = Res.ok (cs.head?.map label) := H.first _ _ h
    have e : ∀ n, leavesDescend nav (n + 1) p (stkTail fs) = match cs.head?.map label with
        | some c => leavesDescend nav n c (stk p fs)
        | none => Res.ok ⟨some p, stk p fs⟩ := by
      intro n
      simp only [leavesDescend, hn, hf, Res.ok_bind, hst]
      rfl
    cases cs with
    | nil =>
      refine ⟨fs, p, 1, h, ⟨fun n hn => ?_, fun n hn => ?_⟩, by simp, by simp, by omega⟩
      · obtain rfl : n = 0 := by omega
        rfl
      · obtain ⟨m, rfl⟩ : ∃ m, n = m + 1 := ⟨n - 1, by omega⟩
        exact e m
    | cons c cs =>
      have hp : plug (⟨p, [], cs⟩ :: fs) c = t := by simpa using h
      obtain ⟨gs, b, k, h1, h2, h3, h4, h5⟩ := ih c (by simp) _ hp
      have h2 : Takes (fun n => leavesDescend nav n c.label (stk p fs)) k _ := h2
      simp only [List.head?_cons, Option.map_some] at e
      refine ⟨gs, b, k + 1, h1, ⟨fun n hn => ?_, fun n hn => ?_⟩, by simpa [leavesAfter] using h3, ?_, ?_⟩
      · cases n with
        | zero => rfl
        | succ m => exact (e m).trans (h2.1 m (by omega))
      · obtain ⟨m, rfl⟩ : ∃ m, n = m + 1 := ⟨n - 1, by omega⟩
        exact (e m).trans (h2.2 m (by omega))
      · simp [restSize] at h4 ⊢; omega
      · simp at h5 ⊢; omega

theorem stk_rest : ∀ (gs : List (Frame Addr)) (s : Tree Addr),
    (stk s.label gs = [] ∧ leavesAfter gs = [] ∧ restSize gs = 0) ∨
    (∃ f fs c r rs, plug (f :: fs) c = plug gs s ∧ f.rights = r :: rs ∧
      stk s.label gs = c.label :: stk f.label fs ∧ leavesAfter gs = leavesAfter (f :: fs) ∧ restSize gs = restSize (f :: fs)) := by
  intro gs
  induction gs with
  | nil => intro s; left; simp [stk, leavesAfter, restSize]
  | cons g gs ih =>
    intro s
    cases hr : g.rights with
    | nil =>
      rcases ih (node g.label (g.lefts ++ s :: g.rights)) with ⟨h1, h2, h2'⟩ | ⟨f, fs, c, r, rs, h1, h2, h3, h4, h5⟩
      · left; simp at h1; simp [stk, leavesAfter, hr, h1, h2, h2', restSize]
      · right
        refine ⟨f, fs, c, r, rs, by simpa using h1, h2, ?_, ?_, ?_⟩
        · simp at h3; simp [stk, hr, h3]
        · simp [leavesAfter, hr] at h4 ⊢; exact h4
        · simp [restSize, hr] at h5 ⊢; exact h5
    | cons r rs =>
      right
      exact ⟨g, gs, s, r, rs, rfl, hr, by simp [stk, hr], rfl, rfl⟩

theorem leaf_depth {gs : List (Frame Addr)} {a : Addr} (h : plug gs (node a []) = t) : gs.length + 1 ≤ t.height := by
  have := height_plug gs (node a [])
  rw [h] at this
  simpa using this

theorem leaves_loop (H : NavSpec nav t) : ∀ (v : Nat) (gs : List (Frame Addr)) (a : Addr), plug gs (node a []) = t →
    (leavesAfter gs).length = v → Loop (Iter.inc leaves nav) none t.height ⟨some a, stk a gs⟩ (restSize gs) (v + 1) := by
  intro v
  induction v with
  | zero =>
    intro gs a h hv
    rcases stk_rest gs (node a []) with ⟨h1, h2, h3⟩ | ⟨f, fs, c, r, rs, h1, h2, h3, h4, h5⟩
    · rw [h3]
      refine Loop.step (k := 0) (s' := ⟨none, []⟩) (by simp) ?_ (Nat.zero_le _) (.done rfl)
      refine (Takes.const _).congr fun n => ?_
      simp only [label_node] at h1
      simp [Iter.inc, Policy.leaves, leavesInc, h1]
    · exfalso
      have hn := leaves_ne_nil r
      rw [h4] at hv
      simp [leavesAfter, h2] at hv
      exact hn hv.1
  | succ v ih =>
    intro gs a h hv
    rcases stk_rest gs (node a []) with ⟨h1, h2, h3⟩ | ⟨f, fs, c, r, rs, h1, h2, h3, h4, h5⟩
    · rw [h2] at hv; simp at hv
    · rw [h] at h1
      have hp : plug (⟨f.label, f.lefts ++ [c], rs⟩ :: fs) r = t := by rw [← h1]; simp [h2]
      obtain ⟨ks, b, k, k1, k2, k3, k4, k5⟩ := descend_takes H r _ hp
      have e1 : restSize gs = k + restSize ks := by rw [h5, k4]; simp [restSize, h2]; omega
      have e2 : leavesAfter gs = b :: leavesAfter ks := by rw [h4, ← k3]; simp [leavesAfter, h2]
      rw [e1]
      refine Loop.step (k := k) (s' := ⟨some b, stk b ks⟩) (by simp) ?_ ?_ (ih ks b k1 (by rw [e2] at hv; simpa using hv))
      · refine k2.congr fun n => ?_
        simp only [label_node] at h3
        simp only [Iter.inc, Policy.leaves, h3, leavesInc, H.next _ c h1, List.head?_cons, Option.bind_some, h2, Option.map_some, Res.ok_bind,
          deref_some]
        rfl
      · have := leaf_depth k1
        simp at k5; omega

theorem leaves_forwardTakes (H : NavSpec nav t) : ForwardTakes leaves nav t.leaves.length t.size t.height := by
  obtain ⟨gs, a, k, h1, h2, h3, h4, h5⟩ := descend_takes H t [] rfl
  have h3' : t.leaves = a :: leavesAfter gs := by simpa [leavesAfter] using h3
  refine ⟨⟨some a, stk a gs⟩, k, restSize gs, h2.congr fun n => ?_, ?_, ?_, by simpa [restSize] using h4⟩
  · simp [Iter.begin_, Iter.end_, Policy.leaves, Iter.inc, H.root, stkTail]
  · have := leaf_depth (t := t) h1
    simp at h5; omega
  · rw [h3']
    exact leaves_loop H _ gs a h1 rfl
