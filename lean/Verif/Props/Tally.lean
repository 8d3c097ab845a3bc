import Verif.Proof.Tally
import Verif.Model.Access
import Verif.Props.Counts
import Verif.Props.Iteration
/-!
# C87, C88: what the counts are exactly, and empty()

C20 and C21 say when `size()` and `arity()` are right, C62 that they are not always. C87 says what they are, after every
supported history: each object remembers two numbers, and `Recount` (Spec/Tally.lean) is the rule by which each call changes
them. C88 is the documentation of `empty()`: the counts may be wrong, but not so wrong that an empty tree and a tree with
nodes could be confused.
-/
open Tree World Iter

variable {α : Type}

section
variable {ν lit T V C : Type} {K : Kind ν α lit}

/-- What `empty()` says of an object that holds `t`. -/
structure SaysEmpty (S : Shape K T V C) (W : World ν) (x : Nat) (t : T) (Ps : List Policy) (b : Bool) : Prop where
  empty : W.isEmpty x = Res.ok b
  nodes : b = true ↔ t = S.nil
  size : ∃ W' n, W.size K x = Res.ok (W', n) ∧ (b = true ↔ n = 0)
  arity : b = true → ∃ W', W.arity K x = Res.ok (W', 0)
  root : ∃ it, W.rootIt x = Res.ok it ∧ it.st.cur = S.ptr t ∧ (b = true ↔ Iter.toBool it.st = false)
  loops : ∀ P ∈ Ps, ∃ i j, W.beginIt K P x = Res.ok i ∧ W.endIt K P x = Res.ok j ∧
    (b = true ↔ Iter.eq (K.nav W.heap i.root) (K.nav W.heap j.root) i.st j.st = true)
  loops' : ∀ P ∈ libraryPolicies, b = true → ∃ i, W.beginIt K P x = Res.ok i ∧ W.endIt K P x = Res.ok i
end

namespace Generic
variable {ν lit T V C : Type} {K : Kind ν α lit} {S : Shape K T V C} {ts : Nat → Option T} {W : World ν}

theorem tally (L : Lawful S) (D : Determined S) {ops : List (Op α lit)} (h : Supports S start ops) :
    ∃ W as ts k, start.run K ops = Res.ok (W, as) ∧ Owned S W ts ∧
      Tally S start (fun _ => none) (fun _ => none) (ops.zip as) W ts k ∧ as.length = ops.length ∧
      ∀ x t, ts x = some t → ∃ m, k x = some m ∧ (∃ W', W.size K x = Res.ok (W', m.saysSize S t)) ∧
        ∃ W', W.arity K x = Res.ok (W', m.saysArity S t) := by
  obtain ⟨W, as, ts, h1, h2, h3, O, _⟩ := history_tally L D ops (start_owned L) h
  refine ⟨W, as, ts, W.memory, h1, O, h3, h2, fun x t ht => ?_⟩
  obtain ⟨r, hr, _⟩ := O.get L ht
  exact ⟨r.known, memory_some hr, ⟨_, (size_spec L O ht hr).1⟩, ⟨_, (arity_spec L O ht hr).1⟩⟩

theorem begin_some {P : Policy} {nav : Nav} {fuel : Nat} {l : List Addr} (h : IsCursor P nav fuel l) (hl : l ≠ []) :
    (∃ b, begin_ P nav fuel = Res.ok b ∧ b.cur ≠ none) ∧ ∃ e, end_ P nav fuel = Res.ok e ∧ e.cur = none := by
  obtain ⟨b, s, h1, h2, h3⟩ := h.1 [] 0 (by simp [Cursor.walk])
  obtain ⟨e, s', h4, h5, h6⟩ := h.2 [] l.length (by simp [Cursor.walk])
  simp only [moves, Res.pure_eq, Res.ok.injEq] at h2 h5
  subst h2; subst h5
  refine ⟨⟨b, h1, ?_⟩, e, h4, by simpa using h6⟩
  rw [h3]
  cases l with
  | nil => exact absurd rfl hl
  | cons a l => simp

theorem empty_spec (L : Lawful S) (O : Owned S W ts) (B : Blank S ts W.memory) {x : Nat} {t : T} (hx : ts x = some t) (Ps : List Policy)
    (hP : ∀ P ∈ Ps, ∀ R, S.rose t = [R] → (∃ b, begin_ P (K.nav W.heap (S.ptr t)) W.heap.fuel = Res.ok b ∧ b.cur ≠ none) ∧
      ∃ e, end_ P (K.nav W.heap (S.ptr t)) W.heap.fuel = Res.ok e ∧ e.cur = none)
    (hPs : ∀ P ∈ Ps, P ∈ libraryPolicies) :
    ∃ b, SaysEmpty S W x t Ps b := by
  obtain ⟨r, hr, hg, h1, h2⟩ := O.get L hx
  have hsz := (size_spec L O hx hr).1
  have har := (arity_spec L O hx hr).1
  rcases L.rose_cases t with rfl | ⟨R, hR⟩
  · have hk : r.known = Known.nothing := B x _ hx (memory_some hr)
    have hk1 : r.size = 0 := congrArg Known.size hk
    have hk2 : r.arity = 0 := congrArg Known.arity hk
    have hn := L.ptr_nil
    rw [hn] at h1 h2
    have hl : ∀ P ∈ libraryPolicies, ∃ i, W.beginIt K P x = Res.ok i ∧ W.endIt K P x = Res.ok i := by
      intro P hm
      obtain ⟨e, h3, h4, _⟩ := C09_empty (K.nav W.heap none) (L.nav_root _ _) W.heap.fuel P hm
      exact ⟨⟨e, none⟩, by simp [beginIt, hg, h2, h4], by simp [endIt, hg, h2, h3]⟩
    refine ⟨true, by simp [isEmpty, hg, h1], by simp, ?_, fun _ => ?_, ?_, ?_, fun P hm _ => hl P hm⟩
    · exact ⟨_, _, hsz, by simp [sizeAns_nil L, hk1]⟩
    · exact ⟨_, by rw [har, arityAns_nil L, hk2]⟩
    · exact ⟨_, by simp [rootIt, hg, h1, h2]; rfl, by simp [hn], by simp [Iter.toBool]⟩
    · intro P hm
      obtain ⟨i, h3, h4⟩ := hl P (hPs P hm)
      exact ⟨i, i, h3, h4, by simp [Iter.eq]⟩
  · have hne : t ≠ S.nil := by rintro rfl; rw [L.rose_nil] at hR; cases hR
    have hp : S.ptr t = some R.label := by
      have := (L.nav W.heap t R (O.rep x t hx) hR).root
      rwa [L.nav_root] at this
    rw [hp] at h1 h2
    refine ⟨false, by simp [isEmpty, hg, h1], by simp [hne], ?_, by simp, ?_, ?_, by simp⟩
    · refine ⟨_, _, hsz, ?_⟩
      have : S.size t ≠ 0 := by simp [Shape.size, hR, sizeL]; cases R; simp [Tree.size]
      simp only [sizeAns]
      split <;> simp [*]
    · exact ⟨_, by simp [rootIt, hg, h1, h2]; rfl, by simp [hp], by simp [Iter.toBool]⟩
    · intro P hm
      obtain ⟨⟨b, h3, h4⟩, e, h5, h6⟩ := hP P hm R hR
      rw [hp] at h3 h5
      refine ⟨⟨b, _⟩, ⟨e, _⟩, by simp [beginIt, hg, h2, h3]; rfl, by simp [endIt, hg, h2, h5]; rfl, ?_⟩
      simp [Iter.eq, h6, h4]

theorem loops (L : Lawful S) (O : Owned S W ts) {x : Nat} {t : T} (hx : ts x = some t) {R : Tree Addr} (hR : S.rose t = [R]) :
    ∀ P ∈ [Policy.preOrder, Policy.postOrder, Policy.breadthFirst, Policy.leaves],
      (∃ b, begin_ P (K.nav W.heap (S.ptr t)) W.heap.fuel = Res.ok b ∧ b.cur ≠ none) ∧
      ∃ e, end_ P (K.nav W.heap (S.ptr t)) W.heap.fuel = Res.ok e ∧ e.cur = none := by
  have N := L.nav W.heap t R (O.rep x t hx) hR
  have hf := L.fuel_ok O.wf (O.rep x t hx) hR
  intro P hP
  simp only [List.mem_cons, List.not_mem_nil, or_false] at hP
  rcases hP with rfl | rfl | rfl | rfl
  · exact begin_some (preOrder_cursor N hf) (by cases R; simp [Tree.pre])
  · exact begin_some (postOrder_cursor N hf) (by cases R; simp [Tree.post])
  · refine begin_some (bfs_cursor N hf) fun e => ?_
    have := (bfs_perm R).length_eq
    rw [e] at this
    cases R; simp [Tree.pre] at this
  · obtain ⟨b, s, h1, h2, h3⟩ := leaves_inc_dec N hf 0 0 (Nat.zero_le _) (Nat.le_refl _)
    simp only [List.replicate_zero, List.append_nil, moves, Res.pure_eq, Res.ok.injEq] at h2
    subst h2
    refine ⟨⟨b, h1, ?_⟩, _, rfl, rfl⟩
    rw [h3]
    have : R.leaves ≠ [] := leaves_ne_nil R
    simpa using this

theorem empty (L : Lawful S) (D : Determined S) {ops : List (Op α lit)} (h : Supports S start ops) :
    ∃ W as ts, start.run K ops = Res.ok (W, as) ∧ Owned S W ts ∧ Blank S ts W.memory := by
  obtain ⟨W, as, ts, h1, _, _, O, B⟩ := history_tally L D ops (start_owned L) h
  exact ⟨W, as, ts, h1, O, B fun _ _ h => by cases h⟩
end Generic

/-! ## C87 -/

/-- After every supported history of calls, `size()` and `arity()` answer what the rule `Recount` says, right or wrong. -/
theorem C87_exact_nary {ops : List (Op α (Tree α))} (h : Supports (Nary.shape α) start ops) :
    ∃ W as ts k, start.run (Nary.kind α) ops = Res.ok (W, as) ∧ Owned (Nary.shape α) W ts ∧
      Tally (Nary.shape α) start (fun _ => none) (fun _ => none) (ops.zip as) W ts k ∧ as.length = ops.length ∧
      ∀ x t, ts x = some t → ∃ m, k x = some m ∧ (∃ W', W.size (Nary.kind α) x = Res.ok (W', m.saysSize (Nary.shape α) t)) ∧
        ∃ W', W.arity (Nary.kind α) x = Res.ok (W', m.saysArity (Nary.shape α) t) :=
  Generic.tally (Nary.lawful α) (Nary.determined α) h

theorem C87_exact_binary {ops : List (Op α (Lit α))} (h : Supports (Binary.shape α) start ops) :
    ∃ W as ts k, start.run (Binary.kind α) ops = Res.ok (W, as) ∧ Owned (Binary.shape α) W ts ∧
      Tally (Binary.shape α) start (fun _ => none) (fun _ => none) (ops.zip as) W ts k ∧ as.length = ops.length ∧
      ∀ x t, ts x = some t → ∃ m, k x = some m ∧ (∃ W', W.size (Binary.kind α) x = Res.ok (W', m.saysSize (Binary.shape α) t)) ∧
        ∃ W', W.arity (Binary.kind α) x = Res.ok (W', m.saysArity (Binary.shape α) t) :=
  Generic.tally (Binary.lawful α) (Binary.determined α) h

example := C87_exact_nary Samples.nhist_supported
example := C87_exact_nary Samples.ncare_supported
example := C87_exact_binary Samples.bhist_supported
example := C87_exact_binary Samples.bcare_supported

/-! ## C88 -/

/-- After every supported history: `empty()` is true of exactly the objects without nodes, of exactly those with `size() == 0`
(even where the counts are wrong, C62), of exactly those whose `root()` converts to false, and of exactly those with
`begin(p) == end(p)`, `p` one of pre_order, post_order, breadth_first and leaves. If it is true, `arity()` is 0 and
`begin(p) == end(p)` for the other policies too (with `siblings` and `fixed` also trees with nodes have it). -/
theorem C88_empty_nary {ops : List (Op α (Tree α))} (h : Supports (Nary.shape α) start ops) :
    ∃ W as ts, start.run (Nary.kind α) ops = Res.ok (W, as) ∧ Owned (Nary.shape α) W ts ∧ ∀ x t, ts x = some t →
      ∃ b, SaysEmpty (Nary.shape α) W x t [Policy.preOrder, Policy.postOrder, Policy.breadthFirst, Policy.leaves] b := by
  obtain ⟨W, as, ts, h1, O, B⟩ := Generic.empty (Nary.lawful α) (Nary.determined α) h
  refine ⟨W, as, ts, h1, O, fun x t hx => ?_⟩
  exact Generic.empty_spec (Nary.lawful α) O B hx _ (fun P hP R hR => Generic.loops (Nary.lawful α) O hx hR P hP)
    (by simp [libraryPolicies])

theorem C88_empty_binary {ops : List (Op α (Lit α))} (h : Supports (Binary.shape α) start ops) :
    ∃ W as ts, start.run (Binary.kind α) ops = Res.ok (W, as) ∧ Owned (Binary.shape α) W ts ∧ ∀ x t, ts x = some t →
      ∃ b, SaysEmpty (Binary.shape α) W x t
        [Policy.preOrder, Policy.postOrder, Policy.breadthFirst, Policy.leaves, Policy.inOrder] b := by
  obtain ⟨W, as, ts, h1, O, B⟩ := Generic.empty (Binary.lawful α) (Binary.determined α) h
  refine ⟨W, as, ts, h1, O, fun x t hx => ?_⟩
  refine Generic.empty_spec (Binary.lawful α) O B hx _ (fun P hP R hR => ?_) (by simp [libraryPolicies])
  by_cases hi : P = Policy.inOrder
  · subst hi
    obtain ⟨a, ha⟩ : ∃ a, t.addr? = some a := by
      cases t with
      | nil => cases hR
      | node p l r => exact ⟨p.1, rfl⟩
    have hs : t.size ≤ W.heap.fuel := by
      have := (Binary.lawful α).size_le O.wf (O.rep x t hx)
      rw [Binary.shape_size] at this
      simp only [Heap.fuel]; omega
    rw [Binary.shape_ptr, ha]
    refine Generic.begin_some (C03_in_order (O.rep x t hx) ha hs) ?_
    cases t with
    | nil => cases hR
    | node p l r => simp [BTree.addrTree, BTree.map, BTree.inorder]
  · exact Generic.loops (Binary.lawful α) O hx hR P (by simp_all)

example := C88_empty_nary Samples.nops_supported
example := C88_empty_nary Samples.ncare_supported
example := C88_empty_binary Samples.bops_supported
example := C88_empty_binary Samples.bcare_supported
