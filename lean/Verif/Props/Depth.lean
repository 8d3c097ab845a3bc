import Verif.Proof.Depth
import Verif.Proof.Same
import Verif.Props.SampleWorlds
/-!
# C96, C97: how deep the recursions go

The number given to `copy`, `dealloc`, `eq`, `Binary.calcSize`, and the last number given to `sizeCalls` and `arityCalls`, is the number of calls that may be
active at the same time, the room on the stack; `diverge` is the outcome if more would be needed. `Tree.height`, `BTree.height` and
`Tree.ladder` are in Spec/Tree.lean and Spec/Depth.lean.
-/
open Tree World

variable {α : Type}

/-- C96, binary trees: copying, comparing with an equal tree and `size()` need room for as many calls as the tree is high, destroying for one more
(the calls for null pointers). -/
theorem C96_binary {W : World (BNode α)} {ts : Nat → Option (BTree (Addr × α))} (O : Owned (Binary.shape α) W ts) {x : Nat}
    {t : BTree (Addr × α)} (hx : ts x = some t) {a : Addr} (ha : t.addr? = some a) (n : Nat) :
    (if t.height ≤ n then ∃ r, Binary.copy n W.heap a = Res.ok r else Binary.copy n W.heap a = Res.diverge) ∧
    (if t.height < n then ∃ r, Binary.dealloc n W.heap (some a) = Res.ok r else Binary.dealloc n W.heap (some a) = Res.diverge) ∧
    Binary.calcSize n W.heap a = (if t.height ≤ n then Res.ok t.size else Res.diverge) := by
  have H : Binary.Rep W.heap t := O.rep x t hx
  refine ⟨?_, ?_, ?_⟩
  · split
    next h => obtain ⟨h', a', _, e, _⟩ := Binary.copy_deep t n h O.wf H.1 ha; exact ⟨_, e⟩
    next h => exact Binary.copy_shallow t n (by omega) O.wf H.1 ha
  · rw [← ha]
    split
    next h => exact ⟨_, Binary.dealloc_deep t n h H.1 H.2⟩
    next h => exact Binary.dealloc_shallow t n (by omega) H.1 H.2
  · split
    next h => exact Binary.calcSize_deep t n h H.1 ha
    next h => exact Binary.calcSize_shallow t n (by omega) H.1 ha

/-- C96, `==` of binary trees: room for as many calls as the left tree is high suffices; if the trees are equal less does not. -/
theorem C96_eq_binary {W : World (BNode α)} {ts : Nat → Option (BTree (Addr × α))} (O : Owned (Binary.shape α) W ts) {x y : Nat}
    {t u : BTree (Addr × α)} (hx : ts x = some t) (hy : ts y = some u) {a b : Addr} (ha : t.addr? = some a) (hb : u.addr? = some b)
    (eqv : α → α → Bool) (n : Nat) :
    (t.height ≤ n → ∃ r, Binary.eq eqv n W.heap a W.heap b = Res.ok r) ∧
    (Binary.eq eqv t.height W.heap a W.heap b = Res.ok true → n < t.height → Binary.eq eqv n W.heap a W.heap b = Res.diverge) := by
  have H : Binary.Rep W.heap t := O.rep x t hx
  have H' : Binary.Rep W.heap u := O.rep y u hy
  refine ⟨fun h => ⟨_, Binary.eq_deep eqv W.heap t u n h H.1 H'.1 ha hb⟩, fun h hn => ?_⟩
  rw [Binary.eq_deep eqv W.heap t u _ (Nat.le_refl _) H.1 H'.1 ha hb] at h
  exact Binary.eq_shallow eqv W.heap t u n hn H.1 H'.1 ha hb (by cases h' : BTree.eqBy eqv t.vals u.vals <;> simp_all)

/-- C96, nary trees: `size()` and `arity()` need room for as many calls as the tree is high (the loops over the children run to their end). -/
theorem C96_counts_nary {W : World (NNode α)} {ts : Nat → Option (Option (Tree (Addr × α)))} (O : Owned (Nary.shape α) W ts) {x : Nat}
    {t : Tree (Addr × α)} (hx : ts x = some (some t)) {loop : Nat} (hl : t.arity < loop) (n : Nat) :
    Nary.sizeCalls loop W.heap n t.addr = (if t.height ≤ n then Res.ok t.size else Res.diverge) ∧
    Nary.arityCalls loop W.heap n t.addr = (if t.height ≤ n then Res.ok t.arity else Res.diverge) := by
  have H := (Nary.shape_rep _ _).mp (O.rep x _ hx)
  refine ⟨?_, ?_⟩
  · split
    next h => exact (Nary.sizeCalls_spec loop n t H.1 hl).1 h
    next h => exact (Nary.sizeCalls_spec loop n t H.1 hl).2 (by omega)
  · split
    next h => exact (Nary.arityCalls_spec loop n t H.1 hl).1 h
    next h => exact (Nary.arityCalls_spec loop n t H.1 hl).2 (by omega)

/-- C96, nary trees: copying needs room for as many calls as the longest way that leads from a node to its first child or to its next sibling has
nodes, destroying for one more. -/
theorem C96_nary {W : World (NNode α)} {ts : Nat → Option (Option (Tree (Addr × α)))} (O : Owned (Nary.shape α) W ts) {x : Nat}
    {t : Tree (Addr × α)} (hx : ts x = some (some t)) (n : Nat) :
    (if ladder [t] ≤ n then ∃ r, Nary.copy n W.heap t.addr none none = Res.ok r else Nary.copy n W.heap t.addr none none = Res.diverge) ∧
    (if ladder [t] < n then ∃ r, Nary.dealloc n W.heap (some t.addr) = Res.ok r else Nary.dealloc n W.heap (some t.addr) = Res.diverge) := by
  have H := (Nary.shape_rep _ _).mp (O.rep x _ hx)
  refine ⟨?_, ?_⟩
  · split
    next h =>
      obtain ⟨h', a, _, e, _⟩ := Nary.copy_deep t [] n h O.wf (par := none) (prev := none) (prev' := none) (by simpa using H.1) (par' := none) (by simp) (by simp)
      exact ⟨_, e⟩
    next h => exact Nary.copy_shallow t [] n (by omega) O.wf (par := none) (prev := none) (by simpa using H.1) (by simp) (by simp)
  · split
    next h => exact ⟨_, Nary.dealloc_deep H h⟩
    next h =>
      have := Nary.dealloc_shallow n [t] W.heap none none 0 (by simpa using H.1) (by simpa using H.2) (by omega)
      simpa using this

/-- C96, `==` of nary trees: that room suffices, and if the trees are equal less does not. -/
theorem C96_eq_nary {W : World (NNode α)} {ts : Nat → Option (Option (Tree (Addr × α)))} (O : Owned (Nary.shape α) W ts) {x y : Nat}
    {t u : Tree (Addr × α)} (hx : ts x = some (some t)) (hy : ts y = some (some u)) (eqv : α → α → Bool) (n : Nat) :
    (ladder [t] ≤ n → ∃ r, Nary.eq eqv n W.heap t.addr W.heap u.addr = Res.ok r) ∧
    (Nary.eq eqv (ladder [t]) W.heap t.addr W.heap u.addr = Res.ok true → n < ladder [t] →
      Nary.eq eqv n W.heap t.addr W.heap u.addr = Res.diverge) := by
  have H := (Nary.shape_rep _ _).mp (O.rep x _ hx)
  have H' := (Nary.shape_rep _ _).mp (O.rep y _ hy)
  have e := fun n h => Nary.eq_deep (h := W.heap) eqv W.heap n t u [] [] h rfl (par := none) (prev := none) (par' := none) (prev' := none)
    (by simpa using H.1) (by simpa using H'.1)
  refine ⟨fun h => ⟨_, e n h⟩, fun h hn => ?_⟩
  rw [e _ (Nat.le_refl _)] at h
  refine Nary.eq_shallow (h := W.heap) eqv W.heap n t u [] [] hn (par := none) (prev := none) (par' := none) (prev' := none)
    (by simpa using H.1) (by simpa using H'.1) ?_
  cases h' : eqByL eqv (Nary.valsL [t]) (Nary.valsL [u]) <;> simp_all

/-- C96: the room needed for an nary tree is at least its height, and at most the number of its nodes; it is at most one more than the arity times
the number of rows below the root. -/
theorem C96_bounds {β : Type} (t : Tree β) : t.height ≤ ladder [t] ∧ ladder [t] ≤ t.size ∧ ladder [t] ≤ 1 + (t.height - 1) * t.arity := by
  have h1 := heightL_le [t]
  have h2 := ladder_le [t]
  have h3 := ladder_bound t.arity [t] (by simp [arityL]) (by simp)
  simp [heightL, sizeL] at h1 h2 h3
  simp
  omega

/-- C97 is refuted: to copy, destroy or compare an nary tree that has a node with `k` children, room for `k` calls does not suffice, however low the
tree is. -/
theorem C97_nary_defect {W : World (NNode α)} {ts : Nat → Option (Option (Tree (Addr × α)))} (O : Owned (Nary.shape α) W ts) {x : Nat}
    {t : Tree (Addr × α)} (hx : ts x = some (some t)) {fs : List (Frame (Addr × α))} {s : Tree (Addr × α)} (hs : plug fs s = t)
    {n : Nat} (hn : n ≤ fs.length + s.children.length) {eqv : α → α → Bool} (he : ∀ v, eqv v v = true) :
    Nary.copy n W.heap t.addr none none = Res.diverge ∧ Nary.dealloc (n + 1) W.heap (some t.addr) = Res.diverge ∧
    Nary.eq eqv n W.heap t.addr W.heap t.addr = Res.diverge := by
  have h1 := ladder_plug fs s
  rw [hs] at h1
  have h2 := length_le_ladder s.children
  have h3 : ladder [s] = ladder s.children + 1 := by simp
  have hlt : n < ladder [t] := by omega
  have H := (Nary.shape_rep _ _).mp (O.rep x _ hx)
  refine ⟨?_, ?_, ?_⟩
  · have := (C96_nary O hx n).1
    rwa [if_neg (by omega)] at this
  · have := (C96_nary O hx (n + 1)).2
    rwa [if_neg (by omega)] at this
  · refine (C96_eq_nary O hx hx eqv n).2 ?_ hlt
    have e := Nary.eq_deep (h := W.heap) eqv W.heap (ladder [t]) t t [] [] (Nat.le_refl _) rfl (par := none) (prev := none) (par' := none) (prev' := none)
      (by simpa using H.1) (by simpa using H.1)
    rw [e]; simp [eqByL, eqBy_refl he]

/-- C97, what does hold: for binary trees the height suffices, for copying, comparing and counting; one more for destroying. -/
theorem C97_binary_partial {W : World (BNode α)} {ts : Nat → Option (BTree (Addr × α))} (O : Owned (Binary.shape α) W ts) {x y : Nat}
    {t u : BTree (Addr × α)} (hx : ts x = some t) (hy : ts y = some u) {a b : Addr} (ha : t.addr? = some a) (hb : u.addr? = some b)
    (eqv : α → α → Bool) :
    (∃ r, Binary.copy t.height W.heap a = Res.ok r) ∧ (∃ r, Binary.dealloc (t.height + 1) W.heap (some a) = Res.ok r) ∧
    Binary.calcSize t.height W.heap a = Res.ok t.size ∧ ∃ r, Binary.eq eqv t.height W.heap a W.heap b = Res.ok r := by
  have h := C96_binary O hx ha t.height
  have h' := C96_binary O hx ha (t.height + 1)
  simp only [Nat.le_refl, if_true] at h
  simp only [Nat.lt_succ_self, if_true] at h'
  exact ⟨h.1, h'.2.1, h.2.2, (C96_eq_binary O hx hy ha hb eqv _).1 (Nat.le_refl _)⟩

/-! ### concrete cases -/

open Samples in
/-- `Samples.deep` is 4 rows high; 5 calls are needed to copy it. -/
example : deep.height = 4 ∧ ladder [deep] = 5 ∧ Nary.copy 4 nworld.heap 0 none none = Res.diverge ∧
    (∃ r, Nary.copy 5 nworld.heap 0 none none = Res.ok r) ∧ Nary.sizeCalls 4 nworld.heap 4 0 = Res.ok 7 := by
  obtain ⟨ts, O, h0, _⟩ := nstate
  have h4 := (C96_nary O h0 4).1
  have h5 := (C96_nary O h0 5).1
  have hd : ladder [deep] = 5 := by decide
  rw [hd] at h4 h5
  exact ⟨by decide, hd, h4, h5, (C96_counts_nary O h0 (loop := 4) (by decide) 4).1⟩

open Samples in
/-- The root of `Samples.deep` has three children: 3 calls are not enough. -/
example : Nary.copy 3 nworld.heap 0 none none = Res.diverge := by
  obtain ⟨ts, O, h0, _⟩ := nstate
  exact (C97_nary_defect O h0 (fs := []) (s := deep) rfl (n := 3) (by decide) (eqv := fun a b => a == b) (by simp)).1

open Samples in
example : bin.height = 3 ∧ Binary.copy 2 bworld.heap 0 = Res.diverge ∧ ∃ r, Binary.copy 3 bworld.heap 0 = Res.ok r := by
  obtain ⟨ts, O, h0, _⟩ := bstate
  have h2 := (C96_binary O h0 (a := 0) rfl 2).1
  have h3 := (C96_binary O h0 (a := 0) rfl 3).1
  have hd : bin.height = 3 := by decide
  rw [hd] at h2 h3
  exact ⟨hd, h2, h3⟩
