import Verif.Proof.FaultSteps
import Verif.Props.SampleWorlds
/-!
# C89, C90: calls that run out of memory, values whose constructor throws

`W.call M op k` (Model/Faults.lean) is the call `op` in which event number `k` throws, `k = none` if none does; the events are
the requests to the allocator and the constructions of the values, in the order in which the code comes to them. The answer
`none` means that the exception left the call. `OwnedBut G S W ts` (Spec/World.lean): the program state `W` is exactly the family of
trees `ts` and, besides, the blocks `G`, which belong to no tree.
-/
open Tree World

variable {α : Type}

namespace Generic
variable {ν lit T V C : Type} {K : Kind ν α lit} {S : Shape K T V C} {ts : Nat → Option T} {W : World ν} {G : Addr → Prop} {M : Makers K}

theorem oneFault (L : Lawful S) (F : Faithful M) (O : OwnedBut G S W ts) {op : Op α lit} (hl : Legal S W.heap ts op) :
    ∃ m, Op.Makes S ts op m ∧
      (∀ k, 2 * m ≤ k → W.call M op (some k) = W.call M op none) ∧
      ∀ k, k < 2 * m → ∃ W1, W.call M op (some k) = Res.ok (W1, none) ∧ OwnedBut (LostAlso G W.heap.next ((k + 1) / 2)) S W1 ts ∧
        (∀ a, a < W.heap.next → W1.heap.cells a = W.heap.cells a) ∧ SameCounts K W W1 := by
  obtain ⟨m, h1, h2, h3⟩ := stepF_spec L F O op hl
  refine ⟨m, h1, fun k hk => ?_, fun k hk => ?_⟩
  · obtain ⟨j, rfl⟩ := Nat.exists_eq_add_of_le hk
    exact h2 j
  · obtain ⟨W1, e, hL⟩ := h3 k hk
    exact ⟨W1, e, hL⟩

theorem faults (L : Lawful S) (D : Determined S) (F : Faithful M) {l : List (Op α lit × Option Nat)} (h : SupportsF S M start l) :
    ∃ W as G ts, start.runF M l = Res.ok (W, as) ∧ as.length = l.length ∧
      TraceF S M start (fun _ => False) (fun _ => none) (l.zip as) W G ts ∧ OwnedBut G S W ts :=
  runF_trace L F D l start _ _ (start_owned L) h

theorem lostCounted (L : Lawful S) (D : Determined S) (F : Faithful M) {l : List (Op α lit × Option Nat)} (h : SupportsF S M start l)
    {W : World ν} {as : List (Option Ans)} (hr : start.runF M l = Res.ok (W, as)) (hend : ∀ x, W.vars x = none) :
    ∃ left : List Addr, left.Nodup ∧ left.length = lostNodes (l.zip as) ∧ ∀ a, a ∈ left ↔ (W.heap.cells a).isSome := by
  obtain ⟨W', as', G, ts, h1, _, Tr, O⟩ := faults L D F h
  rw [hr] at h1; cases h1
  obtain ⟨zs, h1, h2, h3⟩ := Tr.count [] List.nodup_nil (by simp)
  refine ⟨zs, h1, by simpa using h3, fun a => ⟨fun ha => O.lost a ((h2 a).mp ha), fun ha => ?_⟩⟩
  rcases O.noLeakBut a ha with ⟨z, t, hz, _⟩ | hz
  · rw [dead O (hend z)] at hz; cases hz
  · exact (h2 a).mpr hz

theorem leaks (L : Lawful S) (D : Determined S) (F : Faithful M) (O : OwnedBut G S W ts) {op : Op α lit} (hl : Legal S W.heap ts op) {m k : Nat}
    (hm : Op.Makes S ts op m) (h1 : 1 ≤ k) (h2 : k < 2 * m) :
    ∃ W1 a, W.call M op (some k) = Res.ok (W1, none) ∧ W.heap.cells a = none ∧
      ∀ l W2 as, SupportsF S M W1 l → W1.runF M l = Res.ok (W2, as) → (W2.heap.cells a).isSome := by
  obtain ⟨m', h3, _, h4⟩ := oneFault L F O hl
  have : m' = m := by
    have src : ∀ src : Src α lit, SrcMakes S ts src m' → SrcMakes S ts src m → m' = m := by
      intro src a b
      cases src with
      | value v => exact a.trans b.symm
      | moveOf y => exact a.trans b.symm
      | lit v =>
        obtain ⟨n, e1, rfl⟩ := a
        obtain ⟨n', e2, rfl⟩ := b
        exact (L.vals_inj n n' (e1.trans e2.symm)).2.1
      | emplaceLit v =>
        obtain ⟨n, e1, rfl⟩ := a
        obtain ⟨n', e2, rfl⟩ := b
        exact (L.vals_inj n n' (e1.trans e2.symm)).2.1
      | copyOf y =>
        obtain ⟨n, e1, rfl⟩ := a
        obtain ⟨n', e2, rfl⟩ := b
        rw [e1] at e2; cases e2; rfl
    cases op with
    | newCopy x y =>
      obtain ⟨n, e1, rfl⟩ := h3
      obtain ⟨n', e2, rfl⟩ := hm
      rw [e1] at e2; cases e2; rfl
    | assignCopy x y =>
      obtain ⟨n, e1, rfl⟩ := h3
      obtain ⟨n', e2, rfl⟩ := hm
      rw [e1] at e2; cases e2; rfl
    | newLit x l =>
      obtain ⟨n, e1, rfl⟩ := h3
      obtain ⟨n', e2, rfl⟩ := hm
      exact (L.vals_inj n n' (e1.trans e2.symm)).2.1
    | assignLit x l =>
      obtain ⟨n, e1, rfl⟩ := h3
      obtain ⟨n', e2, rfl⟩ := hm
      exact (L.vals_inj n n' (e1.trans e2.symm)).2.1
    | insertOver sb ab P x pos s => exact src s h3 hm
    | insertChild f P x pos s => exact src s h3 hm
    | _ => exact h3.trans hm.symm
  subst this
  obtain ⟨W1, e, O1, _, _⟩ := h4 k h2
  refine ⟨W1, W.heap.next, e, O.wf _ (Nat.le_refl _), fun l W2 as hs hr => ?_⟩
  obtain ⟨W2', as', G', ts', h5, _, Tr, O2⟩ := runF_trace L F D l W1 _ _ O1 hs
  rw [hr] at h5; cases h5
  refine O2.lost _ (Tr.mono _ (Or.inr ⟨Nat.le_refl _, ?_⟩))
  have : 1 ≤ (k + 1) / 2 := by omega
  exact Nat.lt_add_of_pos_right this

theorem firstRequest (L : Lawful S) (F : Faithful M) (O : OwnedBut G S W ts) {op : Op α lit} (hl : Legal S W.heap ts op) {W1 : World ν}
    (h : W.call M op (some 0) = Res.ok (W1, none)) : OwnedBut G S W1 ts ∧ ∀ a, W1.heap.cells a = W.heap.cells a := by
  obtain ⟨m, _, h2, h4⟩ := oneFault L F O hl
  by_cases hm : 2 * m ≤ 0
  · rw [h2 0 hm] at h
    simp only [World.call] at h
    cases hs : W.step K op <;> rw [hs] at h <;> cases h
  · obtain ⟨W1', e, O1, hc, _⟩ := h4 0 (Nat.lt_of_not_le hm)
    rw [h] at e; cases e
    have hG : LostAlso G W.heap.next ((0 + 1) / 2) = G := by
      funext a
      apply propext
      simp only [LostAlso]
      constructor
      · rintro (h | ⟨h1, h2⟩)
        · exact h
        · exfalso
          have : (0 + 1) / 2 = 0 := rfl
          rw [this] at h2
          grind
      · exact Or.inl
    rw [hG] at O1
    refine ⟨O1, fun a => ?_⟩
    by_cases ha : a < W.heap.next
    · exact hc a ha
    · rw [O.wf a (Nat.le_of_not_lt ha)]
      cases hcell : W1.heap.cells a with
      | none => rfl
      | some v =>
        exfalso
        have hs : (W1.heap.cells a).isSome := by simp [hcell]
        have : (W.heap.cells a).isSome := by
          rcases O1.noLeakBut a hs with ⟨z, t, hz, hm⟩ | hz
          · exact L.rep_alive _ _ (O.rep z t hz) a hm
          · exact O.lost a hz
        rw [O.wf a (Nat.le_of_not_lt ha)] at this
        cases this

end Generic

/-! ## C89 a call that throws changes nothing, and the program can go on -/

/-- One call, supported in its state (which may have lost nodes before). It has to make `m` nodes. If the event that throws
comes later, or does not come, the call does what it always does. If it does come, the exception leaves the call, with the
same trees, the very same nodes with the same contents, and the same answers to `size()` and `arity()` as before. -/
theorem C89_throwing_call_changes_nothing_nary {G : Addr → Prop} {W : World (NNode α)} {ts : Nat → Option (Option (Tree (Addr × α)))}
    (O : OwnedBut G (Nary.shape α) W ts) {op : Op α (Tree α)} (hl : Legal (Nary.shape α) W.heap ts op) :
    ∃ m, op.Makes (Nary.shape α) ts m ∧
      (∀ k, 2 * m ≤ k → W.call (Nary.makers α) op (some k) = W.call (Nary.makers α) op none) ∧
      ∀ k, k < 2 * m → ∃ W1, W.call (Nary.makers α) op (some k) = Res.ok (W1, none) ∧
        OwnedBut (LostAlso G W.heap.next ((k + 1) / 2)) (Nary.shape α) W1 ts ∧
        (∀ a, a < W.heap.next → W1.heap.cells a = W.heap.cells a) ∧ SameCounts (Nary.kind α) W W1 :=
  Generic.oneFault (Nary.lawful α) (Nary.faithful α) O hl

theorem C89_throwing_call_changes_nothing_binary {G : Addr → Prop} {W : World (BNode α)} {ts : Nat → Option (BTree (Addr × α))}
    (O : OwnedBut G (Binary.shape α) W ts) {op : Op α (Lit α)} (hl : Legal (Binary.shape α) W.heap ts op) :
    ∃ m, op.Makes (Binary.shape α) ts m ∧
      (∀ k, 2 * m ≤ k → W.call (Binary.makers α) op (some k) = W.call (Binary.makers α) op none) ∧
      ∀ k, k < 2 * m → ∃ W1, W.call (Binary.makers α) op (some k) = Res.ok (W1, none) ∧
        OwnedBut (LostAlso G W.heap.next ((k + 1) / 2)) (Binary.shape α) W1 ts ∧
        (∀ a, a < W.heap.next → W1.heap.cells a = W.heap.cells a) ∧ SameCounts (Binary.kind α) W W1 :=
  Generic.oneFault (Binary.lawful α) (Binary.faithful α) O hl

/-- Programs that handle the exceptions and go on: every history of supported calls, with every choice of the events that
throw, runs to the end without undefined behaviour. `TraceF` (Spec/Faults.lean) says what each call does: its effect, or nothing
but losing the nodes it had obtained when the exception came. -/
theorem C89_programs_go_on_nary {l : List (Op α (Tree α) × Option Nat)} (h : SupportsF (Nary.shape α) (Nary.makers α) start l) :
    ∃ W as G ts, start.runF (Nary.makers α) l = Res.ok (W, as) ∧ as.length = l.length ∧
      TraceF (Nary.shape α) (Nary.makers α) start (fun _ => False) (fun _ => none) (l.zip as) W G ts ∧
      OwnedBut G (Nary.shape α) W ts :=
  Generic.faults (Nary.lawful α) (Nary.determined α) (Nary.faithful α) h

theorem C89_programs_go_on_binary {l : List (Op α (Lit α) × Option Nat)} (h : SupportsF (Binary.shape α) (Binary.makers α) start l) :
    ∃ W as G ts, start.runF (Binary.makers α) l = Res.ok (W, as) ∧ as.length = l.length ∧
      TraceF (Binary.shape α) (Binary.makers α) start (fun _ => False) (fun _ => none) (l.zip as) W G ts ∧
      OwnedBut G (Binary.shape α) W ts :=
  Generic.faults (Binary.lawful α) (Binary.determined α) (Binary.faithful α) h

/-- When all tree objects are gone, the memory that is left is what the calls that threw had obtained: `(k + 1) / 2` nodes each,
counted by `lostNodes`. Everything else was given back. -/
theorem C89_only_lost_nodes_remain_nary {l : List (Op α (Tree α) × Option Nat)} (h : SupportsF (Nary.shape α) (Nary.makers α) start l)
    {W : World (NNode α)} {as : List (Option Ans)} (hr : start.runF (Nary.makers α) l = Res.ok (W, as))
    (hend : ∀ x, W.vars x = none) :
    ∃ left : List Addr, left.Nodup ∧ left.length = lostNodes (l.zip as) ∧ ∀ a, a ∈ left ↔ (W.heap.cells a).isSome :=
  Generic.lostCounted (Nary.lawful α) (Nary.determined α) (Nary.faithful α) h hr hend

theorem C89_only_lost_nodes_remain_binary {l : List (Op α (Lit α) × Option Nat)}
    (h : SupportsF (Binary.shape α) (Binary.makers α) start l)
    {W : World (BNode α)} {as : List (Option Ans)} (hr : start.runF (Binary.makers α) l = Res.ok (W, as))
    (hend : ∀ x, W.vars x = none) :
    ∃ left : List Addr, left.Nodup ∧ left.length = lostNodes (l.zip as) ∧ ∀ a, a ∈ left ↔ (W.heap.cells a).isSome :=
  Generic.lostCounted (Binary.lawful α) (Binary.determined α) (Binary.faithful α) h hr hend

/-! ## C90 nothing leaks when a call throws -/

/-- It does: whenever a call throws at a later event than the first request to the allocator, in every state, at least one
block is obtained that no later call, however the program goes on, gives back. -/
theorem C90_throwing_call_leaks_nary_defect {G : Addr → Prop} {W : World (NNode α)} {ts : Nat → Option (Option (Tree (Addr × α)))}
    (O : OwnedBut G (Nary.shape α) W ts) {op : Op α (Tree α)} (hl : Legal (Nary.shape α) W.heap ts op) {m k : Nat}
    (hm : op.Makes (Nary.shape α) ts m) (h1 : 1 ≤ k) (h2 : k < 2 * m) :
    ∃ W1 a, W.call (Nary.makers α) op (some k) = Res.ok (W1, none) ∧ W.heap.cells a = none ∧
      ∀ l W2 as, SupportsF (Nary.shape α) (Nary.makers α) W1 l → W1.runF (Nary.makers α) l = Res.ok (W2, as) →
        (W2.heap.cells a).isSome :=
  Generic.leaks (Nary.lawful α) (Nary.determined α) (Nary.faithful α) O hl hm h1 h2

theorem C90_throwing_call_leaks_binary_defect {G : Addr → Prop} {W : World (BNode α)} {ts : Nat → Option (BTree (Addr × α))}
    (O : OwnedBut G (Binary.shape α) W ts) {op : Op α (Lit α)} (hl : Legal (Binary.shape α) W.heap ts op) {m k : Nat}
    (hm : op.Makes (Binary.shape α) ts m) (h1 : 1 ≤ k) (h2 : k < 2 * m) :
    ∃ W1 a, W.call (Binary.makers α) op (some k) = Res.ok (W1, none) ∧ W.heap.cells a = none ∧
      ∀ l W2 as, SupportsF (Binary.shape α) (Binary.makers α) W1 l → W1.runF (Binary.makers α) l = Res.ok (W2, as) →
        (W2.heap.cells a).isSome :=
  Generic.leaks (Binary.lawful α) (Binary.determined α) (Binary.faithful α) O hl hm h1 h2

/-- Missing for the full property: the later events. When it is the first request to the allocator that throws, nothing is
lost. -/
theorem C90_first_request_nary_partial {G : Addr → Prop} {W W1 : World (NNode α)} {ts : Nat → Option (Option (Tree (Addr × α)))}
    (O : OwnedBut G (Nary.shape α) W ts) {op : Op α (Tree α)} (hl : Legal (Nary.shape α) W.heap ts op)
    (h : W.call (Nary.makers α) op (some 0) = Res.ok (W1, none)) :
    OwnedBut G (Nary.shape α) W1 ts ∧ ∀ a, W1.heap.cells a = W.heap.cells a :=
  Generic.firstRequest (Nary.lawful α) (Nary.faithful α) O hl h

theorem C90_first_request_binary_partial {G : Addr → Prop} {W W1 : World (BNode α)} {ts : Nat → Option (BTree (Addr × α))}
    (O : OwnedBut G (Binary.shape α) W ts) {op : Op α (Lit α)} (hl : Legal (Binary.shape α) W.heap ts op)
    (h : W.call (Binary.makers α) op (some 0) = Res.ok (W1, none)) :
    OwnedBut G (Binary.shape α) W1 ts ∧ ∀ a, W1.heap.cells a = W.heap.cells a :=
  Generic.firstRequest (Binary.lawful α) (Binary.faithful α) O hl h

/-! ### Examples -/

namespace Samples

section
variable {ν lit T V C : Type} {K : Kind ν α lit} {S : Shape K T V C} {ts : Nat → Option T} {W : World ν} {G : Addr → Prop} {M : Makers K}

/-- The state after a call. -/
def nextF (M : Makers K) (W : World ν) (op : Op α lit) (k : Option Nat) : World ν :=
  match W.call M op k with
  | .ok (W', _) => W'
  | _ => W

theorem supportsF_next (L : Lawful S) (F : Faithful M) (O : OwnedBut G S W ts) {op : Op α lit} {k : Option Nat}
    {l : List (Op α lit × Option Nat)} (hl : Legal S W.heap ts op)
    (go : ∀ G1 ts1, OwnedBut G1 S (nextF M W op k) ts1 → SupportsF S M (nextF M W op k) l) : SupportsF S M W ((op, k) :: l) := by
  refine ⟨⟨G, ts, O, hl⟩, fun W1 o e => ?_⟩
  have h1 : nextF M W op k = W1 := by simp [nextF, e]
  obtain ⟨W1', o', ts1, e1, O1, _⟩ := step_spec L O op hl
  have h2 : ∃ G1 ts1, OwnedBut G1 S W1 ts1 := by
    have fine : W.call M op k = W.call M op none → ∃ G1 ts1, OwnedBut G1 S W1 ts1 := by
      intro hc
      rw [hc] at e
      simp only [World.call, e1, Res.ok_bind, Res.pure_eq, Res.ok.injEq, Prod.mk.injEq] at e
      rw [← e.1]
      exact ⟨G, ts1, O1⟩
    cases k with
    | none => exact fine rfl
    | some k =>
      obtain ⟨m, _, h3, h4⟩ := Generic.oneFault L F O hl
      by_cases hk : 2 * m ≤ k
      · exact fine (h3 k hk)
      · obtain ⟨W2, e2, O2, _⟩ := h4 k (Nat.lt_of_not_le hk)
        rw [e] at e2; cases e2
        exact ⟨_, _, O2⟩
  obtain ⟨G1, ts1, O1⟩ := h2
  rw [← h1] at O1 ⊢
  exact go G1 ts1 O1
end

/-- Build; copy, failing when the value of the second node is constructed; again, failing at once; again, with success; insert
a child, failing in the construction; destroy both. -/
def nfaults : List (Op Nat (Tree Nat) × Option Nat) :=
  [(.newLit 0 (node 1 [node 2 [], node 3 []]), none), (.newCopy 1 0, some 3), (.newCopy 1 0, some 0), (.newCopy 1 0, some 6),
   (.insertChild true Policy.preOrder 1 ⟨⟨some 6, []⟩, some 5⟩ (.value 9), some 1), (.destroy 0, none), (.destroy 1, none)]

theorem nfaults_supported : SupportsF (Nary.shape Nat) (Nary.makers Nat) start nfaults := by
  have L := Nary.lawful Nat
  have F := Nary.faithful Nat
  refine supportsF_next L F (start_owned L) ⟨rfl, trivial⟩ ?_
  intro G1 ts1 O1
  refine supportsF_next L F O1 ⟨dead O1 rfl, live O1 rfl⟩ ?_
  intro G2 ts2 O2
  refine supportsF_next L F O2 ⟨dead O2 rfl, live O2 rfl⟩ ?_
  intro G3 ts3 O3
  refine supportsF_next L F O3 ⟨dead O3 rfl, live O3 rfl⟩ ?_
  intro G4 ts4 O4
  have h4 : ts4 1 = some (some (node (5,1) [node (6,2) [], node (7,3) []])) :=
    pin (Nary.determined Nat) O4 rfl ((Nary.shape_rep _ _).mpr (by decide)) rfl
  refine supportsF_next L F O4 ⟨_, h4, trivial, Or.inr (Or.inl ⟨_, _, nary_at preOrder_mem
    [⟨(5,1), [], [node (7,3) []]⟩] (node (6,2) []) rfl rfl rfl rfl, Or.inl rfl⟩)⟩ ?_
  intro G5 ts5 O5
  refine supportsF_next L F O5 (live O5 rfl) ?_
  intro G6 ts6 O6
  refine supportsF_next L F O6 (live O6 rfl) ?_
  intros; trivial

def bfaults : List (Op Nat (Lit Nat) × Option Nat) :=
  [(.newLit 0 (node (some 1) [node none [], node (some 3) []]), none), (.newCopy 1 0, some 3), (.assignLit 0 (node (some 7) []), some 1),
   (.newCopy 1 0, some 4), (.insertOver true false Policy.preOrder 0 ⟨⟨some 0, []⟩, some 0⟩ (.copyOf 1), some 2),
   (.destroy 0, none), (.destroy 1, none)]

theorem bfaults_supported : SupportsF (Binary.shape Nat) (Binary.makers Nat) start bfaults := by
  have L := Binary.lawful Nat
  have F := Binary.faithful Nat
  refine supportsF_next L F (start_owned L) ⟨rfl, rfl⟩ ?_
  intro G1 ts1 O1
  refine supportsF_next L F O1 ⟨dead O1 rfl, live O1 rfl⟩ ?_
  intro G2 ts2 O2
  refine supportsF_next L F O2 ⟨live O2 rfl, rfl⟩ ?_
  intro G3 ts3 O3
  refine supportsF_next L F O3 ⟨dead O3 rfl, live O3 rfl⟩ ?_
  intro G4 ts4 O4
  have h4 : ts4 0 = some (.node (0,1) .nil (.node (1,3) .nil .nil)) :=
    pin (Binary.determined Nat) O4 rfl (show Binary.Rep _ _ by decide) rfl
  refine supportsF_next L F O4 ⟨_, h4, live O4 rfl, Or.inr (Or.inl ⟨_, _, binary_at preOrder_mem
    [] (.node (0,1) .nil (.node (1,3) .nil .nil)) rfl (by simp) rfl rfl rfl, Or.inl rfl⟩)⟩ ?_
  intro G5 ts5 O5
  refine supportsF_next L F O5 (live O5 rfl) ?_
  intro G6 ts6 O6
  refine supportsF_next L F O6 (live O6 rfl) ?_
  intros; trivial

end Samples

namespace Samples
/-- The state and the answers at the end. -/
def endF {ν lit : Type} {K : Kind ν α lit} (M : Makers K) (l : List (Op α lit × Option Nat)) : World ν × List (Option Ans) :=
  match start.runF M l with
  | .ok p => p
  | _ => (start, [])
end Samples

open Samples in
/-- Three nodes are left: two of the first copy, one of the insertion. -/
example : ∃ W as, start.runF (Nary.makers Nat) nfaults = Res.ok (W, as) ∧
    as = [some .unit, none, none, some .unit, none, some .unit, some .unit] ∧ W.vars 0 = none ∧ W.vars 1 = none ∧
    ∃ left : List Addr, left.Nodup ∧ left.length = 3 ∧ ∀ a, a ∈ left ↔ (W.heap.cells a).isSome := by
  obtain ⟨W, as, G, ts, e, _⟩ := C89_programs_go_on_nary nfaults_supported
  have h : endF (Nary.makers Nat) nfaults = (W, as) := by simp [endF, e]
  have ha : as = [some .unit, none, none, some .unit, none, some .unit, some .unit] := by
    have : (endF (Nary.makers Nat) nfaults).2 = [some .unit, none, none, some .unit, none, some .unit, some .unit] := rfl
    rwa [h] at this
  have hv : ∀ x, W.vars x = none := by
    have : ∀ x, (endF (Nary.makers Nat) nfaults).1.vars x = none
      | 0 => rfl
      | 1 => rfl
      | n + 2 => rfl
    rwa [h] at this
  subst ha
  exact ⟨W, _, e, rfl, hv 0, hv 1, C89_only_lost_nodes_remain_nary nfaults_supported e hv⟩

open Samples in
/-- Four nodes are left. -/
example : ∃ W as, start.runF (Binary.makers Nat) bfaults = Res.ok (W, as) ∧
    as = [some .unit, none, none, some .unit, none, some .unit, some .unit] ∧
    ∃ left : List Addr, left.Nodup ∧ left.length = 4 ∧ ∀ a, a ∈ left ↔ (W.heap.cells a).isSome := by
  obtain ⟨W, as, G, ts, e, _⟩ := C89_programs_go_on_binary bfaults_supported
  have h : endF (Binary.makers Nat) bfaults = (W, as) := by simp [endF, e]
  have ha : as = [some .unit, none, none, some .unit, none, some .unit, some .unit] := by
    have : (endF (Binary.makers Nat) bfaults).2 = [some .unit, none, none, some .unit, none, some .unit, some .unit] := rfl
    rwa [h] at this
  have hv : ∀ x, W.vars x = none := by
    have : ∀ x, (endF (Binary.makers Nat) bfaults).1.vars x = none
      | 0 => rfl
      | 1 => rfl
      | n + 2 => rfl
    rwa [h] at this
  subst ha
  exact ⟨W, _, e, rfl, C89_only_lost_nodes_remain_binary bfaults_supported e hv⟩

open Samples in
/-- The first copy of a tree of seven nodes that fails: event 5 is the construction of the third node. -/
example : ∃ W1 a, nworld.call (Nary.makers Nat) (.newCopy 2 0) (some 5) = Res.ok (W1, none) ∧ nworld.heap.cells a = none ∧
    (W1.heap.cells a).isSome := by
  obtain ⟨ts, O, h0, _, h2⟩ := nstate
  obtain ⟨W1, a, e, h1, h3⟩ := C90_throwing_call_leaks_nary_defect O (op := .newCopy 2 0) ⟨h2, by simp [h0]⟩ (m := 7) (k := 5)
    ⟨_, h0, rfl⟩ (by decide) (by decide)
  exact ⟨W1, a, e, h1, h3 [] W1 [] trivial rfl⟩

open Samples in
example : ∃ W1, bworld.call (Binary.makers Nat) (.assignCopy 1 0) (some 0) = Res.ok (W1, none) ∧
    ∀ a, W1.heap.cells a = bworld.heap.cells a := by
  obtain ⟨ts, O, h0, h1, _⟩ := bstate
  have hl : Legal (Binary.shape Nat) bworld.heap ts (.assignCopy 1 0) := ⟨by simp [h1], by simp [h0]⟩
  obtain ⟨m, ⟨t, ht, hm⟩, _, h3⟩ := C89_throwing_call_changes_nothing_binary O hl
  rw [h0] at ht; cases ht
  obtain ⟨W1, e, _⟩ := h3 0 (by rw [hm]; decide)
  exact ⟨W1, e, (C90_first_request_binary_partial O hl e).2⟩
