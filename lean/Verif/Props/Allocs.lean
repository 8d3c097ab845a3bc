import Verif.Proof.Allocs
import Verif.Props.SampleWorlds
/-!
# C103: how many blocks the calls request and give back

`W.requested`, `W.released` (Spec/Allocs.lean): blocks requested from the allocator and given back so far. `op.Makes S ts m`
(Spec/Faults.lean): the call has to make `m` nodes. `nodesIn S ts xs`: the number of nodes of the trees named `xs`.
-/
open Tree World

variable {α : Type}

namespace Generic
variable {ν lit T V C : Type} {K : Kind ν α lit} {S : Shape K T V C} {ts : Nat → Option T} {W : World ν} {M : Makers K}

theorem requests (Q : Quiet K) (L : Lawful S) (F : Faithful M) (O : Owned S W ts) {op : Op α lit} (hl : Legal S W.heap ts op)
    {xs : List Nat} (hn : xs.Nodup) (hx : ∀ x, (ts x).isSome → x ∈ xs) (ho : ∀ x ∈ op.objects, x ∈ xs) :
    ∃ m W1 o ts1, op.Makes S ts m ∧ W.step K op = Res.ok (W1, o) ∧ Owned S W1 ts1 ∧ Effect S W.heap ts W1.heap ts1 o op ∧
      W1.requested = W.requested + m ∧ W1.released + nodesIn S ts1 xs = W.released + nodesIn S ts xs + m := by
  obtain ⟨W1, o, ts1, h1, O1, E, _⟩ := step_spec L O op hl
  obtain ⟨m, h2, h3⟩ := step_next Q L F O op hl
  have hr : W1.requested = W.requested + m := h3 _ h1
  refine ⟨m, W1, o, ts1, h2, h1, O1, E, hr, ?_⟩
  have e0 := released_nodes L O hn hx
  have e1 := released_nodes L O1 hn (fun x h => ?_)
  · omega
  · by_cases hm : x ∈ op.objects
    · exact ho x hm
    · refine hx x ?_
      rw [← O.alive, ← step_vars h1 hm, O1.alive]
      exact h

theorem nothing (Q : Quiet K) (L : Lawful S) (F : Faithful M) (O : Owned S W ts) {op : Op α lit} (hl : Legal S W.heap ts op)
    (h0 : op.Makes S ts 0) {W1 : World ν} {o : Ans} (hs : W.step K op = Res.ok (W1, o)) : W1.requested = W.requested := by
  obtain ⟨m, h2, h3⟩ := step_next Q L F O op hl
  rw [makes_unique L h2 h0] at h3
  exact h3 _ hs

theorem total (Q : Quiet K) (L : Lawful S) (D : Determined S) (F : Faithful M) {ops : List (Op α lit)} (h : Supports S start ops) :
    ∃ W as m, start.run K ops = Res.ok (W, as) ∧ Demands S start ops m ∧ W.requested = m ∧
      ((∀ x, W.vars x = none) → W.released = m) := by
  obtain ⟨W, as, m, h1, h2, h3⟩ := demands_next Q L D F ops start _ (start_owned L) h
  have h4 : W.requested = m := by rw [h3]; exact Nat.zero_add m
  refine ⟨W, as, m, h1, h2, h4, fun hend => ?_⟩
  obtain ⟨W', as', ts, e, _, _, O⟩ := history_trace L D ops (start_owned L) h
  cases h1.symm.trans e
  have := released_nodes L O (xs := []) List.nodup_nil (fun x hx => by rw [← O.alive, hend x] at hx; cases hx)
  rw [← h4, ← this]; rfl

end Generic

/-- One call, supported in its state, with `m` nodes to make. It makes exactly `m` requests: none for a move, a swap, an erasure,
a query, one for each node of what is copied or written as a literal otherwise. It gives back as many blocks as there are
nodes less in the trees afterwards, also if it ends with a `logic_error`. -/
theorem C103_call_nary {W : World (NNode α)} {ts : Nat → Option (Option (Tree (Addr × α)))} (O : Owned (Nary.shape α) W ts)
    {op : Op α (Tree α)} (hl : Legal (Nary.shape α) W.heap ts op)
    {xs : List Nat} (hn : xs.Nodup) (hx : ∀ x, (ts x).isSome → x ∈ xs) (ho : ∀ x ∈ op.objects, x ∈ xs) :
    ∃ m W1 o ts1, op.Makes (Nary.shape α) ts m ∧ W.step (Nary.kind α) op = Res.ok (W1, o) ∧ Owned (Nary.shape α) W1 ts1 ∧
      Effect (Nary.shape α) W.heap ts W1.heap ts1 o op ∧ W1.requested = W.requested + m ∧
      W1.released + nodesIn (Nary.shape α) ts1 xs = W.released + nodesIn (Nary.shape α) ts xs + m :=
  Generic.requests (Nary.quiet α) (Nary.lawful α) (Nary.faithful α) O hl hn hx ho

theorem C103_call_binary {W : World (BNode α)} {ts : Nat → Option (BTree (Addr × α))} (O : Owned (Binary.shape α) W ts)
    {op : Op α (Lit α)} (hl : Legal (Binary.shape α) W.heap ts op)
    {xs : List Nat} (hn : xs.Nodup) (hx : ∀ x, (ts x).isSome → x ∈ xs) (ho : ∀ x ∈ op.objects, x ∈ xs) :
    ∃ m W1 o ts1, op.Makes (Binary.shape α) ts m ∧ W.step (Binary.kind α) op = Res.ok (W1, o) ∧ Owned (Binary.shape α) W1 ts1 ∧
      Effect (Binary.shape α) W.heap ts W1.heap ts1 o op ∧ W1.requested = W.requested + m ∧
      W1.released + nodesIn (Binary.shape α) ts1 xs = W.released + nodesIn (Binary.shape α) ts xs + m :=
  Generic.requests (Binary.quiet α) (Binary.lawful α) (Binary.faithful α) O hl hn hx ho

/-- The blocks that are not given back are the nodes of the trees. -/
theorem C103_held_nary {W : World (NNode α)} {ts : Nat → Option (Option (Tree (Addr × α)))} (O : Owned (Nary.shape α) W ts)
    {xs : List Nat} (hn : xs.Nodup) (hx : ∀ x, (ts x).isSome → x ∈ xs) : W.released + nodesIn (Nary.shape α) ts xs = W.requested :=
  released_nodes (Nary.lawful α) O hn hx

theorem C103_held_binary {W : World (BNode α)} {ts : Nat → Option (BTree (Addr × α))} (O : Owned (Binary.shape α) W ts)
    {xs : List Nat} (hn : xs.Nodup) (hx : ∀ x, (ts x).isSome → x ∈ xs) : W.released + nodesIn (Binary.shape α) ts xs = W.requested :=
  released_nodes (Binary.lawful α) O hn hx

/-- A program that makes supported calls makes as many requests as it has nodes to make, and has given back as many blocks when
all its trees are gone. -/
theorem C103_program_nary {ops : List (Op α (Tree α))} (h : Supports (Nary.shape α) start ops) :
    ∃ W as m, start.run (Nary.kind α) ops = Res.ok (W, as) ∧ Demands (Nary.shape α) start ops m ∧ W.requested = m ∧
      ((∀ x, W.vars x = none) → W.released = m) :=
  Generic.total (Nary.quiet α) (Nary.lawful α) (Nary.determined α) (Nary.faithful α) h

theorem C103_program_binary {ops : List (Op α (Lit α))} (h : Supports (Binary.shape α) start ops) :
    ∃ W as m, start.run (Binary.kind α) ops = Res.ok (W, as) ∧ Demands (Binary.shape α) start ops m ∧ W.requested = m ∧
      ((∀ x, W.vars x = none) → W.released = m) :=
  Generic.total (Binary.quiet α) (Binary.lawful α) (Binary.determined α) (Binary.faithful α) h

/-- The calls that request nothing. -/
theorem C103_nothing_nary {W W1 : World (NNode α)} {ts : Nat → Option (Option (Tree (Addr × α)))} (O : Owned (Nary.shape α) W ts)
    {op : Op α (Tree α)} {x y : Nat} {p q : It} {v : α} {sb ab front : Bool} {P : Policy} {o : Ans}
    (hop : op ∈ [.newEmpty x, .newMove x y, .destroy x, .clear x, .assignMove x y, .swap x y, .size x, .arity x, .updateCounts x,
      .erase x p, .eraseRange x p q, .write x p v, .insertOver sb ab P x p (.moveOf y), .insertChild front P x p (.moveOf y)])
    (hl : Legal (Nary.shape α) W.heap ts op) (hs : W.step (Nary.kind α) op = Res.ok (W1, o)) : W1.requested = W.requested := by
  refine Generic.nothing (Nary.quiet α) (Nary.lawful α) (Nary.faithful α) O hl ?_ hs
  simp only [List.mem_cons, List.not_mem_nil, or_false] at hop
  rcases hop with rfl | rfl | rfl | rfl | rfl | rfl | rfl | rfl | rfl | rfl | rfl | rfl | rfl | rfl <;> rfl

theorem C103_nothing_binary {W W1 : World (BNode α)} {ts : Nat → Option (BTree (Addr × α))} (O : Owned (Binary.shape α) W ts)
    {op : Op α (Lit α)} {x y : Nat} {p q : It} {v : α} {sb ab front : Bool} {P : Policy} {o : Ans}
    (hop : op ∈ [.newEmpty x, .newMove x y, .destroy x, .clear x, .assignMove x y, .swap x y, .size x, .arity x, .updateCounts x,
      .erase x p, .eraseRange x p q, .write x p v, .insertOver sb ab P x p (.moveOf y), .insertChild front P x p (.moveOf y)])
    (hl : Legal (Binary.shape α) W.heap ts op) (hs : W.step (Binary.kind α) op = Res.ok (W1, o)) : W1.requested = W.requested := by
  refine Generic.nothing (Binary.quiet α) (Binary.lawful α) (Binary.faithful α) O hl ?_ hs
  simp only [List.mem_cons, List.not_mem_nil, or_false] at hop
  rcases hop with rfl | rfl | rfl | rfl | rfl | rfl | rfl | rfl | rfl | rfl | rfl | rfl | rfl | rfl <;> rfl

/-! ## Examples -/
namespace Samples

/-- Four nodes of the literal, four of the copy, one of the value. -/
example : ∃ W as, start.run (Nary.kind Nat) nhist = Res.ok (W, as) ∧ W.requested = 9 ∧ W.released = 9 := by
  obtain ⟨W, as, m, h1, -, -, -⟩ := C103_program_nary nhist_supported
  have e : after (Nary.kind Nat) nhist = W := by simp only [after, h1]
  have r1 : (after (Nary.kind Nat) nhist).requested = 9 := by decide +kernel
  have r2 : (after (Nary.kind Nat) nhist).released = 9 := by decide +kernel
  rw [e] at r1 r2
  exact ⟨W, as, h1, r1, r2⟩

/-- Three nodes of the first literal, two of the second, five of the copy. -/
example : ∃ W as, start.run (Binary.kind Nat) bhist = Res.ok (W, as) ∧ W.requested = 10 ∧ W.released = 10 := by
  obtain ⟨W, as, m, h1, -, -, -⟩ := C103_program_binary bhist_supported
  have e : after (Binary.kind Nat) bhist = W := by simp only [after, h1]
  have r1 : (after (Binary.kind Nat) bhist).requested = 10 := by decide +kernel
  have r2 : (after (Binary.kind Nat) bhist).released = 10 := by decide +kernel
  rw [e] at r1 r2
  exact ⟨W, as, h1, r1, r2⟩

/-- In the state `nworld` there are names for all trees. -/
example : ∃ ts, Owned (Nary.shape Nat) nworld ts ∧ Legal (Nary.shape Nat) nworld.heap ts (.newCopy 2 0) ∧ Op.Makes (Nary.shape Nat) ts (.newCopy 2 0) 7 := by
  obtain ⟨ts, O, h0, h1, h2⟩ := nstate
  exact ⟨ts, O, ⟨h2, by rw [h0]; rfl⟩, _, h0, rfl⟩
end Samples
