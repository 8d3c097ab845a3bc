import Verif.Spec.Faults
/-!
# Programs that go on after an insertion at `end()`
-/
open World (Src)

section
variable {ν α lit T V C : Type} {K : Kind ν α lit} (S : Shape K T V C)

/-- The call is `insert_over` or `emplace_over` at `end()` of a tree that is not empty, of something other than a moved tree:
`m` new nodes. -/
def Spills (ts : Nat → Option T) (op : Op α lit) (m : Nat) : Prop :=
  ∃ sb ab P x pos src t, op = .insertOver sb ab P x pos src ∧ ts x = some t ∧ t ≠ S.nil ∧ AtEnd pos ∧ SrcOk S ts src ∧
    (∀ y, src ≠ .moveOf y) ∧ SrcMakes S ts src m

/-- Each call is supported in the state in which it is made, whatever was lost before, or is such an insertion. -/
def SupportsL : World ν → List (Op α lit) → Prop
  | _, [] => True
  | W, op :: l => (∃ G ts, OwnedBut G S W ts ∧ (Legal S W.heap ts op ∨ ∃ m, Spills S ts op m)) ∧
      ∀ W' o, W.step K op = Res.ok (W', o) → SupportsL W' l

/-- `TraceL W G ts l W' G' ts' n`: the calls and answers of `l` lead from `W`, which is the trees `ts` and the lost nodes `G`, to
`W'`, which is the trees `ts'` and the lost nodes `G'`; `n` nodes were lost on the way. A supported call has its effect and
loses nothing. An insertion at `end()` throws; it changes no tree, no node and no count, and loses the nodes it made. -/
inductive TraceL : World ν → (Addr → Prop) → (Nat → Option T) → List (Op α lit × Ans) → World ν → (Addr → Prop) → (Nat → Option T) →
    Nat → Prop where
  | done (W G ts) : OwnedBut G S W ts → TraceL W G ts [] W G ts 0
  | works (W G ts op W1 o ts1 l W2 G2 ts2 n) : OwnedBut G S W ts → Legal S W.heap ts op → W.step K op = Res.ok (W1, o) →
      Effect S W.heap ts W1.heap ts1 o op → TraceL W1 G ts1 l W2 G2 ts2 n → TraceL W G ts ((op, o) :: l) W2 G2 ts2 n
  | spills (W G ts op m W1 l W2 G2 ts2 n) : OwnedBut G S W ts → Spills S ts op m → W.step K op = Res.ok (W1, .iter .threw) →
      (∀ a, a < W.heap.next → W1.heap.cells a = W.heap.cells a) → SameCounts K W W1 →
      TraceL W1 (LostAlso G W.heap.next m) ts l W2 G2 ts2 n → TraceL W G ts ((op, .iter .threw) :: l) W2 G2 ts2 (m + n)

end
