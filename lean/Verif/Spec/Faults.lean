import Verif.Model.Faults
/-!
# What calls do that an exception leaves
-/
open World (Src)

section
variable {ν α lit T V C : Type} {K : Kind ν α lit} (S : Shape K T V C)

/-- The source of an insertion consists of `m` new nodes. -/
def SrcMakes (ts : Nat → Option T) : Src α lit → Nat → Prop
  | .value _, m => m = 1
  | .lit l, m => ∃ n, S.vals n = S.litVals l ∧ m = S.size n
  | .emplaceLit l, m => ∃ n, S.vals n = S.litVals l ∧ m = S.size n
  | .copyOf y, m => ∃ t, ts y = some t ∧ m = S.size t
  | .moveOf _, m => m = 0

/-- The call has to make `m` nodes: a copy or a literal has as many as it has values, everything else none. -/
def Op.Makes (ts : Nat → Option T) : Op α lit → Nat → Prop
  | .newCopy _ y, m => ∃ t, ts y = some t ∧ m = S.size t
  | .newLit _ l, m => ∃ n, S.vals n = S.litVals l ∧ m = S.size n
  | .assignCopy _ y, m => ∃ t, ts y = some t ∧ m = S.size t
  | .assignLit _ l, m => ∃ n, S.vals n = S.litVals l ∧ m = S.size n
  | .insertOver _ _ _ _ _ src, m => SrcMakes S ts src m
  | .insertChild _ _ _ _ src, m => SrcMakes S ts src m
  | _, m => m = 0

/-- The nodes lost so far and `n` more, which the allocator handed out from the address `a` on. -/
def LostAlso (G : Addr → Prop) (a : Addr) (n : Nat) : Addr → Prop := fun b => G b ∨ (a ≤ b ∧ b < a + n)

/-- `size()` and `arity()` of every tree object answer the same in both states. -/
def SameCounts (K : Kind ν α lit) (W W' : World ν) : Prop :=
  ∀ x n, ((∃ V, W.size K x = Res.ok (V, n)) ↔ ∃ V, W'.size K x = Res.ok (V, n)) ∧
    ((∃ V, W.arity K x = Res.ok (V, n)) ↔ ∃ V, W'.arity K x = Res.ok (V, n))

variable (M : Makers K)

/-- Each call is supported in the state in which it is made, whatever was lost before. -/
def SupportsF : World ν → List (Op α lit × Option Nat) → Prop
  | _, [] => True
  | W, (op, k) :: l => (∃ G ts, OwnedBut G S W ts ∧ Legal S W.heap ts op) ∧
      ∀ W' o, W.call M op k = Res.ok (W', o) → SupportsF W' l

/-- `TraceF W G ts l W' G' ts'`: the calls of `l`, each with the number of the event that throws, if one does, and their answers
lead from `W`, which is the trees `ts` and the lost nodes `G`, to `W'`, which is the trees `ts'` and the lost nodes `G'`. A call
that has to make `m` nodes has `2 * m` events. If one of them throws, the call throws: it changes no tree, no node and no count,
and loses the nodes it had obtained by then. Otherwise the call has its effect and loses nothing. -/
inductive TraceF : World ν → (Addr → Prop) → (Nat → Option T) → List ((Op α lit × Option Nat) × Option Ans) →
    World ν → (Addr → Prop) → (Nat → Option T) → Prop where
  | done (W G ts) : OwnedBut G S W ts → TraceF W G ts [] W G ts
  | works (W G ts op k m W1 o ts1 l W2 G2 ts2) : OwnedBut G S W ts → Op.Makes S ts op m → (∀ n, k = some n → 2 * m ≤ n) →
      W.call M op k = Res.ok (W1, some o) → W.step K op = Res.ok (W1, o) → Effect S W.heap ts W1.heap ts1 o op →
      TraceF W1 G ts1 l W2 G2 ts2 → TraceF W G ts (((op, k), some o) :: l) W2 G2 ts2
  | throws (W G ts op k m W1 l W2 G2 ts2) : OwnedBut G S W ts → Op.Makes S ts op m → k < 2 * m →
      W.call M op (some k) = Res.ok (W1, none) →
      (∀ a, a < W.heap.next → W1.heap.cells a = W.heap.cells a) → SameCounts K W W1 →
      TraceF W1 (LostAlso G W.heap.next ((k + 1) / 2)) ts l W2 G2 ts2 → TraceF W G ts (((op, some k), none) :: l) W2 G2 ts2

/-- The number of nodes lost by calls that threw: number `k` of the events is the construction or the request of node
`k / 2`. -/
def lostNodes : List ((Op α lit × Option Nat) × Option Ans) → Nat
  | [] => 0
  | ((_, some k), none) :: l => (k + 1) / 2 + lostNodes l
  | _ :: l => lostNodes l

end
