import Verif.Spec.Faults
/-!
# Requests to the allocator

Every request to the allocator makes the address that comes next, and every address is handed out once (Model/Core.lean), so
that the number of requests so far is that address, and the blocks given back are the addresses before it that are not
allocated.
-/

namespace World
variable {ν : Type}

/-- Blocks requested so far. -/
def requested (W : World ν) : Nat := W.heap.next

/-- Blocks given back so far. -/
def released (W : World ν) : Nat := ((List.range W.heap.next).filter fun a => (W.heap.cells a).isNone).length
end World

section
variable {ν α lit T V C : Type} {K : Kind ν α lit} (S : Shape K T V C)

/-- The number of nodes in the trees `xs`. -/
def nodesIn (ts : Nat → Option T) (xs : List Nat) : Nat := (xs.map fun x => ((ts x).map S.size).getD 0).sum

/-- Calls of a program, in the states in which they are made, have to make `m` nodes altogether (`Op.Makes`, Spec/Faults.lean). -/
inductive Demands : World ν → List (Op α lit) → Nat → Prop where
  | done (W) : Demands W [] 0
  | call (W ts op m W1 a l k) : Owned S W ts → Op.Makes S ts op m → W.step K op = Res.ok (W1, a) → Demands W1 l k → Demands W (op :: l) (m + k)
end
