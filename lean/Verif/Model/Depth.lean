import Verif.Model.NaryNode
/-!
# The recursions of `calculate_size` and `calculate_arity` over nary nodes, with the loop and the recursion told apart

In Model/NaryNode.lean one fuel bounds both the loop over the children and the recursion. Here `loop` bounds the former only, and the
last argument is the number of calls that may be active at the same time.
The other recursive functions (`Nary.copy`, `Nary.dealloc`, `Nary.eq`, `Binary.copy`, `Binary.dealloc`, `Binary.eq`, `Binary.calcSize`) have no loops: their
fuel is the number of calls that may be active at the same time.
-/
namespace Nary
variable {α : Type}

/-- The loop `while (child != nullptr) …` over a child and its following siblings: utility.hpp 200-203 and 213-219. -/
def eachChild (f : Addr → Res Nat) (op : Nat → Nat → Nat) (h : NHeap α) : Nat → Ptr → Nat → Res Nat
  | 0, _, _ => Res.diverge
  | _ + 1, none, acc => pure acc
  | n + 1, some c, acc => do
    let v ← f c
    let m ← h.read c
    eachChild f op h n m.next (op acc v)

/-- utility.hpp 196-205. -/
def sizeCalls (loop : Nat) (h : NHeap α) : Nat → Addr → Res Nat
  | 0, _ => Res.diverge
  | d + 1, a => do
    let n ← h.read a
    eachChild (sizeCalls loop h d) (· + ·) h loop n.first 1

/-- utility.hpp 207-221; the early return is not modelled, see `calcArity`. -/
def arityCalls (loop : Nat) (h : NHeap α) : Nat → Addr → Res Nat
  | 0, _ => Res.diverge
  | d + 1, a => do
    let n ← h.read a
    let start ← match n.first with
      | some c => do pure ((← h.read c).following + 1)
      | none => pure 0
    eachChild (arityCalls loop h d) max h loop n.first start

end Nary
