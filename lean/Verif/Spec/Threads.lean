import Verif.Model.Threads
import Verif.Spec.History
/-! # When threads get in each other's way -/

/-- Two threads conflict if, each running alone, both access one member and one of them writes it. -/
def Conflict {ν β γ : Type} (e : Still ν) (c : Cells) (p : Prog ν β) (q : Prog ν γ) : Prop :=
  ∃ l w w', (l, w) ∈ p.accesses e c ∧ (l, w') ∈ q.accesses e c ∧ (w || w') = true

namespace World
variable {ν α lit β : Type} (K : Kind ν α lit)
open Threads (Call Told)

/-- The calls made by one thread only, with the functions of Model/Tree.lean and Model/Compare.lean. -/
def told (W : World ν) : Call ν α β → Res (World ν × Told β)
  | .size x => do let (W, n) ← W.size K x; pure (W, .num n)
  | .arity x => do let (W, n) ← W.arity K x; pure (W, .num n)
  | .forget x => do let W ← W.updateCounts x; pure (W, .unit)
  | .eq eqv x y => do let (W, b) ← W.eq K eqv x y; pure (W, .flag b)
  | .eqWith cmp s a x => do let (W, b) ← W.eqWith K cmp s a x; pure (W, .flag b)
  | .copied f x => do let r ← W.get x; let b ← f W.heap r.root; pure (W, .counts b r.size r.arity)
  | .inserted f x => do
    let r ← W.get x
    let b ← f W.heap r.root
    let (W, s) ← W.size K x
    let (W, a) ← W.arity K x
    pure (W, .counts b s a)
  | .use f x => do let r ← W.get x; let b ← f W.heap r.root; pure (W, .got b)

/-- A sequence of calls. -/
def tells : World ν → List (Call ν α β) → Res (World ν × List (Told β))
  | W, [] => pure (W, [])
  | W, c :: cs => do
    let (W, a) ← W.told K c
    let (W, as) ← W.tells cs
    pure (W, a :: as)

/-- The threads, all at the beginning of their calls. -/
def begin (W : World ν) (threads : Nat → List (Call ν α β)) : Running ν (List (Told β)) :=
  ⟨W.cells, fun i => Threads.thread K (threads i)⟩

end World

namespace Threads.Call
variable {ν α β : Type}

/-- The trees a call has to do with. -/
def trees : Call ν α β → List Nat
  | .size x => [x]
  | .arity x => [x]
  | .forget x => [x]
  | .eq _ x y => [x, y]
  | .eqWith _ _ _ x => [x]
  | .copied _ x => [x]
  | .inserted _ x => [x]
  | .use _ x => [x]

/-- The calls whose answers do not depend on what is remembered: all but `update_size_arity()` and copying the tree object. -/
def Steady : Call ν α β → Prop
  | .forget _ => False
  | .copied _ _ => False
  | _ => True

end Threads.Call

section
variable {ν α lit β T V C : Type} {K : Kind ν α lit} (S : Shape K T V C)

/-- The tree object remembers its size, unless it is empty, and its arity, unless its root has no children. -/
def Filled (W : World ν) (ts : Nat → Option T) (x : Nat) : Prop :=
  ∀ r t, W.vars x = some r → ts x = some t → (t ≠ S.nil → r.size ≠ 0) ∧ (S.kids t ≠ 0 → r.arity ≠ 0)

end
