import Verif.Model.Policy
/-!
# How many rounds the loops make

The loops inside `operator++` and `operator--` (all of them calls of `keep_calling`) run with a bound on the number of their rounds; `diverge` is the
outcome if the bound is too low. So the number of rounds a call makes is the lowest bound with which it ends. (The bound is one for each loop;
a call of the functions counted here runs at most one loop, so nothing has to be added up inside of a call.)
-/

/-- With a bound `k` or higher the outcome is `b`, with a lower bound there is none: the loop in `f` makes `k` rounds. -/
def Takes {β : Type} (f : Nat → Res β) (k : Nat) (b : β) : Prop :=
  (∀ n, n < k → f n = Res.diverge) ∧ ∀ n, k ≤ n → f n = Res.ok b

/-- The loop `while (it.node != stop) step(it)`, begun in the state `s`, comes to its end. It makes `visited` steps; the loops inside of one
step make at most `most` rounds, and `total` rounds in all steps together. -/
inductive Loop (step : Nat → ItState → Res ItState) (stop : Ptr) (most : Nat) : ItState → Nat → Nat → Prop where
  | done {s : ItState} (h : s.cur = stop) : Loop step stop most s 0 0
  | step {s s' : ItState} {k total visited : Nat} (h : s.cur ≠ stop) (hs : Takes (fun n => step n s) k s') (hk : k ≤ most)
      (hl : Loop step stop most s' total visited) : Loop step stop most s (k + total) (visited + 1)

/-- `for (it = begin(); it != end(); ++it)` visits `visited` nodes, and the loops inside of `begin()` and of the `++` make `total` rounds, at
most `most` in one call. -/
def ForwardTakes (P : Policy) (nav : Nav) (visited total most : Nat) : Prop :=
  ∃ s k m, Takes (fun n => Iter.begin_ P nav n) k s ∧ k ≤ most ∧ Loop (Iter.inc P nav) none most s m visited ∧ k + m = total

/-- `for (it = end(); it != begin(); ) --it;` (what a loop over reverse iterators does) makes `visited` steps, and the loops inside of the
`--` make `total` rounds, at most `most` in one call. -/
def BackwardTakes (P : Policy) (nav : Nav) (visited total most : Nat) : Prop :=
  ∃ b e k, Takes (fun n => Iter.begin_ P nav n) k b ∧ Takes (fun n => Iter.end_ P nav n) 0 e ∧
    Loop (Iter.dec P nav) b.cur most e total visited
