import Verif.Spec.History
/-!
# What the containers remember about their counts

`size()` and `arity()` of a container answer from memory. Here is what a container remembers after each call, whether it is
right or not: the rule of the library, stated with the trees and two numbers per object instead of records and nodes.
-/
open World (Src)

/-- What a tree object remembers of its counts; 0 stands for "not known". -/
structure Known where
  size : Nat
  arity : Nat
  deriving DecidableEq, Repr

/-- Nothing. -/
def Known.nothing : Known := ⟨0, 0⟩

section
variable {ν α lit T V C : Type} {K : Kind ν α lit} (S : Shape K T V C)

/-- The answer of `size()` of an object that remembers `k` and holds `t`. -/
def Known.saysSize (k : Known) (t : T) : Nat := if k.size = 0 then S.size t else k.size
/-- The answer of `arity()`. -/
def Known.saysArity (k : Known) (t : T) : Nat := if k.arity = 0 then S.arity t else k.arity

/-- `m` is what is remembered of a tree `t` that was given up by an object that remembered `k`. -/
def GivenUp (k : Known) (t : T) (m : Known) : Prop := (t = S.nil → m = k) ∧ (t ≠ S.nil → m = Known.nothing)

/-- The counts `q` with which `insert_over` inserts a source, and what all objects remember once they are known, `k1`. `sb`, `ab`:
see `World.takeNodes`. -/
def OverCounts (sb ab : Bool) (ts : Nat → Option T) (k : Nat → Option Known) (q : Known) (k1 : Nat → Option Known) : Src α lit → Prop
  | .value _ => q = ⟨1, 0⟩ ∧ k1 = k
  | .lit l => q = ⟨K.litSize l, K.litArity l⟩ ∧ k1 = k
  | .emplaceLit l => q = ⟨K.litSize l, K.litArity l⟩ ∧ k1 = k
  | .copyOf y => ∃ t m, ts y = some t ∧ k y = some m ∧ q = ⟨m.saysSize S t, m.saysArity S t⟩ ∧ k1 = upd k y (some q)
  | .moveOf y => ∃ t m g, ts y = some t ∧ k y = some m ∧ GivenUp S m t g ∧
      q = ⟨if sb then m.saysSize S t else g.saysSize S t, if ab then m.saysArity S t else g.saysArity S t⟩ ∧
      k1 = upd k y (some ⟨if sb then g.size else g.saysSize S t, if ab then g.arity else g.saysArity S t⟩)

/-- The counts with which `insert_child_front` (`front`) and `insert_child_back` insert a source. -/
def childCount (front : Bool) : Src α lit → Known
  | .value _ => ⟨1, 0⟩
  | .lit l => if front then ⟨1, 0⟩ else ⟨K.litSize l, K.litArity l⟩
  | .emplaceLit l => ⟨K.litSize l, K.litArity l⟩
  | .copyOf _ => ⟨1, 0⟩
  | .moveOf _ => ⟨1, 0⟩

/-- After a move the source remembers nothing. -/
def forget (k : Nat → Option Known) : Src α lit → Nat → Option Known
  | .moveOf y => upd k y (some Known.nothing)
  | _ => k

/-- What is remembered of a tree in which a subtree `s`, not the whole tree, was replaced by one with `q` nodes. Arithmetic
is that of `std::size_t`. -/
def Known.replaced (k : Known) (s : T) (q : Nat) : Known :=
  ⟨if S.kids s = 0 then (k.size + (q + 2 ^ 64 - 1)) % 2 ^ 64 else 0, 0⟩

/-- What is remembered of a tree in which a node got its `n`-th child, with the counts `q`. -/
def Known.adopted (k : Known) (n : Nat) (q : Known) : Known :=
  ⟨(k.size + q.size) % 2 ^ 64, max q.arity (max k.arity (max 1 n))⟩

/-- The erasures of a range, see `Prune`, with what is remembered. -/
inductive PruneCount : T → Known → List Addr → T → Known → Prop where
  | done (t k) : PruneCount t k [] t k
  | all (s a k) : S.ptr s = some a → PruneCount s k [a] S.nil Known.nothing
  | step (c s a l t' k k') : S.ptr s = some a → c ≠ S.top → S.removable c → PruneCount (S.plug c S.nil) (k.replaced S s 0) l t' k' →
      PruneCount (S.plug c s) k (a :: l) t' k'

/-- How a call changes what the objects remember, from `k` to `k'`; `ts` are the trees before the call. -/
def Recount (h : Heap ν) (ts : Nat → Option T) (k k' : Nat → Option Known) : Op α lit → Prop
  | .newEmpty x => k' = upd k x (some Known.nothing)
  | .newCopy x y => k' = upd k x (k y)
  | .newMove x y => k' = upd (upd k x (k y)) y (some Known.nothing)
  | .newLit x l => k' = upd k x (some ⟨K.litSize l, K.litArity l⟩)
  | .destroy x => k' = upd k x none
  | .clear x => k' = upd k x (some Known.nothing)
  | .assignCopy x y => k' = upd k x (k y)
  | .assignMove x y => k' = upd (upd k x (k y)) y (some Known.nothing)
  | .assignLit x l => k' = upd k x (some ⟨K.litSize l, K.litArity l⟩)
  | .swap x y => k' = upd (upd k x (k y)) y (k x)
  | .size x => ∃ t m, ts x = some t ∧ k x = some m ∧ k' = upd k x (some ⟨m.saysSize S t, m.arity⟩)
  | .arity x => ∃ t m, ts x = some t ∧ k x = some m ∧ k' = upd k x (some ⟨m.size, m.saysArity S t⟩)
  | .updateCounts x => k' = upd k x (some Known.nothing)
  | .insertOver sb ab P x pos src =>
      (src = .moveOf x ∧ k' = k) ∨
      (src ≠ .moveOf x ∧ ∃ t q k1 m, ts x = some t ∧ OverCounts S sb ab ts k q k1 src ∧ k1 x = some m ∧
        ((∃ s, At S P h t pos S.top s ∧ k' = forget (upd k1 x (some q)) src) ∨
         (∃ c s, At S P h t pos c s ∧ c ≠ S.top ∧ k' = forget (upd k1 x (some (m.replaced S s q.size))) src) ∨
         (AtEnd pos ∧ t = S.nil ∧ k' = forget (upd k1 x (some q)) src) ∨
         (AtEnd pos ∧ t ≠ S.nil ∧ k' = k1)))
  | .insertChild front P x pos src => ∃ t, ts x = some t ∧
      ((ChildThrows S h P x t pos src ∧ k' = k) ∨
       ∃ c s m n, At S P h t pos c s ∧ ¬ ChildThrows S h P x t pos src ∧ k x = some m ∧
        (SrcEmpty S ts src → n = S.kids s) ∧ (¬ SrcEmpty S ts src → n = S.kids s + 1) ∧
        k' = forget (upd k x (some (m.adopted n (childCount (K := K) front src)))) src)
  | .erase x pos => ∃ t m, ts x = some t ∧ k x = some m ∧
      ((∃ s, At S Policy.postOrder h t pos S.top s ∧ k' = upd k x (some Known.nothing)) ∨
       (∃ c s, At S Policy.postOrder h t pos c s ∧ c ≠ S.top ∧ k' = upd k x (some (m.replaced S s 0))) ∨
       (AtEnd pos ∧ k' = k))
  | .eraseRange x first last => ∃ t m l t' m', ts x = some t ∧ k x = some m ∧ Range S t first last l ∧ PruneCount S t m l t' m' ∧
      k' = upd k x (some m')
  | .write _ _ _ => k' = k

/-- What `size()` and `arity()` answer. -/
def SaysCounts (ts : Nat → Option T) (k : Nat → Option Known) (o : Ans) : Op α lit → Prop
  | .size x => ∀ t m, ts x = some t → k x = some m → o = .num (m.saysSize S t)
  | .arity x => ∀ t m, ts x = some t → k x = some m → o = .num (m.saysArity S t)
  | _ => True

/-- A trace (see `Trace`) with what the objects remember at each moment. -/
inductive Tally : World ν → (Nat → Option T) → (Nat → Option Known) → List (Op α lit × Ans) → World ν → (Nat → Option T) →
    (Nat → Option Known) → Prop where
  | done (W ts k) : Owned S W ts → Tally W ts k [] W ts k
  | step (W ts k op W1 o ts1 k1 l W2 ts2 k2) : Owned S W ts → W.step K op = Res.ok (W1, o) →
      Effect S W.heap ts W1.heap ts1 o op → Recount S W.heap ts k k1 op → SaysCounts S ts k o op →
      Tally W1 ts1 k1 l W2 ts2 k2 → Tally W ts k ((op, o) :: l) W2 ts2 k2

end
