import Verif.Proof.ThreadAnswers
import Verif.Props.SampleWorlds
/-!
# C94, C95: const functions called by several threads

`Threads.Call` (Model/Threads.lean) are the calls that have const access to a tree: `size()`, `arity()`, `==`, iteration, printing, copying from it.
`W.begin K threads` are the threads before their first step, `run … sched` the state after the steps in the order `sched`, a list of
thread numbers; `Race` is a data race: two threads about to access one mutable member, one of them to write it. By the C++
memory model a program without a race in any such order behaves as in one of these orders, and one with a race has undefined
behaviour. `Filled`, `Conflict`, `Steady` and `tells` are in Spec/Threads.lean.
-/
open Tree World Threads

variable {ν α lit β : Type}

/-- C94: a thread that is alone does what the functions of Model/Tree.lean and Model/Compare.lean do. -/
theorem C94_alone (K : Kind ν α lit) (W : World ν) (cs : List (Call ν α β)) {W' : World ν} {as : List (Told β)}
    (h : W.tells K cs = Res.ok (W', as)) :
    (thread K cs).alone W.still W.cells = some (W'.cells, as) ∧ W'.still = W.still :=
  Generic.thread_alone cs h

/-- C94: threads that make const calls, and share only trees that remember their counts and that nobody calls `update_size_arity()` on,
have no data race in any order of their steps; each is told what it would be told if it were alone, after a number of its own steps that
does not depend on the others. -/
theorem C94_readers_nary {W : World (NNode α)} {ts : Nat → Option (Option (Tree (Addr × α)))} (O : Owned (Nary.shape α) W ts)
    (threads : Nat → List (Call (NNode α) α β))
    (h : ∀ i j x, i ≠ j → x ∈ (threads i).flatMap Call.trees → x ∈ (threads j).flatMap Call.trees →
      Filled (Nary.shape α) W ts x ∧ .forget x ∉ threads i) :
    (∀ sched, ¬ ((W.begin (Nary.kind α) threads).run W.still sched).Race) ∧
    ∀ i W' as, W.tells (Nary.kind α) (threads i) = Res.ok (W', as) → ∃ n, ∀ sched : List Nat, n ≤ sched.count i →
      ((W.begin (Nary.kind α) threads).run W.still sched).threads i = .done as :=
  Generic.no_race (Nary.lawful α) O threads h

/-- C94, for binary trees. -/
theorem C94_readers_binary {W : World (BNode α)} {ts : Nat → Option (BTree (Addr × α))} (O : Owned (Binary.shape α) W ts)
    (threads : Nat → List (Call (BNode α) α β))
    (h : ∀ i j x, i ≠ j → x ∈ (threads i).flatMap Call.trees → x ∈ (threads j).flatMap Call.trees →
      Filled (Binary.shape α) W ts x ∧ .forget x ∉ threads i) :
    (∀ sched, ¬ ((W.begin (Binary.kind α) threads).run W.still sched).Race) ∧
    ∀ i W' as, W.tells (Binary.kind α) (threads i) = Res.ok (W', as) → ∃ n, ∀ sched : List Nat, n ≤ sched.count i →
      ((W.begin (Binary.kind α) threads).run W.still sched).threads i = .done as :=
  Generic.no_race (Binary.lawful α) O threads h

/-- C94, exactly: threads have a data race in some order if and only if two of them, each running alone, access one member that one of
them writes. -/
theorem C94_exactly (K : Kind ν α lit) (W : World ν) (threads : Nat → List (Call ν α β)) :
    (∃ sched, ((W.begin K threads).run W.still sched).Race) ↔
      ∃ i j, i ≠ j ∧ Conflict W.still W.cells (thread K (threads i)) (thread K (threads j)) :=
  Running.race_iff _

/-- C95 is refuted: two threads that ask a tree with nodes that does not remember its size for it, or compare it with a literal, have
a data race. -/
theorem C95_size_nary_defect {W : World (NNode α)} {ts : Nat → Option (Option (Tree (Addr × α)))} (O : Owned (Nary.shape α) W ts)
    {x : Nat} {t : Option (Tree (Addr × α))} {r : TreeRec} (hx : ts x = some t) (hr : W.vars x = some r) (hne : t ≠ none) (h0 : r.size = 0)
    (threads : Nat → List (Call (NNode α) α β)) {i j : Nat} (hij : i ≠ j)
    {c c' : Call (NNode α) α β} {cs cs' : List (Call (NNode α) α β)} (hi : threads i = c :: cs) (hj : threads j = c' :: cs')
    (hc : c = .size x ∨ ∃ cmp s a, c = .eqWith cmp s a x) (hc' : c' = .size x ∨ ∃ cmp s a, c' = .eqWith cmp s a x) :
    ∃ sched, ((W.begin (Nary.kind α) threads).run W.still sched).Race :=
  Generic.size_races (Nary.lawful α) O hx hr hne h0 threads hij hi hj hc hc'

/-- C95, for binary trees. -/
theorem C95_size_binary_defect {W : World (BNode α)} {ts : Nat → Option (BTree (Addr × α))} (O : Owned (Binary.shape α) W ts)
    {x : Nat} {t : BTree (Addr × α)} {r : TreeRec} (hx : ts x = some t) (hr : W.vars x = some r) (hne : t ≠ .nil) (h0 : r.size = 0)
    (threads : Nat → List (Call (BNode α) α β)) {i j : Nat} (hij : i ≠ j)
    {c c' : Call (BNode α) α β} {cs cs' : List (Call (BNode α) α β)} (hi : threads i = c :: cs) (hj : threads j = c' :: cs')
    (hc : c = .size x ∨ ∃ cmp s a, c = .eqWith cmp s a x) (hc' : c' = .size x ∨ ∃ cmp s a, c' = .eqWith cmp s a x) :
    ∃ sched, ((W.begin (Binary.kind α) threads).run W.still sched).Race :=
  Generic.size_races (Binary.lawful α) O hx hr hne h0 threads hij hi hj hc hc'

/-- C95: `update_size_arity()`, a const function, and `size()` always have a data race, whatever the tree is. -/
theorem C95_update_defect (K : Kind ν α lit) {W : World ν} {x : Nat} {r : TreeRec} (hr : W.vars x = some r)
    (threads : Nat → List (Call ν α β)) {i j : Nat} (hij : i ≠ j) {cs cs' : List (Call ν α β)}
    (hi : threads i = .forget x :: cs) (hj : threads j = .size x :: cs') :
    ∃ sched, ((W.begin K threads).run W.still sched).Race :=
  Generic.forget_races hr threads hij hi hj

/-- C95: and `size()` can then answer 0 for a tree with nodes, even if every access is one step. -/
theorem C95_answer_nary_defect {W : World (NNode α)} {ts : Nat → Option (Option (Tree (Addr × α)))} (O : Owned (Nary.shape α) W ts)
    {x : Nat} {t : Option (Tree (Addr × α))} (hx : ts x = some t) (hne : t ≠ none)
    (threads : Nat → List (Call (NNode α) α β)) {i j : Nat} (hij : i ≠ j) (hi : threads i = [.size x]) (hj : threads j = [.forget x]) :
    ∃ sched, ((W.begin (Nary.kind α) threads).run W.still sched).threads i = .done [.num 0] :=
  Generic.forget_answers (Nary.lawful α) O hx hne threads hij hi hj

/-- C95, for binary trees. -/
theorem C95_answer_binary_defect {W : World (BNode α)} {ts : Nat → Option (BTree (Addr × α))} (O : Owned (Binary.shape α) W ts)
    {x : Nat} {t : BTree (Addr × α)} (hx : ts x = some t) (hne : t ≠ .nil)
    (threads : Nat → List (Call (BNode α) α β)) {i j : Nat} (hij : i ≠ j) (hi : threads i = [.size x]) (hj : threads j = [.forget x]) :
    ∃ sched, ((W.begin (Binary.kind α) threads).run W.still sched).threads i = .done [.num 0] :=
  Generic.forget_answers (Binary.lawful α) O hx hne threads hij hi hj

/-- C95, what does hold where threads race: if every access is one step (as the machine may have it), and the trees remember no wrong counts,
a thread that finishes has been told what it would have been told alone. Excepted are `update_size_arity()` (see above) and copying,
which copies what is remembered. -/
theorem C95_single_steps_nary_partial {W : World (NNode α)} {ts : Nat → Option (Option (Tree (Addr × α)))} (O : Owned (Nary.shape α) W ts)
    (hC : Cached (Nary.shape α) W ts) (threads : Nat → List (Call (NNode α) α β)) (h : ∀ i, ∀ c ∈ threads i, c.Steady) {i : Nat}
    {W' : World (NNode α)} {as : List (Told β)} (ht : W.tells (Nary.kind α) (threads i) = Res.ok (W', as)) (sched : List Nat) :
    ((W.begin (Nary.kind α) threads).run W.still sched).threads i ≠ .bad ∧
      ∀ bs, ((W.begin (Nary.kind α) threads).run W.still sched).threads i = .done bs → bs = as :=
  Generic.steady (Nary.lawful α) O hC threads h ht sched

/-- C95, what does hold, for binary trees. -/
theorem C95_single_steps_binary_partial {W : World (BNode α)} {ts : Nat → Option (BTree (Addr × α))} (O : Owned (Binary.shape α) W ts)
    (hC : Cached (Binary.shape α) W ts) (threads : Nat → List (Call (BNode α) α β)) (h : ∀ i, ∀ c ∈ threads i, c.Steady) {i : Nat}
    {W' : World (BNode α)} {as : List (Told β)} (ht : W.tells (Binary.kind α) (threads i) = Res.ok (W', as)) (sched : List Nat) :
    ((W.begin (Binary.kind α) threads).run W.still sched).threads i ≠ .bad ∧
      ∀ bs, ((W.begin (Binary.kind α) threads).run W.still sched).threads i = .done bs → bs = as :=
  Generic.steady (Binary.lawful α) O hC threads h ht sched

/-! ### concrete cases -/
namespace Samples

/-- Two threads look at `x0`, a third has `x1` for itself. `empty()` stands for what only looks. -/
def readers : Nat → List (Call (NNode Nat) Nat Bool)
  | 0 => [.size 0, .use (fun _ p => .ok p.isNone) 0, .eqWith (fun h a => Nary.eqLit (fun x y => x == y) h.fuel h a (Lit.full (node 1 [])) []) 1 0 0]
  | 1 => [.arity 0, .eq (fun x y => x == y) 0 0]
  | 2 => [.forget 1, .size 1]
  | _ => []

/-- `x0` with the node 2 (which has children) replaced by 9. -/
def unsure : World (NNode Nat) :=
  after (Nary.kind Nat) (nops ++ [.insertOver true true Policy.preOrder 0 ⟨⟨some 1, []⟩, some 0⟩ (.value 9)])

/-- What thread `i` was told. -/
def toldBy (W : World (NNode Nat)) (threads : Nat → List (Call (NNode Nat) Nat Bool)) (sched : List Nat) (i : Nat) : Option (List (Told Bool)) :=
  match ((W.begin (Nary.kind Nat) threads).run W.still sched).threads i with
  | .done as => some as
  | _ => none
end Samples

open Samples in
/-- The hypotheses of `C94_readers_nary`, and the answers in one order of the steps. -/
example : (∀ sched, ¬ ((nworld.begin (Nary.kind Nat) readers).run nworld.still sched).Race) ∧
    toldBy nworld readers ((List.replicate 16 [0, 2, 1, 1]).flatten) 0 = some [.num 7, .got false, .flag false] ∧
    toldBy nworld readers ((List.replicate 16 [0, 2, 1, 1]).flatten) 1 = some [.num 3, .flag true] ∧
    toldBy nworld readers ((List.replicate 16 [0, 2, 1, 1]).flatten) 2 = some [.unit, .num 0] := by
  obtain ⟨ts, O, h0, h1, _⟩ := nstate
  refine ⟨(C94_readers_nary O readers ?_).1, by decide +kernel, by decide +kernel, by decide +kernel⟩
  have hF : Filled (Nary.shape Nat) nworld ts 0 := by
    intro r t hr ht
    cases hr
    exact ⟨fun _ => by decide, fun _ => by decide⟩
  have key : ∀ i j x, i ≠ j → x ∈ (readers i).flatMap Call.trees → x ∈ (readers j).flatMap Call.trees →
      x = 0 ∧ (i = 0 ∨ i = 1) := by
    intro i j x hne hi hj
    match i with
    | 0 =>
      simp [readers, Call.trees] at hi
      exact ⟨hi, Or.inl rfl⟩
    | 1 =>
      simp [readers, Call.trees] at hi
      exact ⟨hi, Or.inr rfl⟩
    | 2 =>
      simp [readers, Call.trees] at hi
      subst hi
      match j with
      | 0 => simp [readers, Call.trees] at hj
      | 1 => simp [readers, Call.trees] at hj
      | 2 => exact absurd rfl hne
      | _ + 3 => simp [readers] at hj
    | _ + 3 => simp [readers] at hi
  intro i j x hne hi hj
  obtain ⟨rfl, rfl | rfl⟩ := key i j x hne hi hj
  · exact ⟨hF, by simp [readers]⟩
  · exact ⟨hF, by simp [readers]⟩

open Samples in
/-- After the replacement of a node with children the size is not remembered: the hypotheses of `C95_size_nary_defect` and of
`C95_single_steps_nary_partial`. -/
example : ∃ ts t r, Owned (Nary.shape Nat) unsure ts ∧ Cached (Nary.shape Nat) unsure ts ∧ ts 0 = some t ∧ unsure.vars 0 = some r ∧
    t ≠ none ∧ r.size = 0 ∧
    ∃ sched, ((unsure.begin (Nary.kind Nat) (fun _ => [(.size 0 : Call (NNode Nat) Nat Bool)])).run unsure.still sched).Race := by
  obtain ⟨ts, O, h0, h1, _⟩ := nstate
  have L := Nary.lawful Nat
  obtain ⟨W', o, ts', e, O', _⟩ := step_spec L O (.insertOver true true Policy.preOrder 0 ⟨⟨some 1, []⟩, some 0⟩ (.value 9))
    ⟨_, h0, trivial, Or.inr (Or.inl ⟨_, _, nary_at preOrder_mem
      [⟨(0,1), [], [node (2,3) [], node (3,4) []]⟩] (node (1,2) [node (4,5) [], node (5,6) [node (6,7) []]]) rfl rfl rfl rfl, Or.inr (Or.inl (by simp [SrcEmpty]))⟩)⟩
  have hW : W' = unsure := by
    cases e; rfl
  subst hW
  have h0' : ts' 0 = some (some (node (0,1) [node (7,9) [], node (2,3) [], node (3,4) []])) :=
    pin (Nary.determined Nat) O' rfl ((Nary.shape_rep _ _).mpr (by decide)) rfl
  have h1' : ts' 1 = some none := pin (Nary.determined Nat) O' rfl (L.rep_nil _) rfl
  refine ⟨ts', _, _, O', ?_, h0', rfl, by simp, rfl, ?_⟩
  · intro x r t hr ht
    match x with
    | 0 => rw [h0'] at ht; cases hr; cases ht; exact ⟨Or.inl rfl, Or.inl rfl⟩
    | 1 => rw [h1'] at ht; cases hr; cases ht; exact ⟨Or.inl rfl, Or.inl rfl⟩
    | _ + 2 => cases hr
  · exact C95_size_nary_defect O' h0' rfl (by simp) rfl _ (show 0 ≠ 1 by decide) rfl rfl (Or.inl rfl) (Or.inl rfl)

open Samples in
/-- The threads of the example race and are told the true size nevertheless (if each access is one step); with `update_size_arity()` between them,
0. -/
example : toldBy unsure (fun i => if i < 2 then [.size 0] else []) [0, 1, 0, 1, 0, 1, 0, 1, 0, 1] 0 = some [.num 4] ∧
    toldBy unsure (fun i => if i < 2 then [.size 0] else []) [0, 1, 0, 1, 0, 1, 0, 1, 0, 1] 1 = some [.num 4] ∧
    toldBy unsure (fun i => if i = 0 then [.size 0] else if i = 1 then [.forget 0] else []) [0, 0, 0, 0, 1, 1, 0] 0 = some [.num 0] := by
  decide +kernel
