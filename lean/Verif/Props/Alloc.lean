import Verif.Proof.Alloc
import Verif.Props.SampleWorlds
/-!
# C92, C93: trees whose allocators differ

`AWorld` (Model/Alloc.lean) is a program state together with the allocator each tree object holds (`al`) and the allocator each block
was obtained from (`origin`); a call that gives a block back to another allocator is undefined behaviour (`Res.ub`). `Homed`,
`AllocOk` and `SupportsA` are in Spec/Alloc.lean.
-/
open Tree World

variable {α : Type}

/-- C92: a program of supported calls that keeps trees with different allocators apart (`AllocOk`) gives every block
back to the allocator it came from. The trees and the answers are those of the program without regard to allocators, so
everything said about those holds here too. -/
theorem C92_programs_nary {l : List (ACall α (Tree α))} (h : SupportsA (Nary.shape α) AWorld.start l) :
    ∃ A as ts, AWorld.start.run (Nary.kind α) l = Res.ok (A, as) ∧ start.run (Nary.kind α) (l.map ACall.plain) = Res.ok (A.W, as) ∧
      Trace (Nary.shape α) start (fun _ => none) ((l.map ACall.plain).zip as) A.W ts ∧ Owned (Nary.shape α) A.W ts ∧
      Homed (Nary.shape α) A ts :=
  Generic.alloc_history (Nary.lawful α) (Nary.determined α) l AWorld.start _ (start_owned (Nary.lawful α)) (by rintro x t ⟨⟩) h

/-- C92, for binary trees. -/
theorem C92_programs_binary {l : List (ACall α (Lit α))} (h : SupportsA (Binary.shape α) AWorld.start l) :
    ∃ A as ts, AWorld.start.run (Binary.kind α) l = Res.ok (A, as) ∧ start.run (Binary.kind α) (l.map ACall.plain) = Res.ok (A.W, as) ∧
      Trace (Binary.shape α) start (fun _ => none) ((l.map ACall.plain).zip as) A.W ts ∧ Owned (Binary.shape α) A.W ts ∧
      Homed (Binary.shape α) A ts :=
  Generic.alloc_history (Binary.lawful α) (Binary.determined α) l AWorld.start _ (start_owned (Binary.lawful α)) (by rintro x t ⟨⟩) h

/-- C92, exactly which calls: where every node came from the allocator of its tree, a supported call runs and leaves it so if and
only if `AllocOk` says so. -/
theorem C92_exactly_nary {A : AWorld (NNode α)} {ts : Nat → Option (Option (Tree (Addr × α)))}
    (O : Owned (Nary.shape α) A.W ts) (H : Homed (Nary.shape α) A ts) (c : ACall α (Tree α))
    (hl : Legal (Nary.shape α) A.W.heap ts c.plain) :
    ∃ W' o ts', A.W.step (Nary.kind α) c.plain = Res.ok (W', o) ∧ Owned (Nary.shape α) W' ts' ∧
      Effect (Nary.shape α) A.W.heap ts W'.heap ts' o c.plain ∧
      (AllocOk (Nary.shape α) A ts c ↔ ∃ A', A.step (Nary.kind α) c = Res.ok (A', o) ∧ A'.W = W' ∧ Homed (Nary.shape α) A' ts') :=
  alloc_step (Nary.lawful α) O H c hl

/-- C92, exactly which calls, for binary trees. -/
theorem C92_exactly_binary {A : AWorld (BNode α)} {ts : Nat → Option (BTree (Addr × α))}
    (O : Owned (Binary.shape α) A.W ts) (H : Homed (Binary.shape α) A ts) (c : ACall α (Lit α))
    (hl : Legal (Binary.shape α) A.W.heap ts c.plain) :
    ∃ W' o ts', A.W.step (Binary.kind α) c.plain = Res.ok (W', o) ∧ Owned (Binary.shape α) W' ts' ∧
      Effect (Binary.shape α) A.W.heap ts W'.heap ts' o c.plain ∧
      (AllocOk (Binary.shape α) A ts c ↔ ∃ A', A.step (Binary.kind α) c = Res.ok (A', o) ∧ A'.W = W' ∧ Homed (Binary.shape α) A' ts') :=
  alloc_step (Binary.lawful α) O H c hl

/-- C93 is refuted by every other call: the constructors that make nodes, move assignment to a tree with nodes, `swap`, and
insertions of moved trees, between trees with different allocators. The call itself is undefined behaviour, or it leaves a tree
whose destruction is. -/
theorem C93_other_calls_nary_defect {A : AWorld (NNode α)} {ts : Nat → Option (Option (Tree (Addr × α)))}
    (O : Owned (Nary.shape α) A.W ts) (H : Homed (Nary.shape α) A ts) (c : ACall α (Tree α))
    (hl : Legal (Nary.shape α) A.W.heap ts c.plain) (hn : ¬ AllocOk (Nary.shape α) A ts c) :
    A.step (Nary.kind α) c = Res.ub ∨
      ∃ A' o x, A.step (Nary.kind α) c = Res.ok (A', o) ∧ (A'.W.vars x).isSome ∧ A'.step (Nary.kind α) (.call (.destroy x)) = Res.ub :=
  Generic.disrespect (Nary.lawful α) O H c hl hn

/-- C93 is refuted by every other call, for binary trees. -/
theorem C93_other_calls_binary_defect {A : AWorld (BNode α)} {ts : Nat → Option (BTree (Addr × α))}
    (O : Owned (Binary.shape α) A.W ts) (H : Homed (Binary.shape α) A ts) (c : ACall α (Lit α))
    (hl : Legal (Binary.shape α) A.W.heap ts c.plain) (hn : ¬ AllocOk (Binary.shape α) A ts c) :
    A.step (Binary.kind α) c = Res.ub ∨
      ∃ A' o x, A.step (Binary.kind α) c = Res.ok (A', o) ∧ (A'.W.vars x).isSome ∧ A'.step (Binary.kind α) (.call (.destroy x)) = Res.ub :=
  Generic.disrespect (Binary.lawful α) O H c hl hn

/-- C93: a tree with a node from another allocator can be neither destroyed nor cleared. -/
theorem C93_strange_node_nary_defect {A : AWorld (NNode α)} {ts : Nat → Option (Option (Tree (Addr × α)))}
    (O : Owned (Nary.shape α) A.W ts) {x : Nat} {t : Option (Tree (Addr × α))} {a : Addr} (hx : ts x = some t)
    (ha : a ∈ (Nary.shape α).addrs t) (hne : A.origin a ≠ A.al x) :
    A.step (Nary.kind α) (.call (.destroy x)) = Res.ub ∧ A.step (Nary.kind α) (.call (.clear x)) = Res.ub :=
  Generic.strange_node (Nary.lawful α) O hx ha hne

/-- C93: a tree with a node from another allocator can be neither destroyed nor cleared. -/
theorem C93_strange_node_binary_defect {A : AWorld (BNode α)} {ts : Nat → Option (BTree (Addr × α))}
    (O : Owned (Binary.shape α) A.W ts) {x : Nat} {t : BTree (Addr × α)} {a : Addr} (hx : ts x = some t)
    (ha : a ∈ (Binary.shape α).addrs t) (hne : A.origin a ≠ A.al x) :
    A.step (Binary.kind α) (.call (.destroy x)) = Res.ub ∧ A.step (Binary.kind α) (.call (.clear x)) = Res.ub :=
  Generic.strange_node (Binary.lawful α) O hx ha hne

/-- C92: which allocator a tree holds is said by the calls made before (`heldAfter`): the one it was constructed with, until it takes
over that of another tree by move construction or move assignment. No other call changes it. -/
theorem C92_held_nary {l : List (ACall α (Tree α))} {A : AWorld (NNode α)} {as : List Ans}
    (e : AWorld.start.run (Nary.kind α) l = Res.ok (A, as)) (x : Nat) : A.al x = heldAfter l.reverse x := by
  simpa using held_run l _ _ as [] (fun _ => rfl) e x

/-- C92: which allocator a tree holds, for binary trees. -/
theorem C92_held_binary {l : List (ACall α (Lit α))} {A : AWorld (BNode α)} {as : List Ans}
    (e : AWorld.start.run (Binary.kind α) l = Res.ok (A, as)) (x : Nat) : A.al x = heldAfter l.reverse x := by
  simpa using held_run l _ _ as [] (fun _ => rfl) e x

/-- C93: `get_allocator` of a tree constructed with an allocator other than a default one does not return it. -/
theorem C93_get_allocator_defect (x i : Nat) (hi : i ≠ 0) :
    ∃ (A : AWorld (NNode α)) (as : List Ans), AWorld.start.run (Nary.kind α) [.newWith x i] = Res.ok (A, as) ∧
      A.getAllocator x ≠ heldAfter [(.newWith x i : ACall α (Tree α))] x :=
  ⟨_, _, rfl, by simp [AWorld.getAllocator, heldAfter, Ne.symm hi]⟩

/-! ### concrete cases -/
namespace Samples
variable {ν lit T V C : Type} {K : Kind ν α lit} {S : Shape K T V C}

/-- Two trees with the allocators 1 and 2; both get nodes; the second is copied into the first; a third takes over the second. -/
def nallocs : List (ACall Nat (Tree Nat)) :=
  [.newWith 0 1, .newWith 1 2, .call (.assignLit 0 (node 1 [node 2 []])), .call (.assignLit 1 (node 8 [node 9 []])),
   .call (.insertOver true true Policy.preOrder 0 ⟨⟨some 1, []⟩, some 0⟩ (.copyOf 1)), .call (.newMove 2 1)]

/-- What happens in the end. -/
def endA (l : List (ACall Nat (Tree Nat))) : Option (List Ans × List Nat × List Nat) :=
  match AWorld.start.run (Nary.kind Nat) l with
  | .ok (A, as) => some (as, (List.range 3).map A.al, (List.range A.W.heap.next).map A.origin)
  | _ => none

theorem supportsA_next (L : Lawful S) {A : AWorld ν} {ts : Nat → Option T} (O : Owned S A.W ts) {c : ACall α lit} {cs : List (ACall α lit)}
    (hl : Legal S A.W.heap ts c.plain) (hok : AllocOk S A ts c)
    (h : ∀ A' o, A.step K c = Res.ok (A', o) → (∃ ts', Owned S A'.W ts') → SupportsA S A' cs) : SupportsA S A (c :: cs) := by
  refine ⟨⟨ts, O, hl, hok⟩, fun A' o e => h A' o e ?_⟩
  obtain ⟨W', o', ts', e', O', _⟩ := step_spec L O c.plain hl
  refine ⟨ts', ?_⟩
  cases c with
  | newWith x i =>
    simp only [AWorld.step, ACall.plain] at e e'
    rw [e'] at e
    cases e; exact O'
  | call op =>
    obtain ⟨_, _, rfl, _⟩ := call_of_ok O.wf e' e
    exact O'

theorem nallocs_supported : SupportsA (Nary.shape Nat) AWorld.start nallocs := by
  have L := Nary.lawful Nat
  have D := Nary.determined Nat
  refine supportsA_next L (ts := fun _ => none) (start_owned L) (show _ = _ from rfl) trivial ?_
  rintro A1 o1 ⟨⟩ ⟨ts1, O1⟩
  refine supportsA_next L O1 (dead O1 rfl) trivial ?_
  rintro A2 o2 ⟨⟩ ⟨ts2, O2⟩
  refine supportsA_next L O2 ⟨live O2 rfl, trivial⟩ trivial ?_
  rintro A3 o3 ⟨⟩ ⟨ts3, O3⟩
  refine supportsA_next L O3 ⟨live O3 rfl, trivial⟩ trivial ?_
  rintro A4 o4 ⟨⟩ ⟨ts4, O4⟩
  have h4 : ts4 0 = some (some (node (0,1) [node (1,2) []])) := pin D O4 rfl ((Nary.shape_rep _ _).mpr (by decide)) rfl
  have h4' : ts4 1 = some (some (node (2,8) [node (3,9) []])) := pin D O4 rfl ((Nary.shape_rep _ _).mpr (by decide)) rfl
  refine supportsA_next L O4 ⟨_, h4, live O4 rfl, Or.inr (Or.inl ⟨_, _, nary_at preOrder_mem
    [⟨(0,1), [], []⟩] (node (1,2) []) rfl rfl rfl rfl, Or.inr (Or.inl (by simp [SrcEmpty, h4', Nary.shape]))⟩)⟩ trivial ?_
  rintro A5 o5 ⟨⟩ ⟨ts5, O5⟩
  refine supportsA_next L O5 ⟨dead O5 rfl, live O5 rfl⟩ trivial ?_
  rintro A6 o6 _ _
  trivial
end Samples

open Samples in
/-- The copy was made by allocator 1; the tree that took over the second has its allocator. -/
example : (endA nallocs).map (·.2) = some ([1, 2, 2], [1, 1, 2, 2, 1, 1]) := by decide +kernel

open Samples in
/-- Which allocators the calls of `nallocs` leave in the three objects. -/
example : (List.range 3).map (heldAfter nallocs.reverse) = [1, 2, 2] := by decide +kernel

open Samples in
/-- An object constructed anew does not keep the allocator of the one that was destroyed. -/
example : (endA [.newWith 0 1, .call (.destroy 0), .call (.newEmpty 0)]).map (·.2.1) = some [0, 0, 0] := by decide +kernel

open Samples in
/-- `x1 = std::move(x0)` frees the nodes of `x1` with the allocator of `x0`; `swap` and moving one into the other leave trees that
cannot be destroyed. -/
example :
    endA [.newWith 0 1, .newWith 1 2, .call (.assignLit 0 (node 1 [])), .call (.assignLit 1 (node 8 [])), .call (.assignMove 1 0)] = none ∧
    (endA [.newWith 0 1, .newWith 1 2, .call (.assignLit 1 (node 8 [])), .call (.swap 0 1)]).isSome ∧
    endA [.newWith 0 1, .newWith 1 2, .call (.assignLit 1 (node 8 [])), .call (.swap 0 1), .call (.destroy 0)] = none ∧
    (endA [.newWith 0 1, .newWith 1 2, .call (.assignLit 1 (node 8 [])),
      .call (.insertOver true true Policy.preOrder 0 ⟨⟨none, []⟩, none⟩ (.moveOf 1))]).isSome ∧
    endA [.newWith 0 1, .newWith 1 2, .call (.assignLit 1 (node 8 [])),
      .call (.insertOver true true Policy.preOrder 0 ⟨⟨none, []⟩, none⟩ (.moveOf 1)), .call (.destroy 0)] = none ∧
    endA [.newWith 0 1, .call (.newLit 1 (node 8 []))] = none := by decide +kernel

open Samples in
/-- The hypotheses of the theorem on other calls. -/
example : ∃ (A : AWorld (NNode Nat)) (ts : Nat → Option (Option (Tree (Addr × Nat)))), Owned (Nary.shape Nat) A.W ts ∧
    Homed (Nary.shape Nat) A ts ∧ Legal (lit := Tree Nat) (Nary.shape Nat) A.W.heap ts (.swap 0 2) ∧
    ¬ AllocOk (Nary.shape Nat) A ts (.call (.swap 0 2) : ACall Nat (Tree Nat)) := by
  obtain ⟨A, as, ts, e, _, _, O, H⟩ := C92_programs_nary nallocs_supported
  have hs : (endA nallocs).map (·.2.1) = some [1, 2, 2] := by decide +kernel
  have h2 : (List.range 3).map A.al = [1, 2, 2] := by simpa [endA, e] using hs
  have hv : ∃ r r2, A.W.vars 0 = some r ∧ A.W.vars 2 = some r2 ∧ r.root = some 0 := by
    cases e
    exact ⟨_, _, rfl, rfl, rfl⟩
  obtain ⟨r, r2, hr, hr2, hroot⟩ := hv
  have a0 : A.al 0 = 1 := by have := congrArg (·[0]?) h2; simpa using this
  have a2 : A.al 2 = 2 := by have := congrArg (·[2]?) h2; simpa using this
  have l0 := live O (show (A.W.vars 0).isSome by rw [hr]; rfl)
  have l2 := live O (show (A.W.vars 2).isSome by rw [hr2]; rfl)
  refine ⟨A, ts, O, H, ⟨l0, l2⟩, ?_⟩
  rintro (h | ⟨h, _⟩)
  · rw [a0, a2] at h; cases h
  · have := (O.root 0 _ _ hr h).1
    rw [hroot] at this; cases this
