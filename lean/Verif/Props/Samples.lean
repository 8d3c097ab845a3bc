import Verif.Spec.Repr
import Verif.Proof.Laws
/-!
# Concrete heaps for the non-vacuity examples and the counterexamples
-/
open Tree

/-- A heap made of listed records. -/
def Heap.ofList {ν : Type} (l : List (Addr × ν)) (next : Addr) : Heap ν :=
  ⟨fun a => (l.find? (fun p => p.1 == a)).map Prod.snd, next⟩

theorem Heap.holds_ofList {ν : Type} (l : List (Addr × ν)) (next : Addr) (hn : (l.map Prod.fst).Nodup) :
    Holds (Heap.ofList l next) l := by
  induction l with
  | nil => simp [Holds]
  | cons p l ih =>
    simp only [List.map_cons, List.nodup_cons] at hn
    intro x hx
    rcases List.mem_cons.mp hx with rfl | hx
    · simp [Heap.ofList]
    · have hne : (p.1 == x.1) = false := by
        simp only [beq_eq_false_iff_ne]
        rintro h
        exact hn.1 (h ▸ List.mem_map_of_mem hx)
      have := ih hn.2 x hx
      simp only [Heap.ofList, List.find?_cons, hne] at this ⊢
      exact this

theorem Heap.wf_ofList {ν : Type} (l : List (Addr × ν)) (next : Addr) (hn : ∀ p ∈ l, p.1 < next) :
    (Heap.ofList l next).WF := by
  intro a ha
  simp only [Heap.ofList, Option.map_eq_none_iff, List.find?_eq_none, beq_iff_eq]
  rintro p hp rfl
  exact Nat.lt_irrefl _ (Nat.lt_of_lt_of_le (hn p hp) ha)

namespace Samples

/-- `1(2,3,4)` at addresses 0, 1, 2, 3. -/
def flat : Tree (Addr × Nat) := node (0, 1) [node (1, 2) [], node (2, 3) [], node (3, 4) []]
def flatHeap : NHeap Nat := Heap.ofList (Nary.cells none none none 0 flat) 4

theorem flat_rep : Nary.Rep flatHeap flat :=
  ⟨Heap.holds_ofList _ _ (by decide), by decide⟩
theorem flat_wf : flatHeap.WF := Heap.wf_ofList _ _ (by decide)

/-- `1(2(5,6(7)),3,4)`. -/
def deep : Tree (Addr × Nat) :=
  node (0, 1) [node (1, 2) [node (4, 5) [], node (5, 6) [node (6, 7) []]], node (2, 3) [], node (3, 4) []]
def deepHeap : NHeap Nat := Heap.ofList (Nary.cells none none none 0 deep) 7

theorem deep_rep : Nary.Rep deepHeap deep :=
  ⟨Heap.holds_ofList _ _ (by decide), by decide⟩
theorem deep_wf : deepHeap.WF := Heap.wf_ofList _ _ (by decide)

/-- The binary tree `1(2(-,4),3(5,-))`. -/
def bin : BTree (Addr × Nat) :=
  .node (0, 1) (.node (1, 2) .nil (.node (2, 4) .nil .nil)) (.node (3, 3) (.node (4, 5) .nil .nil) .nil)
def binHeap : BHeap Nat := Heap.ofList (Binary.cells none bin) 5

theorem bin_rep : Binary.Rep binHeap bin :=
  ⟨Heap.holds_ofList _ _ (by decide), by decide⟩
theorem bin_wf : binHeap.WF := Heap.wf_ofList _ _ (by decide)

/-- `bin` without left/right. -/
def binRose : Tree (Addr × Nat) :=
  node (0, 1) [node (1, 2) [node (2, 4) []], node (3, 3) [node (4, 5) []]]
theorem bin_toRose : bin.toRose = [binRose] := rfl

end Samples
