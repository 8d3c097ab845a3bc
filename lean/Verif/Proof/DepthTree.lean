import Verif.Spec.Depth
import Verif.Proof.Tree
/-! Facts about `ladder` and `BTree.height`. -/
namespace Tree
variable {β γ : Type}

@[simp] theorem ladder_nil : ladder ([] : List (Tree β)) = 0 := by simp [ladder]
@[simp] theorem ladder_cons (t : Tree β) (ts : List (Tree β)) : ladder (t :: ts) = max (ladder t.children) (ladder ts) + 1 := by
  cases t; simp [ladder, under, children]

theorem ladder_le : ∀ ts : List (Tree β), ladder ts ≤ sizeL ts
  | [] => by simp [ladder]
  | node p cs :: ts => by
    have h1 := ladder_le cs
    have h2 := ladder_le ts
    rw [ladder_cons]
    simp only [children, sizeL, size]
    omega
termination_by ts => sizeL ts
decreasing_by all_goals (simp only [sizeL, size]; omega)

theorem heightL_le : ∀ ts : List (Tree β), heightL ts ≤ ladder ts
  | [] => by simp [heightL]
  | node p cs :: ts => by
    have h1 := heightL_le cs
    have h2 := heightL_le ts
    rw [ladder_cons]
    simp only [children, heightL, height]
    omega
termination_by ts => sizeL ts
decreasing_by all_goals (simp only [sizeL, size]; omega)

theorem length_le_ladder : ∀ ts : List (Tree β), ts.length ≤ ladder ts
  | [] => by simp
  | t :: ts => by have := length_le_ladder ts; simp; omega

theorem ladder_mapL (f : β → γ) : ∀ ts : List (Tree β), ladder (mapL f ts) = ladder ts
  | [] => by simp [mapL]
  | node p cs :: ts => by
    have h1 := ladder_mapL f cs
    have h2 := ladder_mapL f ts
    simp only [mapL, map, ladder_cons, children, h1, h2]
termination_by ts => sizeL ts
decreasing_by all_goals (simp only [sizeL, size]; omega)

end Tree

namespace BTree
variable {β : Type}
theorem height_le : ∀ t : BTree β, t.height ≤ t.size
  | .nil => by simp [height]
  | .node p l r => by
    have := height_le l
    have := height_le r
    simp [height, size]; omega
end BTree

namespace Tree
variable {β : Type}

theorem ladder_mem {ts : List (Tree β)} {t : Tree β} (ht : t ∈ ts) : ladder [t] ≤ ladder ts := by
  induction ts with
  | nil => simp at ht
  | cons u us ih =>
    rcases List.mem_cons.mp ht with rfl | h
    · simp; omega
    · have := ih h; simp at this ⊢; omega

theorem ladder_plug : ∀ (fs : List (Frame β)) (s : Tree β), ladder [s] + fs.length ≤ ladder [plug fs s]
  | [], s => by simp
  | f :: fs, s => by
    have h1 := ladder_plug fs (node f.label (f.lefts ++ s :: f.rights))
    have h2 := ladder_mem (ts := f.lefts ++ s :: f.rights) (t := s) (by simp)
    rw [plug_cons]
    have h3 : ladder [node f.label (f.lefts ++ s :: f.rights)] = ladder (f.lefts ++ s :: f.rights) + 1 := by simp [children]
    simp only [List.length_cons]
    omega

theorem ladder_bound (k : Nat) : ∀ ts : List (Tree β), arityL ts ≤ k → ts ≠ [] → ladder ts ≤ ts.length + (heightL ts - 1) * k
  | [], _, h => absurd rfl h
  | node p cs :: ts, hk, _ => by
    simp only [arityL, arity] at hk
    rw [ladder_cons]
    simp only [children, List.length_cons, heightL, height]
    have h2 : ladder ts ≤ ts.length + (heightL ts - 1) * k := by
      by_cases e : ts = []
      · simp [e]
      · exact ladder_bound k ts (by omega) e
    have h1 : ladder cs ≤ heightL cs * k := by
      by_cases e : cs = []
      · simp [e]
      · have := ladder_bound k cs (by omega) e
        have hh : 0 < heightL cs := by
          cases cs with
          | nil => exact absurd rfl e
          | cons c cs => cases c; simp only [heightL, height]; omega
        obtain ⟨m, hm⟩ : ∃ m, heightL cs = m + 1 := ⟨heightL cs - 1, by omega⟩
        rw [hm] at this ⊢
        simp only [Nat.add_sub_cancel, Nat.add_mul, Nat.one_mul] at this ⊢
        omega
    have h3 : heightL cs * k ≤ (max (heightL cs + 1) (heightL ts) - 1) * k := Nat.mul_le_mul_right k (by omega)
    have h4 : (heightL ts - 1) * k ≤ (max (heightL cs + 1) (heightL ts) - 1) * k := Nat.mul_le_mul_right k (by omega)
    omega
termination_by ts => sizeL ts
decreasing_by all_goals (simp only [sizeL, size]; omega)

end Tree
