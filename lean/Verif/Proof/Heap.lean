import Verif.Spec.Repr
/-! Heaps and lists of records. -/

theorem Res.bind_assoc {α β γ : Type} (x : Res α) (f : α → Res β) (g : β → Res γ) :
    (x >>= f) >>= g = x >>= (fun a => f a >>= g) := by cases x <;> rfl

/-- The addresses of a list of records. -/
def keys {ν : Type} (l : List (Addr × ν)) : List Addr := l.map Prod.fst

section
variable {ν : Type} {h : Heap ν} {l l1 l2 : List (Addr × ν)} {a b : Addr} {n : ν}

@[simp] theorem keys_nil : keys ([] : List (Addr × ν)) = [] := rfl
@[simp] theorem keys_cons (p : Addr × ν) : keys (p :: l) = p.1 :: keys l := rfl
@[simp] theorem keys_append : keys (l1 ++ l2) = keys l1 ++ keys l2 := by simp [keys]

@[simp] theorem holds_nil : Holds h [] := by simp [Holds]
@[simp] theorem holds_cons {p : Addr × ν} : Holds h (p :: l) ↔ h.cells p.1 = some p.2 ∧ Holds h l := by simp [Holds]
@[simp] theorem holds_append : Holds h (l1 ++ l2) ↔ Holds h l1 ∧ Holds h l2 := by
  simp [Holds, or_imp, forall_and]

theorem Holds.congr {h' : Heap ν} (H : Holds h l) (he : ∀ a ∈ keys l, h'.cells a = h.cells a) : Holds h' l := by
  intro p hp
  rw [he p.1 (List.mem_map.mpr ⟨p, hp, rfl⟩), H p hp]

theorem Holds.perm (H : Holds h l1) (hp : l1.Perm l2) : Holds h l2 := fun p hm => H p (hp.mem_iff.mpr hm)

theorem Holds.isSome (H : Holds h l) (ha : a ∈ keys l) : (h.cells a).isSome := by
  obtain ⟨p, hp, rfl⟩ := List.mem_map.mp ha
  simp [H p hp]

namespace Heap

@[simp] theorem set_cells (h : Heap ν) (a : Addr) (n : ν) (b : Addr) :
    (h.set a n).cells b = if b = a then some n else h.cells b := rfl
@[simp] theorem set_next (h : Heap ν) (a : Addr) (n : ν) : (h.set a n).next = h.next := rfl

theorem read_of (hc : h.cells a = some n) : h.read a = Res.ok n := by simp [read, hc]
theorem modify_of (hc : h.cells a = some n) (f : ν → ν) : h.modify a f = Res.ok (h.set a (f n)) := by
  simp [modify, hc]

/-- The heap without the cells at the given addresses. -/
def freeAll (h : Heap ν) (ks : List Addr) : Heap ν := { h with cells := fun x => if x ∈ ks then none else h.cells x }

@[simp] theorem freeAll_cells (ks : List Addr) (b : Addr) :
    (h.freeAll ks).cells b = if b ∈ ks then none else h.cells b := rfl
@[simp] theorem freeAll_next (ks : List Addr) : (h.freeAll ks).next = h.next := rfl
@[simp] theorem freeAll_nil : h.freeAll [] = h := by simp [freeAll]
theorem freeAll_freeAll (ks ls : List Addr) : (h.freeAll ks).freeAll ls = h.freeAll (ks ++ ls) := by
  simp only [freeAll]
  congr 1
  funext x
  by_cases h1 : x ∈ ls <;> by_cases h2 : x ∈ ks <;> simp [h1, h2]
theorem free_of (hc : h.cells a = some n) : h.free a = Res.ok (h.freeAll [a]) := by
  simp [free, hc, freeAll]
theorem freeAll_congr {ks ls : List Addr} (he : ∀ x, x ∈ ks ↔ x ∈ ls) : h.freeAll ks = h.freeAll ls := by
  simp [freeAll, he]

end Heap

theorem holds_set (ha : a ∉ keys l) : Holds (h.set a n) l ↔ Holds h l := by
  constructor
  · intro H; refine H.congr ?_
    intro b hb; simp; rintro rfl; exact absurd hb ha
  · intro H; refine H.congr ?_
    intro b hb; simp; rintro rfl; exact absurd hb ha

theorem holds_freeAll {ks : List Addr} (ha : ∀ x ∈ keys l, x ∉ ks) (H : Holds h l) : Holds (h.freeAll ks) l :=
  H.congr (by intro b hb; simp [ha b hb])

/-- `h'` arose from `h` by allocating exactly the cells `ks`. -/
structure Grown (h h' : Heap ν) (ks : List Addr) : Prop where
  wf : h'.WF
  le : h.next ≤ h'.next
  fresh : ∀ a ∈ ks, h.next ≤ a ∧ a < h'.next
  only : ∀ a, h.next ≤ a → a ∉ ks → h'.cells a = none
  same : ∀ a, a < h.next → h'.cells a = h.cells a

theorem Holds.lt_next (H : Holds h l) (hw : h.WF) (ha : a ∈ keys l) : a < h.next := by
  refine Nat.lt_of_not_le fun hle => ?_
  have := H.isSome ha
  simp [hw a hle] at this

theorem grown_alloc (hw : h.WF) (n : ν) : Grown h (h.alloc n).1 [h.next] := by
  refine ⟨?_, by simp [Heap.alloc], by simp [Heap.alloc], ?_, ?_⟩
  · intro a ha
    simp only [Heap.alloc] at ha ⊢
    have h1 : a ≠ h.next := by grind
    simp [h1]; exact hw a (by grind)
  · intro a ha hm
    simp at hm
    simp [Heap.alloc, hm]; exact hw a ha
  · intro a ha
    have h1 : a ≠ h.next := by grind
    simp [Heap.alloc, h1]

theorem Grown.trans {h1 h2 h3 : Heap ν} {ks ls : List Addr} (G : Grown h1 h2 ks) (K : Grown h2 h3 ls) :
    Grown h1 h3 (ks ++ ls) := by
  have := G.le; have := K.le
  refine ⟨K.wf, by grind, ?_, ?_, ?_⟩
  · intro a ha
    simp at ha
    rcases ha with ha | ha
    · have := G.fresh a ha; grind
    · have := K.fresh a ha; grind
  · intro a ha hm
    simp at hm
    by_cases hx : h2.next ≤ a
    · exact K.only a hx hm.2
    · rw [K.same a (by grind)]; exact G.only a ha hm.1
  · intro a ha
    rw [K.same a (by grind), G.same a ha]

theorem Grown.set {h' : Heap ν} {ks : List Addr} (G : Grown h h' ks) {a : Addr} (n : ν) (ha : a ∈ ks) :
    Grown h (h'.set a n) ks := by
  have := G.fresh a ha
  refine ⟨?_, G.le, G.fresh, ?_, ?_⟩
  · intro b hb
    have : b ≠ a := by simp at hb; grind
    simp [this]; exact G.wf b hb
  · intro b hb hm
    have : b ≠ a := by grind
    simp [this]; exact G.only b hb hm
  · intro b hb
    have : b ≠ a := by grind
    simp [this]; exact G.same b hb

theorem Grown.congr {h' : Heap ν} {ks ls : List Addr} (G : Grown h h' ks) (he : ∀ x, x ∈ ks ↔ x ∈ ls) : Grown h h' ls :=
  ⟨G.wf, G.le, fun a ha => G.fresh a ((he a).mpr ha), fun a ha hm => G.only a ha (fun hk => hm ((he a).mp hk)), G.same⟩

theorem Grown.holds {h' : Heap ν} {ks : List Addr} (G : Grown h h' ks) (hw : h.WF) (H : Holds h l) : Holds h' l :=
  H.congr (fun _ ha => G.same _ (H.lt_next hw ha))

end
