import Verif.Proof.Lawful
/-! Ownership of nodes while an operation is under way: the named trees plus one loose tree. -/
open Tree

section
variable {ν α lit T V C : Type} {K : Kind ν α lit} {S : Shape K T V C} {h h' : Heap ν} {ts : Nat → Option T} {n s t u : T}
  {x y : Nat} {c : C} {a : Addr} {Z : Addr → Prop}

namespace Lawful
variable (L : Lawful S)
include L

theorem ptr_nil : S.ptr S.nil = none := by simp [Shape.ptr, L.rose_nil]
theorem addrs_nil : S.addrs S.nil = [] := by simp [Shape.addrs, L.rose_nil]
theorem size_nil : S.size S.nil = 0 := by simp [Shape.size, L.rose_nil]
theorem arity_nil : S.arity S.nil = 0 := by simp [Shape.arity, L.rose_nil, arityL]

theorem rose_of_ptr (h : S.ptr t = some a) : ∃ R, S.rose t = [R] ∧ R.label = a := by
  rcases L.rose_cases t with rfl | ⟨R, hR⟩
  · simp [L.ptr_nil] at h
  · exact ⟨R, hR, by simpa [Shape.ptr, hR] using h⟩

theorem ptr_of_ne (h : t ≠ S.nil) : ∃ a, S.ptr t = some a := by
  rcases L.rose_cases t with rfl | ⟨R, hR⟩
  · exact absurd rfl h
  · exact ⟨R.label, by simp [Shape.ptr, hR]⟩

theorem ptr_none_iff : S.ptr t = none ↔ t = S.nil := by
  constructor
  · intro h
    rcases L.rose_cases t with rfl | ⟨R, hR⟩
    · rfl
    · simp [Shape.ptr, hR] at h
  · rintro rfl; exact L.ptr_nil

theorem ptr_mem (h : S.ptr t = some a) : a ∈ S.addrs t := by
  obtain ⟨R, hR, rfl⟩ := L.rose_of_ptr h
  simp [Shape.addrs, hR, preL, label_mem_pre]

theorem length_addrs : (S.addrs t).length = S.size t := by
  rcases L.rose_cases t with rfl | ⟨R, hR⟩
  · simp [L.addrs_nil, L.size_nil]
  · simp [Shape.addrs, Shape.size, hR, preL]

theorem locate (h : a ∈ S.addrs t) : ∃ c s, S.plug c s = t ∧ S.ptr s = some a := by
  rcases L.rose_cases t with rfl | ⟨R, hR⟩
  · simp [L.addrs_nil] at h
  · simp [Shape.addrs, hR, preL] at h
    obtain ⟨fs, v, h1, h2⟩ := exists_plug_of_mem h
    obtain ⟨c, s, h3, h4⟩ := L.find t fs v (by rw [hR, h1])
    exact ⟨c, s, h3, by simp [Shape.ptr, h4, h2]⟩

theorem mem_plug {c : C} {s : T} {b : Addr} : b ∈ S.addrs (S.plug c s) ↔ b ∈ S.addrs (S.plug c S.nil) ∨ b ∈ S.addrs s := by
  rw [(L.addrs_plug c s).mem_iff, List.mem_append]

/-- The root is in the context unless the position is the root. -/
theorem root_iff (H : S.Rep h (S.plug c s)) (ha : S.ptr s = some a) : S.ptr (S.plug c s) = some a ↔ c = S.top := by
  constructor
  · intro hp
    refine Classical.byContradiction fun hc => ?_
    obtain ⟨b, hb⟩ := L.ptr_plug_mem c hc
    rw [L.ptr_plug c s S.nil hc, hb] at hp
    have h1 := L.ptr_mem hb
    have h2 := L.ptr_mem ha
    have := (L.addrs_plug c s).nodup_iff.mp (L.rep_nodup _ _ H)
    simp at hp; subst hp
    exact (List.nodup_append.mp this).2.2 _ h1 _ h2 rfl
  · rintro rfl; rw [L.plug_top]; exact ha

theorem mem_front (ha : S.ptr s = some a) (hf : S.isFull s = false) {b : Addr} :
    b ∈ S.addrs (S.front n s) ↔ b ∈ S.addrs n ∨ b ∈ S.addrs s := by
  obtain ⟨R, hR, rfl⟩ := L.rose_of_ptr ha
  simp only [Shape.addrs, L.rose_front s R n hR hf, hR, preL, pre, List.append_nil]
  rw [pre_eq_cons R]
  simp; grind

theorem mem_back (ha : S.ptr s = some a) (hf : S.isFull s = false) {b : Addr} :
    b ∈ S.addrs (S.back n s) ↔ b ∈ S.addrs n ∨ b ∈ S.addrs s := by
  obtain ⟨R, hR, rfl⟩ := L.rose_of_ptr ha
  simp only [Shape.addrs, L.rose_back s R n hR hf, hR, preL, pre, List.append_nil]
  rw [pre_eq_cons R]
  simp; grind

theorem ptr_front (ha : S.ptr s = some a) (hf : S.isFull s = false) : S.ptr (S.front n s) = some a := by
  obtain ⟨R, hR, rfl⟩ := L.rose_of_ptr ha
  simp [Shape.ptr, L.rose_front s R n hR hf]

theorem ptr_back (ha : S.ptr s = some a) (hf : S.isFull s = false) : S.ptr (S.back n s) = some a := by
  obtain ⟨R, hR, rfl⟩ := L.rose_of_ptr ha
  simp [Shape.ptr, L.rose_back s R n hR hf]

end Lawful

/-- The heap consists exactly of the named trees `ts`, the loose tree `n` and the lost nodes `Z`. -/
structure Own (Z : Addr → Prop) (S : Shape K T V C) (h : Heap ν) (ts : Nat → Option T) (n : T) : Prop where
  wf : h.WF
  rep : ∀ x t, ts x = some t → S.Rep h t
  repN : S.Rep h n
  disjoint : ∀ x y t u, ts x = some t → ts y = some u → x ≠ y → ∀ a ∈ S.addrs t, a ∉ S.addrs u
  disjN : ∀ x t, ts x = some t → ∀ a ∈ S.addrs t, a ∉ S.addrs n
  noLeak : ∀ a, (h.cells a).isSome → (∃ x t, ts x = some t ∧ a ∈ S.addrs t) ∨ a ∈ S.addrs n ∨ Z a
  lost : ∀ a, Z a → (h.cells a).isSome
  apart : ∀ x t, ts x = some t → ∀ a ∈ S.addrs t, ¬ Z a
  apartN : ∀ a ∈ S.addrs n, ¬ Z a

theorem upd_same {β : Type} (f : Nat → β) (x : Nat) (b : β) : upd f x b x = b := by simp [upd]
theorem upd_other {β : Type} (f : Nat → β) {x y : Nat} (b : β) (hy : y ≠ x) : upd f x b y = f y := by simp [upd, hy]

theorem upd_eq_some {β : Type} {f : Nat → Option β} {x y : Nat} {b v : β} (h : upd f x (some b) y = some v) :
    (y = x ∧ v = b) ∨ (y ≠ x ∧ f y = some v) := by
  unfold upd at h
  split at h
  · exact Or.inl ⟨‹_›, (by simpa using h.symm)⟩
  · exact Or.inr ⟨‹_›, h⟩

namespace Own
variable (L : Lawful S)
include L

/-- A fresh loose tree. -/
theorem grow (O : Own Z S h ts S.nil) (G : Grown h h' (S.addrs n)) (hn : S.Rep h' n) : Own Z S h' ts n := by
  have lt : ∀ x t, ts x = some t → ∀ a ∈ S.addrs t, a < h.next := by
    intro x t ht a ha
    refine Nat.lt_of_not_le fun hle => ?_
    have := L.rep_alive _ _ (O.rep x t ht) a ha
    simp [O.wf a hle] at this
  have zlt : ∀ a, Z a → a < h.next := by
    intro a ha
    refine Nat.lt_of_not_le fun hle => ?_
    have := O.lost a ha
    simp [O.wf a hle] at this
  refine ⟨G.wf, ?_, hn, O.disjoint, ?_, ?_, fun a ha => by rw [G.same a (zlt a ha)]; exact O.lost a ha, O.apart, ?_⟩
  · intro x t ht
    exact L.rep_congr _ _ _ (O.rep x t ht) (fun a ha => G.same a (lt x t ht a ha))
  · intro x t ht a ha hm
    have := G.fresh a hm
    have := lt x t ht a ha
    grind
  · intro a ha
    by_cases hlt : a < h.next
    · rw [G.same a hlt] at ha
      rcases O.noLeak a ha with h | h | h
      · exact Or.inl h
      · simp [L.addrs_nil] at h
      · exact Or.inr (Or.inr h)
    · refine Or.inr (Or.inl (Classical.byContradiction fun hm => ?_))
      rw [G.only a (Nat.le_of_not_lt hlt) hm] at ha; cases ha
  · intro a ha hz
    have := G.fresh a ha
    have := zlt a hz
    grind

/-- Exchange a named tree with the loose one. -/
theorem exchange (O : Own Z S h ts n) (hx : ts x = some t) : Own Z S h (upd ts x (some n)) t := by
  refine ⟨O.wf, ?_, O.rep x t hx, ?_, ?_, ?_, O.lost, ?_, O.apart x t hx⟩
  · intro y u hy
    rcases upd_eq_some hy with ⟨rfl, rfl⟩ | ⟨_, hy⟩
    · exact O.repN
    · exact O.rep y u hy
  · intro y z u v hy hz hyz a ha hv
    have hy' := upd_eq_some hy
    have hz' := upd_eq_some hz
    clear hy hz
    rcases hy' with ⟨rfl, rfl⟩ | ⟨hyx, hy⟩ <;> rcases hz' with ⟨rfl, rfl⟩ | ⟨hzx, hz⟩
    · exact hyz rfl
    · exact O.disjN z v hz a hv ha
    · exact O.disjN y u hy a ha hv
    · exact O.disjoint y z u v hy hz hyz a ha hv
  · intro y u hy a ha hm
    rcases upd_eq_some hy with ⟨rfl, rfl⟩ | ⟨hyx, hy⟩
    · exact O.disjN y t hx a hm ha
    · exact O.disjoint y x u t hy hx hyx a ha hm
  · intro a ha
    rcases O.noLeak a ha with ⟨y, u, hy, hm⟩ | hm | hm
    · by_cases hyx : y = x
      · subst hyx; rw [hx] at hy; cases hy; exact Or.inr (Or.inl hm)
      · exact Or.inl ⟨y, u, by simp [upd, hyx, hy], hm⟩
    · exact Or.inl ⟨x, n, by simp [upd], hm⟩
    · exact Or.inr (Or.inr hm)
  · intro y u hy
    rcases upd_eq_some hy with ⟨rfl, rfl⟩ | ⟨_, hy⟩
    · exact O.apartN
    · exact O.apart y u hy

/-- The loose tree gets a new name. -/
theorem name (O : Own Z S h ts n) (hx : ts x = none) : Own Z S h (upd ts x (some n)) S.nil := by
  refine ⟨O.wf, ?_, L.rep_nil h, ?_, by simp [L.addrs_nil], ?_, O.lost, ?_, by simp [L.addrs_nil]⟩
  · intro y u hy
    rcases upd_eq_some hy with ⟨rfl, rfl⟩ | ⟨_, hy⟩
    · exact O.repN
    · exact O.rep y u hy
  · intro y z u v hy hz hyz a ha hv
    have hy' := upd_eq_some hy
    have hz' := upd_eq_some hz
    clear hy hz
    rcases hy' with ⟨rfl, rfl⟩ | ⟨hyx, hy⟩ <;> rcases hz' with ⟨rfl, rfl⟩ | ⟨hzx, hz⟩
    · exact hyz rfl
    · exact O.disjN z v hz a hv ha
    · exact O.disjN y u hy a ha hv
    · exact O.disjoint y z u v hy hz hyz a ha hv
  · intro a ha
    rcases O.noLeak a ha with ⟨y, u, hy, hm⟩ | hm | hm
    · refine Or.inl ⟨y, u, ?_, hm⟩
      have : y ≠ x := by rintro rfl; rw [hx] at hy; cases hy
      simp [upd, this, hy]
    · exact Or.inl ⟨x, n, by simp [upd], hm⟩
    · exact Or.inr (Or.inr hm)
  · intro y u hy
    rcases upd_eq_some hy with ⟨rfl, rfl⟩ | ⟨_, hy⟩
    · exact O.apartN
    · exact O.apart y u hy

/-- A name is dropped; its tree becomes loose. -/
theorem unname (O : Own Z S h ts S.nil) (hx : ts x = some t) : Own Z S h (upd ts x none) t := by
  have E := O.exchange L hx
  refine ⟨E.wf, ?_, E.repN, ?_, ?_, ?_, E.lost, ?_, E.apartN⟩
  · intro y u hy
    have : y ≠ x := by rintro rfl; simp [upd] at hy
    exact E.rep y u (by simpa [upd, this] using hy)
  · intro y z u v hy hz hyz
    have h1 : y ≠ x := by rintro rfl; simp [upd] at hy
    have h2 : z ≠ x := by rintro rfl; simp [upd] at hz
    exact E.disjoint y z u v (by simpa [upd, h1] using hy) (by simpa [upd, h2] using hz) hyz
  · intro y u hy
    have h1 : y ≠ x := by rintro rfl; simp [upd] at hy
    exact E.disjN y u (by simpa [upd, h1] using hy)
  · intro a ha
    rcases E.noLeak a ha with ⟨y, u, hy, hm⟩ | hm
    · rcases upd_eq_some hy with ⟨rfl, rfl⟩ | ⟨hyx, hy⟩
      · simp [L.addrs_nil] at hm
      · exact Or.inl ⟨y, u, by simp [upd, hyx, hy], hm⟩
    · exact Or.inr hm
  · intro y u hy
    have h1 : y ≠ x := by rintro rfl; simp [upd] at hy
    exact E.apart y u (by simpa [upd, h1] using hy)

/-- Nobody has the loose nodes any more. -/
theorem lose (O : Own Z S h ts n) : Own (fun a => Z a ∨ a ∈ S.addrs n) S h ts S.nil := by
  refine ⟨O.wf, O.rep, L.rep_nil _, O.disjoint, by simp [L.addrs_nil], fun a ha => ?_, ?_, ?_, by simp [L.addrs_nil]⟩
  · rcases O.noLeak a ha with h | h | h
    · exact Or.inl h
    · exact Or.inr (Or.inr (Or.inr h))
    · exact Or.inr (Or.inr (Or.inl h))
  · rintro a (h | h)
    · exact O.lost a h
    · exact L.rep_alive _ _ O.repN a h
  · rintro x t ht a ha (h | h)
    · exact O.apart x t ht a ha h
    · exact O.disjN x t ht a ha h

/-- Release the loose tree. -/
theorem release (O : Own Z S h ts n) :
    K.dealloc h.fuel h (S.ptr n) = Res.ok (h.freeAll (S.addrs n)) ∧ Own Z S (h.freeAll (S.addrs n)) ts S.nil := by
  refine ⟨L.dealloc h n O.wf O.repN, ?_, ?_, L.rep_nil _, O.disjoint, by simp [L.addrs_nil], ?_, ?_, O.apart, by simp [L.addrs_nil]⟩
  · intro a ha
    have := O.wf a ha
    simp [this]
  · intro x t ht
    exact L.rep_congr _ _ _ (O.rep x t ht) (fun a ha => by simp [O.disjN x t ht a ha])
  · intro a ha
    by_cases hm : a ∈ S.addrs n
    · simp [hm] at ha
    · simp [hm] at ha
      rcases O.noLeak a ha with h1 | h1 | h1
      · exact Or.inl h1
      · exact absurd h1 hm
      · exact Or.inr (Or.inr h1)
  · intro a ha
    have : a ∉ S.addrs n := fun hm => O.apartN a hm ha
    simpa [this] using O.lost a ha

theorem modify_aux (O : Own Z S h ts n) {t' n' : T} (hx : ts x = some t)
    (hr : S.Rep h' t') (hrn : S.Rep h' n') (hnext : h'.next = h.next)
    (hf : ∀ b, b ∉ S.addrs t → b ∉ S.addrs n → h'.cells b = h.cells b)
    (hm : ∀ b, (b ∈ S.addrs t' ∨ b ∈ S.addrs n') ↔ (b ∈ S.addrs t ∨ b ∈ S.addrs n))
    (hd : ∀ b ∈ S.addrs t', b ∉ S.addrs n') : Own Z S h' (upd ts x (some t')) n' := by
  have key : ∀ y u, y ≠ x → ts y = some u → ∀ a ∈ S.addrs u, a ∉ S.addrs t ∧ a ∉ S.addrs n := fun y u hyx hy a ha =>
    ⟨O.disjoint y x u t hy hx hyx a ha, O.disjN y u hy a ha⟩
  have key' : ∀ y u, y ≠ x → ts y = some u → ∀ a ∈ S.addrs u, a ∉ S.addrs t' ∧ a ∉ S.addrs n' := by
    intro y u hyx hy a ha
    have := key y u hyx hy a ha
    have := hm a
    grind
  have zout : ∀ b, Z b → b ∉ S.addrs t ∧ b ∉ S.addrs n := fun b hb =>
    ⟨fun hm => O.apart x t hx b hm hb, fun hm => O.apartN b hm hb⟩
  have zout' : ∀ b, Z b → b ∉ S.addrs t' ∧ b ∉ S.addrs n' := by
    intro b hb
    have := zout b hb
    have := hm b
    grind
  refine ⟨?_, ?_, hrn, ?_, ?_, ?_, fun b hb => by rw [hf b (zout b hb).1 (zout b hb).2]; exact O.lost b hb, ?_,
    fun b hb hz => (zout' b hz).2 hb⟩
  · intro a ha
    rw [hnext] at ha
    have h0 := O.wf a ha
    have h1 : a ∉ S.addrs t := fun hm => by
      have := L.rep_alive _ _ (O.rep x t hx) a hm; simp [h0] at this
    have h2 : a ∉ S.addrs n := fun hm => by
      have := L.rep_alive _ _ O.repN a hm; simp [h0] at this
    rw [hf a h1 h2, h0]
  · intro y u hy
    rcases upd_eq_some hy with ⟨rfl, rfl⟩ | ⟨hyx, hy⟩
    · exact hr
    · exact L.rep_congr _ _ _ (O.rep y u hy) (fun a ha => hf a (key y u hyx hy a ha).1 (key y u hyx hy a ha).2)
  · intro y z u v hy hz hyz a ha hv
    have hy' := upd_eq_some hy
    have hz' := upd_eq_some hz
    clear hy hz
    rcases hy' with ⟨rfl, rfl⟩ | ⟨hyx, hy⟩ <;> rcases hz' with ⟨rfl, rfl⟩ | ⟨hzx, hz⟩
    · exact hyz rfl
    · exact (key' z v hzx hz a hv).1 ha
    · exact (key' y u hyx hy a ha).1 hv
    · exact O.disjoint y z u v hy hz hyz a ha hv
  · intro y u hy a ha
    rcases upd_eq_some hy with ⟨rfl, rfl⟩ | ⟨hyx, hy⟩
    · exact hd a ha
    · exact (key' y u hyx hy a ha).2
  · intro a ha
    by_cases h1 : a ∈ S.addrs t ∨ a ∈ S.addrs n
    · rcases (hm a).mpr h1 with h2 | h2
      · exact Or.inl ⟨x, t', by simp [upd], h2⟩
      · exact Or.inr (Or.inl h2)
    · rw [not_or] at h1
      rw [hf a h1.1 h1.2] at ha
      rcases O.noLeak a ha with ⟨y, u, hy, hmem⟩ | hmem | hmem
      · have hyx : y ≠ x := by rintro rfl; rw [hx] at hy; cases hy; exact h1.1 hmem
        exact Or.inl ⟨y, u, by simp [upd, hyx, hy], hmem⟩
      · exact absurd hmem h1.2
      · exact Or.inr (Or.inr hmem)
  · intro y u hy a ha hz
    rcases upd_eq_some hy with ⟨rfl, rfl⟩ | ⟨hyx, hy⟩
    · exact (zout' a hz).1 ha
    · exact O.apart y u hy a ha hz

/-- Replace a subtree that is not the whole tree by the loose tree; the subtree becomes loose. -/
theorem replace (O : Own Z S h ts n) (hx : ts x = some (S.plug c s)) (ha : S.ptr s = some a) (hc : c ≠ S.top)
    (hn : n ≠ S.nil ∨ S.removable c) :
    ∃ h', K.replaceWith h.fuel h a (S.ptr n) = Res.ok h' ∧ Own Z S h' (upd ts x (some (S.plug c n))) s ∧ h'.next = h.next := by
  have hdis := O.disjN x _ hx
  obtain ⟨h', e, h1, h2, h3, h4⟩ := L.replace h c s n a O.wf (O.rep x _ hx) ha hc O.repN
    (fun b hb hm => hdis b hm hb) hn
  have hnd := (L.addrs_plug c s).nodup_iff.mp (L.rep_nodup _ _ (O.rep x _ hx))
  refine ⟨h', e, O.modify_aux L hx h1 h2 h3 h4 ?_ ?_, h3⟩
  · intro b
    rw [L.mem_plug (s := n), L.mem_plug (s := s)]
    grind
  · intro b hb hbs
    rw [L.mem_plug] at hb
    rcases hb with hb | hb
    · exact (List.nodup_append.mp hnd).2.2 b hb b hbs rfl
    · exact hdis b (L.mem_plug.mpr (Or.inr hbs)) hb

/-- Attach the loose tree as first or last child. -/
theorem addChild (front : Bool) (O : Own Z S h ts n) (hx : ts x = some (S.plug c s)) (ha : S.ptr s = some a)
    (hf : S.isFull s = false) :
    ∃ h', (if front then K.prepend h.fuel h a (S.ptr n) else K.append h.fuel h a (S.ptr n)) = Res.ok h' ∧
      Own Z S h' (upd ts x (some (S.plug c (if front then S.front n s else S.back n s)))) S.nil ∧ h'.next = h.next := by
  have hdis := O.disjN x _ hx
  have hd' : ∀ b ∈ S.addrs n, b ∉ S.addrs (S.plug c s) := fun b hb hm => hdis b hm hb
  have hm : ∀ b, b ∈ S.addrs (if front then S.front n s else S.back n s) ↔ b ∈ S.addrs n ∨ b ∈ S.addrs s := by
    intro b
    cases front
    · exact L.mem_back ha hf
    · exact L.mem_front ha hf
  have : ∃ h', (if front then K.prepend h.fuel h a (S.ptr n) else K.append h.fuel h a (S.ptr n)) = Res.ok h' ∧
      S.Rep h' (S.plug c (if front then S.front n s else S.back n s)) ∧ h'.next = h.next ∧
      (∀ b, b ∉ S.addrs (S.plug c s) → b ∉ S.addrs n → h'.cells b = h.cells b) := by
    cases front
    · exact L.append h c s n a O.wf (O.rep x _ hx) ha hf O.repN hd'
    · exact L.prepend h c s n a O.wf (O.rep x _ hx) ha hf O.repN hd'
  obtain ⟨h', e, h1, h2, h3⟩ := this
  refine ⟨h', e, O.modify_aux L hx h1 (L.rep_nil _) h2 h3 ?_ ?_, h2⟩
  · intro b
    rw [L.mem_plug, L.mem_plug (s := s), hm b, L.addrs_nil]
    grind
  · simp [L.addrs_nil]

end Own

/-- Between operations nothing is loose. -/
theorem owned_iff {W : World ν} (L : Lawful S) : OwnedBut Z S W ts ↔
    Own Z S W.heap ts S.nil ∧ (∀ x, (W.vars x).isSome = (ts x).isSome) ∧
    (∀ x r t, W.vars x = some r → ts x = some t → r.root = S.ptr t ∧ r.navRoot = S.ptr t) := by
  constructor
  · intro O
    exact ⟨⟨O.wf, O.rep, L.rep_nil _, O.disjoint, by simp [L.addrs_nil],
      fun a ha => (O.noLeakBut a ha).elim Or.inl (fun h => Or.inr (Or.inr h)), O.lost, O.apart, by simp [L.addrs_nil]⟩, O.alive, O.root⟩
  · rintro ⟨O, h1, h2⟩
    refine ⟨O.wf, h1, h2, O.rep, O.disjoint, fun a ha => ?_, O.lost, O.apart⟩
    rcases O.noLeak a ha with h | h | h
    · exact Or.inl h
    · simp [L.addrs_nil] at h
    · exact Or.inr h

end
