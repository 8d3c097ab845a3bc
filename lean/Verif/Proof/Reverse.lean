import Verif.Spec.Cursor
import Verif.Spec.Reverse
import Verif.Proof.Laws
/-! Reverse iterators. -/
open Iter

/-- The move of the base. -/
def Iter.Move.flip : Move → Move
  | .inc => .dec
  | .dec => .inc

variable {P : Policy} {nav : Nav} {fuel : Nat} {L : List Addr}

theorem Reverse.moves_flip (ms : List Move) : ∀ r, Reverse.moves P nav fuel ms r =
    (Iter.moves P nav fuel (ms.map Move.flip) r.base >>= fun s => pure ⟨s⟩) := by
  induction ms with
  | nil => intro r; rfl
  | cons m ms ih =>
    intro r
    cases m with
    | inc =>
      simp only [Reverse.moves, Reverse.move, List.map_cons, Move.flip, Iter.moves, Iter.move]
      cases Iter.dec P nav fuel r.base <;> simp [ih]
    | dec =>
      simp only [Reverse.moves, Reverse.move, List.map_cons, Move.flip, Iter.moves, Iter.move]
      cases Iter.inc P nav fuel r.base <;> simp [ih]

theorem Cursor.walk_append (n : Nat) (ms ms' : List Move) : ∀ i, Cursor.walk n (ms ++ ms') i = (Cursor.walk n ms i).bind (Cursor.walk n ms') := by
  induction ms with
  | nil => intro i; rfl
  | cons m ms ih =>
    intro i
    simp only [List.cons_append, Cursor.walk]
    cases Cursor.step n m i <;> simp [ih]

theorem Cursor.walk_flip {n : Nat} (ms : List Move) : ∀ {i j : Nat}, i ≤ n → Cursor.strictly n ms i = some j →
    j ≤ n ∧ Cursor.walk n (ms.map Move.flip) (n - i) = some (n - j) := by
  induction ms with
  | nil => intro i j hi h; cases h; exact ⟨hi, rfl⟩
  | cons m ms ih =>
    intro i j hi h
    cases m with
    | inc =>
      simp only [Cursor.strictly, Cursor.strict] at h
      split at h
      · have := ih (by omega) h
        refine ⟨this.1, ?_⟩
        simp only [List.map_cons, Move.flip, Cursor.walk, Cursor.step]
        rw [if_neg (by omega)]
        simpa [Nat.sub_sub] using this.2
      · simp at h
    | dec =>
      simp only [Cursor.strictly, Cursor.strict] at h
      split at h
      · simp at h
      · have := ih (by omega) h
        refine ⟨this.1, ?_⟩
        simp only [List.map_cons, Move.flip, Cursor.walk, Cursor.step]
        rw [if_pos (by omega)]
        have e : n - i + 1 = n - (i - 1) := by omega
        simpa [e] using this.2

theorem revAt_of (hn : L.Nodup) (hC : IsCursor P nav fuel L) {i : Nat} (hi : i ≤ L.length) {s : ItState}
    (hs : s.cur = L[L.length - i]?) (hd : i < L.length → ∃ s', Iter.dec P nav fuel s = Res.ok s' ∧ s'.cur = L[L.length - i - 1]?) :
    RevAt P nav fuel L i ⟨s⟩ := by
  refine ⟨fun a ha => ?_, ?_⟩
  · have hlt : i < L.length := by
      have := List.getElem?_eq_some_iff.mp ha
      simpa using this.1
    obtain ⟨s', h1, h2⟩ := hd hlt
    rw [List.getElem?_reverse (by omega), Nat.sub_right_comm, ← h2] at ha
    simp [Reverse.deref, h1, ha, _root_.deref]
  · obtain ⟨b, _, h1, h2, h3⟩ := hC.1 [] 0 rfl
    cases h2
    refine ⟨⟨b⟩, by simp [Reverse.rend, h1], ?_⟩
    simp only [Reverse.eq, hs, h3, beq_iff_eq]
    constructor
    · intro h
      by_cases h0 : L.length = 0
      · omega
      · have hlt : 0 < L.length := by omega
        have := (List.getElem?_inj hlt hn).mp h.symm
        omega
    · rintro rfl; simp

/-- Reverse iterators over a cursor are reverse cursors. -/
theorem IsCursor.reverse (hC : IsCursor P nav fuel L) (hn : L.Nodup) : IsReverse P nav fuel L := by
  constructor
  · intro ms i h
    obtain ⟨hi, hw⟩ := Cursor.walk_flip ms (Nat.zero_le _) h
    rw [Nat.sub_zero] at hw
    obtain ⟨e, s, h1, h2, h3⟩ := hC.2 _ _ hw
    refine ⟨⟨e⟩, ⟨s⟩, by simp [Reverse.rbegin, h1], by simp [Reverse.moves_flip, h2], revAt_of hn hC hi h3 fun hlt => ?_⟩
    obtain ⟨e', s', k1, k2, k3⟩ := hC.2 (ms.map Move.flip ++ [.dec]) (L.length - i - 1) (by
      rw [Cursor.walk_append, hw]; simp only [Option.bind_some, Cursor.walk, Cursor.step]; rw [if_neg (by omega)]; rfl)
    rw [h1] at k1; cases k1
    rw [moves_append, h2] at k2
    refine ⟨s', ?_, k3⟩
    simp only [Res.ok_bind, Iter.moves, Iter.move] at k2
    cases hd : Iter.dec P nav fuel s <;> rw [hd] at k2 <;> simp at k2 ⊢
    exact k2
  · intro ms i h
    obtain ⟨hi, hw⟩ := Cursor.walk_flip ms (Nat.le_refl _) h
    rw [Nat.sub_self] at hw
    obtain ⟨e, s, h1, h2, h3⟩ := hC.1 _ _ hw
    refine ⟨⟨e⟩, ⟨s⟩, by simp [Reverse.rend, h1], by simp [Reverse.moves_flip, h2], revAt_of hn hC hi h3 fun hlt => ?_⟩
    obtain ⟨e', s', k1, k2, k3⟩ := hC.1 (ms.map Move.flip ++ [.dec]) (L.length - i - 1) (by
      rw [Cursor.walk_append, hw]; simp only [Option.bind_some, Cursor.walk, Cursor.step]; rw [if_neg (by omega)]; rfl)
    rw [h1] at k1; cases k1
    rw [moves_append, h2] at k2
    refine ⟨s', ?_, k3⟩
    simp only [Res.ok_bind, Iter.moves, Iter.move] at k2
    cases hd : Iter.dec P nav fuel s <;> rw [hd] at k2 <;> simp at k2 ⊢
    exact k2

open Tree Policy in
theorem reverse_laws {t : Tree Addr} (N : NavSpec nav t) (hf : t.size ≤ fuel) :
    IsReverse preOrder nav fuel t.pre ∧ IsReverse postOrder nav fuel t.post ∧ IsReverse breadthFirst nav fuel t.bfs ∧
    IsReverse siblings nav fuel (t.children.map label) := by
  have n4 : (t.children.map label).Nodup := by
    have := row_nodup N 1
    simpa [row_succ] using this
  have K := laws_of N hf
  exact ⟨K.pre.reverse N.nodup, K.post.reverse (nodup_post.mpr N.nodup), K.bfs.reverse (bfs_nodup N), (siblings_inv N).isCursor.reverse n4⟩
