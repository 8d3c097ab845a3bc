import Verif.Spec.FilterCursor
import Verif.Proof.Cursor
/-! tree_iterator_filter over any policy that satisfies the cursor laws. -/
open Iter

namespace FilterIter
variable {P : Policy} {nav : Nav} {fuel : Nat} {L : List Addr} {Q : Nat → ItState → Prop}
  {p : Addr → Res Bool} {q : Addr → Bool}

/-- The body of the do-while loop after the move. -/
def settle (P : Policy) (nav : Nav) (fuel : Nat) (p : Addr → Res Bool) (m : Iter.Move) (n : Nat) (s : ItState) :
    Res ItState :=
  match s.cur with
  | none => pure s
  | some a => do if ← p a then pure s else moveLoop P nav fuel p m n s

theorem moveLoop_succ (m : Iter.Move) (n : Nat) (s : ItState) :
    moveLoop P nav fuel p m (n + 1) s = (Iter.move P nav fuel m s >>= settle P nav fuel p m n) := rfl

theorem settle_neg {m : Iter.Move} {n : Nat} {s : ItState} {a : Addr} (hc : s.cur = some a) (hp : p a = Res.ok false) :
    settle P nav fuel p m (n + 1) s = (Iter.move P nav fuel m s >>= settle P nav fuel p m n) := by
  rw [settle, hc]
  simp only [hp, Res.ok_bind]
  rfl

/-- How many elements before index `k` satisfy the predicate. -/
def rank (q : Addr → Bool) (L : List Addr) (k : Nat) : Nat := ((L.take k).filter q).length

theorem rank_succ {k : Nat} (hk : k < L.length) : rank q L (k + 1) = rank q L k + (if q L[k] then 1 else 0) := by
  simp only [rank, List.take_succ_eq_append_getElem hk, List.filter_append, List.length_append]
  by_cases h : q L[k] <;> simp [h]

theorem rank_length : rank q L L.length = (L.filter q).length := by simp [rank]
theorem rank_zero : rank q L 0 = 0 := by simp [rank]

theorem rank_get {k : Nat} (hk : k < L.length) (h : q L[k] = true) : (L.filter q)[rank q L k]? = some L[k] := by
  have : L.filter q = (L.take k).filter q ++ L[k] :: (L.drop (k + 1)).filter q := by
    have e : L = L.take k ++ L[k] :: L.drop (k + 1) := by
      rw [← List.drop_eq_getElem_cons hk, List.take_append_drop]
    conv => lhs; rw [e]
    rw [List.filter_append, List.filter_cons_of_pos h]
  rw [this, rank, List.getElem?_append_right (Nat.le_refl _)]
  simp

/-- Good states of the filtered iterator. -/
def FQ (Q : Nat → ItState → Prop) (q : Addr → Bool) (L : List Addr) (i : Nat) (s : ItState) : Prop :=
  ∃ k, k ≤ L.length ∧ Q k s ∧ rank q L k = i ∧ ∀ h : k < L.length, q L[k] = true

theorem FQ.cur (H : CursorInv P nav fuel L Q) {i : Nat} {s : ItState} (h : FQ Q q L i s) : s.cur = (L.filter q)[i]? := by
  obtain ⟨k, hk, hQ, rfl, hq⟩ := h
  rw [H.cur hk hQ]
  by_cases hlt : k < L.length
  · rw [rank_get hlt (hq hlt)]; simp [hlt]
  · have : k = L.length := by omega
    subst this
    simp [rank_length]

theorem settle_inc (H : CursorInv P nav fuel L Q) (hp : ∀ a ∈ L, p a = Res.ok (q a)) (n k : Nat) (s : ItState)
    (hk : k ≤ L.length) (hQ : Q k s) (hn : L.length - k ≤ n) :
    ∃ s', settle P nav fuel p .inc n s = Res.ok s' ∧ FQ Q q L (rank q L k) s' := by
  induction n generalizing k s with
  | zero =>
    have : k = L.length := by omega
    subst this
    have hc := H.cur hk hQ
    exact ⟨s, by simp [settle, hc], L.length, hk, hQ, rfl, fun h => by omega⟩
  | succ n ih =>
    have hc := H.cur hk hQ
    by_cases hlt : k < L.length
    · have hc' : s.cur = some L[k] := by simp [hc, hlt]
      by_cases hq : q L[k] = true
      · exact ⟨s, by simp [settle, hc', hp L[k] (List.getElem_mem _), hq], k, hk, hQ, rfl, fun _ => hq⟩
      · obtain ⟨s1, h1, h2⟩ := H.move_spec (m := .inc) hk hQ (j := k + 1) (by simp [Cursor.step, hlt])
        obtain ⟨s', h3, h4⟩ := ih (k + 1) s1 (by omega) h2 (by omega)
        refine ⟨s', ?_, ?_⟩
        · rw [settle_neg hc' (by rw [hp L[k] (List.getElem_mem _)]; simpa using hq), h1, Res.ok_bind, h3]
        · rw [rank_succ hlt] at h4
          simpa [hq] using h4
    · have : k = L.length := by omega
      subst this
      exact ⟨s, by simp [settle, hc], L.length, hk, hQ, rfl, fun h => by omega⟩

theorem settle_dec (H : CursorInv P nav fuel L Q) (hp : ∀ a ∈ L, p a = Res.ok (q a)) (n k : Nat) (s : ItState)
    (hk : k < L.length) (hQ : Q k s) (hn : k ≤ n) (hr : 0 < rank q L (k + 1)) :
    ∃ s', settle P nav fuel p .dec n s = Res.ok s' ∧ FQ Q q L (rank q L (k + 1) - 1) s' := by
  induction n generalizing k s with
  | zero =>
    have : k = 0 := by omega
    subst this
    have hc' : s.cur = some L[0] := by simp [H.cur (by omega) hQ, hk]
    have hq : q L[0] = true := by
      rw [rank_succ hk, rank_zero] at hr
      by_cases h : q L[0] = true
      · exact h
      · simp [h] at hr
    refine ⟨s, by simp [settle, hc', hp L[0] (List.getElem_mem _), hq], 0, by omega, hQ, ?_, fun _ => hq⟩
    rw [rank_succ hk, rank_zero]; simp [hq]
  | succ n ih =>
    have hc' : s.cur = some L[k] := by simp [H.cur (by omega) hQ, hk]
    by_cases hq : q L[k] = true
    · refine ⟨s, by simp [settle, hc', hp L[k] (List.getElem_mem _), hq], k, by omega, hQ, ?_, fun _ => hq⟩
      rw [rank_succ hk]; simp [hq]
    · rw [rank_succ hk] at hr
      simp only [hq] at hr
      have hk0 : k ≠ 0 := by rintro rfl; simp [rank_zero] at hr
      obtain ⟨s1, h1, h2⟩ := H.move_spec (m := .dec) (Nat.le_of_lt hk) hQ (j := k - 1) (by simp [Cursor.step, hk0])
      obtain ⟨s', h3, h4⟩ := ih (k - 1) s1 (by omega) h2 (by omega) (by
        rw [show k - 1 + 1 = k from by omega]; simpa using hr)
      refine ⟨s', ?_, ?_⟩
      · rw [settle_neg hc' (by rw [hp L[k] (List.getElem_mem _)]; simpa using hq), h1, Res.ok_bind, h3]
      · rw [show k - 1 + 1 = k from by omega] at h4
        rw [rank_succ hk]
        simpa [hq] using h4

theorem move_spec (H : CursorInv P nav fuel L Q) (hp : ∀ a ∈ L, p a = Res.ok (q a)) (hf : L.length < fuel)
    (m : Iter.Move) (hm : m = .inc ∨ L.filter q ≠ [])
    {i j : Nat} {s : ItState} (hQ : FQ Q q L i s) (h : Cursor.step (L.filter q).length m i = some j) :
    ∃ s', move P nav fuel p m s = Res.ok s' ∧ FQ Q q L j s' := by
  obtain ⟨k, hk, hQk, rfl, hq⟩ := hQ
  obtain ⟨n, rfl⟩ : ∃ n, fuel = n + 1 := ⟨fuel - 1, by omega⟩
  cases m with
  | inc =>
    by_cases hlt : k < L.length
    · obtain ⟨s1, h1, h2⟩ := H.move_spec (m := .inc) hk hQk (j := k + 1) (by simp [Cursor.step, hlt])
      obtain ⟨s', h3, h4⟩ := settle_inc H hp n (k + 1) s1 (by omega) h2 (by omega)
      refine ⟨s', by simp [move, moveLoop_succ, h1, h3], ?_⟩
      have hlt' : rank q L k < (L.filter q).length := by
        have := rank_get hlt (hq hlt)
        exact (List.getElem?_eq_some_iff.mp this).1
      simp [Cursor.step, hlt'] at h
      subst h
      rw [rank_succ hlt] at h4
      simpa [hq hlt] using h4
    · have : k = L.length := by omega
      subst this
      obtain ⟨s1, h1, h2⟩ := H.move_spec (m := .inc) hk hQk (j := 0) (by simp [Cursor.step])
      obtain ⟨s', h3, h4⟩ := settle_inc H hp n 0 s1 (by omega) h2 (by omega)
      refine ⟨s', by simp [move, moveLoop_succ, h1, h3], ?_⟩
      simp [Cursor.step, rank_length] at h
      subst h
      simpa [rank_zero] using h4
  | dec =>
    have hne : L.filter q ≠ [] := by simpa using hm
    have hlen : (L.filter q).length ≠ 0 := by simpa using hne
    simp only [Cursor.step, hlen, if_false] at h
    split at h
    · simp at h
    · rename_i hr
      simp at h
      subst h
      have hk0 : k ≠ 0 := by rintro rfl; simp [rank_zero] at hr
      obtain ⟨s1, h1, h2⟩ := H.move_spec (m := .dec) hk hQk (j := k - 1) (by simp [Cursor.step, hk0])
      obtain ⟨s', h3, h4⟩ := settle_dec H hp n (k - 1) s1 (by omega) h2 (by omega)
        (by rw [show k - 1 + 1 = k from by omega]; omega)
      refine ⟨s', by simp [move, moveLoop_succ, h1, h3], ?_⟩
      rwa [show k - 1 + 1 = k from by omega] at h4

theorem step_le {n : Nat} {m : Iter.Move} {i j : Nat} (hi : i ≤ n) (h : Cursor.step n m i = some j) : j ≤ n := by
  cases m <;> simp [Cursor.step] at h <;> split at h <;> simp_all <;> omega

theorem moves_spec (H : CursorInv P nav fuel L Q) (hp : ∀ a ∈ L, p a = Res.ok (q a)) (hf : L.length < fuel)
    (ms : List Iter.Move) (hm : (∀ m ∈ ms, m = .inc) ∨ L.filter q ≠ [])
    {i j : Nat} {s : ItState} (hQ : FQ Q q L i s) (h : Cursor.walk (L.filter q).length ms i = some j) :
    ∃ s', moves P nav fuel p ms s = Res.ok s' ∧ FQ Q q L j s' := by
  induction ms generalizing i s with
  | nil => simp [Cursor.walk] at h; subst h; exact ⟨s, rfl, hQ⟩
  | cons m ms ih =>
    simp [Cursor.walk, Option.bind_eq_some_iff] at h
    obtain ⟨k, hk, hw⟩ := h
    obtain ⟨s', h1, h2⟩ := move_spec H hp hf m (hm.imp (fun hm => hm m (by simp)) id) hQ hk
    obtain ⟨s'', h3, h4⟩ := ih (hm.imp (fun hm m' h' => hm m' (by simp [h'])) id) h2 hw
    exact ⟨s'', by simp [moves, h1, h3], h4⟩

theorem begin_wrap (H : CursorInv P nav fuel L Q) (hp : ∀ a ∈ L, p a = Res.ok (q a)) (hf : L.length < fuel) :
    ∃ b w, begin_ P nav fuel = Res.ok b ∧ wrap P nav fuel p b = Res.ok w ∧ FQ Q q L 0 w := by
  obtain ⟨b, hb, hQ⟩ := H.beginQ
  have hc := H.cur (Nat.zero_le _) hQ
  obtain ⟨s', h1, h2⟩ := settle_inc H hp fuel 0 b (by omega) hQ (by omega)
  exact ⟨b, s', hb, h1, by simpa [rank_zero] using h2⟩

theorem end_wrap (H : CursorInv P nav fuel L Q) :
    ∃ e, end_ P nav fuel = Res.ok e ∧ wrap P nav fuel p e = Res.ok e ∧ FQ Q q L (L.filter q).length e := by
  obtain ⟨e, he, hQ⟩ := H.endQ
  have hc := H.cur (Nat.le_refl _) hQ
  exact ⟨e, he, by simp [wrap, hc], L.length, Nat.le_refl _, hQ, rank_length, fun h => by omega⟩

theorem isFilterCursor (H : CursorInv P nav fuel L Q) (hp : ∀ a ∈ L, p a = Res.ok (q a)) (hf : L.length < fuel)
    (hne : L.filter q ≠ []) : IsFilterCursor P nav fuel p (L.filter q) := by
  constructor
  · intro ms i hw
    obtain ⟨b, w, h1, h2, h3⟩ := begin_wrap H hp hf
    obtain ⟨s, h4, h5⟩ := moves_spec H hp hf ms (.inr hne) h3 hw
    exact ⟨b, w, s, h1, h2, h4, h5.cur H⟩
  · intro ms i hw
    obtain ⟨e, h1, h2, h3⟩ := end_wrap (q := q) (p := p) H
    obtain ⟨s, h4, h5⟩ := moves_spec H hp hf ms (.inr hne) h3 hw
    exact ⟨e, e, s, h1, h2, h4, h5.cur H⟩

/-- Only forward moves: also right when nothing satisfies the predicate. -/
theorem forward_moves (H : CursorInv P nav fuel L Q) (hp : ∀ a ∈ L, p a = Res.ok (q a)) (hf : L.length < fuel)
    (i : Nat) (hi : i ≤ (L.filter q).length) :
    ∃ b w s, begin_ P nav fuel = Res.ok b ∧ wrap P nav fuel p b = Res.ok w ∧
      moves P nav fuel p (List.replicate i .inc) w = Res.ok s ∧ s.cur = (L.filter q)[i]? := by
  obtain ⟨b, w, h1, h2, h3⟩ := begin_wrap H hp hf
  have hw : ∀ i k, k + i ≤ (L.filter q).length →
      Cursor.walk (L.filter q).length (List.replicate i .inc) k = some (k + i) := by
    intro i
    induction i with
    | zero => intro k _; simp [Cursor.walk]
    | succ i ih =>
      intro k hk
      have : k < (L.filter q).length := by omega
      simp only [List.replicate_succ, Cursor.walk, Cursor.step, this, if_true, Option.bind_some]
      rw [ih (k + 1) (by omega)]; congr 1; omega
  obtain ⟨s, h4, h5⟩ := moves_spec H hp hf (List.replicate i .inc)
    (.inl (fun m hm => (List.mem_replicate.mp hm).2)) h3 (hw i 0 (by omega))
  exact ⟨b, w, s, h1, h2, h4, by simpa using h5.cur H⟩

end FilterIter
