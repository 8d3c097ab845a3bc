import Verif.Spec.Cursor
/-! From an invariant indexed by the position to the cursor laws. -/
open Iter

/-- `Q i s`: the state `s` is a good state for index `i`. -/
structure CursorInv (P : Policy) (nav : Nav) (fuel : Nat) (L : List Addr) (Q : Nat → ItState → Prop) : Prop where
  root : ∃ r, nav.root = some r
  cur : ∀ {i s}, i ≤ L.length → Q i s → s.cur = L[i]?
  endQ : ∃ s, P.make nav fuel none = Res.ok s ∧ Q L.length s
  inc : ∀ {i s a}, L[i]? = some a → Q i s → ∃ s', P.inc nav fuel a s.aux = Res.ok s' ∧ Q (i + 1) s'
  dec : ∀ {i s a}, 0 < i → L[i]? = some a → Q i s → ∃ s', P.dec nav fuel a s.aux = Res.ok s' ∧ Q (i - 1) s'
  goFirst : ∀ {s}, Q L.length s → ∃ s', P.goFirst nav fuel s.aux = Res.ok s' ∧ Q 0 s'
  goLast : ∀ {s}, Q L.length s → ∃ s', P.goLast nav fuel s.aux = Res.ok s' ∧ Q (L.length - 1) s'

namespace CursorInv
variable {P : Policy} {nav : Nav} {fuel : Nat} {L : List Addr} {Q : Nat → ItState → Prop}

theorem step_le {n : Nat} {m : Move} {i j : Nat} (hi : i ≤ n) (h : Cursor.step n m i = some j) : j ≤ n := by
  cases m <;> simp [Cursor.step] at h <;> split at h <;> simp_all <;> omega

theorem move_spec (H : CursorInv P nav fuel L Q) {m : Move} {i j : Nat} {s : ItState} (hi : i ≤ L.length)
    (hQ : Q i s) (h : Cursor.step L.length m i = some j) :
    ∃ s', move P nav fuel m s = Res.ok s' ∧ Q j s' := by
  have hc := H.cur hi hQ
  obtain ⟨r, hr⟩ := H.root
  cases m with
  | inc =>
    simp [Cursor.step] at h
    by_cases hlt : i < L.length
    · simp [hlt] at h
      subst h
      have he : L[i]? = some L[i] := by simp [hlt]
      obtain ⟨s', h1, h2⟩ := H.inc he hQ
      exact ⟨s', by simp [move, Iter.inc, hc, hlt, h1], h2⟩
    · have : i = L.length := by omega
      subst this
      simp at h
      subst h
      obtain ⟨s', h1, h2⟩ := H.goFirst hQ
      exact ⟨s', by simp [move, Iter.inc, hc, hr, h1], h2⟩
  | dec =>
    simp [Cursor.step] at h
    by_cases hlt : i < L.length
    · by_cases h0 : i = 0
      · subst h0
        rw [if_pos rfl] at h
        split at h <;> simp_all
      · simp [h0] at h
        subst h
        have he : L[i]? = some L[i] := by simp [hlt]
        obtain ⟨s', h1, h2⟩ := H.dec (by omega) he hQ
        exact ⟨s', by simp [move, Iter.dec, hc, hlt, h1], h2⟩
    · have : i = L.length := by omega
      subst this
      obtain ⟨s', h1, h2⟩ := H.goLast hQ
      refine ⟨s', by simp [move, Iter.dec, hc, hr, h1], ?_⟩
      by_cases h0 : L.length = 0
      · simp [h0] at h
        rw [← h.2]
        simpa [h0] using h2
      · simp [h0] at h
        subst h
        exact h2

theorem moves_spec (H : CursorInv P nav fuel L Q) (ms : List Move) {i j : Nat} {s : ItState} (hi : i ≤ L.length)
    (hQ : Q i s) (h : Cursor.walk L.length ms i = some j) :
    ∃ s', moves P nav fuel ms s = Res.ok s' ∧ Q j s' ∧ j ≤ L.length := by
  induction ms generalizing i s with
  | nil => simp [Cursor.walk] at h; subst h; exact ⟨s, rfl, hQ, hi⟩
  | cons m ms ih =>
    simp [Cursor.walk, Option.bind_eq_some_iff] at h
    obtain ⟨k, hk, hw⟩ := h
    obtain ⟨s', h1, h2⟩ := H.move_spec hi hQ hk
    obtain ⟨s'', h3, h4⟩ := ih (step_le hi hk) h2 hw
    exact ⟨s'', by simp [moves, h1, h3], h4⟩

theorem beginQ (H : CursorInv P nav fuel L Q) : ∃ b, begin_ P nav fuel = Res.ok b ∧ Q 0 b := by
  obtain ⟨e, he, hQ⟩ := H.endQ
  obtain ⟨b, hb, hQb⟩ := H.move_spec (m := .inc) (j := 0) (Nat.le_refl _) hQ (by simp [Cursor.step])
  exact ⟨b, by simp [begin_, end_, he]; simpa [move] using hb, hQb⟩

theorem isCursor (H : CursorInv P nav fuel L Q) : IsCursor P nav fuel L := by
  constructor
  · intro ms i hw
    obtain ⟨b, hb, hQb⟩ := H.beginQ
    obtain ⟨s, h1, h2, h3⟩ := H.moves_spec ms (Nat.zero_le _) hQb hw
    exact ⟨b, s, hb, h1, H.cur h3 h2⟩
  · intro ms i hw
    obtain ⟨e, he, hQe⟩ := H.endQ
    obtain ⟨s, h1, h2, h3⟩ := H.moves_spec ms (Nat.le_refl _) hQe hw
    exact ⟨e, s, he, h1, H.cur h3 h2⟩

theorem isCursorAt (H : CursorInv P nav fuel L Q)
    (hmk : ∀ k a, L[k]? = some a → ∃ b, P.make nav fuel (some a) = Res.ok b ∧ Q k b) :
    IsCursorAt P nav fuel L := by
  intro k a hk ms i hw
  obtain ⟨b, hb, hQb⟩ := hmk k a hk
  have hlt : k ≤ L.length := by
    have := (List.getElem?_eq_some_iff.mp hk).1; omega
  obtain ⟨s, h1, h2, h3⟩ := H.moves_spec ms hlt hQb hw
  exact ⟨b, s, hb, by rw [H.cur hlt hQb, hk], h1, H.cur h3 h2⟩

theorem forwardFrom_spec (H : CursorInv P nav fuel L Q) :
    ∀ (n i : Nat) (s : ItState), i ≤ L.length → Q i s → L.length < n + i →
      forwardFrom P nav fuel n s = Res.ok (L.drop i) := by
  intro n
  induction n with
  | zero => intro i s hi _ hn; omega
  | succ n ih =>
    intro i s hi hQ hn
    have hc := H.cur hi hQ
    by_cases hlt : i < L.length
    · have he : L[i]? = some L[i] := by simp [hlt]
      obtain ⟨s', h1, h2⟩ := H.inc he hQ
      have hrec := ih (i + 1) s' (by omega) h2 (by omega)
      simp only [forwardFrom, hc, he, Iter.inc, h1, Res.ok_bind, hrec]
      rw [List.drop_eq_getElem_cons hlt]
      rfl
    · have : i = L.length := by omega
      subst this
      simp [forwardFrom, hc]

theorem forward_spec (H : CursorInv P nav fuel L Q) (hf : L.length < fuel) :
    forward P nav fuel = Res.ok L := by
  obtain ⟨b, hb, hQb⟩ := H.beginQ
  simp [forward, hb, H.forwardFrom_spec fuel 0 b (Nat.zero_le _) hQb (by omega)]

theorem backwardFrom_spec (H : CursorInv P nav fuel L Q) (hn : L.Nodup) :
    ∀ (n i : Nat) (s : ItState), i ≤ L.length → Q i s → i < n →
      backwardFrom P nav fuel L[0]? n s = Res.ok (L.take i).reverse := by
  intro n
  induction n with
  | zero => intro i s hi _ hn; omega
  | succ n ih =>
    intro i s hi hQ hin
    have hc := H.cur hi hQ
    by_cases h0 : i = 0
    · subst h0
      simp [backwardFrom, hc]
    · have hne : ¬ (L[i]? = L[0]?) := by
        intro he
        by_cases hlt : i < L.length
        · have h00 : 0 < L.length := by omega
          have : i = 0 := (List.getElem?_inj hlt hn).mp he
          exact h0 this
        · have h00 : 0 < L.length := by omega
          rw [List.getElem?_eq_none (by omega), List.getElem?_eq_getElem h00] at he
          simp at he
      obtain ⟨s', h1, h2⟩ := H.move_spec (m := .dec) (j := i - 1) hi hQ (by simp [Cursor.step, h0])
      simp only [move] at h1
      have hc' := H.cur (by omega) h2
      have hlt : i - 1 < L.length := by omega
      have hrec := ih (i - 1) s' (by omega) h2 (by omega)
      simp only [backwardFrom, hc, h1, Res.ok_bind, hc', List.getElem?_eq_getElem hlt, deref_some, hrec]
      have : (L.take i).reverse = L[i-1] :: (L.take (i-1)).reverse := by
        have : i = (i - 1) + 1 := by omega
        conv => lhs; rw [this]
        rw [List.take_succ_eq_append_getElem hlt]
        simp
      rw [this]
      simp [hne]

theorem backward_spec (H : CursorInv P nav fuel L Q) (hn : L.Nodup) (hf : L.length < fuel) :
    backward P nav fuel = Res.ok L.reverse := by
  obtain ⟨b, hb, hQb⟩ := H.beginQ
  obtain ⟨e, he, hQe⟩ := H.endQ
  have hc := H.cur (Nat.zero_le _) hQb
  have := H.backwardFrom_spec hn fuel L.length e (Nat.le_refl _) hQe hf
  simp [backward, hb, end_, he, hc]
  simpa using this

end CursorInv

theorem list_split {L : List Addr} {i : Nat} {a : Addr} (h : L[i]? = some a) :
    L = L.take i ++ a :: L.drop (i + 1) := by
  obtain ⟨hlt, ha⟩ := List.getElem?_eq_some_iff.mp h
  rw [← ha]; simp

/-- Policies without a container: it suffices to know the two steps at each split of the list. -/
theorem stateless_cursorInv {nav : Nav} {fuel : Nat} {L : List Addr}
    {inc dec : Nav → Nat → Addr → Res Ptr} {goFirst goLast : Nav → Nat → Res Ptr}
    (hr : ∃ r, nav.root = some r)
    (hinc : ∀ l1 a l2, L = l1 ++ a :: l2 → inc nav fuel a = Res.ok l2.head?)
    (hdec : ∀ l1 a l2, L = l1 ++ a :: l2 → l1 ≠ [] → dec nav fuel a = Res.ok l1.getLast?)
    (hf : goFirst nav fuel = Res.ok L.head?) (hl : goLast nav fuel = Res.ok L.getLast?) :
    CursorInv (Policy.stateless inc dec goFirst goLast) nav fuel L (fun i s => s.cur = L[i]?) where
  root := hr
  cur := fun _ h => h
  endQ := ⟨⟨none, []⟩, rfl, by simp⟩
  inc := by
    intro i s a ha _
    refine ⟨⟨L[i+1]?, []⟩, ?_, rfl⟩
    simp [Policy.stateless, hinc _ _ _ (list_split ha)]
  dec := by
    intro i s a h0 ha _
    obtain ⟨hlt, _⟩ := List.getElem?_eq_some_iff.mp ha
    refine ⟨⟨L[i-1]?, []⟩, ?_, rfl⟩
    have hne : L.take i ≠ [] := by
      intro h
      have := congrArg List.length h
      simp only [List.length_take, List.length_nil] at this
      omega
    simp [Policy.stateless, hdec _ _ _ (list_split ha) hne, List.getLast?_take]
    have : i - 1 < L.length := by omega
    simp [this]
    omega
  goFirst := by
    intro s _
    exact ⟨⟨L.head?, []⟩, by simp [Policy.stateless, hf], by simp [List.head?_eq_getElem?]⟩
  goLast := by
    intro s _
    exact ⟨⟨L.getLast?, []⟩, by simp [Policy.stateless, hl], by simp [List.getLast?_eq_getElem?]⟩
