import Verif.Model.FilterObj
import Verif.Proof.Filter
import Verif.Proof.Frame
/-! Loops over filtered iterators, from the loop over the plain iterator. -/
open Iter

namespace FilterIter
variable {P : Policy} {nav : Nav} {fuel : Nat} {L : List Addr} {p : Addr → Res Bool} {q : Addr → Bool}

namespace Obj

/-- Where a plain loop from `s` visits `L`, a filtered one from the first good element visits the good ones. -/
theorem settle_rest (L : List Addr) (n : Nat) (s : ItState) (h : forwardFrom P nav fuel n s = Res.ok L)
    (hp : ∀ a ∈ L, p a = Res.ok (q a)) (hf : L.length ≤ fuel) (m k : Nat) (hm : L.length ≤ m) (hk : L.length < k) :
    ∃ s', settle P nav fuel p .inc m s = Res.ok s' ∧ s'.cur = (L.filter q).head? ∧
      rest P fuel k ⟨nav, s', some p⟩ = Res.ok (L.filter q) := by
  induction L generalizing n s m k with
  | nil =>
    obtain ⟨k, rfl⟩ : ∃ k', k = k' + 1 := ⟨k - 1, by simp at hk; omega⟩
    cases n with
    | zero => simp [forwardFrom] at h
    | succ n =>
      cases hc : s.cur with
      | none => exact ⟨s, by simp [settle, hc], by simp [hc], by simp [rest, hc]⟩
      | some a =>
        rw [forwardFrom, hc] at h
        simp only [Res.bind_eq_ok] at h
        obtain ⟨_, _, _, _, h⟩ := h
        simp at h
  | cons a L ih =>
    cases n with
    | zero => simp [forwardFrom] at h
    | succ n =>
      rw [forwardFrom] at h
      cases hc : s.cur with
      | none => simp [hc] at h
      | some b =>
        simp only [hc, Res.bind_eq_ok] at h
        obtain ⟨s1, h1, L', h2, h3⟩ := h
        simp at h3
        obtain ⟨rfl, rfl⟩ := h3
        have hf' : L'.length + 1 ≤ fuel := by simpa using hf
        have hm' : L'.length + 1 ≤ m := by simpa using hm
        have hk' : L'.length + 1 < k := by simpa using hk
        have hpb := hp b (by simp)
        by_cases hq : q b = true
        · refine ⟨s, by simp [settle, hc, hpb, hq], by simp [hq, hc], ?_⟩
          obtain ⟨f, rfl⟩ : ∃ f, fuel = f + 1 := ⟨fuel - 1, by omega⟩
          obtain ⟨k, rfl⟩ : ∃ k', k = k' + 1 := ⟨k - 1, by omega⟩
          obtain ⟨s', h4, h5, h6⟩ := ih n s1 h2 (fun x hx => hp x (by simp [hx])) (by omega) f k (by omega) (by omega)
          have e : ask (some p) = p := rfl
          simp [rest, hc, Obj.move, FilterIter.move, e, moveLoop_succ, Iter.move, h1, h4, h6, hq]
        · obtain ⟨m, rfl⟩ : ∃ m', m = m' + 1 := ⟨m - 1, by omega⟩
          obtain ⟨s', h4, h5, h6⟩ := ih n s1 h2 (fun x hx => hp x (by simp [hx])) (by omega) m k (by omega) (by omega)
          refine ⟨s', ?_, by simpa [hq] using h5, by simpa [hq] using h6⟩
          rw [settle_neg hc (by rw [hpb]; simpa using hq)]
          simp [Iter.move, h1, h4]

theorem wrap_eq (s : ItState) : wrap P nav fuel p s = settle P nav fuel p .inc fuel s := rfl

/-- Wrapping an iterator and looping. -/
theorem make_rest {n : Nat} {s : ItState} (h : forwardFrom P nav fuel n s = Res.ok L)
    (hp : ∀ a ∈ L, p a = Res.ok (q a)) (hf : L.length < fuel) :
    ∃ o, make P nav fuel p s = Res.ok o ∧ o.nav = nav ∧ o.predicate = some p ∧ o.st.cur = (L.filter q).head? ∧
      rest P fuel fuel o = Res.ok (L.filter q) := by
  obtain ⟨s', h1, h2, h3⟩ := settle_rest L n s h hp (by omega) fuel fuel (by omega) hf
  exact ⟨⟨nav, s', some p⟩, by simp [make, wrap_eq, h1], rfl, rfl, h2, h3⟩

/-- One step of the loop. -/
theorem rest_cons {n : Nat} {o : Obj} {a : Addr} {l : List Addr} (h : rest P fuel n o = Res.ok (a :: l)) :
    o.st.cur = some a ∧ ∃ m o', n = m + 1 ∧ o.move P fuel .inc = Res.ok o' ∧ rest P fuel m o' = Res.ok l := by
  cases n with
  | zero => simp [rest] at h
  | succ n =>
    rw [rest] at h
    cases hc : o.st.cur with
    | none => simp [hc] at h
    | some b =>
      simp only [hc, Res.bind_eq_ok] at h
      obtain ⟨o', h1, l', h2, h3⟩ := h
      simp at h3
      obtain ⟨rfl, rfl⟩ := h3
      exact ⟨rfl, n, o', rfl, h1, h2⟩

theorem rest_nil {n : Nat} {o : Obj} (h : rest P fuel n o = Res.ok []) : o.st.cur = none := by
  cases n with
  | zero => simp [rest] at h
  | succ n =>
    rw [rest] at h
    cases hc : o.st.cur with
    | none => rfl
    | some b =>
      simp only [hc, Res.bind_eq_ok] at h
      obtain ⟨o', h1, l', h2, h3⟩ := h
      simp at h3

theorem rest_mono {n m : Nat} {o : Obj} {l : List Addr} (h : rest P fuel n o = Res.ok l) (hm : n ≤ m) :
    rest P fuel m o = Res.ok l := by
  induction n generalizing m o l with
  | zero => simp [rest] at h
  | succ n ih =>
    obtain ⟨m, rfl⟩ : ∃ m', m = m' + 1 := ⟨m - 1, by omega⟩
    rw [rest] at h ⊢
    cases hc : o.st.cur with
    | none => simpa [hc] using h
    | some b =>
      simp only [hc, Res.bind_eq_ok] at h ⊢
      obtain ⟨o', h1, l', h2, h3⟩ := h
      exact ⟨o', h1, l', ih h2 (by omega), h3⟩

end Obj
end FilterIter

/-- From the positions reached by any number of `++` to the loop. -/
theorem Iter.forwardFrom_of {P : Policy} {nav : Nav} {fuel : Nat} (l : List Addr) (s : ItState) (n : Nat)
    (h : ∀ i, i ≤ l.length → ∃ s', moves P nav fuel (List.replicate i .inc) s = Res.ok s' ∧ s'.cur = l[i]?)
    (hn : l.length < n) : forwardFrom P nav fuel n s = Res.ok l := by
  induction l generalizing s n with
  | nil =>
    obtain ⟨n, rfl⟩ : ∃ n', n = n' + 1 := ⟨n - 1, by simp at hn; omega⟩
    obtain ⟨s', h1, h2⟩ := h 0 (by simp)
    simp [moves] at h1
    subst h1
    simp at h2
    simp [forwardFrom, h2]
  | cons a l ih =>
    obtain ⟨n, rfl⟩ : ∃ n', n = n' + 1 := ⟨n - 1, by simp at hn; omega⟩
    obtain ⟨s', h1, h2⟩ := h 0 (by simp)
    simp [moves] at h1
    subst h1
    simp at h2
    obtain ⟨s2, h3, h4⟩ := h 1 (by simp)
    simp only [List.replicate, moves, Res.bind_eq_ok] at h3
    obtain ⟨s1, h5, h6⟩ := h3
    have h5' : inc P nav fuel s = Res.ok s1 := h5
    have := ih s1 n (fun i hi => by
      obtain ⟨s', h7, h8⟩ := h (i + 1) (by simpa using hi)
      simp only [List.replicate_succ, moves, h5, Res.ok_bind] at h7
      exact ⟨s', h7, by simpa using h8⟩) (by simp at hn; omega)
    simp [forwardFrom, h2, h5', this]

/-- The plain loop from an iterator made at the `k`-th element. -/
theorem IsCursorAt.loop {P : Policy} {nav : Nav} {fuel : Nat} {L : List Addr} (h : IsCursorAt P nav fuel L) {k : Nat} {a : Addr}
    (hk : L[k]? = some a) {n : Nat} (hn : L.length < n) :
    ∃ b, P.make nav fuel (some a) = Res.ok b ∧ b.cur = some a ∧ forwardFrom P nav fuel n b = Res.ok (L.drop k) := by
  obtain ⟨b, _, h1, h2, _, _⟩ := h k a hk [] k rfl
  refine ⟨b, h1, h2, forwardFrom_of _ _ _ (fun i hi => ?_) (by simp; omega)⟩
  have hlt : k < L.length := (List.getElem?_eq_some_iff.mp hk).1
  have hw : ∀ i k, k + i ≤ L.length → Cursor.walk L.length (List.replicate i .inc) k = some (k + i) := by
    intro i
    induction i with
    | zero => intro k _; simp [Cursor.walk]
    | succ i ih =>
      intro k hk
      have : k < L.length := by omega
      simp only [List.replicate_succ, Cursor.walk, Cursor.step, this, if_true, Option.bind_some]
      rw [ih (k + 1) (by omega)]; congr 1; omega
  obtain ⟨b', s, h3, h4, h5, h6⟩ := h k a hk (List.replicate i .inc) (k + i) (hw i k (by simp at hi; omega))
  rw [h1] at h3
  cases h3
  exact ⟨s, h5, by simpa using h6⟩
