import Verif.Proof.Wired
/-! The search of any pattern ends, without an invalid access. -/
open Tree

set_option linter.unusedSimpArgs false
set_option linter.unusedVariables false

namespace Res
variable {α β : Type}

/-- The computation ends, without an invalid access, with a result that satisfies `P`. -/
def Ends (r : Res α) (P : α → Prop) : Prop := ∃ x, r = Res.ok x ∧ P x

theorem Ends.ok {P : α → Prop} {x : α} (h : P x) : Ends (Res.ok x) P := ⟨x, rfl, h⟩
theorem Ends.pure {P : α → Prop} {x : α} (h : P x) : Ends (Pure.pure x) P := ⟨x, rfl, h⟩
theorem Ends.bind {P : α → Prop} {Q : β → Prop} {r : Res α} {f : α → Res β} (h : Ends r P) (h' : ∀ x, P x → Ends (f x) Q) :
    Ends (r >>= f) Q := by
  obtain ⟨x, rfl, h⟩ := h
  exact h' x h
theorem Ends.mono {P Q : α → Prop} {r : Res α} (h : Ends r P) (h' : ∀ x, P x → Q x) : Ends r Q := by
  obtain ⟨x, e, h⟩ := h; exact ⟨x, e, h' x h⟩
theorem Ends.of_eq {P : α → Prop} {r : Res α} {x : α} (e : r = Res.ok x) (h : P x) : Ends r P := ⟨x, e, h⟩
end Res

open Res

/-- What a search needs in order to end: the nodes `A` can be read, and navigation leads from them to them. `rk` is the position of
a node in pre-order, `fin` the position after its last descendant, `N` the number of nodes. -/
structure Ranked {α : Type} (nav : Ptr → Nav) (val : Addr → Res α) (A : Addr → Prop) (rk fin : Addr → Nat) (N : Nat) : Prop where
  lt : ∀ a, A a → rk a < fin a
  le : ∀ a, A a → fin a ≤ N
  val : ∀ a, A a → ∃ v, val a = Res.ok v
  root : ∀ r, (nav r).root = r
  parent : ∀ r a, A a → ∃ p, (nav r).parent a = Res.ok p ∧ (∀ b, p = some b → r ≠ some a ∧ (nav none).parent a = Res.ok (some b)) ∧
    (p = none → r = some a ∨ (nav none).parent a = Res.ok none)
  up : ∀ a b, A a → (nav none).parent a = Res.ok (some b) → A b ∧ rk b < rk a ∧ fin a ≤ fin b
  inner : ∀ r a, A r → A a → rk r ≤ rk a → rk a < fin r → a = r ∨ ∃ b, (nav none).parent a = Res.ok (some b) ∧ rk r ≤ rk b ∧ rk b < fin r ∧ fin a ≤ fin r
  first : ∀ r a, A a → ∃ p, (nav r).first a = Res.ok p ∧ ∀ b, p = some b → A b ∧ (nav none).parent b = Res.ok (some a)
  next : ∀ r a, A a → ∃ p, (nav r).next a = Res.ok p ∧
    ∀ b, p = some b → A b ∧ fin a ≤ rk b ∧ ∃ c, (nav none).parent a = Res.ok (some c) ∧ (nav none).parent b = Res.ok (some c)
  isLast : ∀ r a c, A a → (nav none).parent a = Res.ok (some c) → ∃ b, (nav r).isLast a = Res.ok b

namespace Search.Ending
open Pat
variable {α : Type} {nav : Ptr → Nav} {vl : Addr → Res α} {A : Addr → Prop} {rk fin : Addr → Nat} {N fuel : Nat}

/-- A node or null. -/
def In (A : Addr → Prop) (p : Ptr) : Prop := ∀ a, p = some a → A a
theorem in_none : In A none := by intro a h; cases h
theorem in_some {a} (h : A a) : In A (some a) := by rintro _ ⟨⟩; exact h

/-- A child of `a`, or null. -/
def Kid (nav : Ptr → Nav) (A : Addr → Prop) (a : Addr) (p : Ptr) : Prop := ∀ b, p = some b → A b ∧ (nav none).parent b = Res.ok (some a)
/-- A sibling after `a`, or null. -/
def Sib (nav : Ptr → Nav) (A : Addr → Prop) (rk fin : Addr → Nat) (a : Addr) (p : Ptr) : Prop :=
  ∀ b, p = some b → A b ∧ fin a ≤ rk b ∧ ∃ c, (nav none).parent a = Res.ok (some c) ∧ (nav none).parent b = Res.ok (some c)

/-- What the policies of a search need of a navigator. -/
structure Calm (nv : Nav) (A : Addr → Prop) (rk fin : Addr → Nat) (nav : Ptr → Nav) : Prop where
  root : In A nv.root
  parent : ∀ a, A a → Ends (nv.parent a) (fun p => (∀ b, p = some b → nv.root ≠ some a ∧ (nav none).parent a = Res.ok (some b)) ∧
    (p = none → nv.root = some a ∨ (nav none).parent a = Res.ok none))
  first : ∀ a, A a → Ends (nv.first a) (Kid nav A a)
  next : ∀ a, A a → Ends (nv.next a) (Sib nav A rk fin a)
  isLast : ∀ a c, A a → (nav none).parent a = Res.ok (some c) → Ends (nv.isLast a) (fun _ => True)

theorem calm_nav (S : Ranked nav vl A rk fin N) {r : Ptr} (hr : In A r) : Calm (nav r) A rk fin nav := by
  refine ⟨by rw [S.root]; exact hr, fun a ha => ?_, fun a ha => ?_, fun a ha => ?_, fun a c ha hc => ?_⟩
  · obtain ⟨p, e, h⟩ := S.parent r a ha; rw [S.root]; exact Ends.of_eq e h
  · obtain ⟨p, e, h⟩ := S.first r a ha; exact Ends.of_eq e h
  · obtain ⟨p, e, h⟩ := S.next r a ha; exact Ends.of_eq e h
  · obtain ⟨p, e⟩ := S.isLast r a c ha hc; exact Ends.of_eq e trivial

theorem below_ends (S : Ranked nav vl A rk fin N) {cut : Ptr} {test : α → Bool} {b c} (h : (nav none).parent b = Res.ok (some c)) (hc : A c) :
    ∃ r, below nav vl cut test b = Res.ok r := by
  obtain ⟨v, hv⟩ := S.val c hc
  simp only [below, h, Res.ok_bind, deref_some, hv]
  split
  · exact ⟨_, rfl⟩
  · exact ⟨_, rfl⟩

/-- `rest` is what remains from the position `m` on. -/
theorem nextLoop_ends (S : Ranked nav vl A rk fin N) {r : Ptr} (hr : In A r) (cut : Ptr) (test : α → Bool) :
    ∀ n p a c, (nav none).parent a = Res.ok (some c) → Sib nav A rk fin a p → 0 < n → (∀ b, p = some b → N < n + rk b) →
      Ends (PredNav.nextLoop (nav r) (below nav vl cut test) n p) (Sib nav A rk fin a) := by
  intro n
  induction n with
  | zero => intro p a c _ _ h; omega
  | succ n ih =>
    intro p a c hac hp _ hn
    cases p with
    | none => exact Ends.ok hp
    | some b =>
      obtain ⟨hb, h1, c', hc, hc'⟩ := hp b rfl
      have hA := (S.up b c' hb hc').1
      obtain ⟨x, e⟩ := below_ends S (cut := cut) (test := test) hc' hA
      simp only [PredNav.nextLoop, e, Res.ok_bind]
      have hn' := hn b rfl
      have hlt := S.lt b hb
      have hle := S.le b hb
      cases x with
      | true => exact Ends.ok hp
      | false =>
        refine ((calm_nav S hr).next b hb).bind fun q hq => ih q a c hac ?_ (by omega) ?_
        · intro d hd
          obtain ⟨g1, g2, g3, g4, g5⟩ := hq d hd
          rw [hc'] at g4
          cases g4
          exact ⟨g1, by omega, c', hc, g5⟩
        · intro d hd
          obtain ⟨g1, g2, -⟩ := hq d hd
          omega

theorem calm_pred (S : Ranked nav vl A rk fin N) (hf : N < fuel) {r : Ptr} (hr : In A r) (cut : Ptr) (test : α → Bool) :
    Calm (PredNav.nav (nav r) (below nav vl cut test) fuel) A rk fin nav := by
  have C := calm_nav S hr
  have hn : ∀ a, A a → Ends (PredNav.next (nav r) (below nav vl cut test) fuel a) (Sib nav A rk fin a) := fun a ha => by
    refine (C.next a ha).bind fun p hp => ?_
    cases p with
    | none => cases fuel <;> first | omega | exact Ends.ok (by intro b h; cases h)
    | some b =>
      obtain ⟨-, -, c, hc, -⟩ := hp b rfl
      exact nextLoop_ends S hr cut test _ _ a c hc hp (by omega) (by intro b _; omega)
  refine ⟨C.root, C.parent, fun a ha => ?_, hn, C.isLast⟩
  refine (C.first a ha).bind fun p hp => ?_
  cases p with
  | none => exact Ends.ok hp
  | some b =>
    obtain ⟨hb, hc⟩ := hp b rfl
    obtain ⟨x, e⟩ := below_ends S (cut := cut) (test := test) hc ha
    simp only [e, Res.ok_bind]
    cases x with
    | true => exact Ends.ok hp
    | false =>
      refine (hn b hb).mono fun q hq d hd => ?_
      obtain ⟨g1, g2, g3, g4, g5⟩ := hq d hd
      rw [hc] at g4
      cases g4
      exact ⟨g1, g5⟩

theorem calm_of (S : Ranked nav vl A rk fin N) (hf : N < fuel) {r : Ptr} (hr : In A r) (s : Memo) (w : Walk α) :
    Calm (navOf nav vl fuel s w r) A rk fin nav := by
  cases w with
  | fixed => exact calm_nav S hr
  | siblings => exact calm_nav S hr
  | pre i test => exact calm_pred S hf hr _ _
  | leaves test => exact calm_pred S hf hr _ _

section
variable {nv : Nav}

/-- A node after the position `m` below `r` (a node or null), or null. -/
def Later (A : Addr → Prop) (rk fin : Addr → Nat) (r : Addr) (m : Nat) (p : Ptr) : Prop := ∀ b, p = some b → A b ∧ m < rk b ∧ rk b < fin r

theorem preInc_ends (S : Ranked nav vl A rk fin N) (hf : N < fuel) (C : Calm nv A rk fin nav) {a r} (ha : A a) (hr : nv.root = some r)
    (h1 : rk r ≤ rk a) (h2 : rk a < fin r) : Ends (Policy.preInc nv fuel a) (Later A rk fin r (rk a)) := by
  have hAr : A r := C.root r hr
  have hin : ∀ x b, A x → rk r ≤ rk x → rk x < fin r → (nav none).parent x = Res.ok (some b) → x ≠ r → fin b ≤ fin r ∧ rk r ≤ rk b ∧ rk b < fin r := by
    intro x b hx h3 h4 hb hxr
    rcases S.inner r x hAr hx h3 h4 with h | ⟨b', hb', g1, g2, g3⟩
    · exact absurd h hxr
    · rw [hb] at hb'
      cases hb'
      obtain ⟨u1, u2, u3⟩ := S.up x b hx hb
      refine ⟨?_, g1, g2⟩
      rcases S.inner r b hAr u1 g1 g2 with rfl | ⟨-, -, -, -, h⟩
      · exact Nat.le_refl _
      · exact h
  refine (C.first a ha).bind fun p hp => ?_
  cases p with
  | some c =>
    obtain ⟨hc, hc'⟩ := hp c rfl
    obtain ⟨-, u2, u3⟩ := S.up c a hc hc'
    have := S.lt c hc
    refine Ends.ok ?_
    rintro b ⟨⟩
    refine ⟨hc, u2, ?_⟩
    rcases S.inner r a hAr ha h1 h2 with rfl | ⟨-, -, -, -, h⟩ <;> omega
  | none =>
    have key : ∀ n x, A x → rk x < n → rk a < fin x → rk r ≤ rk x → rk x < fin r →
        Ends (keepCallingT nv.parent (fun (_ : Unit) child _ => do pure (← (do pure (!(← nv.isLast child))), ()))
          (fun _ child _ => do pure (← nv.next child, ())) n () x) (fun y => ∀ b, y.1 = some b → b = r ∨ (A b ∧ rk a < rk b ∧ rk b < fin r)) := by
      intro n
      induction n with
      | zero => intro x _ h; omega
      | succ n ih =>
        intro x hx hn hfin h3 h4
        rw [keepCallingT]
        obtain ⟨p, e, hp, hp'⟩ := C.parent x hx
        simp only [e, Res.ok_bind]
        cases p with
        | none =>
          refine Ends.ok ?_
          rintro b ⟨⟩
          rcases hp' rfl with h | h
          · rw [hr] at h; cases h; exact .inl rfl
          · rcases S.inner r x hAr hx h3 h4 with h5 | ⟨b', hb', -⟩
            · exact .inl h5
            · rw [h] at hb'; cases hb'
        | some b =>
          obtain ⟨hroot, hb⟩ := hp b rfl
          obtain ⟨u1, u2, u3⟩ := S.up x b hx hb
          have hlt := S.lt x hx
          by_cases hxr : x = r
          · exact absurd (hxr ▸ hr) hroot
          · obtain ⟨v1, v2, v3⟩ := hin x b hx h3 h4 hb hxr
            have h1 : Ends (nv.isLast x >>= fun x => (pure (!x) : Res Bool)) (fun _ => True) := (C.isLast x b hx hb).bind fun x _ => Ends.ok trivial
            refine (h1.bind (Q := fun _ => True) fun x _ => Ends.ok trivial).bind fun y _ => ?_
            obtain ⟨y, u⟩ := y
            cases y with
            | true =>
              refine (C.next x hx).bind fun q hq => Ends.ok ?_
              intro d hd
              obtain ⟨g1, g2, c, g3, g4⟩ := hq d hd
              rw [hb] at g3
              cases g3
              obtain ⟨w1, w2, w3⟩ := S.up d b g1 g4
              have := S.lt d g1
              exact .inr ⟨g1, by omega, by omega⟩
            | false => exact ih b u1 (by omega) (by omega) v2 v3
    have hlt := S.lt a ha
    have hle := S.le a ha
    have h2 : Ends (Policy.climb nv fuel (fun c => do pure (!(← nv.isLast c))) (fun c => nv.next c) a)
        (fun y => ∀ b, y = some b → b = r ∨ (A b ∧ rk a < rk b ∧ rk b < fin r)) :=
      (key fuel a ha (by omega) (by omega) h1 h2).bind fun x hx => Ends.ok hx
    refine h2.bind fun q hq => ?_
    by_cases h : (q == nv.root) = true
    · rw [if_pos h]
      exact Ends.ok (by intro b h; cases h)
    · rw [if_neg h]
      refine Ends.ok fun b hb => ?_
      rcases hq b hb with rfl | h'
      · exact absurd (by rw [hb, hr]; simp) h
      · exact h'

/-- The stack of `policy::leaves`: nodes with a next sibling, each a proper descendant of the one below it in the stack. -/
def Chain (nv : Nav) (A : Addr → Prop) (fin : Addr → Nat) (nav : Ptr → Nav) : List Addr → Prop
  | [] => True
  | x :: st => A x ∧ (∃ y, nv.next x = Res.ok (some y)) ∧ (∀ y ∈ st.head?, ∃ c, (nav none).parent x = Res.ok (some c) ∧ fin c ≤ fin y) ∧
    Chain nv A fin nav st

/-- The stack is past the position `m`. -/
def Past (fin : Addr → Nat) (m : Nat) (st : List Addr) : Prop := ∀ y ∈ st.head?, m < fin y

theorem leavesDescend_ends (S : Ranked nav vl A rk fin N) (C : Calm nv A rk fin nav) {m : Nat} : ∀ n a st, A a → N < n + rk a → m ≤ rk a →
    (∀ y ∈ st.head?, ∃ c, (nav none).parent a = Res.ok (some c) ∧ fin c ≤ fin y) → Chain nv A fin nav st → Past fin m st →
    Ends (Policy.leavesDescend nv n a st) (fun s => In A s.cur ∧ Chain nv A fin nav s.aux ∧ Past fin m s.aux) := by
  intro n
  induction n with
  | zero => intro a st ha h; have := S.lt a ha; have := S.le a ha; omega
  | succ n ih =>
    intro a st ha hn hm hp hst hpast
    have hlt := S.lt a ha
    have hle := S.le a ha
    rw [Policy.leavesDescend]
    obtain ⟨q, e, hq⟩ := C.next a ha
    simp only [e, Res.ok_bind]
    have hst' : Chain nv A fin nav (if q.isSome = true then a :: st else st) ∧ Past fin m (if q.isSome = true then a :: st else st) ∧
        ∀ y ∈ (if q.isSome = true then a :: st else st).head?, fin a ≤ fin y := by
      cases q with
      | none =>
        refine ⟨hst, hpast, fun y hy => ?_⟩
        obtain ⟨c, hc, hc'⟩ := hp y hy
        have := (S.up a c ha hc).2.2
        omega
      | some q =>
        refine ⟨⟨ha, ⟨q, e⟩, hp, hst⟩, ?_, ?_⟩
        · intro y hy
          simp at hy
          subst hy
          omega
        · intro y hy
          simp at hy
          subst hy
          omega
    refine (C.first a ha).bind fun p hp => ?_
    cases p with
    | none => exact Ends.ok ⟨in_some ha, hst'.1, hst'.2.1⟩
    | some b =>
      obtain ⟨hb, hb'⟩ := hp b rfl
      obtain ⟨-, u2, -⟩ := S.up b a hb hb'
      exact ih b _ hb (by omega) (by omega) (fun y hy => ⟨a, hb', hst'.2.2 y hy⟩) hst'.1 hst'.2.1

theorem leavesInc_ends (S : Ranked nav vl A rk fin N) (hf : N < fuel) (C : Calm nv A rk fin nav) {st} (hst : Chain nv A fin nav st) :
    Ends (Policy.leavesInc nv fuel st) (fun s => In A s.cur ∧ Chain nv A fin nav s.aux ∧ (st = [] → s.cur = none ∧ s.aux = []) ∧
      ∀ x ∈ st.head?, Past fin (fin x) s.aux) := by
  cases st with
  | nil => exact Ends.ok ⟨in_none, trivial, fun _ => ⟨rfl, rfl⟩, by simp⟩
  | cons a st =>
    obtain ⟨ha, ⟨b, e⟩, hp, hst'⟩ := hst
    obtain ⟨q, e', hq⟩ := C.next a ha
    cases e.symm.trans e'
    obtain ⟨hb, g2, c, g3, g4⟩ := hq b rfl
    have hltb := S.lt b hb
    obtain ⟨-, -, u3⟩ := S.up b c hb g4
    simp only [Policy.leavesInc, e, Res.ok_bind, deref_some]
    refine (leavesDescend_ends S C (m := fin a) fuel b st hb (by omega) g2 ?_ hst' ?_).mono fun s hs => ⟨hs.1, hs.2.1, by simp, ?_⟩
    · intro y hy
      obtain ⟨c', hc, hc'⟩ := hp y hy
      rw [g3] at hc
      cases hc
      exact ⟨c, g4, hc'⟩
    · intro y hy
      obtain ⟨c', hc, hc'⟩ := hp y hy
      rw [g3] at hc
      cases hc
      omega
    · intro x hx
      simp at hx
      subst hx
      exact hs.2.2

theorem moveLoop_ends (S : Ranked nav vl A rk fin N) (hf : N < fuel) (C : Calm nv A rk fin nav) {pr : Addr → Res Bool}
    (hpr : ∀ a, A a → Ends (pr a) (fun _ => True)) :
    ∀ n a st, A a → Chain nv A fin nav st → 0 < n → (∀ x ∈ st.head?, N + 1 < n + fin x) →
      Ends (FilterIter.moveLoop Policy.leaves nv fuel pr .inc n ⟨some a, st⟩) (fun s => In A s.cur ∧ Chain nv A fin nav s.aux ∧
        (st = [] → s.cur = none ∧ s.aux = []) ∧ ∀ x ∈ st.head?, Past fin (fin x) s.aux) := by
  intro n
  induction n with
  | zero => intro a st _ _ h; omega
  | succ n ih =>
    intro a st ha hst _ hn
    refine (leavesInc_ends S hf C hst).bind fun s hs => ?_
    obtain ⟨cur, aux⟩ := s
    cases cur with
    | none => exact Ends.ok hs
    | some b =>
      have hst2 : ∃ x, st.head? = some x := by
        cases st with
        | nil => cases (hs.2.2.1 rfl).1
        | cons x st => exact ⟨x, rfl⟩
      obtain ⟨x, hx⟩ := hst2
      have hx' := hn x hx
      have hAx : A x := by
        cases st with
        | nil => cases hx
        | cons y st => cases hx; exact hst.1
      have hle := S.le x hAx
      refine (hpr b (hs.1 b rfl)).bind fun y _ => ?_
      cases y with
      | true => exact Ends.ok hs
      | false =>
        refine (ih b aux (hs.1 b rfl) hs.2.1 (by omega) ?_).mono fun s2 hs2 => ⟨hs2.1, hs2.2.1, ?_, ?_⟩
        · intro z hz
          have := hs.2.2.2 x hx z hz
          omega
        · rintro rfl
          cases hx
        · intro w hw
          rw [hx] at hw
          cases hw
          cases haux : aux.head? with
          | none =>
            have : aux = [] := by simpa using haux
            rw [(hs2.2.2.1 this).2]
            simp [Past]
          | some z =>
            intro v hv
            have h1 := hs.2.2.2 x hx z haux
            have h2 := hs2.2.2.2 z haux v hv
            omega

theorem wrap_ends (S : Ranked nav vl A rk fin N) (hf : N < fuel) (C : Calm nv A rk fin nav) {pr : Addr → Res Bool}
    (hpr : ∀ a, A a → Ends (pr a) (fun _ => True)) {s : ItState}
    (h : In A s.cur) (hst : Chain nv A fin nav s.aux) :
    Ends (FilterIter.wrap Policy.leaves nv fuel pr s) (fun s => In A s.cur ∧ Chain nv A fin nav s.aux) := by
  obtain ⟨cur, aux⟩ := s
  cases cur with
  | none => exact Ends.ok ⟨h, hst⟩
  | some a =>
    refine (hpr a (h a rfl)).bind fun x _ => ?_
    cases x with
    | true => exact Ends.ok ⟨h, hst⟩
    | false =>
      refine (moveLoop_ends S hf C hpr fuel a aux (h a rfl) hst (by omega) ?_).mono fun s hs => ⟨hs.1, hs.2.1⟩
      intro x hx
      cases aux with
      | nil => cases hx
      | cons y st => cases hx; have := S.lt x hst.1; omega

theorem ramification_ends (S : Ranked nav vl A rk fin N) (hf : N < fuel) (C : Calm nv A rk fin nav) {a} (ha : A a) :
    Ends (ramification fuel nv a) (fun p => ∀ b, p = some b → A b ∧ rk a < rk b ∧ rk b < fin a) := by
  have key : ∀ n s x, A x → N < n + rk x → rk a ≤ rk x → fin x ≤ fin a → (s = true → rk a < rk x) →
      Ends (keepCallingT nv.first (fun (_ : Bool) _ child => do pure (!(← nv.isLast child), true))
        (fun found _ child => pure (some child, found)) n s x)
        (fun y => ∀ b, y.2 = true → y.1 = some b → A b ∧ rk a < rk b ∧ rk b < fin a) := by
    intro n
    induction n with
    | zero => intro s x hx h; have := S.lt x hx; have := S.le x hx; omega
    | succ n ih =>
      intro s x hx hn h1 h2 h3
      refine (C.first x hx).bind fun p hp => ?_
      have hlt := S.lt x hx
      cases p with
      | none => exact Ends.ok (by rintro b hs ⟨⟩; exact ⟨hx, h3 hs, by omega⟩)
      | some b =>
        obtain ⟨hb, hc⟩ := hp b rfl
        obtain ⟨-, u2, u3⟩ := S.up b x hb hc
        have hltb := S.lt b hb
        have h1 : Ends (nv.isLast b >>= fun x => (pure (!x, true) : Res (Bool × Bool))) (fun y => y.2 = true) := (C.isLast b x hb hc).bind fun x _ => Ends.ok rfl
        refine h1.bind fun y hy => ?_
        obtain ⟨y, u⟩ := y
        cases y with
        | true => exact Ends.ok (by rintro c _ ⟨⟩; exact ⟨hb, by omega, by omega⟩)
        | false => exact ih _ b hb (by omega) (by omega) (by omega) (by intro _; omega)
  refine (key fuel false a ha (by omega) (Nat.le_refl _) (Nat.le_refl _) (by simp)).bind fun x hx => ?_
  obtain ⟨r, f⟩ := x
  cases f with
  | true => exact Ends.ok fun b hb => hx b rfl hb
  | false => exact Ends.ok (by intro b h; cases h)
end

/-! ### the search -/

/-- An iterator of a search. -/
structure Good (nav : Ptr → Nav) (vl : Addr → Res α) (fuel : Nat) (A : Addr → Prop) (rk fin : Addr → Nat) (it : SIt α) : Prop where
  root : In A it.root
  cur : In A it.cur
  stack : ∀ test, it.walk = .leaves test → Chain (PredNav.nav (nav it.root) (below nav vl none test) fuel) A fin nav it.aux
  inside : ∀ i test, it.walk = .pre i test → ∀ a, it.cur = some a → ∃ r, it.root = some r ∧ rk r ≤ rk a ∧ rk a < fin r

/-- How many more steps an iterator can make. -/
def left (rk fin : Addr → Nat) (N : Nat) (it : SIt α) : Nat :=
  match it.cur with
  | none => 0
  | some a =>
    match it.walk with
    | .leaves _ => match it.aux.head? with
      | none => 1
      | some x => N + 2 - fin x
    | _ => N - rk a

/-- The matchers `J` remember nodes or null. -/
def Inv (A : Addr → Prop) (J : List Nat) (s : Memo) : Prop := ∀ i ∈ J, In A (s.marks i)

variable {J : List Nat}

theorem Inv.mark {s : Memo} (h : Inv A J s) {p : Ptr} (hp : In A p) (i : Nat) : Inv A J (s.mark i p) := by
  intro j hj
  simp only [Memo.mark, Marks.set]
  split
  · exact hp
  · exact h j hj
theorem Inv.cut {s : Memo} (h : Inv A J s) (i : Nat) (p : Ptr) : Inv A J (s.cut i p) := h
theorem Inv.ack {s : Memo} (h : Inv A J s) (ack : Option Nat) (a : Addr) : Inv A J (acknowledge ack s a) := by cases ack <;> exact h
theorem Inv.reset {s : Memo} (h : Inv A J s) (ps : List (Pat α)) : Inv A J (s.reset ps) := by
  intro j hj
  simp only [Memo.reset, resetL]
  split
  · exact in_none
  · exact h j hj

theorem notIn_ends (S : Ranked nav vl A rk fin N) (test : α → Bool) : ∀ a, A a → Ends (notIn vl test a) (fun _ => True) := by
  intro a ha
  obtain ⟨v, e⟩ := S.val a ha
  exact Ends.of_eq (x := !test v) (by simp [notIn, e]) trivial

theorem left_le (S : Ranked nav vl A rk fin N) {it : SIt α} (G : Good nav vl fuel A rk fin it) : left rk fin N it ≤ N + 1 := by
  obtain ⟨w, root, cur, aux⟩ := it
  cases cur with
  | none => simp [left]
  | some a =>
    cases w with
    | leaves test =>
      cases aux with
      | nil => simp [left]
      | cons x st =>
        have := S.lt x (G.stack test rfl).1
        simp [left]
        omega
    | _ => simp [left]; omega

theorem next_ends (S : Ranked nav vl A rk fin N) (hf : N + 1 < fuel) (s : Memo) {it : SIt α} (G : Good nav vl fuel A rk fin it) {a}
    (hc : it.cur = some a) :
    Ends (next nav vl fuel s it a) (fun it' => Good nav vl fuel A rk fin it' ∧ it'.walk = it.walk ∧ it'.root = it.root ∧
      left rk fin N it' < left rk fin N it ∧ ((∃ i test, it.walk = .pre i test) → ∀ b, it'.cur = some b → rk a < rk b)) := by
  have ha := G.cur a hc
  obtain ⟨w, root, cur, aux⟩ := it
  cases hc
  have C := calm_of (fuel := fuel) S (by omega) G.root s w
  have hlt := S.lt a ha
  have hle := S.le a ha
  cases w with
  | fixed => exact Ends.ok ⟨⟨G.root, in_none, by simp, by simp⟩, rfl, rfl, by simp [left]; omega, by simp⟩
  | siblings =>
    refine (C.next a ha).bind fun p hp => Ends.ok ⟨⟨G.root, fun b hb => (hp b hb).1, by simp, by simp⟩, rfl, rfl, ?_, by simp⟩
    cases p with
    | none => simp [left]; omega
    | some b =>
      obtain ⟨g1, g2, -⟩ := hp b rfl
      simp [left]
      omega
  | pre i test =>
    obtain ⟨r, hr, h1, h2⟩ := G.inside i test rfl a rfl
    dsimp only at hr
    subst hr
    refine (preInc_ends S (by omega) C ha (S.root _) h1 h2).bind fun p hp => Ends.ok ⟨⟨G.root, fun b hb => (hp b hb).1, by simp, ?_⟩, rfl, rfl, ?_, fun _ b hb => (hp b hb).2.1⟩
    · intro _ _ _ b hb
      obtain ⟨-, g2, g3⟩ := hp b hb
      exact ⟨r, rfl, by omega, g3⟩
    · cases p with
      | none => simp [left]; omega
      | some b =>
        obtain ⟨g1, g2, -⟩ := hp b rfl
        simp [left]
        omega
  | leaves test =>
    have hst := G.stack test rfl
    dsimp only at hst
    refine (moveLoop_ends S (by omega) C (notIn_ends S test) fuel a aux ha hst (by omega) ?_).bind fun p hp =>
      Ends.ok ⟨⟨G.root, hp.1, ?_, by simp⟩, rfl, rfl, ?_, by simp⟩
    · intro x hx
      cases aux with
      | nil => cases hx
      | cons y st => cases hx; have := S.lt x hst.1; omega
    · rintro _ ⟨⟩
      exact hp.2.1
    · cases aux with
      | nil => simp [left, (hp.2.2.1 rfl).1]
      | cons x st =>
        have h1 := hp.2.2.2 x rfl
        have := S.le x hst.1
        obtain ⟨pc, pa⟩ := p
        cases pc with
        | none => simp [left]; omega
        | some b =>
          cases pa with
          | nil => simp [left]; omega
          | cons z pa =>
            have h2 := h1 z rfl
            simp [left]
            omega

theorem otherNode_ends (S : Ranked nav vl A rk fin N) (hf : N < fuel) (s : Memo) {it : SIt α} (G : Good nav vl fuel A rk fin it)
    (hw : ∀ i test, it.walk ≠ .pre i test) {p : Ptr} (hp : In A p) :
    Ends (otherNode nav vl fuel s it p) (fun it' => Good nav vl fuel A rk fin it' ∧ it'.walk = it.walk ∧ it'.root = it.root) := by
  obtain ⟨w, root, cur, aux⟩ := it
  have C := calm_of (fuel := fuel) S hf G.root s w
  cases w with
  | leaves test =>
    refine (wrap_ends (s := ⟨p, []⟩) S hf C (notIn_ends S test) hp trivial).bind fun p hp => Ends.ok ⟨⟨G.root, hp.1, ?_, by simp⟩, rfl, rfl⟩
    rintro _ ⟨⟩
    exact hp.2
  | pre i test => exact absurd rfl (hw i test)
  | _ => exact Ends.ok ⟨⟨G.root, hp, by simp, by simp⟩, rfl, rfl⟩

theorem childIt_ends (S : Ranked nav vl A rk fin N) (it : SIt α) {a} (ha : A a) :
    Ends (childIt nav it a) (fun it' => Good nav vl fuel A rk fin it' ∧ it'.walk = .siblings) := by
  have hfin : ∀ r, A r → Ends (do pure ⟨.siblings, some r, ← (nav (some r)).first a, []⟩ : Res (SIt α))
      (fun it' => Good nav vl fuel A rk fin it' ∧ it'.walk = .siblings) := by
    intro r hr
    have C := calm_nav S (in_some hr)
    exact (C.first a ha).bind fun p hp => Ends.ok ⟨⟨in_some hr, fun b hb => (hp b hb).1, by simp, by simp⟩, rfl⟩
  unfold childIt
  cases it.walk with
  | siblings =>
    obtain ⟨p, e, h, -⟩ := S.parent none a ha
    simp only [e, Res.ok_bind]
    cases p with
    | none => exact hfin a ha
    | some p => exact hfin p (S.up a p ha (h p rfl).2).1
  | _ => exact hfin a ha

theorem fixedIt_good {it : SIt α} (G : Good nav vl fuel A rk fin it) {a} (ha : A a) : Good nav vl fuel A rk fin (fixedIt it a) :=
  ⟨G.root, in_some ha, by simp [fixedIt], by simp [fixedIt]⟩

theorem targetIt_ends (S : Ranked nav vl A rk fin N) (hf : N < fuel) (i : Nat) (q : Quantifier) (test : α → Bool) (s : Memo) {a} (ha : A a) :
    Ends (targetIt nav vl fuel i q test s a) (fun it' => Good nav vl fuel A rk fin it' ∧ (q = .possessive → it'.walk = .leaves test) ∧
      (q ≠ .possessive → it'.walk = .pre i test)) := by
  unfold targetIt
  split
  · next hq =>
    have C := calm_of (fuel := fuel) S hf (in_some ha) s (.leaves test)
    have hr : (navOf nav vl fuel s (.leaves test) (some a)).root = some a := S.root _
    have h1 : Ends (Policy.leaves.goFirst (navOf nav vl fuel s (.leaves test) (some a)) fuel [])
        (fun r => In A r.cur ∧ Chain (navOf nav vl fuel s (.leaves test) (some a)) A fin nav r.aux) := by
      simp only [Policy.leaves, hr, deref_some, Res.ok_bind]
      exact (leavesDescend_ends S C (m := 0) fuel a [] ha (by omega) (Nat.zero_le _) (by simp) trivial (by simp [Past])).mono fun s hs => ⟨hs.1, hs.2.1⟩
    refine h1.bind fun r hr => ?_
    refine (wrap_ends S hf C (notIn_ends S test) hr.1 hr.2).bind fun r hr => Ends.ok ⟨⟨in_some ha, hr.1, ?_, by simp⟩, by simp, by simp [hq]⟩
    rintro _ ⟨⟩
    exact hr.2
  · next hq =>
    have C := calm_of (fuel := fuel) S hf (in_some ha) s (.pre i test)
    have hlt := S.lt a ha
    refine (preInc_ends S hf C ha (S.root _) (Nat.le_refl _) hlt).bind fun p hp => Ends.ok ⟨⟨in_some ha, fun b hb => (hp b hb).1, by simp, ?_⟩, by simp [hq], by simp⟩
    intro _ _ _ b hb
    obtain ⟨-, g2, g3⟩ := hp b hb
    exact ⟨a, rfl, by omega, g3⟩

/-- What `search_node_this` returns. -/
structure Post (nav : Ptr → Nav) (vl : Addr → Res α) (fuel : Nat) (A : Addr → Prop) (rk fin : Addr → Nat) (J : List Nat)
    (i : Nat) (own : List Nat) (null : Bool) (s : Memo) (it : SIt α) (x : Bool × Memo × SIt α) : Prop where
  inv : Inv A J x.2.1
  good : Good nav vl fuel A rk fin x.2.2
  walk : x.2.2.walk = it.walk
  root : x.2.2.root = it.root
  frame : ∀ j, j ∉ own → x.2.1.marks j = s.marks j
  fail : x.1 = false → x.2.2.cur = none
  hit : x.1 = true → null = false → (∃ i test, it.walk = .pre i test) → ∃ r c a, it.root = some r ∧ x.2.1.marks i = some c ∧ A c ∧
    rk r ≤ rk c ∧ rk c < fin r ∧ it.cur = some a ∧ rk a ≤ rk c

/-- What a search of a list of matchers returns. -/
structure PostL (nav : Ptr → Nav) (vl : Addr → Res α) (fuel : Nat) (A : Addr → Prop) (rk fin : Addr → Nat) (J : List Nat)
    (own : List Nat) (s : Memo) (it : SIt α) (x : Bool × Memo × SIt α) : Prop where
  inv : Inv A J x.2.1
  good : Good nav vl fuel A rk fin x.2.2
  walk : x.2.2.walk = it.walk
  root : x.2.2.root = it.root
  frame : ∀ j, j ∉ own → x.2.1.marks j = s.marks j

theorem marks_ack (ack : Option Nat) (s : Memo) (a : Addr) : (acknowledge ack s a).marks = s.marks := by cases ack <;> rfl

theorem loop_ends (S : Ranked nav vl A rk fin N) (hf : N + 1 < fuel) {step : Memo → SIt α → Addr → Res (Bool × Memo)} {i : Nat} {ack : Option Nat}
    {null : Bool} {own : List Nat} (hi : i ∈ own) {b : SIt α}
    (hb : Good nav vl fuel A rk fin b) (hstep : ∀ s it a, Inv A J s → Good nav vl fuel A rk fin it → it.cur = some a →
      Ends (step s it a) (fun x => Inv A J x.2 ∧ ∀ j, j ∉ own → x.2.marks j = s.marks j)) :
    ∀ n s it, left rk fin N it < n → Inv A J s → Good nav vl fuel A rk fin it → it.walk = b.walk → it.root = b.root →
      Ends (loop nav vl fuel step i ack null b n s it) (Post nav vl fuel A rk fin J i own null s it) := by
  intro n
  induction n with
  | zero => intro s it h; omega
  | succ n ih =>
    intro s it hn hs G hw hr
    rw [loop]
    cases hc : it.cur with
    | none =>
      dsimp only
      split
      · next h => exact Ends.ok ⟨hs, hb, hw.symm, hr.symm, fun _ _ => rfl, by simp, by simp [h]⟩
      · exact Ends.ok ⟨hs, G, rfl, rfl, fun _ _ => rfl, fun _ => hc, by simp⟩
    | some a =>
      have ha := G.cur a hc
      refine (hstep s it a hs G hc).bind fun x hx => ?_
      obtain ⟨ok, s1⟩ := x
      cases ok with
      | true =>
        have h1 : Inv A J (acknowledge ack (s1.mark i (some a)) a) := (Inv.mark hx.1 (in_some ha) i).ack _ _
        refine (next_ends S hf _ G hc).bind fun it' G' => Ends.ok ⟨h1, G'.1, G'.2.1, G'.2.2.1, ?_, by simp, ?_⟩
        · intro j hj
          have hji : j ≠ i := fun e => hj (e ▸ hi)
          simp [marks_ack, Memo.mark, Marks.set, hji]
          exact hx.2 j hj
        · rintro - - ⟨j, test, hpre⟩
          obtain ⟨r, g1, g2, g3⟩ := G.inside j test hpre a hc
          exact ⟨r, a, a, g1, by simp [marks_ack, Memo.mark, Marks.set], ha, g2, g3, hc, Nat.le_refl _⟩
      | false =>
        refine (next_ends S hf s1 G hc).bind fun it' G' => ?_
        refine (ih s1 it' (by omega) hx.1 G'.1 (G'.2.1.trans hw) (G'.2.2.1.trans hr)).mono fun y hy => ?_
        refine ⟨hy.inv, hy.good, hy.walk.trans G'.2.1, hy.root.trans G'.2.2.1, fun j hj => (hy.frame j hj).trans (hx.2 j hj), hy.fail, ?_⟩
        intro h1 h2 h3
        obtain ⟨r, c, d, g1, g2, g3, g4, g5, g6, g7⟩ := hy.hit h1 h2 (by rw [G'.2.1]; exact h3)
        have := G'.2.2.2.2 h3 d g6
        exact ⟨r, c, a, by rw [← G'.2.2.1]; exact g1, g2, g3, g4, g5, hc, by omega⟩

theorem rematch_ends (S : Ranked nav vl A rk fin N) (hf : N + 1 < fuel) {this rest : Memo → SIt α → Res (Bool × Memo × SIt α)} {i p : Nat}
    {own ownL : List Nat} (hp : p ∈ J) (hpo : p ∉ ownL)
    (hthis : ∀ s it, Inv A J s → Good nav vl fuel A rk fin it → Ends (this s it) (Post nav vl fuel A rk fin J p own false s it))
    (hrest : ∀ s it, Inv A J s → Good nav vl fuel A rk fin it → (∃ i test, it.walk = .pre i test) → Ends (rest s it) (PostL nav vl fuel A rk fin J ownL s it)) :
    ∀ n s it, Inv A J s → Good nav vl fuel A rk fin it → (∃ i test, it.walk = .pre i test) → 0 < n →
      (∀ a, it.cur = some a → ∀ b, s.marks p = some b → N < n + rk b ∧ ∃ r, it.root = some r ∧ rk r ≤ rk b ∧ rk b < fin r) →
      Ends (rematch nav vl fuel this rest i p n s it) (PostL nav vl fuel A rk fin J (own ++ ownL) s it) := by
  intro n
  induction n with
  | zero => intro s it _ _ _ h; omega
  | succ n ih =>
    intro s it hs G hw _ hn
    rw [rematch]
    cases hc : it.cur with
    | none => exact Ends.ok ⟨hs, G, rfl, rfl, fun _ _ => rfl⟩
    | some a =>
      cases hm : s.marks p with
      | none => exact Ends.ok ⟨hs, G, rfl, rfl, fun _ _ => rfl⟩
      | some b =>
        have hb : A b := hs p hp b hm
        have hltb := S.lt b hb
        have hleb := S.le b hb
        obtain ⟨hn1, r, hr, h1, h2⟩ := hn a hc b hm
        have C := calm_of (fuel := fuel) S (by omega) G.root (s.cut i none) it.walk
        refine (ramification_ends S (by omega) C hb).bind fun c hc => ?_
        have hfb : fin b ≤ fin r := by
          rcases S.inner r b (G.root r hr) hb h1 h2 with rfl | ⟨-, -, -, -, h⟩
          · exact Nat.le_refl _
          · exact h
        have G1 : Good nav vl fuel A rk fin { it with cur := c, aux := [] } := by
          refine ⟨G.root, fun d hd => (hc d hd).1, fun _ _ => trivial, fun j test hj d hd => ⟨r, hr, ?_, ?_⟩⟩
          · have := (hc d hd).2.1; omega
          · have := (hc d hd).2.2; omega
        refine (hthis (s.cut i none) _ hs G1).bind fun x hx => ?_
        obtain ⟨ok, s1, it1⟩ := x
        cases ok with
        | false =>
          refine (ih s1 it1 hx.inv hx.good (by rw [hx.walk]; exact hw) (by omega) ?_).mono fun y hy => ?_
          · intro a' ha'
            have := hx.fail rfl
            rw [this] at ha'
            cases ha'
          · refine ⟨hy.inv, hy.good, hy.walk.trans hx.walk, hy.root.trans hx.root, fun j hj => (hy.frame j hj).trans ?_⟩
            exact hx.frame j (fun h => hj (by simp [h]))
        | true =>
          refine (hrest s1 it1 hx.inv hx.good (by rw [hx.walk]; exact hw)).bind fun y hy => ?_
          obtain ⟨ok, s2, it2⟩ := y
          have hfr : ∀ j, j ∉ own ++ ownL → s2.marks j = s.marks j := by
            intro j hj
            simp at hj
            exact (hy.frame j hj.2).trans (hx.frame j hj.1)
          cases ok with
          | false =>
            obtain ⟨r', c', d, g1, g2, g3, g4, g5, g6, g7⟩ := hx.hit rfl rfl hw
            have hr' : r' = r := by
              rw [show ({ it with cur := c, aux := [] } : SIt α).root = it.root from rfl, hr] at g1
              exact (Option.some.inj g1).symm
            subst hr'
            have h6 := (hc d g6).2.1
            refine (ih s2 _ hy.inv G1 hw (by omega) ?_).mono fun z hz => ?_
            · intro a' ha' b' hb'
              have : s2.marks p = some c' := (hy.frame p hpo).trans g2
              rw [this] at hb'
              cases hb'
              exact ⟨by omega, r', hr, by omega, by omega⟩
            · exact ⟨hz.inv, hz.good, hz.walk, hz.root, fun j hj => (hz.frame j hj).trans (hfr j hj)⟩
          | true => exact Ends.ok ⟨hy.inv, hy.good, hy.walk.trans hx.walk, hy.root.trans hx.root, hfr⟩

/-- A matcher whose search ends: every `cpt` has one argument, and every argument of a `star` that is not possessive has to match
something. -/
def Fine : Pat α → Prop
  | .node _ .cpt _ ps => ps.length = 1
  | .node _ (.star q) _ ps => q ≠ .possessive → ∀ a ∈ ps, a.matchesNull = false
  | _ => True

mutual
theorem this_ends (S : Ranked nav vl A rk fin N) (hf : N + 1 < fuel) : (p : Pat α) → (∀ i ∈ p.ids, i ∈ J) → (∀ q ∈ p.pre, Fine q) →
    p.ids.Nodup → (ack : Option Nat) → (s : Memo) → (it : SIt α) → Inv A J s → Good nav vl fuel A rk fin it →
    Ends (this nav vl fuel p ack s it) (Post nav vl fuel A rk fin J p.id p.ids p.matchesNull s it)
  | Pat.node i .cpt test ps, hJ, hF, hN, ack, s, it, hs, G => by
    have h1 : Fine (Pat.node i .cpt test ps) := hF _ (by simp [Pat.pre])
    simp only [Fine] at h1
    match ps, h1, hJ, hF, hN with
    | [p], _, hJ, hF, hN =>
      have hJ' : ∀ j ∈ p.ids, j ∈ J := fun j hj => hJ j (by simp [hj])
      have hF' : ∀ q ∈ p.pre, Fine q := fun q hq => hF q (by simp [Pat.pre, Pat.preL, hq])
      simp at hN
      have hip : p.id ≠ i := fun e => hN.1 (e ▸ id_mem p)
      rw [this, all_single]
      refine (this_ends S hf p hJ' hF' hN.2 ack s it hs G).bind fun x hx => ?_
      obtain ⟨ok, s1, it1⟩ := x
      have hfr : ∀ j, j ∉ (Pat.node i .cpt test [p]).ids → s1.marks j = s.marks j := fun j hj => hx.frame j (fun h => hj (by simp [h]))
      cases ok with
      | false => exact Ends.ok ⟨hx.inv, hx.good, hx.walk, hx.root, hfr, hx.fail, by simp⟩
      | true =>
        refine Ends.ok ⟨Inv.mark hx.inv (hx.inv p.id (hJ' _ (id_mem p))) i, hx.good, hx.walk, hx.root, ?_, by simp, ?_⟩
        · intro j hj
          have hji : j ≠ i := fun e => hj (by simp [e])
          simp [Memo.mark, Marks.set, hji, hfr j hj]
        · intro _ hnull hpre
          have hnull' : p.matchesNull = false := by simpa [matchesNull, allNull] using hnull
          obtain ⟨r, c, a, g1, g2, g3⟩ := hx.hit rfl hnull' hpre
          refine ⟨r, c, a, g1, ?_, g3⟩
          simp [Memo.mark, Marks.set, Pat.id, headMark]
          exact g2
  | Pat.node i .one test ps, hJ, hF, hN, ack, s, it, hs, G => by
    have hJ' : ∀ j ∈ idsL ps, j ∈ J := fun j hj => hJ j (by simp [ids_node, hj])
    have hF' : ∀ q ∈ preL ps, Fine q := fun q hq => hF q (by simp [Pat.pre, hq])
    simp at hN
    rw [this]
    refine loop_ends S hf (by simp [Pat.id]) G (fun s it a hs G ha => ?_) fuel s it (by have := left_le S G; omega) hs G rfl rfl
    have ha := G.cur a ha
    obtain ⟨v, e⟩ := S.val a ha
    simp only [e, Res.ok_bind]
    split
    · exact Ends.ok ⟨hs, fun _ _ => rfl⟩
    · refine (childIt_ends (vl := vl) (fuel := fuel) S it ha).bind fun it1 G1 => ?_
      refine (all_ends S hf ps hJ' hF' hN.2 none none s it1 (by simp [G1.2]) hs G1.1).bind fun x hx => Ends.ok ⟨hx.inv, ?_⟩
      exact fun j hj => hx.frame j (fun h => hj (by simp [h]))
  | Pat.node i (.opt q) test ps, hJ, hF, hN, ack, s, it, hs, G => by
    have hJ' : ∀ j ∈ idsL ps, j ∈ J := fun j hj => hJ j (by simp [ids_node, hj])
    have hF' : ∀ q ∈ preL ps, Fine q := fun q hq => hF q (by simp [Pat.pre, hq])
    simp at hN
    rw [this]
    split
    · next h =>
      refine Ends.ok ⟨hs, G, rfl, rfl, fun _ _ => rfl, by simp, ?_⟩
      intro _ h'
      simp [prefersNull, h'] at h
    · refine loop_ends S hf (by simp [Pat.id]) G (fun s it a hs G ha => ?_) fuel s it (by have := left_le S G; omega) hs G rfl rfl
      have ha := G.cur a ha
      have hfix : ∀ s, Inv A J s → Ends (all nav vl fuel ps none none s (fixedIt it a) >>= fun x => pure (x.1, x.2.1))
          (fun x => Inv A J x.2 ∧ ∀ j, j ∉ (Pat.node i (.opt q) test ps).ids → x.2.marks j = s.marks j) := fun s hs =>
        (all_ends S hf ps hJ' hF' hN.2 none none s _ (by simp [fixedIt]) hs (fixedIt_good G ha)).bind fun x hx => Ends.ok ⟨hx.inv,
          fun j hj => hx.frame j (fun h => hj (by simp [h]))⟩
      obtain ⟨v, e⟩ := S.val a ha
      simp only [e, Res.ok_bind]
      split
      · split
        · exact hfix s hs
        · exact Ends.ok ⟨hs, fun _ _ => rfl⟩
      · refine (childIt_ends (vl := vl) (fuel := fuel) S it ha).bind fun it1 G1 => ?_
        refine (all_ends S hf ps hJ' hF' hN.2 none none s it1 (by simp [G1.2]) hs G1.1).bind fun x hx => ?_
        obtain ⟨ok, s1, it2⟩ := x
        have hfr : ∀ j, j ∉ (Pat.node i (.opt q) test ps).ids → s1.marks j = s.marks j := fun j hj => hx.frame j (fun h => hj (by simp [h]))
        dsimp only
        split
        · exact (hfix s1 hx.inv).mono fun y hy => ⟨hy.1, fun j hj => (hy.2 j hj).trans (hfr j hj)⟩
        · exact Ends.ok ⟨hx.inv, hfr⟩
  | Pat.node i (.star q) test ps, hJ, hF, hN, ack, s, it, hs, G => by
    have hJ' : ∀ j ∈ idsL ps, j ∈ J := fun j hj => hJ j (by simp [ids_node, hj])
    have hF' : ∀ q ∈ preL ps, Fine q := fun q hq => hF q (by simp [Pat.pre, hq])
    have hq : Fine (Pat.node i (.star q) test ps) := hF _ (by simp [Pat.pre])
    simp only [Fine] at hq
    simp at hN
    rw [this]
    split
    · next h =>
      refine Ends.ok ⟨hs, G, rfl, rfl, fun _ _ => rfl, by simp, ?_⟩
      intro _ h'
      simp [prefersNull, h'] at h
    · refine loop_ends S hf (by simp [Pat.id]) G (fun s it a hs G ha => ?_) fuel s it (by have := left_le S G; omega) hs G rfl rfl
      have ha := G.cur a ha
      have hfix : ∀ s, Inv A J s → Ends (all nav vl fuel ps none none s (fixedIt it a) >>= fun x => pure (x.1, x.2.1))
          (fun x => Inv A J x.2 ∧ ∀ j, j ∉ (Pat.node i (.star q) test ps).ids → x.2.marks j = s.marks j) := fun s hs =>
        (all_ends S hf ps hJ' hF' hN.2 none none s _ (by simp [fixedIt]) hs (fixedIt_good G ha)).bind fun x hx => Ends.ok ⟨hx.inv,
          fun j hj => hx.frame j (fun h => hj (by simp [h]))⟩
      obtain ⟨v, e⟩ := S.val a ha
      simp only [e, Res.ok_bind]
      split
      · split
        · exact hfix s hs
        · exact Ends.ok ⟨hs, fun _ _ => rfl⟩
      · refine (targetIt_ends S (by omega) i q test s ha).bind fun it1 G1 => ?_
        refine (all_ends S hf ps hJ' hF' hN.2 _ _ s it1 ?_ hs G1.1).bind fun x hx => ?_
        · by_cases hp : q = .possessive
          · simp [hp, G1.2.1 hp]
          · intro _
            exact ⟨⟨i, test, G1.2.2 hp⟩, hq hp⟩
        obtain ⟨ok, s1, it2⟩ := x
        have hfr : ∀ j, j ∉ (Pat.node i (.star q) test ps).ids → s1.marks j = s.marks j := fun j hj => hx.frame j (fun h => hj (by simp [h]))
        dsimp only
        split
        · exact (hfix s1 hx.inv).mono fun y hy => ⟨hy.1, fun j hj => (hy.2 j hj).trans (hfr j hj)⟩
        · exact Ends.ok ⟨hx.inv, hfr⟩
theorem all_ends (S : Ranked nav vl A rk fin N) (hf : N + 1 < fuel) : (ps : List (Pat α)) → (∀ i ∈ idsL ps, i ∈ J) → (∀ q ∈ preL ps, Fine q) →
    (idsL ps).Nodup → (ack rem : Option Nat) → (s : Memo) → (it : SIt α) →
    ((rem.isSome ∨ ∃ i test, it.walk = .pre i test) → (∃ i test, it.walk = .pre i test) ∧ ∀ p ∈ ps, p.matchesNull = false) →
    Inv A J s → Good nav vl fuel A rk fin it → Ends (all nav vl fuel ps ack rem s it) (PostL nav vl fuel A rk fin J (idsL ps) s it)
  | [], _, _, _, _, _, s, it, _, hs, G => by rw [all]; exact Ends.ok ⟨hs, G, rfl, rfl, fun _ _ => rfl⟩
  | p :: ps, hJ, hF, hN, ack, rem, s, it, hrem, hs, G => by
    have hJ1 : ∀ j ∈ p.ids, j ∈ J := fun j hj => hJ j (by simp [idsL_cons, hj])
    have hJ2 : ∀ j ∈ idsL ps, j ∈ J := fun j hj => hJ j (by simp [idsL_cons, hj])
    have hF1 : ∀ q ∈ p.pre, Fine q := fun q hq => hF q (by simp [Pat.preL, hq])
    have hF2 : ∀ q ∈ preL ps, Fine q := fun q hq => hF q (by simp [Pat.preL, hq])
    rw [idsL_cons, List.nodup_append] at hN
    have hp : p.id ∈ J := hJ1 _ (id_mem p)
    have hpo : p.id ∉ idsL ps := fun h => hN.2.2 _ (id_mem p) _ h rfl
    rw [all]
    refine (this_ends S hf p hJ1 hF1 hN.1 ack s it hs G).bind fun x hx => ?_
    obtain ⟨ok, s1, it1⟩ := x
    have hfr1 : ∀ j, j ∉ idsL (p :: ps) → s1.marks j = s.marks j := fun j hj => hx.frame j (fun h => hj (by simp [h]))
    have hrem1 : (rem.isSome ∨ ∃ i test, it1.walk = .pre i test) → (∃ i test, it1.walk = .pre i test) ∧ ∀ p ∈ ps, p.matchesNull = false := by
      rw [hx.walk]
      intro h
      exact ⟨(hrem h).1, fun q hq => (hrem h).2 q (by simp [hq])⟩
    cases ok with
    | false => exact Ends.ok ⟨hx.inv, hx.good, hx.walk, hx.root, hfr1⟩
    | true =>
      simp only [Bool.not_true, Bool.false_eq_true, if_false]
      refine (all_ends S hf ps hJ2 hF2 hN.2.1 ack rem s1 it1 hrem1 hx.inv hx.good).bind fun y hy => ?_
      obtain ⟨ok, s2, it2⟩ := y
      have hfr2 : ∀ j, j ∉ idsL (p :: ps) → s2.marks j = s.marks j := fun j hj => (hy.frame j (fun h => hj (by simp [h]))).trans (hfr1 j hj)
      cases ok with
      | true => exact Ends.ok ⟨hy.inv, hy.good, hy.walk.trans hx.walk, hy.root.trans hx.root, hfr2⟩
      | false =>
        simp only [Bool.false_eq_true, if_false]
        have h3 : ∀ z, PostL nav vl fuel A rk fin J (idsL (p :: ps)) s it z → Ends (if z.1 = true then pure (true, z.2.1, z.2.2)
            else if (p.matchesNull && (z.2.1.marks p.id).isSome) = true then do
              let it ← otherNode nav vl fuel z.2.1 z.2.2 (z.2.1.marks p.id)
              all nav vl fuel ps ack rem (z.2.1.reset (p :: ps)) it
            else pure (false, z.2.1, z.2.2) : Res (Bool × Memo × SIt α)) (PostL nav vl fuel A rk fin J (idsL (p :: ps)) s it) := by
          rintro ⟨ok, s3, it3⟩ hz
          cases ok with
          | true => exact Ends.ok hz
          | false =>
            simp only [Bool.false_eq_true, if_false]
            split
            · next hnull =>
              simp only [Bool.and_eq_true] at hnull
              have hnp : ¬ (rem.isSome ∨ ∃ i test, it.walk = .pre i test) := by
                intro h
                have := (hrem h).2 p (by simp)
                rw [hnull.1] at this
                cases this
              obtain ⟨it4, e4, G4⟩ := otherNode_ends S (by omega) s3 hz.good (by
                intro i test h
                exact hnp (.inr ⟨i, test, hz.walk.symm.trans h⟩)) (hz.inv _ hp)
              simp only [e4, Res.ok_bind]
              refine (all_ends S hf ps hJ2 hF2 hN.2.1 ack rem _ it4 ?_ (Inv.reset hz.inv _) G4.1).mono fun w hw => ?_
              · intro h
                exact absurd (h.imp id (by rw [G4.2.1, hz.walk]; exact id)) hnp
              · refine ⟨hw.inv, hw.good, hw.walk.trans (G4.2.1.trans hz.walk), hw.root.trans (G4.2.2.trans hz.root), fun j hj => ?_⟩
                rw [hw.frame j (fun h => hj (by simp [h]))]
                simp only [Memo.reset, resetL, hj, if_false]
                exact hz.frame j hj
            · exact Ends.ok hz
        cases rem with
        | none => exact h3 (false, s2, it2) ⟨hy.inv, hy.good, hy.walk.trans hx.walk, hy.root.trans hx.root, hfr2⟩
        | some i =>
          obtain ⟨hpre, hnull⟩ := hrem (.inl rfl)
          have hpn := hnull p (by simp)
          refine ((rematch_ends S hf hp hpo (own := p.ids) (fun s it hs G => ?_) (fun s it hs G hw => ?_)
              fuel s2 it1 hy.inv hx.good (by rw [hx.walk]; exact hpre) (by omega) ?_).mono fun z hz => ?_).bind h3
          · have := this_ends S hf p hJ1 hF1 hN.1 ack s it hs G
            rw [hpn] at this
            exact this
          · exact all_ends S hf ps hJ2 hF2 hN.2.1 ack (some i) s it (fun _ => ⟨hw, fun q hq => hnull q (by simp [hq])⟩) hs G
          · intro a _ b hb
            obtain ⟨r, c, d, g1, g2, g3, g4, g5, g6, g7⟩ := hx.hit rfl hpn hpre
            have : s2.marks p.id = some c := (hy.frame p.id hpo).trans g2
            rw [this] at hb
            cases hb
            exact ⟨by omega, r, hx.root.trans g1, g4, g5⟩
          · refine ⟨hz.inv, hz.good, hz.walk.trans hx.walk, hz.root.trans hx.root, fun j hj => ?_⟩
            rw [hz.frame j (by simpa using hj)]
            exact hfr2 j hj
end

/-- The search of a pattern ends. -/
theorem search_ends (S : Ranked nav vl A rk fin N) (hf : N + 1 < fuel) {p : Pat α} (hF : ∀ q ∈ p.pre, Fine q) (hN : p.ids.Nodup) (s : Memo)
    {root : Ptr} (hr : In A root) :
    Ends (search nav vl fuel root p s) (fun x => Inv A p.ids x.2) := by
  have h0 : Inv A p.ids (s.reset [p]) := by
    intro i hi
    have : (s.reset [p]).marks i = none := by simp [Memo.reset, resetL, hi]
    rw [this]; exact in_none
  rw [search, all_single]
  exact (this_ends S hf p (fun _ h => h) hF hN none _ ⟨.fixed, root, root, []⟩ h0 ⟨hr, hr, by simp, by simp⟩).bind fun x hx => Ends.ok hx.inv
end Search.Ending

/-- The position in pre-order of the node with an address, and the position after its last descendant. -/
noncomputable def Tree.spot {α : Type} (T : Tree (Addr × α)) (a : Addr) : Nat × Nat :=
  open Classical in
  if h : ∃ x : Nat × Nat, ∃ fs s, plug fs s = T ∧ s.addr = a ∧ x = ((preBefore fs).length, (preBefore fs).length + s.size) then h.choose else (0, 0)

theorem Tree.spot_eq {α : Type} {T : Tree (Addr × α)} (hn : T.addrs.Nodup) {fs s} (h : plug fs s = T) :
    T.spot s.addr = ((preBefore fs).length, (preBefore fs).length + s.size) := by
  have h0 : ∃ x : Nat × Nat, ∃ gs v, plug gs v = T ∧ v.addr = s.addr ∧ x = ((preBefore gs).length, (preBefore gs).length + v.size) :=
    ⟨_, fs, s, h, rfl, rfl⟩
  rw [Tree.spot, dif_pos h0]
  obtain ⟨gs, v, h1, h2, h3⟩ := h0.choose_spec
  obtain ⟨rfl, rfl⟩ := sub_unique (g := Prod.fst) hn h1 h h2
  exact h3

theorem Wired.ranked {α : Type} {nav : Ptr → Nav} {val : Addr → Res α} {T : Tree (Addr × α)} (S : Wired nav val T) :
    Ranked nav val T.Has (fun a => (T.spot a).1) (fun a => (T.spot a).2) T.size := by
  have hsp := fun {fs s} (h : plug fs s = T) => Tree.spot_eq S.nodup h
  have hsize : ∀ s : Tree (Addr × α), 0 < s.size := fun s => by rw [size_eq]; omega
  have hlen : ∀ {fs s}, plug fs s = T → (preBefore fs).length + s.size ≤ T.size := by
    rintro fs s rfl
    have := congrArg List.length (pre_plug fs s)
    simp at this
    omega
  have hup : ∀ {f fs s}, plug (f :: fs) s = T → T.Has f.label.1 ∧ (T.spot f.label.1).1 < (T.spot s.addr).1 ∧ (T.spot s.addr).2 ≤ (T.spot f.label.1).2 := by
    intro f fs s h
    have h' : plug fs (node f.label (f.lefts ++ s :: f.rights)) = T := h
    have e := hsp h'
    rw [show (node f.label (f.lefts ++ s :: f.rights)).addr = f.label.1 from rfl] at e
    rw [e, hsp h]
    refine ⟨Has.parent h, ?_, ?_⟩
    · simp [preBefore]
    · simp [preBefore, size_eq, sizeL_append]
      omega
  refine ⟨?_, ?_, ?_, S.root, ?_, ?_, ?_, ?_, ?_, ?_⟩
  · rintro a ⟨fs, s, h, rfl⟩
    have := hsize s
    simp only [hsp h]
    omega
  · rintro a ⟨fs, s, h, rfl⟩
    simp only [hsp h]
    exact hlen h
  · rintro a ⟨fs, s, h, rfl⟩
    exact S.val fs s h
  · rintro r a ⟨fs, s, h, rfl⟩
    refine ⟨_, S.parent r fs s h, ?_, ?_⟩
    · intro b hb
      split at hb
      · cases hb
      · next hr => exact ⟨hr, by rw [S.parent none fs s h, if_neg (by simp), hb]⟩
    · intro hb
      split at hb
      · next hr => exact .inl hr
      · exact .inr (by rw [S.parent none fs s h, if_neg (by simp), hb])
  · rintro a b ⟨fs, s, h, rfl⟩ hb
    rw [S.parent none fs s h, if_neg (by simp)] at hb
    cases fs with
    | nil => cases hb
    | cons f fs => cases hb; exact hup h
  · rintro r a ⟨gs, v, hv, rfl⟩ ⟨fs, s, hs, rfl⟩ h1 h2
    simp only [hsp hv, hsp hs] at h1 h2 ⊢
    have hmem : ∃ hs' s', plug hs' s' = v ∧ s'.addr = s.addr := by
      have e1 := pre_plug gs v
      have e2 := pre_plug fs s
      rw [hv] at e1
      rw [hs, e1, pre_eq_cons s] at e2
      have h3 := congrArg (fun l => l[(preBefore fs).length]?) e2
      have h4 : (preBefore gs ++ v.pre ++ preAfter gs)[(preBefore fs).length]? = v.pre[(preBefore fs).length - (preBefore gs).length]? := by
        rw [List.append_assoc, List.getElem?_append_right h1, List.getElem?_append_left (by simp; omega)]
      rw [h4] at h3
      simp [List.getElem?_append_right] at h3
      obtain ⟨ks, w, k1, k2⟩ := exists_plug_of_mem (List.mem_of_getElem? h3)
      exact ⟨ks, w, k1, by rw [Tree.addr, k2]; rfl⟩
    obtain ⟨ks, w, rfl, hw⟩ := hmem
    have hkw : plug (ks ++ gs) w = T := by rw [plug_append]; exact hv
    obtain ⟨rfl, rfl⟩ := sub_unique (g := Prod.fst) S.nodup hkw hs hw
    cases ks with
    | nil => exact .inl rfl
    | cons k ks =>
      have h' : plug (ks ++ gs) (node k.label (k.lefts ++ w :: k.rights)) = T := hs
      have e := hsp h'
      rw [show (node k.label (k.lefts ++ w :: k.rights)).addr = k.label.1 from rfl] at e
      have hb : ∀ ks : List (Frame (Addr × α)), (preBefore (ks ++ gs)).length = (preBefore gs).length + (preBefore ks).length := by
        intro ks
        induction ks with
        | nil => simp [preBefore]
        | cons k ks ih => simp [preBefore, ih]; omega
      have hl : ∀ (ks : List (Frame (Addr × α))) (x : Tree (Addr × α)), (preBefore ks).length + x.size ≤ (plug ks x).size := by
        intro ks x
        have := congrArg List.length (pre_plug ks x)
        simp at this
        omega
      have g1 := hl (k :: ks) w
      have g2 := hl ks (node k.label (k.lefts ++ w :: k.rights))
      have g3 := hb ks
      have g4 := hb (k :: ks)
      have g5 := hsize (node k.label (k.lefts ++ w :: k.rights))
      have g6 : plug ks (node k.label (k.lefts ++ w :: k.rights)) = plug (k :: ks) w := rfl
      rw [g6] at g2
      refine .inr ⟨k.label.1, by rw [S.parent none _ _ hs, if_neg (by simp)]; rfl, ?_⟩
      rw [e]
      dsimp only
      omega
  · rintro r a ⟨fs, s, h, rfl⟩
    refine ⟨_, S.first r fs s h, ?_⟩
    intro b hb
    obtain ⟨gs, v, h1, rfl, h2⟩ := Has.first h hb
    exact ⟨⟨gs, v, h1, rfl⟩, by rw [S.parent none gs v h1, if_neg (by simp), h2]⟩
  · rintro r a ⟨fs, s, h, rfl⟩
    refine ⟨_, S.next r fs s h, ?_⟩
    intro b hb
    split at hb
    · cases hb
    · cases fs with
      | nil => cases hb
      | cons f fs =>
        obtain ⟨gs, v, h1, rfl, h2, h3⟩ := Has.next h hb
        refine ⟨⟨gs, v, h1, rfl⟩, by simp only [hsp h, hsp h1]; omega, f.label.1, by rw [S.parent none _ _ h, if_neg (by simp)]; rfl, ?_⟩
        rw [S.parent none gs v h1, if_neg (by simp), h2]
  · rintro r a c ⟨fs, s, hs, rfl⟩ hc
    cases fs with
    | nil => rw [S.parent none [] s hs, if_neg (by simp)] at hc; cases hc
    | cons f fs => exact S.isLast r f fs s hs
