import Verif.Proof.Wired
/-! No search of any pattern makes an invalid access, however long it runs. -/
open Tree

set_option linter.unusedSimpArgs false

namespace Res
variable {α β : Type}

/-- The computation makes no invalid access, and if it returns, then with `P`. -/
def Safe (r : Res α) (P : α → Prop) : Prop := r ≠ Res.ub ∧ ∀ x, r = Res.ok x → P x

theorem Safe.ok {P : α → Prop} {x : α} (h : P x) : Safe (Res.ok x) P := ⟨by simp, by rintro _ ⟨⟩; exact h⟩
theorem Safe.pure {P : α → Prop} {x : α} (h : P x) : Safe (Pure.pure x) P := Safe.ok h
theorem Safe.diverge {P : α → Prop} : Safe (Res.diverge : Res α) P := ⟨by simp, by simp⟩
theorem Safe.bind {P : α → Prop} {Q : β → Prop} {r : Res α} {f : α → Res β} (h : Safe r P) (h' : ∀ x, P x → Safe (f x) Q) :
    Safe (r >>= f) Q := by
  cases r with
  | ok x => exact h' x (h.2 x rfl)
  | ub => exact absurd rfl h.1
  | diverge => exact Safe.diverge
theorem Safe.mono {P Q : α → Prop} {r : Res α} (h : Safe r P) (h' : ∀ x, P x → Q x) : Safe r Q := ⟨h.1, fun x e => h' x (h.2 x e)⟩
theorem Safe.of_eq {P : α → Prop} {r : Res α} {x : α} (e : r = Res.ok x) (h : P x) : Safe r P := e ▸ Safe.ok h
end Res

open Res

/-- What a search needs in order to make no invalid access: the nodes `A` can be read, and navigation from them leads to them. -/
structure Steady {α : Type} (nav : Ptr → Nav) (val : Addr → Res α) (A : Addr → Prop) : Prop where
  val : ∀ a, A a → ∃ v, val a = Res.ok v
  root : ∀ r, (nav r).root = r
  parent : ∀ r a, A a → ∃ p, (nav r).parent a = Res.ok p ∧ ∀ b, p = some b → A b ∧ (nav none).parent a = Res.ok (some b)
  first : ∀ r a, A a → ∃ p, (nav r).first a = Res.ok p ∧ ∀ b, p = some b → A b ∧ ∃ c, (nav none).parent b = Res.ok (some c) ∧ A c
  next : ∀ r a, A a → ∃ p, (nav r).next a = Res.ok p ∧ ∀ b, p = some b → A b ∧ ∃ c, (nav none).parent b = Res.ok (some c) ∧ A c
  isLast : ∀ r a c, A a → (nav none).parent a = Res.ok (some c) → ∃ b, (nav r).isLast a = Res.ok b

namespace Search
open Pat
variable {α : Type} {nav : Ptr → Nav} {vl : Addr → Res α} {A : Addr → Prop} {fuel : Nat}

/-- A node or null. -/
def In (A : Addr → Prop) (p : Ptr) : Prop := ∀ a, p = some a → A a
/-- A child or null. -/
def Below (nav : Ptr → Nav) (A : Addr → Prop) (p : Ptr) : Prop := ∀ b, p = some b → A b ∧ ∃ c, (nav none).parent b = Res.ok (some c) ∧ A c

theorem Below.in_ {p : Ptr} (h : Below nav A p) : In A p := fun b e => (h b e).1

theorem below_safe (S : Steady nav vl A) {cut : Ptr} {test : α → Bool} {b c} (h : (nav none).parent b = Res.ok (some c)) (hc : A c) :
    ∃ r, below nav vl cut test b = Res.ok r := by
  obtain ⟨v, hv⟩ := S.val c hc
  simp only [below, h, Res.ok_bind, deref_some, hv]
  split
  · exact ⟨_, rfl⟩
  · exact ⟨_, rfl⟩

/-- What the policies of a search need of a navigator. -/
structure Calm (nv : Nav) (A : Addr → Prop) (nav : Ptr → Nav) : Prop where
  root : In A nv.root
  parent : ∀ a, A a → Safe (nv.parent a) (fun p => ∀ b, p = some b → A b ∧ (nav none).parent a = Res.ok (some b))
  first : ∀ a, A a → Safe (nv.first a) (Below nav A)
  next : ∀ a, A a → Safe (nv.next a) (Below nav A)
  isLast : ∀ a c, A a → (nav none).parent a = Res.ok (some c) → Safe (nv.isLast a) (fun _ => True)

theorem calm_nav (S : Steady nav vl A) {r : Ptr} (hr : In A r) : Calm (nav r) A nav := by
  refine ⟨by rw [S.root]; exact hr, fun a ha => ?_, fun a ha => ?_, fun a ha => ?_, fun a c ha hc => ?_⟩
  · obtain ⟨p, e, h⟩ := S.parent r a ha; exact Safe.of_eq e h
  · obtain ⟨p, e, h⟩ := S.first r a ha; exact Safe.of_eq e h
  · obtain ⟨p, e, h⟩ := S.next r a ha; exact Safe.of_eq e h
  · obtain ⟨p, e⟩ := S.isLast r a c ha hc; exact Safe.of_eq e trivial

theorem nextLoop_safe (S : Steady nav vl A) {r : Ptr} (hr : In A r) (cut : Ptr) (test : α → Bool) :
    ∀ n p, Below nav A p → Safe (PredNav.nextLoop (nav r) (below nav vl cut test) n p) (Below nav A) := by
  intro n
  induction n with
  | zero => intro p _; exact Safe.diverge
  | succ n ih =>
    intro p hp
    cases p with
    | none => exact Safe.ok hp
    | some b =>
      obtain ⟨hb, c, hc, hc'⟩ := hp b rfl
      obtain ⟨x, e⟩ := below_safe S (cut := cut) (test := test) hc hc'
      simp only [PredNav.nextLoop, e, Res.ok_bind]
      cases x with
      | true => exact Safe.ok hp
      | false => exact ((calm_nav S hr).next b hb).bind fun p hp => ih p hp

theorem calm_pred (S : Steady nav vl A) {r : Ptr} (hr : In A r) (cut : Ptr) (test : α → Bool) :
    Calm (PredNav.nav (nav r) (below nav vl cut test) fuel) A nav := by
  have C := calm_nav S hr
  have hn : ∀ a, A a → Safe (PredNav.next (nav r) (below nav vl cut test) fuel a) (Below nav A) :=
    fun a ha => (C.next a ha).bind fun p hp => nextLoop_safe S hr cut test _ _ hp
  refine ⟨C.root, C.parent, fun a ha => ?_, hn, C.isLast⟩
  refine (C.first a ha).bind fun p hp => ?_
  cases p with
  | none => exact Safe.ok hp
  | some b =>
    obtain ⟨hb, c, hc, hc'⟩ := hp b rfl
    obtain ⟨x, e⟩ := below_safe S (cut := cut) (test := test) hc hc'
    simp only [e, Res.ok_bind]
    cases x with
    | true => exact Safe.ok hp
    | false => exact hn b hb

theorem calm_of (S : Steady nav vl A) {r : Ptr} (hr : In A r) (s : Memo) (w : Walk α) : Calm (navOf nav vl fuel s w r) A nav := by
  cases w with
  | fixed => exact calm_nav S hr
  | siblings => exact calm_nav S hr
  | pre i test => exact calm_pred S hr _ _
  | leaves test => exact calm_pred S hr _ _

section
variable {nv : Nav}

theorem preInc_safe (C : Calm nv A nav) {a} (ha : A a) : Safe (Policy.preInc nv fuel a) (In A) := by
  refine (C.first a ha).bind fun p hp => ?_
  cases p with
  | some c => exact Safe.ok (hp.in_)
  | none =>
    have key : ∀ n a, A a → Safe (keepCallingT nv.parent (fun (_ : Unit) child _ => do pure (← (do pure (!(← nv.isLast child))), ()))
        (fun _ child _ => do pure (← nv.next child, ())) n () a) (fun x => In A x.1) := by
      intro n
      induction n with
      | zero => intro a _; exact Safe.diverge
      | succ n ih =>
        intro a ha
        refine (C.parent a ha).bind fun p hp => ?_
        cases p with
        | none => exact Safe.ok (by rintro b ⟨⟩; exact ha)
        | some b =>
          have h1 : Safe (nv.isLast a >>= fun x => (pure (!x) : Res Bool)) (fun _ => True) := (C.isLast a b ha (hp b rfl).2).bind fun x _ => Safe.ok trivial
          refine (h1.bind (Q := fun _ => True) fun x _ => Safe.ok trivial).bind fun x _ => ?_
          obtain ⟨x, u⟩ := x
          cases x with
          | true => exact (C.next a ha).bind fun q hq => Safe.ok (hq.in_)
          | false => exact ih b (hp b rfl).1
    have h2 : Safe (Policy.climb nv fuel (fun c => do pure (!(← nv.isLast c))) (fun c => nv.next c) a) (In A) :=
      (key fuel a ha).bind fun x hx => Safe.ok hx
    refine h2.bind fun q hq => ?_
    split
    · exact Safe.ok (by intro b h; cases h)
    · exact Safe.ok hq

/-- The stack of `policy::leaves` holds nodes with a next sibling. -/
def Stack (nv : Nav) (A : Addr → Prop) (st : List Addr) : Prop := ∀ x ∈ st, A x ∧ nv.next x ≠ Res.ok none

theorem leavesDescend_safe (C : Calm nv A nav) : ∀ n a st, A a → Stack nv A st →
    Safe (Policy.leavesDescend nv n a st) (fun s => In A s.cur ∧ Stack nv A s.aux) := by
  intro n
  induction n with
  | zero => intro a st _ _; exact Safe.diverge
  | succ n ih =>
    intro a st ha hst
    have hn := C.next a ha
    rw [Policy.leavesDescend]
    cases e : nv.next a with
    | ub => exact absurd e hn.1
    | diverge => exact Safe.diverge
    | ok q =>
      simp only [Res.ok_bind]
      have hst' : Stack nv A (if q.isSome = true then a :: st else st) := by
        cases q with
        | none => exact hst
        | some q =>
          intro x hx
          rcases List.mem_cons.mp hx with rfl | hx
          · exact ⟨ha, by rw [e]; simp⟩
          · exact hst x hx
      refine (C.first a ha).bind fun p hp => ?_
      cases p with
      | none => exact Safe.ok ⟨by rintro b ⟨⟩; exact ha, hst'⟩
      | some b => exact ih b _ (hp.in_ b rfl) hst'

theorem leavesInc_safe (C : Calm nv A nav) {st} (hst : Stack nv A st) :
    Safe (Policy.leavesInc nv fuel st) (fun s => In A s.cur ∧ Stack nv A s.aux) := by
  cases st with
  | nil => exact Safe.ok ⟨(by intro b h; cases h), by simp [Stack]⟩
  | cons a st =>
    obtain ⟨ha, hn⟩ := hst a (by simp)
    have hs := C.next a ha
    rw [Policy.leavesInc]
    cases e : nv.next a with
    | ub => exact absurd e hs.1
    | diverge => exact Safe.diverge
    | ok q =>
      cases q with
      | none => exact absurd e hn
      | some b =>
        simp only [Res.ok_bind, deref_some]
        exact leavesDescend_safe C fuel b st ((hs.2 _ e).in_ b rfl) (fun x hx => hst x (by simp [hx]))

theorem moveLoop_safe (C : Calm nv A nav) {pr : Addr → Res Bool} (hpr : ∀ a, A a → Safe (pr a) (fun _ => True)) :
    ∀ n a st, A a → Stack nv A st → Safe (FilterIter.moveLoop Policy.leaves nv fuel pr .inc n ⟨some a, st⟩) (fun s => In A s.cur ∧ Stack nv A s.aux) := by
  intro n
  induction n with
  | zero => intro a st _ _; exact Safe.diverge
  | succ n ih =>
    intro a st ha hst
    refine (leavesInc_safe C hst).bind fun s hs => ?_
    obtain ⟨cur, aux⟩ := s
    cases cur with
    | none => exact Safe.ok hs
    | some b =>
      refine (hpr b (hs.1 b rfl)).bind fun x _ => ?_
      cases x with
      | true => exact Safe.ok hs
      | false => exact ih b aux (hs.1 b rfl) hs.2

theorem wrap_safe (C : Calm nv A nav) {pr : Addr → Res Bool} (hpr : ∀ a, A a → Safe (pr a) (fun _ => True)) {s : ItState}
    (h : In A s.cur) (hst : Stack nv A s.aux) : Safe (FilterIter.wrap Policy.leaves nv fuel pr s) (fun s => In A s.cur ∧ Stack nv A s.aux) := by
  obtain ⟨cur, aux⟩ := s
  cases cur with
  | none => exact Safe.ok ⟨h, hst⟩
  | some a =>
    refine (hpr a (h a rfl)).bind fun x _ => ?_
    cases x with
    | true => exact Safe.ok ⟨h, hst⟩
    | false => exact moveLoop_safe C hpr fuel a aux (h a rfl) hst

theorem ramification_safe (C : Calm nv A nav) {a} (ha : A a) : Safe (ramification fuel nv a) (In A) := by
  have key : ∀ n s a, A a → Safe (keepCallingT nv.first (fun (_ : Bool) _ child => do pure (!(← nv.isLast child), true))
        (fun found _ child => pure (some child, found)) n s a) (fun x => In A x.1) := by
    intro n
    induction n with
    | zero => intro s a _; exact Safe.diverge
    | succ n ih =>
      intro s a ha
      refine (C.first a ha).bind fun p hp => ?_
      cases p with
      | none => exact Safe.ok (by rintro b ⟨⟩; exact ha)
      | some b =>
        obtain ⟨hb, c, hc, -⟩ := hp b rfl
        have h1 : Safe (nv.isLast b >>= fun x => (pure (!x, true) : Res (Bool × Bool))) (fun _ => True) := (C.isLast b c hb hc).bind fun x _ => Safe.ok trivial
        refine h1.bind fun x _ => ?_
        obtain ⟨x, u⟩ := x
        cases x with
        | true => exact Safe.ok (by rintro c ⟨⟩; exact hb)
        | false => exact ih _ b hb
  refine (key fuel false a ha).bind fun x hx => ?_
  obtain ⟨r, f⟩ := x
  cases f with
  | true => exact Safe.ok hx
  | false => exact Safe.ok (by intro b h; cases h)
end

/-! ### the search -/

/-- An iterator of a search. -/
structure Good (nav : Ptr → Nav) (vl : Addr → Res α) (fuel : Nat) (A : Addr → Prop) (it : SIt α) : Prop where
  root : In A it.root
  cur : In A it.cur
  stack : ∀ test, it.walk = .leaves test → Stack (PredNav.nav (nav it.root) (below nav vl none test) fuel) A it.aux

/-- The matchers `J` remember nodes or null. -/
def Inv (A : Addr → Prop) (J : List Nat) (s : Memo) : Prop := ∀ i ∈ J, In A (s.marks i)

/-- What a search returns. -/
def Out (nav : Ptr → Nav) (vl : Addr → Res α) (fuel : Nat) (A : Addr → Prop) (J : List Nat) (x : Bool × Memo × SIt α) : Prop :=
  Inv A J x.2.1 ∧ Good nav vl fuel A x.2.2

variable {J : List Nat}

theorem in_none : In A none := by intro a h; cases h
theorem in_some {a} (h : A a) : In A (some a) := by rintro _ ⟨⟩; exact h

theorem Inv.mark {s : Memo} (h : Inv A J s) {p : Ptr} (hp : In A p) (i : Nat) : Inv A J (s.mark i p) := by
  intro j hj
  simp only [Memo.mark, Marks.set]
  split
  · exact hp
  · exact h j hj
theorem Inv.cut {s : Memo} (h : Inv A J s) (i : Nat) (p : Ptr) : Inv A J (s.cut i p) := h
theorem Inv.ack {s : Memo} (h : Inv A J s) (ack : Option Nat) (a : Addr) : Inv A J (acknowledge ack s a) := by cases ack <;> exact h
theorem Inv.reset {s : Memo} (h : Inv A J s) (ps : List (Pat α)) : Inv A J (s.reset ps) := by
  intro j hj
  simp only [Memo.reset, resetL]
  split
  · exact in_none
  · exact h j hj

theorem notIn_safe (S : Steady nav vl A) (test : α → Bool) : ∀ a, A a → Safe (notIn vl test a) (fun _ => True) := by
  intro a ha
  obtain ⟨v, e⟩ := S.val a ha
  exact Safe.of_eq (x := !test v) (by simp [notIn, e]) trivial

theorem next_safe (S : Steady nav vl A) (s : Memo) {it : SIt α} (G : Good nav vl fuel A it) {a} (ha : A a) :
    Safe (next nav vl fuel s it a) (Good nav vl fuel A) := by
  obtain ⟨w, root, cur, aux⟩ := it
  have C := calm_of (fuel := fuel) S G.root s w
  cases w with
  | fixed => exact Safe.ok ⟨G.root, in_none, by simp⟩
  | siblings => exact (C.next a ha).bind fun p hp => Safe.ok ⟨G.root, hp.in_, by simp⟩
  | pre i test => exact (preInc_safe C ha).bind fun p hp => Safe.ok ⟨G.root, hp, by simp⟩
  | leaves test =>
    refine (moveLoop_safe C (notIn_safe S test) fuel a aux ha (G.stack test rfl)).bind fun p hp => Safe.ok ⟨G.root, hp.1, ?_⟩
    rintro _ ⟨⟩
    exact hp.2

theorem otherNode_safe (S : Steady nav vl A) (s : Memo) {it : SIt α} (G : Good nav vl fuel A it) {p : Ptr} (hp : In A p) :
    Safe (otherNode nav vl fuel s it p) (Good nav vl fuel A) := by
  obtain ⟨w, root, cur, aux⟩ := it
  have C := calm_of (fuel := fuel) S G.root s w
  cases w with
  | leaves test =>
    refine (wrap_safe (s := ⟨p, []⟩) C (notIn_safe S test) hp (by simp [Stack])).bind fun p hp => Safe.ok ⟨G.root, hp.1, ?_⟩
    rintro _ ⟨⟩
    exact hp.2
  | _ => exact Safe.ok ⟨G.root, hp, by simp⟩

theorem childIt_safe (S : Steady nav vl A) (it : SIt α) {a} (ha : A a) : Safe (childIt nav it a) (Good nav vl fuel A) := by
  have hfin : ∀ r, A r → Safe (do pure ⟨.siblings, some r, ← (nav (some r)).first a, []⟩ : Res (SIt α)) (Good nav vl fuel A) := by
    intro r hr
    have C := calm_nav S (in_some hr)
    exact (C.first a ha).bind fun p hp => Safe.ok ⟨in_some hr, hp.in_, by simp⟩
  unfold childIt
  cases it.walk with
  | siblings =>
    obtain ⟨p, e, h⟩ := S.parent none a ha
    simp only [e, Res.ok_bind]
    cases p with
    | none => exact hfin a ha
    | some p => exact hfin p (h p rfl).1
  | _ => exact hfin a ha

theorem fixedIt_good {it : SIt α} (G : Good nav vl fuel A it) {a} (ha : A a) : Good nav vl fuel A (fixedIt it a) :=
  ⟨G.root, in_some ha, by simp [fixedIt]⟩

theorem targetIt_safe (S : Steady nav vl A) (i : Nat) (q : Quantifier) (test : α → Bool) (s : Memo) {a} (ha : A a) :
    Safe (targetIt nav vl fuel i q test s a) (Good nav vl fuel A) := by
  unfold targetIt
  split
  · have C := calm_of (fuel := fuel) S (in_some ha) s (.leaves test)
    have hr : (navOf nav vl fuel s (.leaves test) (some a)).root = some a := S.root _
    have h1 : Safe (Policy.leaves.goFirst (navOf nav vl fuel s (.leaves test) (some a)) fuel [])
        (fun r => In A r.cur ∧ Stack (navOf nav vl fuel s (.leaves test) (some a)) A r.aux) := by
      simp only [Policy.leaves, hr, deref_some, Res.ok_bind]
      exact leavesDescend_safe C fuel a [] ha (by simp [Stack])
    refine h1.bind fun r hr => ?_
    refine (wrap_safe C (notIn_safe S test) hr.1 hr.2).bind fun r hr => Safe.ok ⟨in_some ha, hr.1, ?_⟩
    rintro _ ⟨⟩
    exact hr.2
  · have C := calm_of (fuel := fuel) S (in_some ha) s (.pre i test)
    exact (preInc_safe C ha).bind fun p hp => Safe.ok ⟨in_some ha, hp, by simp⟩

theorem loop_safe (S : Steady nav vl A) {step : Memo → SIt α → Addr → Res (Bool × Memo)} {i : Nat} {ack : Option Nat} {null : Bool} {b : SIt α}
    (hb : Good nav vl fuel A b) (hstep : ∀ s it a, Inv A J s → Good nav vl fuel A it → A a → Safe (step s it a) (fun x => Inv A J x.2)) :
    ∀ n s it, Inv A J s → Good nav vl fuel A it → Safe (loop nav vl fuel step i ack null b n s it) (Out nav vl fuel A J) := by
  intro n
  induction n with
  | zero => intro s it _ _; exact Safe.diverge
  | succ n ih =>
    intro s it hs G
    rw [loop]
    cases hc : it.cur with
    | none =>
      dsimp only
      split
      · exact Safe.ok ⟨hs, hb⟩
      · exact Safe.ok ⟨hs, G⟩
    | some a =>
      have ha := G.cur a hc
      refine (hstep s it a hs G ha).bind fun x hx => ?_
      obtain ⟨ok, s1⟩ := x
      cases ok with
      | true =>
        have h1 : Inv A J (acknowledge ack (s1.mark i (some a)) a) := (Inv.mark hx (in_some ha) i).ack _ _
        exact (next_safe S _ G ha).bind fun it' G' => Safe.ok ⟨h1, G'⟩
      | false => exact (next_safe S s1 G ha).bind fun it' G' => ih s1 it' hx G'

theorem rematch_safe (S : Steady nav vl A) {this rest : Memo → SIt α → Res (Bool × Memo × SIt α)} {i p : Nat} (hp : p ∈ J)
    (hthis : ∀ s it, Inv A J s → Good nav vl fuel A it → Safe (this s it) (Out nav vl fuel A J))
    (hrest : ∀ s it, Inv A J s → Good nav vl fuel A it → Safe (rest s it) (Out nav vl fuel A J)) :
    ∀ n s it, Inv A J s → Good nav vl fuel A it → Safe (rematch nav vl fuel this rest i p n s it) (Out nav vl fuel A J) := by
  intro n
  induction n with
  | zero => intro s it _ _; exact Safe.diverge
  | succ n ih =>
    intro s it hs G
    rw [rematch]
    cases hc : it.cur with
    | none => exact Safe.ok ⟨hs, G⟩
    | some a =>
      cases hm : s.marks p with
      | none => exact Safe.ok ⟨hs, G⟩
      | some b =>
        have hb : A b := hs p hp b hm
        have C := calm_of (fuel := fuel) S G.root (s.cut i none) it.walk
        refine (ramification_safe C hb).bind fun c hc => ?_
        have G1 : Good nav vl fuel A { it with cur := c, aux := [] } := ⟨G.root, hc, by simp [Stack]⟩
        refine (hthis (s.cut i none) _ hs G1).bind fun x hx => ?_
        obtain ⟨ok, s1, it1⟩ := x
        cases ok with
        | false => exact ih _ _ hx.1 hx.2
        | true =>
          refine (hrest s1 it1 hx.1 hx.2).bind fun y hy => ?_
          obtain ⟨ok, s2, it2⟩ := y
          cases ok with
          | false => exact ih _ _ hy.1 G1
          | true => exact Safe.ok hy

mutual
theorem this_safe (S : Steady nav vl A) : (p : Pat α) → (∀ i ∈ p.ids, i ∈ J) → (ack : Option Nat) → (s : Memo) → (it : SIt α) →
    Inv A J s → Good nav vl fuel A it → Safe (this nav vl fuel p ack s it) (Out nav vl fuel A J)
  | Pat.node i .cpt test ps, hJ, ack, s, it, hs, G => by
    have hJ' : ∀ j ∈ idsL ps, j ∈ J := fun j hj => hJ j (by simp [ids_node, hj])
    rw [this]
    refine (all_safe S ps hJ' ack none s it hs G).bind fun x hx => ?_
    obtain ⟨ok, s1, it1⟩ := x
    cases ok with
    | false => exact Safe.ok hx
    | true =>
      refine Safe.ok ⟨Inv.mark hx.1 ?_ i, hx.2⟩
      cases ps with
      | nil => exact in_none
      | cons p ps => exact hx.1 p.id (hJ' _ (by simp [idsL_cons, id_mem]))
  | Pat.node i .one test ps, hJ, ack, s, it, hs, G => by
    have hJ' : ∀ j ∈ idsL ps, j ∈ J := fun j hj => hJ j (by simp [ids_node, hj])
    rw [this]
    refine loop_safe S G (fun s it a hs G ha => ?_) fuel s it hs G
    obtain ⟨v, e⟩ := S.val a ha
    simp only [e, Res.ok_bind]
    split
    · exact Safe.ok hs
    · refine (childIt_safe (fuel := fuel) S it ha).bind fun it1 G1 => ?_
      exact (all_safe S ps hJ' none none s it1 hs G1).bind fun x hx => Safe.ok hx.1
  | Pat.node i (.opt q) test ps, hJ, ack, s, it, hs, G => by
    have hJ' : ∀ j ∈ idsL ps, j ∈ J := fun j hj => hJ j (by simp [ids_node, hj])
    rw [this]
    split
    · exact Safe.ok ⟨hs, G⟩
    · refine loop_safe S G (fun s it a hs G ha => ?_) fuel s it hs G
      have hfix : ∀ s, Inv A J s → Safe (all nav vl fuel ps none none s (fixedIt it a) >>= fun x => pure (x.1, x.2.1)) (fun x => Inv A J x.2) := fun s hs =>
        (all_safe S ps hJ' none none s _ hs (fixedIt_good G ha)).bind fun x hx => Safe.ok hx.1
      obtain ⟨v, e⟩ := S.val a ha
      simp only [e, Res.ok_bind]
      split
      · split
        · exact hfix s hs
        · exact Safe.ok hs
      · refine (childIt_safe (fuel := fuel) S it ha).bind fun it1 G1 => ?_
        refine (all_safe S ps hJ' none none s it1 hs G1).bind fun x hx => ?_
        obtain ⟨ok, s1, it2⟩ := x
        dsimp only
        split
        · exact hfix s1 hx.1
        · exact Safe.ok hx.1
  | Pat.node i (.star q) test ps, hJ, ack, s, it, hs, G => by
    have hJ' : ∀ j ∈ idsL ps, j ∈ J := fun j hj => hJ j (by simp [ids_node, hj])
    rw [this]
    split
    · exact Safe.ok ⟨hs, G⟩
    · refine loop_safe S G (fun s it a hs G ha => ?_) fuel s it hs G
      have hfix : ∀ s, Inv A J s → Safe (all nav vl fuel ps none none s (fixedIt it a) >>= fun x => pure (x.1, x.2.1)) (fun x => Inv A J x.2) := fun s hs =>
        (all_safe S ps hJ' none none s _ hs (fixedIt_good G ha)).bind fun x hx => Safe.ok hx.1
      obtain ⟨v, e⟩ := S.val a ha
      simp only [e, Res.ok_bind]
      split
      · split
        · exact hfix s hs
        · exact Safe.ok hs
      · refine (targetIt_safe S i q test s ha).bind fun it1 G1 => ?_
        refine (all_safe S ps hJ' _ _ s it1 hs G1).bind fun x hx => ?_
        obtain ⟨ok, s1, it2⟩ := x
        dsimp only
        split
        · exact hfix s1 hx.1
        · exact Safe.ok hx.1
theorem all_safe (S : Steady nav vl A) : (ps : List (Pat α)) → (∀ i ∈ idsL ps, i ∈ J) → (ack rem : Option Nat) → (s : Memo) → (it : SIt α) →
    Inv A J s → Good nav vl fuel A it → Safe (all nav vl fuel ps ack rem s it) (Out nav vl fuel A J)
  | [], _, _, _, s, it, hs, G => by rw [all]; exact Safe.ok ⟨hs, G⟩
  | p :: ps, hJ, ack, rem, s, it, hs, G => by
    have hJ1 : ∀ j ∈ p.ids, j ∈ J := fun j hj => hJ j (by simp [idsL_cons, hj])
    have hJ2 : ∀ j ∈ idsL ps, j ∈ J := fun j hj => hJ j (by simp [idsL_cons, hj])
    have hp : p.id ∈ J := hJ1 _ (id_mem p)
    rw [all]
    refine (this_safe S p hJ1 ack s it hs G).bind fun x hx => ?_
    obtain ⟨ok, s1, it1⟩ := x
    cases ok with
    | false => exact Safe.ok hx
    | true =>
      simp only [Bool.not_true, Bool.false_eq_true, if_false]
      refine (all_safe S ps hJ2 ack rem s1 it1 hx.1 hx.2).bind fun y hy => ?_
      obtain ⟨ok, s2, it2⟩ := y
      cases ok with
      | true => exact Safe.ok hy
      | false =>
        simp only [Bool.false_eq_true, if_false]
        have h3 : ∀ z, Out nav vl fuel A J z → Safe (if z.1 = true then pure (true, z.2.1, z.2.2)
            else if (p.matchesNull && (z.2.1.marks p.id).isSome) = true then do
              let it ← otherNode nav vl fuel z.2.1 z.2.2 (z.2.1.marks p.id)
              all nav vl fuel ps ack rem (z.2.1.reset (p :: ps)) it
            else pure (false, z.2.1, z.2.2) : Res (Bool × Memo × SIt α)) (Out nav vl fuel A J) := by
          rintro ⟨ok, s3, it3⟩ hz
          cases ok with
          | true => exact Safe.ok hz
          | false =>
            simp only [Bool.false_eq_true, if_false]
            split
            · exact (otherNode_safe S s3 hz.2 (hz.1 _ hp)).bind fun it4 G4 => all_safe S ps hJ2 ack rem _ it4 (Inv.reset hz.1 _) G4
            · exact Safe.ok hz
        cases rem with
        | none => exact h3 (false, s2, it2) hy
        | some i =>
          exact (rematch_safe S hp (fun s it hs G => this_safe S p hJ1 ack s it hs G) (fun s it hs G => all_safe S ps hJ2 ack (some i) s it hs G)
              fuel s2 it1 hy.1 hx.2).bind h3
end

theorem search_safe (S : Steady nav vl A) (p : Pat α) (s : Memo) {root : Ptr} (hr : In A root) :
    Safe (search nav vl fuel root p s) (fun x => Inv A p.ids x.2) := by
  have h0 : Inv A p.ids (s.reset [p]) := by
    intro i hi
    have : (s.reset [p]).marks i = none := by simp [Memo.reset, resetL, hi]
    rw [this]; exact in_none
  exact (all_safe S [p] (by simp) none none _ ⟨.fixed, root, root, []⟩ h0 ⟨hr, hr, by simp⟩).bind fun x hx => Safe.ok hx.1
end Search


theorem Wired.steady {α : Type} {nav : Ptr → Nav} {val : Addr → Res α} {T : Tree (Addr × α)} (S : Wired nav val T) : Steady nav val T.Has := by
  refine ⟨?_, S.root, ?_, ?_, ?_, ?_⟩
  · rintro a ⟨fs, s, hs, rfl⟩
    exact S.val fs s hs
  · rintro r a ⟨fs, s, hs, rfl⟩
    refine ⟨_, S.parent r fs s hs, ?_⟩
    intro b hb
    split at hb
    · cases hb
    · refine ⟨?_, by rw [S.parent none fs s hs, if_neg (by simp), hb]⟩
      cases fs with
      | nil => cases hb
      | cons f fs => cases hb; exact Has.parent hs
  · rintro r a ⟨fs, s, hs, rfl⟩
    refine ⟨_, S.first r fs s hs, ?_⟩
    intro b hb
    obtain ⟨gs, v, h1, rfl, h2⟩ := Has.first hs hb
    refine ⟨⟨gs, v, h1, rfl⟩, s.addr, by rw [S.parent none gs v h1, if_neg (by simp), h2], ⟨fs, s, hs, rfl⟩⟩
  · rintro r a ⟨fs, s, hs, rfl⟩
    refine ⟨_, S.next r fs s hs, ?_⟩
    intro b hb
    split at hb
    · cases hb
    · cases fs with
      | nil => cases hb
      | cons f fs =>
        obtain ⟨gs, v, h1, rfl, h2, -⟩ := Has.next hs hb
        exact ⟨⟨gs, v, h1, rfl⟩, f.label.1, by rw [S.parent none gs v h1, if_neg (by simp), h2], Has.parent hs⟩
  · rintro r a c ⟨fs, s, hs, rfl⟩ hc
    cases fs with
    | nil => rw [S.parent none [] s hs, if_neg (by simp)] at hc; cases hc
    | cons f fs => exact S.isLast r f fs s hs
