import Verif.Proof.StarWalk
import Verif.Proof.Took
/-! Searching a pattern with `star`: what the search finds. -/
open Tree

set_option linter.unusedSimpArgs false

namespace Pat
variable {α β : Type} {val : β → α} {addr : β → Nat}

mutual
theorem matchesNull_solid : (p : Pat α) → p.solid → p.matchesNull = false
  | node _ .one _ _, _ => by simp [matchesNull]
  | node _ .cpt _ ps, h => by
    simp only [solid] at h
    simp only [matchesNull]
    exact allNull_solid ps (by intro e; simp [e] at h) h.2
  | node _ (.opt _) _ ps, h => by
    simp only [solid] at h
    simp only [matchesNull]
    exact allNull_solid ps h.1 h.2
  | node _ (.star _) _ ps, h => by
    simp only [solid] at h
    simp only [matchesNull]
    exact allNull_solid ps h.1 h.2
theorem allNull_solid : (ps : List (Pat α)) → ps ≠ [] → solidL ps → allNull ps = false
  | [], h, _ => absurd rfl h
  | p :: ps, _, h => by
    simp only [solidL] at h
    simp [allNull, matchesNull_solid p h.1]
end

theorem solidL_mem {ps : List (Pat α)} (h : solidL ps) : ∀ p ∈ ps, p.solid := by
  induction ps with
  | nil => simp
  | cons p ps ih => simp only [solidL] at h; simp; exact ⟨h.1, ih h.2⟩

theorem childMaySteal_solid {ps : List (Pat α)} (h : solidL ps) : childMaySteal ps = decide (ps.length ≤ 1) := by
  have : ps.filter (fun p => !p.matchesNull) = ps := by
    rw [List.filter_eq_self]
    intro p hp
    simp [matchesNull_solid p (solidL_mem h p hp)]
  simp [childMaySteal, this]

mutual
theorem placed_congr {m m' : Nat → Option Nat} : (p : Pat α) → (t : Tree β) → (∀ i ∈ p.ids, m' i = m i) →
    Placed val addr m p t → Placed val addr m' p t
  | node i .one f ps, t, h, H => by
    simp only [Placed] at H ⊢
    simp only [ids_node, List.mem_cons] at h
    exact ⟨by rw [h i (.inl rfl)]; exact H.1, H.2.1, placedL_congr ps _ (fun j hj => h j (.inr hj)) H.2.2⟩
  | node i .cpt f ps, t, h, H => by
    simp only [Placed] at H ⊢
    simp only [ids_node, List.mem_cons] at h
    exact ⟨by rw [h i (.inl rfl)]; exact H.1, placedL_congr ps _ (fun j hj => h j (.inr hj)) H.2⟩
  | node i (.opt q) f ps, t, h, H => by
    simp only [Placed] at H ⊢
    simp only [ids_node, List.mem_cons] at h
    refine ⟨by rw [h i (.inl rfl)]; exact H.1, ?_⟩
    rcases H.2 with ⟨h1, h2⟩ | ⟨h1, h2⟩
    · exact .inl ⟨h1, placedL_congr ps _ (fun j hj => h j (.inr hj)) h2⟩
    · exact .inr ⟨h1, placedL_congr ps _ (fun j hj => h j (.inr hj)) h2⟩
  | node i (.star q) f ps, t, h, H => by
    simp only [Placed] at H ⊢
    simp only [ids_node, List.mem_cons] at h
    refine ⟨by rw [h i (.inl rfl)]; exact H.1, ?_⟩
    rcases H.2 with ⟨h1, h2, h3⟩ | ⟨h1, h2⟩
    · exact .inl ⟨h1, fun hq => placedS_congr _ ps _ (fun j hj => h j (.inr hj)) (h2 hq),
        fun hq => placedL_congr ps _ (fun j hj => h j (.inr hj)) (h3 hq)⟩
    · exact .inr ⟨h1, placedL_congr ps _ (fun j hj => h j (.inr hj)) h2⟩
theorem placedL_congr {m m' : Nat → Option Nat} : (ps : List (Pat α)) → (ts : List (Tree β)) → (∀ i ∈ idsL ps, m' i = m i) →
    PlacedL val addr m ps ts → PlacedL val addr m' ps ts
  | [], _, _, _ => by simp [PlacedL]
  | p :: ps, ts, h, H => by
    simp only [PlacedL] at H ⊢
    simp only [idsL_cons, List.mem_append] at h
    obtain ⟨l, t, r, e, h2, h3⟩ := H
    exact ⟨l, t, r, e, placed_congr p t (fun j hj => h j (.inl hj)) h2, placedL_congr ps r (fun j hj => h j (.inr hj)) h3⟩
theorem placedS_congr {m m' : Nat → Option Nat} (f : β → Bool) : (ps : List (Pat α)) → (ts : List (Tree β)) →
    (∀ i ∈ idsL ps, m' i = m i) → PlacedS val addr m f ps ts → PlacedS val addr m' f ps ts
  | [], _, _, _ => by simp [PlacedS]
  | p :: ps, ts, h, H => by
    simp only [PlacedS] at H ⊢
    simp only [idsL_cons, List.mem_append] at h
    obtain ⟨t, r, e, h2, h3⟩ := H
    exact ⟨t, r, e, placed_congr p t (fun j hj => h j (.inl hj)) h2, placedS_congr f ps r (fun j hj => h j (.inr hj)) h3⟩
end

theorem placed_mark {m : Nat → Option Nat} {p : Pat α} {t : Tree β} (h : Placed val addr m p t) : m p.id = some (addr t.label) := by
  obtain ⟨i, k, f, ps⟩ := p
  cases k <;> simp only [Placed] at h <;> exact h.1

mutual
theorem placed_fits {m : Nat → Option Nat} : (p : Pat α) → (t : Tree β) → Placed val addr m p t → Fits val p t
  | node i .one f ps, t, H => by
    simp only [Placed, Fits] at H ⊢
    exact ⟨H.2.1, placedL_fits ps _ H.2.2⟩
  | node i .cpt f ps, t, H => by
    simp only [Placed, Fits] at H ⊢
    exact placedL_fits ps _ H.2
  | node i (.opt q) f ps, t, H => by
    simp only [Placed, Fits] at H ⊢
    rcases H.2 with ⟨h1, h2⟩ | ⟨h1, h2⟩
    · exact .inl ⟨h1, placedL_fits ps _ h2⟩
    · exact .inr ⟨h1, placedL_fits ps _ h2⟩
  | node i (.star q) f ps, t, H => by
    simp only [Placed, Fits] at H ⊢
    rcases H.2 with ⟨h1, h2, h3⟩ | ⟨h1, h2⟩
    · exact .inl ⟨h1, fun hq => placedS_fits _ ps _ (h2 hq), fun hq => placedL_fits ps _ (h3 hq)⟩
    · exact .inr ⟨h1, placedL_fits ps _ h2⟩
theorem placedL_fits {m : Nat → Option Nat} : (ps : List (Pat α)) → (ts : List (Tree β)) → PlacedL val addr m ps ts →
    FitsL val ps ts
  | [], _, _ => by simp [FitsL]
  | p :: ps, ts, H => by
    simp only [PlacedL, FitsL] at H ⊢
    obtain ⟨l, t, r, e, h1, h2⟩ := H
    exact ⟨l, t, r, e, placed_fits p t h1, placedL_fits ps r h2⟩
theorem placedS_fits {m : Nat → Option Nat} (f : β → Bool) : (ps : List (Pat α)) → (ts : List (Tree β)) →
    PlacedS val addr m f ps ts → FitsS val f ps ts
  | [], _, _ => by simp [FitsS]
  | p :: ps, ts, H => by
    simp only [PlacedS, FitsS] at H ⊢
    obtain ⟨t, r, e, h1, h2⟩ := H
    exact ⟨t, r, e, placed_fits p t h1, placedS_fits f ps r h2⟩
end

theorem fitsS_false {ps : List (Pat α)} {ts : List (Tree β)} : FitsS val (fun _ => false) ps ts ↔ FitsL val ps ts := by
  induction ps generalizing ts with
  | nil => simp [FitsS, FitsL]
  | cons p ps ih =>
    simp only [FitsS, FitsL, ih, Opens.false_iff]
    constructor
    · rintro ⟨t, r, ⟨l, e⟩, h⟩; exact ⟨l, t, r, e, h⟩
    · rintro ⟨l, t, r, e, h⟩; exact ⟨t, r, ⟨l, e⟩, h⟩

theorem placedS_false {m : Nat → Option Nat} {ps : List (Pat α)} {ts : List (Tree β)} :
    PlacedS val addr m (fun _ => false) ps ts ↔ PlacedL val addr m ps ts := by
  induction ps generalizing ts with
  | nil => simp [PlacedS, PlacedL]
  | cons p ps ih =>
    simp only [PlacedS, PlacedL, ih, Opens.false_iff]
    constructor
    · rintro ⟨t, r, ⟨l, e⟩, h⟩; exact ⟨l, t, r, e, h⟩
    · rintro ⟨l, t, r, e, h⟩; exact ⟨t, r, ⟨l, e⟩, h⟩

theorem fitsS_open {f : β → Bool} {ps : List (Pat α)} {us vs : List (Tree β)} (h : Opens f us vs) (H : FitsS val f ps vs) : FitsS val f ps us := by
  cases ps with
  | nil => simp [FitsS]
  | cons p ps =>
    simp only [FitsS] at H ⊢
    obtain ⟨t, r, h1, h2⟩ := H
    exact ⟨t, r, h.trans h1, h2⟩

theorem placedS_open {m : Nat → Option Nat} {f : β → Bool} {ps : List (Pat α)} {us vs : List (Tree β)} (h : Opens f us vs)
    (H : PlacedS val addr m f ps vs) : PlacedS val addr m f ps us := by
  cases ps with
  | nil => simp [PlacedS]
  | cons p ps =>
    simp only [PlacedS] at H ⊢
    obtain ⟨t, r, h1, h2⟩ := H
    exact ⟨t, r, h.trans h1, h2⟩
end Pat

namespace Search
open Pat
variable {α : Type} {nav : Ptr → Nav} {vl : Addr → Res α} {T : Tree (Addr × α)} {fuel : Nat}

theorem set_same {m : Marks} {i : Nat} {p : Ptr} : m.set i p i = p := by simp [Marks.set]

/-- What the iterator goes over stays the same when the `star` is told that its matcher took the current node. -/
theorem SOver.recut (S : Starable nav vl T) {c : Marks} {it : SIt α} {t r} (H : SOver c T it (t :: r)) (k : Nat) :
    SOver (c.set k (some t.addr)) T it (t :: r) := by
  cases H with
  | at_ root h1 => exact .at_ root h1
  | sib h1 => exact .sib h1
  | @pre i test gs u fs s h1 h2 h3 h4 =>
    refine .pre h1 h2 h3 ?_
    intro f hf
    by_cases hk : i = k
    · subst hk
      rw [set_same]
      have h5 := accOf_le (h4 f hf)
      have h6 := frame_ne (g := Prod.fst) (by simpa [Tree.addrs] using S.nodup) (sub_trans h2 h1) f (by simp [hf])
      have h7 : (some f.label.1 == some t.addr) = false := by
        rw [beq_eq_false_iff_ne]; intro e; exact h6 (by simpa [Tree.addr] using e)
      rw [accOf, h7]; exact h5
    · rw [Simple.set_ne hk]; exact h4 f hf
  | leaf h1 h2 h3 h4 h5 => exact .leaf h1 h2 h3 h4 h5

theorem SOver.uncut {c : Marks} {it : SIt α} {us} (H : SOver c T it us) (k : Nat) : SOver (c.set k none) T it us := by
  cases H with
  | at_ root h1 => exact .at_ root h1
  | end_ root => exact .end_ root
  | sib h1 => exact .sib h1
  | @pre i test gs u fs s h1 h2 h3 h4 =>
    refine .pre h1 h2 h3 ?_
    intro f hf
    by_cases hk : i = k
    · subst hk
      rw [set_same, accOf_none]
      exact accOf_le (h4 f hf)
    · rw [Simple.set_ne hk]; exact h4 f hf
  | preEnd h1 => exact .preEnd h1
  | leaf h1 h2 h3 h4 h5 => exact .leaf h1 h2 h3 h4 h5
  | leafEnd aux h1 => exact .leafEnd aux h1

/-- The walk of a `star` that is not possessive. -/
def Walk.isPre (w : Walk α) : Prop := ∃ k test, w = .pre k test

theorem through_of_not {w : Walk α} (h : ¬ Walk.isPre w) : through w = fun _ => false := by
  cases w with
  | pre i test => exact absurd ⟨i, test, rfl⟩ h
  | _ => rfl

/-- The outcome of `search_node_this`, for a matcher that may take the nodes with `P`, and has taken a node if `Q`; if
nothing was hidden it is the first it may take, and `Q2`. `J` are the
matchers of the part of the pattern, and `E` says that what is remembered for the `star`s does not hide anything. -/
structure Outcome (T : Tree (Addr × α)) (P : Tree (Addr × α) → Prop) (Q Q2 : Marks → Tree (Addr × α) → Prop) (J : Nat → Prop) (E : Marks → Prop)
    (i : Nat) (ack : Option Nat) (s : Memo) (it : SIt α) (us : List (Tree (Addr × α))) (ok : Bool) (s' : Memo) (it' : SIt α) : Prop where
  marks : ∀ j, ¬ J j → s'.marks j = s.marks j
  cuts : ∀ j, ¬ J j → ack ≠ some j → s'.cuts j = s.cuts j
  walk : it'.walk = it.walk
  root : it'.root = it.root
  keep : E s.cuts → E s'.cuts
  found : ok = true → ∃ t r, Opens (through it.walk) us (t :: r) ∧ (∃ gs, plug gs t = T) ∧ Q s'.marks t ∧ SOver s'.cuts T it' r ∧
    (∀ k, ack = some k → s'.cuts k = some t.addr) ∧
    (∀ k test, it.walk = .pre k test → SOver (s'.cuts.set k none) T { it' with cur := some t.addr, aux := [] } (t :: r)) ∧
    (E s.cuts → (∀ k test gs v, it.walk = .pre k test → plug gs v = T → s.cuts k = some v.addr → P v) →
      First (through it.walk) P us t r ∧ Q2 s'.marks t)
  missing : ok = false → it'.cur = none ∧ s'.marks i = s.marks i ∧ (∀ k, ack = some k → s'.cuts k = s.cuts k) ∧
    (E s.cuts → (∀ k test gs v, it.walk = .pre k test → plug gs v = T → s.cuts k = some v.addr → P v) →
      ∀ v r, Opens (through it.walk) us (v :: r) → ¬ P v)

/-- The loop over the nodes of an iterator. -/
theorem loop_spec (S : Starable nav vl T) (hf : T.size ≤ fuel) {step : Memo → SIt α → Addr → Res (Bool × Memo)} {i : Nat}
    {ack : Option Nat} {begin_ : SIt α} {J : Nat → Prop} {E : Marks → Prop} {P : Tree (Addr × α) → Prop} {Q Q2 : Marks → Tree (Addr × α) → Prop}
    (hi : J i) (hE : ∀ c c' : Marks, (∀ j, J j → c' j = c j) → E c → E c') (hack : ∀ k, ack = some k → ¬ J k)
    (hstep : ∀ s it x r, SOver s.cuts T it (x :: r) → (∀ k test, it.walk = .pre k test → ack = some k) →
      ∃ ok s', step s it x.addr = Res.ok (ok, s') ∧ (∀ j, ¬ J j → s'.marks j = s.marks j) ∧ (∀ j, ¬ J j → s'.cuts j = s.cuts j) ∧
        s'.marks i = s.marks i ∧ (E s.cuts → E s'.cuts) ∧ (ok = true → Q (s'.marks.set i (some x.addr)) x) ∧
        (ok = true → E s.cuts → Q2 (s'.marks.set i (some x.addr)) x) ∧ (ok = false → E s.cuts → ¬ P x)) :
    ∀ n s it us, SOver s.cuts T it us → (∀ k test, it.walk = .pre k test → ack = some k) → weight it.walk us < n →
      ∃ ok s' it', loop nav vl fuel step i ack false begin_ n s it = Res.ok (ok, s', it') ∧ Outcome T P Q Q2 J E i ack s it us ok s' it' := by
  intro n
  induction n with
  | zero => intro s it us _ _ h; omega
  | succ n ih =>
    intro s it us H hw hn
    cases us with
    | nil =>
      have hc := H.nil
      refine ⟨false, s, it, by simp [loop, hc], ?_⟩
      exact ⟨fun _ _ => rfl, fun _ _ _ => rfl, rfl, rfl, fun h => h, by simp,
        fun _ => ⟨hc, rfl, fun _ _ => rfl, fun _ _ v r h => by cases h⟩⟩
    | cons x r =>
      obtain ⟨hc, -, hx, -, -⟩ := H.cons S hf
      obtain ⟨ok, s1, h1, h2, h3, hmi, h4, h5, h5', h6⟩ := hstep s it x r H hw
      have H1 : SOver s1.cuts T it (x :: r) := H.congr (fun k test e => h3 k (hack k (hw k test e)))
      simp only [loop, hc, h1, Res.ok_bind]
      cases ok with
      | true =>
        simp only [if_true]
        have hs : (acknowledge ack (s1.mark i (some x.addr)) x.addr).marks = s1.marks.set i (some x.addr) := by
          cases ack <;> rfl
        have hs2 : ∀ j, ack ≠ some j → (acknowledge ack (s1.mark i (some x.addr)) x.addr).cuts j = s1.cuts j := by
          intro j hj
          cases ack with
          | none => rfl
          | some k => exact Simple.set_ne (by intro e; subst e; exact hj rfl)
        have hs3 : ∀ k, ack = some k → (acknowledge ack (s1.mark i (some x.addr)) x.addr).cuts k = some x.addr := by
          rintro k rfl; exact set_same
        have H2 : SOver (acknowledge ack (s1.mark i (some x.addr)) x.addr).cuts T it (x :: r) := by
          cases ack with
          | none => exact H1
          | some k => exact H1.recut S k
        generalize acknowledge ack (s1.mark i (some x.addr)) x.addr = s2 at hs hs2 hs3 H2
        obtain ⟨-, -, -, ⟨it', e1, e2, e3, e4⟩, -⟩ := H2.cons S hf
        rw [e1]
        refine ⟨true, s2, it', rfl, ?_, ?_, e2, e3, ?_, ?_, by simp⟩
        · intro j hj; rw [hs, Simple.set_ne (fun e => hj (by rw [e]; exact hi))]; exact h2 j hj
        · intro j hj hj2; rw [hs2 j hj2]; exact h3 j hj
        · intro he; exact hE _ _ (fun j hj => hs2 j (fun e => hack j e hj)) (h4 he)
        · intro _
          refine ⟨x, r, .refl _, hx, by rw [hs]; exact h5 rfl, ?_, hs3, ?_, ?_⟩
          · have : enters s2.cuts it.walk x.label = false := by
              cases hwk : it.walk with
              | pre k test => simp [enters, accOf, hs3 k (hw k test hwk), Tree.addr]
              | _ => rfl
            simpa [this] using e4
          · intro k test hwk
            have := H2.uncut k
            have e5 : (({ it' with cur := some x.addr, aux := [] } : SIt α)) = it := by
              cases it
              cases H2 <;> simp_all
            rw [e5]; exact this
          · intro he _; exact ⟨.here, by rw [hs]; exact h5' rfl he⟩
      | false =>
        simp only [Bool.false_eq_true, if_false]
        obtain ⟨-, -, -, ⟨it', e1, e2, e3, e4⟩, -⟩ := H1.cons S hf
        rw [e1]
        simp only [Res.ok_bind]
        have hwt : weight it'.walk ((if enters s1.cuts it.walk x.label then x.children else []) ++ r) < n := by
          rw [e2]
          cases hwk : it.walk with
          | pre k test =>
            rw [hwk] at hn
            obtain ⟨a, cs⟩ := x
            simp only [weight, sizeL_cons, size_node, sizeL_append] at hn ⊢
            split <;> simp <;> omega
          | _ => rw [hwk] at hn; simp [weight, enters] at hn ⊢; omega
        obtain ⟨ok, s', it'', q1, O⟩ := ih s1 it' _ e4 (by rw [e2]; exact hw) hwt
        have hen : E s.cuts → (∀ k test gs v, it.walk = .pre k test → plug gs v = T → s.cuts k = some v.addr → P v) →
            enters s1.cuts it.walk x.label = through it.walk x.label := by
          intro he hcut
          cases hwk : it.walk with
          | pre k test =>
            simp only [enters, through, accOf]
            obtain ⟨gs, hg⟩ := hx
            have : some x.label.1 ≠ s1.cuts k := by
              intro e
              exact h6 rfl he (hcut k test gs x hwk hg (by rw [← h3 k (hack k (hw k test hwk)), ← e]; rfl))
            simp [this]
          | _ => rfl
        have hO : Opens (through it.walk) (x :: r) ((if enters s1.cuts it.walk x.label then x.children else []) ++ r) := by
          rcases Bool.eq_false_or_eq_true (enters s1.cuts it.walk x.label) with h | h
          · rw [if_pos h]; exact .into (through_of_enters h) (.refl _)
          · rw [h]; exact .skip (.refl _)
        refine ⟨ok, s', it'', q1, ?_, ?_, by rw [O.walk, e2], by rw [O.root, e3], fun h => O.keep (h4 h), ?_, ?_⟩
        · intro j hj; rw [O.marks j hj, h2 j hj]
        · intro j hj hj2; rw [O.cuts j hj hj2, h3 j hj]
        · intro hok
          obtain ⟨t, r', f1, f2, f3, f4, f5, f6, f7⟩ := O.found hok
          rw [e2] at f1 f6 f7
          refine ⟨t, r', hO.trans f1, f2, f3, f4, f5, f6, fun he hcut => ?_⟩
          obtain ⟨f8, f9⟩ := f7 (h4 he) (fun k test gs v hwk hv hcv => hcut k test gs v hwk hv (by rw [← hcv, h3 k (hack k (hw k test hwk))]))
          refine ⟨?_, f9⟩
          rw [hen he hcut] at f8
          rcases Bool.eq_false_or_eq_true (through it.walk x.label) with h | h
          · rw [if_pos h] at f8; exact .into (h6 rfl he) h f8
          · rw [h] at f8; exact .skip (h6 rfl he) h f8
        · intro hok
          obtain ⟨f1, f0, f2, f3⟩ := O.missing hok
          refine ⟨f1, by rw [f0, hmi], fun k hk => by rw [f2 k hk, h3 k (hack k hk)], fun he hcut v r' ho => ?_⟩
          rw [e2] at f3
          have f4 := f3 (h4 he) (fun k test gs v hwk hv hcv => hcut k test gs v hwk hv (by rw [← hcv, h3 k (hack k (hw k test hwk))]))
          have hx0 := h6 rfl he
          rw [hen he hcut] at f4
          rcases ho.cases_cons with ⟨rfl, rfl⟩ | ho
          · exact hx0
          · exact f4 v r' ho

/-- What is remembered for a `star` hides nothing: if its walk stops below a node of the tree, then its argument can take that node.
What is not a node of the tree is in `R`. -/
def CutsOk (T : Tree (Addr × α)) (R : Nat → Addr → Prop) (ms : List (Pat α)) (c : Marks) : Prop :=
  ∀ i q f ps, Pat.node i (.star q) f ps ∈ ms → q ≠ .possessive → ps.length = 1 ∧
    (∀ gs v, plug gs v = T → c i = some v.addr → FitsL Prod.snd ps [v]) ∧
    ∀ a, c i = some a → R i a ∨ ∃ gs v, plug gs v = T ∧ v.addr = a

variable {R : Nat → Addr → Prop}

theorem CutsOk.congr {ms : List (Pat α)} {c c' : Marks} (h : ∀ j ∈ ms.map Pat.id, c' j = c j) (H : CutsOk T R ms c) : CutsOk T R ms c' := by
  intro i q f ps hm hq
  rw [h i (List.mem_map.mpr ⟨_, hm, rfl⟩)]
  exact H i q f ps hm hq

theorem CutsOk.append {ms ms' : List (Pat α)} {c : Marks} : CutsOk T R (ms ++ ms') c ↔ CutsOk T R ms c ∧ CutsOk T R ms' c := by
  constructor
  · intro H
    exact ⟨fun i q f ps hm => H i q f ps (by simp [hm]), fun i q f ps hm => H i q f ps (by simp [hm])⟩
  · rintro ⟨h1, h2⟩ i q f ps hm
    simp at hm
    rcases hm with hm | hm
    · exact h1 i q f ps hm
    · exact h2 i q f ps hm

theorem CutsOk.node {i : Nat} {k : MKind} {f : α → Bool} {ps : List (Pat α)} {c : Marks} (hk : ∀ q, k ≠ .star q) :
    CutsOk T R (Pat.node i k f ps).pre c ↔ CutsOk T R (preL ps) c := by
  rw [Pat.pre_node]
  constructor
  · intro H i q f ps hm; exact H i q f ps (by simp [hm])
  · intro H i' q f' ps' hm
    simp at hm
    rcases hm with ⟨-, rfl, -, -⟩ | hm
    · exact absurd rfl (hk q)
    · exact H i' q f' ps' hm

theorem CutsOk.star {i : Nat} {q : Quantifier} {f : α → Bool} {ps : List (Pat α)} {c : Marks} :
    CutsOk T R (Pat.node i (.star q) f ps).pre c ↔
      (q ≠ .possessive → ps.length = 1 ∧ (∀ gs v, plug gs v = T → c i = some v.addr → FitsL Prod.snd ps [v]) ∧
        ∀ a, c i = some a → R i a ∨ ∃ gs v, plug gs v = T ∧ v.addr = a) ∧ CutsOk T R (preL ps) c := by
  rw [Pat.pre_node]
  constructor
  · intro H
    exact ⟨H i q f ps (by simp), fun i q f ps hm => H i q f ps (by simp [hm])⟩
  · rintro ⟨h, H⟩ i' q' f' ps' hm
    simp only [List.mem_cons] at hm
    rcases hm with hm | hm
    · injection hm with h1 h2 h3 h4
      injection h2 with h2
      subst h1 h2 h3 h4; exact h
    · exact H i' q' f' ps' hm

theorem SOver.pre_inv {c : Marks} {it : SIt α} {i : Nat} {test : α → Bool} {t r} (H : SOver c T it (t :: r)) (hw : it.walk = .pre i test) :
    ∃ gs u fs, plug gs u = T ∧ plug fs t = u ∧ (∀ f ∈ fs, test f.label.2 = true) ∧ r = fs.flatMap Frame.rights ∧ it.root = some u.addr := by
  cases H with
  | @pre _ _ gs u fs _ h1 h2 h3 h4 =>
    simp only [Walk.pre.injEq] at hw
    obtain ⟨rfl, rfl⟩ := hw
    exact ⟨gs, u, fs, h1, h2, fun f hf => accOf_le (h4 f hf), rfl, rfl⟩
  | _ => simp at hw

/-- Looking again for a place for the first matcher, when the others found none. -/
theorem rematch_spec (S : Starable nav vl T) (hf : T.size < fuel) {this rest : Memo → SIt α → Res (Bool × Memo × SIt α)} {i : Nat}
    {p : Pat α} {ps : List (Pat α)} {test : α → Bool} (hn : (idsL (p :: ps)).Nodup)
    {E P Q2}
    (hthis : ∀ s it us, SOver s.cuts T it us → it.walk = .pre i test →
      ∃ ok s' it', this s it = Res.ok (ok, s', it') ∧ Outcome T P (fun m t => Placed Prod.snd Prod.fst m p t) Q2 (· ∈ p.ids) E p.id (some i) s it us ok s' it')
    (hrest : ∀ s it us, SOver s.cuts T it us → it.walk = .pre i test →
      ∃ ok s' it', rest s it = Res.ok (ok, s', it') ∧ (∀ j, j ∉ idsL ps → s'.marks j = s.marks j) ∧
        (∀ j, j ∉ idsL ps → j ≠ i → s'.cuts j = s.cuts j) ∧ (ok = true → PlacedS Prod.snd Prod.fst s'.marks (through (.pre i test)) ps us)) :
    ∀ n s it t r, it.walk = .pre i test → s.marks p.id = some t.addr →
      SOver (s.cuts.set i none) T { it with cur := some t.addr, aux := [] } (t :: r) → sizeL (t :: r) < n →
      ∃ ok s' it', rematch nav vl fuel this rest i p.id n s it = Res.ok (ok, s', it') ∧
        (∀ j, j ∉ idsL (p :: ps) → s'.marks j = s.marks j) ∧ (∀ j, j ∉ idsL (p :: ps) → j ≠ i → s'.cuts j = s.cuts j) ∧
        (ok = true → PlacedS Prod.snd Prod.fst s'.marks (through (.pre i test)) (p :: ps) (t :: r)) := by
  intro n
  induction n with
  | zero => intro s it t r _ _ _ h; omega
  | succ n ih =>
    rintro s ⟨w, root, cur, aux⟩ t r hw hm H hsz
    simp only at hw
    subst hw
    rw [rematch]
    cases cur with
    | none => exact ⟨false, s, _, rfl, fun _ _ => rfl, fun _ _ _ => rfl, by simp⟩
    | some a =>
      simp only [hm]
      simp only at H
      have hcn : (s.cuts.set i none) i = none := set_same
      have : ∃ gs u fs, plug gs u = T ∧ plug fs t = u ∧ (∀ f ∈ fs, test f.label.2 = true) ∧ r = fs.flatMap Frame.rights ∧ root = some u.addr := by
        exact H.pre_inv rfl
      obtain ⟨gs, u, fs, h1, h2, h3, rfl, rfl⟩ := this
      obtain ⟨ptr, us, e1, H2, hlt, hO⟩ := ramification_spec S hf h1 test i (s.cuts.set i none) hcn h2 h3
      have e2 : (s.cut i none).cuts i = none := set_same
      simp only [navOf, e2]
      rw [e1]
      simp only [Res.ok_bind]
      obtain ⟨ok, s1, it1, q1, O⟩ := hthis (s.cut i none) ⟨.pre i test, some u.addr, ptr, []⟩ us H2 rfl
      rw [q1]
      simp only [Res.ok_bind]
      have fm : ∀ j, j ∉ p.ids → s1.marks j = s.marks j := fun j hj => O.marks j hj
      have fc : ∀ j, j ∉ p.ids → j ≠ i → s1.cuts j = s.cuts j := by
        intro j hj hji
        rw [O.cuts j hj (by simp; exact fun e => hji e.symm)]
        exact Simple.set_ne hji
      cases ok with
      | false =>
        obtain ⟨g1, -, -, -⟩ := O.missing rfl
        simp only [Bool.not_false, if_true]
        refine ⟨false, s1, it1, ?_, fun j hj => fm j (by simp at hj; exact hj.1), fun j hj => fc j (by simp at hj; exact hj.1), by simp⟩
        cases n with
        | zero => have := size_pos t; simp at hsz; omega
        | succ n => rw [rematch]; simp only [g1]; rfl
      | true =>
        simp only [Bool.not_true, Bool.false_eq_true, if_false]
        obtain ⟨t2, r2, g1, g2, g3, g4, -, g6, -⟩ := O.found rfl
        have hw1 : it1.walk = .pre i test := O.walk
        obtain ⟨ok2, s2, it2, k1, k2, k3, k4⟩ := hrest s1 it1 r2 g4 hw1
        rw [k1]
        simp only [Res.ok_bind]
        have hdis : ∀ j ∈ p.ids, j ∉ idsL ps := by
          intro j hj hj2
          simp only [idsL_cons, List.nodup_append] at hn
          exact hn.2.2 j hj j hj2 rfl
        have hO' : Opens (through (.pre i test)) (t :: fs.flatMap Frame.rights) us := by
          rcases hO with hO | rfl
          · exact hO
          · cases g1
        have fm2 : ∀ j, j ∉ idsL (p :: ps) → s2.marks j = s.marks j := by
          intro j hj
          simp at hj
          rw [k2 j hj.2, fm j hj.1]
        have fc2 : ∀ j, j ∉ idsL (p :: ps) → j ≠ i → s2.cuts j = s.cuts j := by
          intro j hj hji
          simp at hj
          rw [k3 j hj.2 hji, fc j hj.1 hji]
        have hp2 : Placed Prod.snd Prod.fst s2.marks p t2 := placed_congr p t2 (fun j hj => k2 j (hdis j hj)) g3
        cases ok2 with
        | true =>
          refine ⟨true, s2, it2, rfl, fm2, fc2, fun _ => ?_⟩
          simp only [PlacedS]
          exact ⟨t2, r2, hO'.trans g1, hp2, k4 rfl⟩
        | false =>
          simp only [Bool.false_eq_true, if_false]
          have hsz2 := g1.sizeL_le
          have H3 : SOver (s2.cuts.set i none) T ⟨.pre i test, some u.addr, some t2.addr, []⟩ (t2 :: r2) := by
            have h := g6 i test rfl
            have hr1 : it1.root = some u.addr := O.root
            rw [hw1, hr1] at h
            refine h.congr ?_
            intro k test' e
            injection e with e _
            subst e
            rw [set_same, set_same]
          obtain ⟨ok3, s3, it3, j1, j2, j3, j4⟩ := ih s2 ⟨.pre i test, some u.addr, ptr, []⟩ t2 r2 rfl (placed_mark hp2) H3 (by omega)
          refine ⟨ok3, s3, it3, j1, fun j hj => by rw [j2 j hj, fm2 j hj], fun j hj hji => by rw [j3 j hj hji, fc2 j hj hji], fun h => ?_⟩
          exact placedS_open (hO'.trans g1) (j4 h)

/-- The outcome of the search of some siblings. -/
structure OutcomeL (T : Tree (Addr × α)) (R : Nat → Addr → Prop) (ps : List (Pat α)) (ack rem : Option Nat) (s : Memo) (it : SIt α) (us : List (Tree (Addr × α)))
    (ok : Bool) (s' : Memo) : Prop where
  marks : ∀ j, j ∉ idsL ps → s'.marks j = s.marks j
  cuts : ∀ j, j ∉ idsL ps → ack ≠ some j → s'.cuts j = s.cuts j
  keep : (rem = none ∨ ps.length ≤ 1) → CutsOk T R (preL ps) s.cuts → CutsOk T R (preL ps) s'.cuts
  found : ok = true → PlacedS Prod.snd Prod.fst s'.marks (through it.walk) ps us
  took : ok = true → CutsOk T R (preL ps) s.cuts → (¬ Walk.isPre it.walk ∨ ps.length ≤ 1) →
    (∀ k test gs v, it.walk = .pre k test → plug gs v = T → s.cuts k = some v.addr → FitsL Prod.snd ps [v]) →
    TookS Prod.snd Prod.fst s'.marks (through it.walk) ps us
  missing : ok = false → CutsOk T R (preL ps) s.cuts → (¬ Walk.isPre it.walk ∨ ps.length ≤ 1) →
    (∀ k test gs v, it.walk = .pre k test → plug gs v = T → s.cuts k = some v.addr → FitsL Prod.snd ps [v]) →
    ¬ FitsS Prod.snd (through it.walk) ps us
  cut : ps.length = 1 → ∀ k, ack = some k → (ok = true → ∃ gs v, plug gs v = T ∧ s'.cuts k = some v.addr ∧ FitsL Prod.snd ps [v]) ∧
    (ok = false → s'.cuts k = s.cuts k)

/-- For the iterators that do not go into nodes. -/
theorem OutcomeL.list {ps : List (Pat α)} {ack rem : Option Nat} {s : Memo} {it : SIt α} {us : List (Tree (Addr × α))} {ok : Bool}
    {s' : Memo} (O : OutcomeL T R ps ack rem s it us ok s') (hw : ¬ Walk.isPre it.walk) :
    (ok = true → PlacedL Prod.snd Prod.fst s'.marks ps us) ∧
      (ok = true → CutsOk T R (preL ps) s.cuts → TookL Prod.snd Prod.fst s'.marks ps us) ∧
      (ok = false → CutsOk T R (preL ps) s.cuts → ¬ FitsL Prod.snd ps us) := by
  have h1 := O.found
  have h2 := O.missing
  have h3 := O.took
  rw [through_of_not hw] at h1 h2 h3
  refine ⟨fun h => placedS_false.mp (h1 h), fun h he => tookS_false.mp (h3 h he (.inl hw) ?_),
    fun h he hx => h2 h he (.inl hw) ?_ (fitsS_false.mpr hx)⟩ <;>
  · intro k test _ _ e
    exact absurd ⟨k, test, e⟩ hw

theorem headMark_single (p : Pat α) (m : Marks) : headMark [p] m = m p.id := rfl

theorem all_single (p : Pat α) (ack rem : Option Nat) (s : Memo) (it : SIt α) :
    all nav vl fuel [p] ack rem s it = this nav vl fuel p ack s it := by
  simp only [all]
  cases this nav vl fuel p ack s it with
  | ok x => obtain ⟨ok, s, it⟩ := x; cases ok <;> simp
  | ub => rfl
  | diverge => rfl

mutual
theorem this_spec (S : Starable nav vl T) (hf : T.size < fuel) : (p : Pat α) → p.solid → p.ids.Nodup → (ack : Option Nat) → (s : Memo) →
    (it : SIt α) → (us : List (Tree (Addr × α))) → SOver s.cuts T it us → (∀ k test, it.walk = .pre k test → ack = some k) →
    (∀ k, ack = some k → k ∉ p.ids) →
    ∃ ok s' it', this nav vl fuel p ack s it = Res.ok (ok, s', it') ∧
      Outcome T (Fits Prod.snd p) (fun m t => Placed Prod.snd Prod.fst m p t)
        (fun m t => Took Prod.snd Prod.fst m p t) (· ∈ p.ids) (CutsOk T R p.pre) p.id ack s it us ok s' it'
  | Pat.node i .cpt f ps, hp, hn, ack, s, it, us, H, hw, ha => by
    simp only [solid] at hp
    simp only [ids_node, List.nodup_cons] at hn
    match ps, hp, hn, ha with
    | [p], hp, hn, ha =>
      simp only [solidL] at hp
      simp only [idsL_cons, idsL_nil, List.append_nil] at hn
      obtain ⟨ok, s', it', h1, O⟩ := this_spec S hf p hp.2.1 hn.2 ack s it us H hw (fun k hk => by have := ha k hk; simp at this; exact this.2)
      have hE : ∀ c, CutsOk T R (Pat.node i .cpt f [p]).pre c ↔ CutsOk T R p.pre c := by
        intro c
        rw [CutsOk.node (by simp)]
        simp [Pat.preL]
      have hF : ∀ t : Tree (Addr × α), Fits Prod.snd (Pat.node i .cpt f [p]) t ↔ Fits Prod.snd p t := by
        intro t
        simp [Fits, fitsL_single]
      simp only [this, all_single, h1, Res.ok_bind]
      cases ok with
      | true =>
        refine ⟨true, s'.mark i (headMark [p] s'.marks), it', by simp, ?_⟩
        have hm : (s'.mark i (headMark [p] s'.marks)).marks = s'.marks.set i (s'.marks p.id) := rfl
        have hc : (s'.mark i (headMark [p] s'.marks)).cuts = s'.cuts := rfl
        refine ⟨?_, ?_, O.walk, O.root, ?_, ?_, by simp⟩
        · intro j hj
          simp at hj
          rw [hm, Simple.set_ne hj.1]
          exact O.marks j hj.2
        · intro j hj hj2
          simp at hj
          exact O.cuts j hj.2 hj2
        · rw [hE, hE, hc]; exact O.keep
        · intro _
          obtain ⟨t, r, g1, g2, g3, g4, g5, g6, g7⟩ := O.found rfl
          refine ⟨t, r, g1, g2, ?_, g4, g5, g6, ?_⟩
          · simp only [Placed]
            rw [hm, set_same]
            refine ⟨placed_mark g3, ?_⟩
            simp only [PlacedL, and_true]
            exact ⟨[], t, [], rfl, placed_congr p t (fun j hj => Simple.set_ne (fun e => hn.1 (e ▸ hj))) g3⟩
          · rw [hE]
            intro he hcut
            obtain ⟨g8, g9⟩ := g7 he (fun k test gs v hwk hv hcv => (hF v).mp (hcut k test gs v hwk hv hcv))
            refine ⟨g8.congr hF, ?_⟩
            simp only [Took]
            rw [hm, set_same]
            refine ⟨placed_mark g3, ?_⟩
            simp only [TookL, and_true]
            exact ⟨[], t, [], rfl, by simp, took_congr p t (fun j hj => Simple.set_ne (fun e => hn.1 (e ▸ hj))) g9⟩
      | false =>
        refine ⟨false, s', it', by simp, ?_⟩
        refine ⟨?_, ?_, O.walk, O.root, by rw [hE, hE]; exact O.keep, by simp, ?_⟩
        · intro j hj; simp at hj; exact O.marks j hj.2
        · intro j hj hj2; simp at hj; exact O.cuts j hj.2 hj2
        · intro _
          obtain ⟨g1, -, g2, g3⟩ := O.missing rfl
          refine ⟨g1, O.marks i hn.1, g2, ?_⟩
          rw [hE]
          intro he hc v r ho
          rw [hF]
          exact g3 he (fun k test gs v hwk hv hcv => (hF v).mp (hc k test gs v hwk hv hcv)) v r ho
  | Pat.node i .one f ps, hp, hn, ack, s, it, us, H, hw, ha => by
    simp only [solid] at hp
    simp only [ids_node, List.nodup_cons] at hn
    have hwt := H.weight_le
    simp only [this]
    have hack : ∀ k, ack = some k → ¬ (k ∈ (Pat.node i .one f ps).ids) := ha
    refine loop_spec (J := (· ∈ (Pat.node i .one f ps).ids)) S (by omega) (by simp) (fun c c' h he => he.congr h) hack ?_ fuel s it us H hw (by omega)
    intro s it x r H hw
    obtain ⟨hc, hv, ⟨gs, hx⟩, -, ⟨it2, e1, e2, e3⟩⟩ := H.cons S (Nat.le_of_lt hf)
    simp only [hv, Res.ok_bind]
    cases ht : f x.label.2 with
    | false =>
      exact ⟨false, s, by simp, fun _ _ => rfl, fun _ _ => rfl, rfl, fun h => h, by simp, by simp, fun _ _ => by simp [Fits, ht]⟩
    | true =>
      obtain ⟨ok, s', it', h1, O⟩ := all_spec S hf ps hp hn.2 none none s it2 x.children (e3 _) (by simp [e2]) (by simp) (by simp)
      simp only [Bool.not_true, Bool.false_eq_true, if_false, e1, Res.ok_bind, h1]
      obtain ⟨O1, O1', O2⟩ := O.list (by rw [e2]; rintro ⟨k, test, h⟩; cases h)
      refine ⟨ok, s', rfl, fun j hj => O.marks j (by simp at hj; exact hj.2), fun j hj => O.cuts j (by simp at hj; exact hj.2) (by simp), O.marks i hn.1, ?_, ?_, ?_, ?_⟩
      · rw [CutsOk.node (by simp), CutsOk.node (by simp)]; exact O.keep (.inl rfl)
      · intro hok
        simp only [Placed]
        exact ⟨set_same, ht, placedL_congr ps _ (fun j hj => Simple.set_ne (fun e => hn.1 (e ▸ hj))) (O1 hok)⟩
      · rw [CutsOk.node (by simp)]
        intro hok he
        simp only [Took]
        exact ⟨set_same, ht, tookL_congr ps _ (fun j hj => Simple.set_ne (fun e => hn.1 (e ▸ hj))) (O1' hok he)⟩
      · rw [CutsOk.node (by simp)]
        intro hok he
        simp only [Fits, not_and]
        exact fun _ => O2 hok he
  | Pat.node i (.opt q) f ps, hp, hn, ack, s, it, us, H, hw, ha => by
    have hnull := matchesNull_solid _ hp
    simp only [solid] at hp
    simp only [ids_node, List.nodup_cons] at hn
    have hwt := H.weight_le
    have hpn : prefersNull (Pat.node i (.opt q) f ps) = false := by simp [prefersNull, hnull]
    simp only [this, hnull, hpn, Bool.false_eq_true, if_false]
    have hack : ∀ k, ack = some k → ¬ (k ∈ (Pat.node i (.opt q) f ps).ids) := ha
    refine loop_spec (J := (· ∈ (Pat.node i (.opt q) f ps).ids)) S (by omega) (by simp) (fun c c' h he => he.congr h) hack ?_ fuel s it us H hw (by omega)
    intro s it x r H hw
    obtain ⟨hc, hv, ⟨gs, hx⟩, -, ⟨it2, e1, e2, e3⟩⟩ := H.cons S (Nat.le_of_lt hf)
    simp only [hv, Res.ok_bind]
    have hsteal := childMaySteal_solid hp.2
    have steal : ∀ s : Memo, ∃ ok s' it', all nav vl fuel ps none none s (fixedIt it x.addr) = Res.ok (ok, s', it') ∧
        (∀ j, j ∉ idsL ps → s'.marks j = s.marks j) ∧ (∀ j, j ∉ idsL ps → s'.cuts j = s.cuts j) ∧
        (CutsOk T R (preL ps) s.cuts → CutsOk T R (preL ps) s'.cuts) ∧
        (ok = true → PlacedL Prod.snd Prod.fst (s'.marks.set i (some x.addr)) ps [x]) ∧
        (ok = true → CutsOk T R (preL ps) s.cuts → TookL Prod.snd Prod.fst (s'.marks.set i (some x.addr)) ps [x]) ∧
        (ok = false → CutsOk T R (preL ps) s.cuts → ¬ FitsL Prod.snd ps [x]) := by
      intro s
      obtain ⟨ok, s', it', h1, O⟩ := all_spec S hf ps hp.2 hn.2 none none s (fixedIt it x.addr) [x] (.at_ _ hx) (by simp [fixedIt]) (by simp) (by simp)
      obtain ⟨O1, O1', O2⟩ := O.list (by rintro ⟨k, test, h⟩; cases h)
      exact ⟨ok, s', it', h1, O.marks, fun j hj => O.cuts j hj (by simp), O.keep (.inl rfl),
        fun h => placedL_congr ps _ (fun j hj => Simple.set_ne (fun e => hn.1 (e ▸ hj))) (O1 h),
        fun h he => tookL_congr ps _ (fun j hj => Simple.set_ne (fun e => hn.1 (e ▸ hj))) (O1' h he), O2⟩
    have long : childMaySteal ps = false → ¬ FitsL Prod.snd ps [x] := by
      intro h hx
      have := fitsL_length hx
      rw [hsteal] at h
      simp at h this
      omega
    have hE : ∀ c, CutsOk T R (Pat.node i (.opt q) f ps).pre c ↔ CutsOk T R (preL ps) c := fun c => CutsOk.node (by simp)
    cases ht : f x.label.2 with
    | false =>
      simp only [Bool.not_false, if_true]
      rcases Bool.eq_false_or_eq_true (childMaySteal ps) with hst | hst
      · obtain ⟨ok, s', it', h1, h2, h3, h4, h5, h5', h6⟩ := steal s
        simp only [hst, if_true, h1, Res.ok_bind]
        refine ⟨ok, s', rfl, fun j hj => h2 j (by simp at hj; exact hj.2), fun j hj => h3 j (by simp at hj; exact hj.2), h2 i hn.1, by rw [hE, hE]; exact h4, ?_, ?_, ?_⟩
        · intro hok
          simp only [Placed]
          exact ⟨set_same, .inr ⟨fun _ => ht, h5 hok⟩⟩
        · rw [hE]; intro hok he
          simp only [Took]
          exact ⟨set_same, .inr ⟨by simp [ht], fun _ => ht, h5' hok he⟩⟩
        · rw [hE]; intro hok he
          simp only [Fits, ht]
          simp
          exact h6 hok he
      · simp only [hst, Bool.false_eq_true, if_false]
        exact ⟨false, s, rfl, fun _ _ => rfl, fun _ _ => rfl, rfl, fun h => h, by simp, by simp, fun _ _ => by simp [Fits, ht]; exact long hst⟩
    | true =>
      obtain ⟨ok, s1, it', h1, O⟩ := all_spec S hf ps hp.2 hn.2 none none s it2 x.children (e3 _) (by simp [e2]) (by simp) (by simp)
      simp only [Bool.not_true, Bool.false_eq_true, if_false, e1, Res.ok_bind, h1]
      obtain ⟨O1, O1', O2⟩ := O.list (by rw [e2]; rintro ⟨k, test, h⟩; cases h)
      have keep := O.keep (.inl rfl)
      cases ok with
      | true =>
        refine ⟨true, s1, by simp, fun j hj => O.marks j (by simp at hj; exact hj.2), fun j hj => O.cuts j (by simp at hj; exact hj.2) (by simp), O.marks i hn.1, by rw [hE, hE]; exact keep, ?_, ?_, by simp⟩
        · intro _
          simp only [Placed]
          exact ⟨set_same, .inl ⟨ht, placedL_congr ps _ (fun j hj => Simple.set_ne (fun e => hn.1 (e ▸ hj))) (O1 rfl)⟩⟩
        · rw [hE]; intro _ he
          simp only [Took]
          exact ⟨set_same, .inl ⟨ht, tookL_congr ps _ (fun j hj => Simple.set_ne (fun e => hn.1 (e ▸ hj))) (O1' rfl he)⟩⟩
      | false =>
        rcases Bool.eq_false_or_eq_true (q != .possessive && childMaySteal ps) with hst | hst
        · obtain ⟨ok, s', it', k1, k2, k3, k4, k5, k5', k6⟩ := steal s1
          have hst2 : (!false && q != .possessive && childMaySteal ps) = true := by simpa using hst
          simp only [hst2, if_true, k1, Res.ok_bind]
          refine ⟨ok, s', rfl, fun j hj => ?_, fun j hj => ?_, by rw [k2 i hn.1, O.marks i hn.1], by rw [hE, hE]; exact fun h => k4 (keep h), ?_, ?_, ?_⟩
          · simp at hj; rw [k2 j hj.2, O.marks j hj.2]
          · simp at hj; rw [k3 j hj.2, O.cuts j hj.2 (by simp)]
          · intro hok
            simp only [Placed]
            simp at hst
            exact ⟨set_same, .inr ⟨fun h => absurd h hst.1, k5 hok⟩⟩
          · rw [hE]; intro hok he
            simp only [Took]
            simp at hst
            exact ⟨set_same, .inr ⟨fun h => O2 rfl he h.2, fun h => absurd h hst.1, k5' hok (keep he)⟩⟩
          · rw [hE]; intro hok he
            simp only [Fits, not_or, not_and]
            exact ⟨fun _ => O2 rfl he, fun _ => k6 hok (keep he)⟩
        · have hst2 : (!false && q != .possessive && childMaySteal ps) = false := by simpa using hst
          simp only [hst2, Bool.false_eq_true, if_false]
          refine ⟨false, s1, rfl, fun j hj => O.marks j (by simp at hj; exact hj.2), fun j hj => O.cuts j (by simp at hj; exact hj.2) (by simp), O.marks i hn.1, by rw [hE, hE]; exact keep, by simp, by simp, ?_⟩
          rw [hE]; intro _ he
          simp only [Fits, not_or, not_and]
          refine ⟨fun _ => O2 rfl he, fun hq => ?_⟩
          by_cases hqp : q = .possessive
          · have := hq hqp; rw [ht] at this; cases this
          · refine long ?_
            have : (q != .possessive) = true := by simp [hqp]
            simpa [this] using hst
  | Pat.node i (.star q) f ps, hp, hn, ack, s, it, us, H, hw, ha => by
    have hnull := matchesNull_solid _ hp
    simp only [solid] at hp
    simp only [ids_node, List.nodup_cons] at hn
    have hwt := H.weight_le
    have hpn : prefersNull (Pat.node i (.star q) f ps) = false := by simp [prefersNull, hnull]
    simp only [this, hnull, hpn, Bool.false_eq_true, if_false]
    have hack : ∀ k, ack = some k → ¬ (k ∈ (Pat.node i (.star q) f ps).ids) := ha
    refine loop_spec (J := (· ∈ (Pat.node i (.star q) f ps).ids)) S (by omega) (by simp) (fun c c' h he => he.congr h) hack ?_ fuel s it us H hw (by omega)
    intro s it x r H hw
    obtain ⟨hc, hv, ⟨gs, hx⟩, -, -⟩ := H.cons S (Nat.le_of_lt hf)
    simp only [hv, Res.ok_bind]
    have hsteal := childMaySteal_solid hp.2
    have steal : ∀ s : Memo, ∃ ok s' it', all nav vl fuel ps none none s (fixedIt it x.addr) = Res.ok (ok, s', it') ∧
        (∀ j, j ∉ idsL ps → s'.marks j = s.marks j) ∧ (∀ j, j ∉ idsL ps → s'.cuts j = s.cuts j) ∧
        (CutsOk T R (preL ps) s.cuts → CutsOk T R (preL ps) s'.cuts) ∧
        (ok = true → PlacedL Prod.snd Prod.fst (s'.marks.set i (some x.addr)) ps [x]) ∧
        (ok = true → CutsOk T R (preL ps) s.cuts → TookL Prod.snd Prod.fst (s'.marks.set i (some x.addr)) ps [x]) ∧
        (ok = false → CutsOk T R (preL ps) s.cuts → ¬ FitsL Prod.snd ps [x]) := by
      intro s
      obtain ⟨ok, s', it', h1, O⟩ := all_spec S hf ps hp.2 hn.2 none none s (fixedIt it x.addr) [x] (.at_ _ hx) (by simp [fixedIt]) (by simp) (by simp)
      obtain ⟨O1, O1', O2⟩ := O.list (by rintro ⟨k, test, h⟩; cases h)
      exact ⟨ok, s', it', h1, O.marks, fun j hj => O.cuts j hj (by simp), O.keep (.inl rfl),
        fun h => placedL_congr ps _ (fun j hj => Simple.set_ne (fun e => hn.1 (e ▸ hj))) (O1 h),
        fun h he => tookL_congr ps _ (fun j hj => Simple.set_ne (fun e => hn.1 (e ▸ hj))) (O1' h he), O2⟩
    have long : childMaySteal ps = false → ¬ FitsL Prod.snd ps [x] := by
      intro h hx
      have := fitsL_length hx
      rw [hsteal] at h
      simp at h this
      omega
    have keepS : ∀ c c' : Marks, c' i = c i → (CutsOk T R (preL ps) c → CutsOk T R (preL ps) c') →
        CutsOk T R (Pat.node i (.star q) f ps).pre c → CutsOk T R (Pat.node i (.star q) f ps).pre c' := by
      intro c c' h1 h2 h3
      rw [CutsOk.star] at h3 ⊢
      exact ⟨by rw [h1]; exact h3.1, h2 h3.2⟩
    cases ht : f x.label.2 with
    | false =>
      simp only [Bool.not_false, if_true]
      rcases Bool.eq_false_or_eq_true (childMaySteal ps) with hst | hst
      · obtain ⟨ok, s', it', h1, h2, h3, h4, h5, h5', h6⟩ := steal s
        simp only [hst, if_true, h1, Res.ok_bind]
        refine ⟨ok, s', rfl, fun j hj => h2 j (by simp at hj; exact hj.2), fun j hj => h3 j (by simp at hj; exact hj.2), h2 i hn.1, keepS _ _ (h3 i hn.1) h4, ?_, ?_, ?_⟩
        · intro hok
          simp only [Placed]
          exact ⟨set_same, .inr ⟨fun _ => ht, h5 hok⟩⟩
        · rw [CutsOk.star]; intro hok he
          simp only [Took]
          exact ⟨set_same, .inr ⟨fun _ => ht, h5' hok he.2⟩⟩
        · rw [CutsOk.star]; intro hok he
          simp only [Fits, ht]
          simp
          exact h6 hok he.2
      · simp only [hst, Bool.false_eq_true, if_false]
        exact ⟨false, s, rfl, fun _ _ => rfl, fun _ _ => rfl, rfl, fun h => h, by simp, by simp, fun _ _ => by simp [Fits, ht]; exact long hst⟩
    | true =>
      obtain ⟨it2, e1, e2, e3⟩ := target_spec S (Nat.le_of_lt hf) hx i q f ht s
      have hsome : ∀ k, some i = some k → k ∉ idsL ps := by rintro k ⟨⟩; exact hn.1
      by_cases hq : q = .possessive
      · subst hq
        obtain ⟨w1, w2⟩ := e2 rfl
        obtain ⟨ok, s1, it', h1, O⟩ := all_spec S hf ps hp.2 hn.2 (some i) none s it2 _ (w2 _) (by simp [w1]) hsome (by simp)
        simp only [Bool.not_true, Bool.false_eq_true, if_false, e1, Res.ok_bind, if_true, h1]
        obtain ⟨O1, O1', O2⟩ := O.list (by rw [w1]; rintro ⟨k, test, h⟩; cases h)
        have hst2 : (!ok && Quantifier.possessive != .possessive && childMaySteal ps) = false := by simp
        simp only [hst2, Bool.false_eq_true, if_false]
        refine ⟨ok, s1, rfl, fun j hj => O.marks j (by simp at hj; exact hj.2), fun j hj => O.cuts j (by simp at hj; exact hj.2) (by simp at hj ⊢; exact fun e => hj.1 e.symm), O.marks i hn.1, ?_, ?_, ?_, ?_⟩
        · rw [CutsOk.star, CutsOk.star]
          exact fun h => ⟨fun h => absurd rfl h, O.keep (.inl rfl) h.2⟩
        · intro hok
          simp only [Placed]
          exact ⟨set_same, .inl ⟨ht, fun h => absurd rfl h, fun _ => placedL_congr ps _ (fun j hj => Simple.set_ne (fun e => hn.1 (e ▸ hj))) (O1 hok)⟩⟩
        · rw [CutsOk.star]; intro hok he
          simp only [Took]
          exact ⟨set_same, .inl ⟨ht, fun h => absurd rfl h, fun _ => tookL_congr ps _ (fun j hj => Simple.set_ne (fun e => hn.1 (e ▸ hj))) (O1' hok he.2)⟩⟩
        · rw [CutsOk.star]; intro hok he
          simp only [Fits, not_or, not_and]
          exact ⟨fun _ _ h => O2 hok he.2 (h trivial), fun h => by rw [ht] at h; cases h trivial⟩
      · obtain ⟨w1, w2⟩ := e3 hq
        obtain ⟨ok, s1, it', h1, O⟩ := all_spec S hf ps hp.2 hn.2 (some i) (some i) s it2 _ w2 (by simp [w1]) hsome
          (by rintro k ⟨⟩; exact ⟨f, w1⟩)
        simp only [Bool.not_true, Bool.false_eq_true, if_false, e1, Res.ok_bind, hq, if_false, h1]
        have O1 := O.found
        have O2 := O.missing
        have O3 := O.took
        rw [w1] at O1 O2 O3
        have keep : CutsOk T R (Pat.node i (.star q) f ps).pre s.cuts → CutsOk T R (Pat.node i (.star q) f ps).pre s1.cuts := by
          rw [CutsOk.star, CutsOk.star]
          rintro ⟨g1, g2⟩
          obtain ⟨g3, g4, g4'⟩ := g1 hq
          refine ⟨fun _ => ⟨g3, ?_⟩, O.keep (.inr (by omega)) g2⟩
          obtain ⟨g5, g6⟩ := O.cut g3 i rfl
          cases ok with
          | false => rw [g6 rfl]; exact ⟨g4, g4'⟩
          | true =>
            obtain ⟨gs', v, g7, g8, g9⟩ := g5 rfl
            refine ⟨?_, fun a h => .inr ⟨gs', v, g7, by rw [g8] at h; exact Option.some.inj h⟩⟩
            intro gs2 v2 hv2 hc2
            rw [g8] at hc2
            have := (sub_unique (g := Prod.fst) (by simpa [Tree.addrs] using S.nodup) g7 hv2 (by simpa [Tree.addr] using hc2)).2
            rw [← this]; exact g9
        have fm : ∀ j, j ∉ (Pat.node i (.star q) f ps).ids → s1.marks j = s.marks j := fun j hj => O.marks j (by simp at hj; exact hj.2)
        have fc : ∀ j, j ∉ (Pat.node i (.star q) f ps).ids → s1.cuts j = s.cuts j :=
          fun j hj => O.cuts j (by simp at hj; exact hj.2) (by simp at hj ⊢; exact fun e => hj.1 e.symm)
        have htr : through (.pre i f : Walk α) = fun b : Addr × α => f b.2 := rfl
        rw [htr] at O1 O2 O3
        cases ok with
        | true =>
          refine ⟨true, s1, by simp, fm, fc, O.marks i hn.1, keep, ?_, ?_, by simp⟩
          · intro _
            simp only [Placed]
            refine ⟨set_same, .inl ⟨ht, fun _ => ?_, fun h => absurd h hq⟩⟩
            have := placedS_congr (m' := s1.marks.set i (some x.addr)) _ ps _ (fun j hj => Simple.set_ne (fun e => hn.1 (e ▸ hj))) (O1 rfl)
            split at this
            · exact this
            · obtain ⟨p, ps⟩ := ps
              · exact absurd rfl hp.1
              · simp only [PlacedS] at this
                obtain ⟨_, _, h, _⟩ := this
                cases h
          · intro _ he
            rw [CutsOk.star] at he
            obtain ⟨g1, g2, -⟩ := he.1 hq
            simp only [Took]
            refine ⟨set_same, .inl ⟨ht, fun _ => ?_, fun h => absurd h hq⟩⟩
            have := tookS_congr (m' := s1.marks.set i (some x.addr)) _ ps _ (fun j hj => Simple.set_ne (fun e => hn.1 (e ▸ hj)))
              (O3 rfl he.2 (.inr (by omega)) (by
                intro k test gs v e hv hc
                injection e with e _
                subst e
                exact g2 gs v hv hc))
            split at this
            · exact this
            · obtain ⟨p, ps⟩ := ps
              · exact absurd rfl hp.1
              · simp only [TookS] at this
                obtain ⟨_, _, h, _⟩ := this
                cases h
        | false =>
          have first : CutsOk T R (Pat.node i (.star q) f ps).pre s.cuts → ¬ FitsL Prod.snd ps [x] →
              ¬ FitsS Prod.snd (fun b : Addr × α => f b.2) ps x.children := by
            intro he hns
            rw [CutsOk.star] at he
            obtain ⟨g1, g2, -⟩ := he.1 hq
            rcases Bool.eq_false_or_eq_true (accOf (s.cuts i) f x.label) with hacc | hacc
            · rw [if_pos hacc] at O2
              refine O2 rfl he.2 (.inr (by omega)) ?_
              intro k test gs v e hv hc
              injection e with e _
              subst e
              exact g2 gs v hv hc
            · exfalso
              refine hns (g2 gs x hx ?_)
              unfold accOf at hacc
              split at hacc
              · rename_i h; rw [← eq_of_beq h]; rfl
              · rw [ht] at hacc; cases hacc
          rcases Bool.eq_false_or_eq_true (childMaySteal ps) with hst | hst
          · obtain ⟨ok, s', it', k1, k2, k3, k4, k5, k5', k6⟩ := steal s1
            have hst2 : (!false && q != .possessive && childMaySteal ps) = true := by simp [hq, hst]
            simp only [hst2, if_true, k1, Res.ok_bind]
            refine ⟨ok, s', rfl, fun j hj => ?_, fun j hj => ?_, by rw [k2 i hn.1, O.marks i hn.1], fun h => keepS _ _ (k3 i hn.1) k4 (keep h), ?_, ?_, ?_⟩
            · rw [← fm j hj]; simp at hj; exact k2 j hj.2
            · rw [← fc j hj]; simp at hj; exact k3 j hj.2
            · intro hok
              simp only [Placed]
              exact ⟨set_same, .inr ⟨fun h => absurd h hq, k5 hok⟩⟩
            · intro hok he
              simp only [Took]
              exact ⟨set_same, .inr ⟨fun h => absurd h hq, k5' hok (by have := keep he; rw [CutsOk.star] at this; exact this.2)⟩⟩
            · intro hok he
              have hs := k6 hok (by have := keep he; rw [CutsOk.star] at this; exact this.2)
              simp only [Fits, not_or, not_and]
              exact ⟨fun _ h _ => first he hs (h hq), fun _ => hs⟩
          · have hst2 : (!false && q != .possessive && childMaySteal ps) = false := by simp [hst]
            simp only [hst2, Bool.false_eq_true, if_false]
            refine ⟨false, s1, rfl, fm, fc, O.marks i hn.1, keep, by simp, by simp, ?_⟩
            intro _ he
            have hs := long hst
            simp only [Fits, not_or, not_and]
            exact ⟨fun _ h _ => first he hs (h hq), fun _ => hs⟩
theorem all_spec (S : Starable nav vl T) (hf : T.size < fuel) : (ps : List (Pat α)) → solidL ps → (idsL ps).Nodup → (ack rem : Option Nat) →
    (s : Memo) → (it : SIt α) → (us : List (Tree (Addr × α))) → SOver s.cuts T it us →
    (∀ k test, it.walk = .pre k test → ack = some k) → (∀ k, ack = some k → k ∉ idsL ps) → (∀ k, rem = some k → ∃ test, it.walk = .pre k test) →
    ∃ ok s' it', all nav vl fuel ps ack rem s it = Res.ok (ok, s', it') ∧ OutcomeL T R ps ack rem s it us ok s'
  | [], _, _, ack, rem, s, it, us, H, _, _, _ => by
    refine ⟨true, s, it, by simp [all], fun _ _ => rfl, fun _ _ _ => rfl, fun _ h => h, fun _ => by simp [PlacedS], fun _ _ _ _ => by simp [TookS], by simp, by simp⟩
  | p :: ps, hp, hn, ack, rem, s, it, us, H, hw, ha, hr => by
    simp only [solidL] at hp
    have hn' := hn
    simp only [idsL_cons, List.nodup_append] at hn
    have hdis : ∀ j ∈ p.ids, j ∉ idsL ps := fun j hj hj2 => hn.2.2 j hj j hj2 rfl
    have hdis' : ∀ j ∈ idsL ps, j ∉ p.ids := fun j hj hj2 => hn.2.2 j hj2 j hj rfl
    have ha1 : ∀ k, ack = some k → k ∉ p.ids := fun k hk => by have := ha k hk; simp at this; exact this.1
    have ha2 : ∀ k, ack = some k → k ∉ idsL ps := fun k hk => by have := ha k hk; simp at this; exact this.2
    obtain ⟨ok, s1, it1, h1, O⟩ := this_spec S hf p hp.1 hn.1 ack s it us H hw ha1
    have hE : ∀ c, CutsOk T R (preL (p :: ps)) c ↔ CutsOk T R p.pre c ∧ CutsOk T R (preL ps) c := by
      intro c; rw [Pat.preL, CutsOk.append]
    have hnull := matchesNull_solid p hp.1
    have hcutP : (∀ k test gs v, it.walk = .pre k test → plug gs v = T → s.cuts k = some v.addr → FitsL Prod.snd (p :: ps) [v]) →
        ∀ k test gs v, it.walk = .pre k test → plug gs v = T → s.cuts k = some v.addr → Fits Prod.snd p v := by
      intro hcut k test gs v hwk hv hc
      have := hcut k test gs v hwk hv hc
      simp only [FitsL] at this
      obtain ⟨l, t, r, e, h, _⟩ := this
      cases l with
      | nil => simp at e; rw [e.1]; exact h
      | cons a l => simp at e
    have k0 : CutsOk T R (preL ps) s.cuts → CutsOk T R (preL ps) s1.cuts :=
      fun h => h.congr (fun j hj => O.cuts j (hdis' j hj) (fun e => ha2 j e hj))
    simp only [all, h1, Res.ok_bind]
    cases ok with
    | false =>
      simp only [Bool.not_false, if_true]
      refine ⟨false, s1, it1, rfl, ?_, ?_, ?_, by simp, by simp, ?_, ?_⟩
      · intro j hj; simp at hj; exact O.marks j hj.1
      · intro j hj hj2; simp at hj; exact O.cuts j hj.1 hj2
      · rw [hE, hE]; exact fun _ h => ⟨O.keep h.1, k0 h.2⟩
      · rw [hE]; intro _ he hlen hcut
        obtain ⟨-, -, -, g3⟩ := O.missing rfl
        have g4 := g3 he.1 (hcutP hcut)
        simp only [FitsS]
        rintro ⟨t, r, ho, hft, -⟩
        exact g4 t r ho hft
      · intro _ k hk
        exact ⟨by simp, fun _ => (O.missing rfl).2.2.1 k hk⟩
    | true =>
      simp only [Bool.not_true, Bool.false_eq_true, if_false]
      obtain ⟨t, r, g1, g2, g3, g4, g5, g6, g7⟩ := O.found rfl
      obtain ⟨ok2, s2, it2, h2, O2⟩ := all_spec S hf ps hp.2 hn.2.1 ack rem s1 it1 r g4 (by rw [O.walk]; exact hw) ha2 (by rw [O.walk]; exact hr)
      rw [h2]
      simp only [Res.ok_bind]
      have fm : ∀ j, j ∉ idsL (p :: ps) → s2.marks j = s.marks j := by
        intro j hj; simp at hj; rw [O2.marks j hj.2, O.marks j hj.1]
      have fc : ∀ j, j ∉ idsL (p :: ps) → ack ≠ some j → s2.cuts j = s.cuts j := by
        intro j hj hj2; simp at hj; rw [O2.cuts j hj.2 hj2, O.cuts j hj.1 hj2]
      have hp2 : Placed Prod.snd Prod.fst s2.marks p t := placed_congr p t (fun j hj => O2.marks j (hdis j hj)) g3
      have keep2 : CutsOk T R p.pre s1.cuts → CutsOk T R p.pre s2.cuts :=
        fun h => h.congr (fun j hj => O2.cuts j (hdis j hj) (fun e => ha1 j e hj))
      have keep : (rem = none ∨ (p :: ps).length ≤ 1) → CutsOk T R (preL (p :: ps)) s.cuts → CutsOk T R (preL (p :: ps)) s2.cuts := by
        rw [hE, hE]
        intro hl h
        refine ⟨keep2 (O.keep h.1), O2.keep ?_ (k0 h.2)⟩
        rcases hl with hl | hl
        · exact .inl hl
        · right; simp at hl ⊢; simp [hl]
      have cutL : (p :: ps).length = 1 → ∀ k, ack = some k → ∃ gs v, plug gs v = T ∧ s2.cuts k = some v.addr ∧ FitsL Prod.snd (p :: ps) [v] := by
        intro hl k hk
        simp at hl
        subst hl
        obtain ⟨gs, hg⟩ := g2
        simp [all] at h2
        obtain ⟨-, rfl, -⟩ := h2
        exact ⟨gs, t, hg, g5 k hk, fitsL_single.mpr ⟨t, by simp, placed_fits p t g3⟩⟩
      cases ok2 with
      | true =>
        simp only [if_true]
        refine ⟨true, s2, it2, rfl, fm, fc, keep, ?_, ?_, by simp, ?_⟩
        · intro _
          simp only [PlacedS]
          have := O2.found rfl
          rw [O.walk] at this
          exact ⟨t, r, g1, hp2, this⟩
        · intro _ he hl hcut
          rw [hE] at he
          obtain ⟨g8, g9⟩ := g7 he.1 (hcutP hcut)
          simp only [TookS]
          refine ⟨t, r, g8, took_congr p t (fun j hj => O2.marks j (hdis j hj)) g9, ?_⟩
          have := O2.took rfl (k0 he.2) (by
            rw [O.walk]
            rcases hl with hl | hl
            · exact .inl hl
            · right; simp at hl ⊢; simp [hl]) (by
            intro k test gs v hwk hv hc
            rw [O.walk] at hwk
            rcases hl with hl | hl
            · exact absurd ⟨k, test, hwk⟩ hl
            · have : ps = [] := by simpa using hl
              subst this; simp [FitsL])
          rw [O.walk] at this
          exact this
        · intro hl k hk
          exact ⟨fun _ => cutL hl k hk, by simp⟩
      | false =>
        simp only [Bool.false_eq_true, if_false]
        have hps : ps ≠ [] := by rintro rfl; simp [all] at h2
        have hlen : ¬ (p :: ps).length ≤ 1 := by cases ps <;> simp_all
        cases rem with
        | none =>
          simp only [Res.pure_eq, Res.ok_bind, Bool.false_eq_true, if_false, hnull, Bool.false_and]
          refine ⟨false, s2, it2, rfl, fm, fc, keep, by simp, by simp, ?_, fun h => absurd (Nat.le_of_eq h) hlen⟩
          intro _ he hl hcut
          rw [hE] at he
          have hl' : ¬ Walk.isPre it.walk := by
            rcases hl with hl | hl
            · exact hl
            · exact absurd hl hlen
          obtain ⟨l, e, hnf⟩ := First.false_iff.mp (by
            have := (g7 he.1 (hcutP hcut)).1
            rwa [through_of_not hl'] at this)
          have := O2.missing rfl (k0 he.2) (.inl (by rw [O.walk]; exact hl')) (by
            intro k test _ _ e; rw [O.walk] at e; exact absurd ⟨k, test, e⟩ hl')
          rw [O.walk, through_of_not hl', fitsS_false] at this
          rw [through_of_not hl', fitsS_false]
          intro hF
          exact this (fitsL_first hnf (by rw [← e]; exact hF))
        | some k =>
          obtain ⟨test, hwk⟩ := hr k rfl
          have hk := hw k test hwk
          subst hk
          have hw1 : it1.walk = .pre k test := by rw [O.walk, hwk]
          have H3 : SOver (s2.cuts.set k none) T { it1 with cur := some t.addr, aux := [] } (t :: r) := by
            refine (g6 k test hwk).congr ?_
            intro k' test' e
            simp only [hw1] at e
            injection e with e _
            subst e
            rw [set_same, set_same]
          have hsz : sizeL (t :: r) < fuel := by
            have := H3.weight_le
            simp only [hw1, weight] at this
            omega
          obtain ⟨ok3, s3, it3, j1, j2, j3, j4⟩ := rematch_spec S hf hn'
            (fun s it us H hwk' => this_spec S hf p hp.1 hn.1 (some k) s it us H (by intro k' test' e; rw [hwk'] at e; cases e; rfl) ha1)
            (fun s it us H hwk' => by
              obtain ⟨ok, s', it', h, O⟩ := all_spec S hf ps hp.2 hn.2.1 (some k) (some k) s it us H
                (by intro k' test' e; rw [hwk'] at e; cases e; rfl) ha2 (by rintro k' ⟨⟩; exact ⟨test, hwk'⟩)
              refine ⟨ok, s', it', h, O.marks, fun j hj hjk => O.cuts j hj (by simp; exact fun e => hjk e.symm), ?_⟩
              have := O.found
              rw [hwk'] at this
              exact this)
            fuel s2 it1 t r hw1 (placed_mark hp2) H3 hsz
          simp only [j1, Res.ok_bind, hnull, Bool.false_and, Bool.false_eq_true, if_false]
          have fm3 : ∀ j, j ∉ idsL (p :: ps) → s3.marks j = s.marks j := fun j hj => by rw [j2 j hj, fm j hj]
          have fc3 : ∀ j, j ∉ idsL (p :: ps) → some k ≠ some j → s3.cuts j = s.cuts j := fun j hj hjk => by
            rw [j3 j hj (by intro e; exact hjk (by rw [e])), fc j hj hjk]
          have keep3 : (some k = none ∨ (p :: ps).length ≤ 1) → CutsOk T R (preL (p :: ps)) s.cuts → CutsOk T R (preL (p :: ps)) s3.cuts := by
            rintro (h | h)
            · cases h
            · exact absurd h hlen
          cases ok3 with
          | true =>
            refine ⟨true, s3, it3, by simp, fm3, fc3, keep3, ?_, ?_, by simp, fun h => absurd (Nat.le_of_eq h) hlen⟩
            · intro _
              rw [hwk] at g1 ⊢
              exact placedS_open g1 (j4 rfl)
            · intro _ _ hl
              rcases hl with hl | hl
              · exact absurd ⟨k, test, hwk⟩ hl
              · exact absurd hl hlen
          | false =>
            refine ⟨false, s3, it3, by simp, fm3, fc3, keep3, by simp, by simp, ?_, fun h => absurd (Nat.le_of_eq h) hlen⟩
            intro _ _ hl
            rcases hl with hl | hl
            · exact absurd ⟨k, test, hwk⟩ hl
            · exact absurd hl hlen
end
end Search
