import Verif.Spec.Cost
import Verif.Proof.PrePost
import Verif.Proof.InOrder
import Verif.Proof.Rows
import Verif.Proof.Bfs
import Verif.Proof.DepthTree
/-! The rounds of the loops inside of `++` and `--`. -/
open Tree Policy Iter

theorem Takes.map {β γ : Type} {f : Nat → Res β} {k : Nat} {b : β} (h : Takes f k b) (g : β → γ) :
    Takes (fun n => do pure (g (← f n))) k (g b) :=
  ⟨fun n hn => by simp [h.1 n hn], fun n hn => by simp [h.2 n hn]⟩

theorem Takes.const {β : Type} (b : β) : Takes (fun _ => Res.ok b) 0 b := ⟨fun n hn => absurd hn (Nat.not_lt_zero n), fun _ _ => rfl⟩

theorem Takes.congr {β : Type} {f g : Nat → Res β} {k : Nat} {b : β} (h : Takes f k b) (e : ∀ n, g n = f n) : Takes g k b :=
  ⟨fun n hn => (e n).trans (h.1 n hn), fun n hn => (e n).trans (h.2 n hn)⟩

/-- The outcome is known from one bound that is high enough. -/
theorem Takes.to {β : Type} {f : Nat → Res β} {k : Nat} {b c : β} (h : Takes f k b) {n : Nat} (e : f n = Res.ok c) : Takes f k c := by
  have : k ≤ n := by
    rcases Nat.lt_or_ge n k with hn | hn
    · rw [h.1 n hn] at e; simp at e
    · exact hn
  rw [h.2 n this] at e
  simp only [Res.ok.injEq] at e
  exact e ▸ h

/-- A loop that walks along a list, with the rounds of every step. -/
theorem loop_along {step : Nat → ItState → Res ItState} {stop : Ptr} {most : Nat} (L : List (Addr × Nat)) (last : Ptr)
    (hlast : last = stop) (hstop : ∀ p ∈ L, some p.1 ≠ stop) (hm : ∀ p ∈ L, p.2 ≤ most)
    (hs : ∀ l1 a k l2, L = l1 ++ (a, k) :: l2 → Takes (fun n => step n ⟨some a, []⟩) k ⟨(l2.head?.map Prod.fst).or last, []⟩) :
    ∀ l2 l1, L = l1 ++ l2 → Loop step stop most ⟨(l2.head?.map Prod.fst).or last, []⟩ (l2.map Prod.snd).sum l2.length
  | [], _, _ => .done (by simpa using hlast)
  | (a, k) :: l2, l1, h => by
    simp only [List.head?_cons, Option.map_some, Option.some_or, List.map_cons, List.sum_cons, List.length_cons]
    refine .step ?_ (hs l1 a k l2 h) (hm (a, k) (by rw [h]; simp)) (loop_along L last hlast hstop hm hs l2 (l1 ++ [(a, k)]) (by simp [h]))
    exact hstop (a, k) (by rw [h]; simp)

theorem Tree.height_plug : ∀ (fs : List (Frame Addr)) (s : Tree Addr), fs.length + s.height ≤ (plug fs s).height
  | [], s => by simp
  | f :: fs, s => by
    have := height_plug fs (node f.label (f.lefts ++ s :: f.rights))
    simp at this ⊢
    omega

variable {nav : Nav} {t : Tree Addr}

/-! ### climbing -/

/-- The number of ancestors-or-self of a hole that are the last child of their parent, counted from the hole until one is not. -/
def Tree.lead : List (Frame Addr) → Nat
  | [] => 0
  | f :: fs => if f.rights.isEmpty then lead fs + 1 else 0

theorem Tree.lead_le : ∀ fs : List (Frame Addr), lead fs ≤ fs.length
  | [] => by simp [lead]
  | f :: fs => by
    have := lead_le fs
    simp only [lead, List.length_cons]
    split <;> omega

theorem climb_takes (H : NavSpec nav t) : ∀ (fs : List (Frame Addr)) (s : Tree Addr), plug fs s = t →
    Takes (fun n => climb nav n (fun c => do pure (!(← nav.isLast c))) (fun c => nav.next c) s.label) (lead fs + 1)
      (some ((climbTarget fs).getD t.label)) := by
  intro fs
  induction fs with
  | nil =>
    intro s h
    have hl : s.label = t.label := by simp at h; rw [h]
    refine ⟨fun n hn => ?_, fun n hn => ?_⟩
    · obtain rfl : n = 0 := by simp [lead] at hn; omega
      rfl
    · obtain ⟨m, rfl⟩ : ∃ m, n = m + 1 := ⟨n - 1, by omega⟩
      simp only [climb, keepCallingT, H.parent [] s h]
      simp [climbTarget, hl]
  | cons f fs ih =>
    intro s h
    have hp : plug fs (node f.label (f.lefts ++ s :: f.rights)) = t := by simpa using h
    have ih := ih _ hp
    have e : ∀ m, climb nav (m + 1) (fun c => do pure (!(← nav.isLast c))) (fun c => nav.next c) s.label =
        if f.rights.isEmpty then climb nav m (fun c => do pure (!(← nav.isLast c))) (fun c => nav.next c) f.label
        else Res.ok (f.rights.head?.map Tree.label) := by
      intro m
      simp only [climb, keepCallingT, H.parent _ s h, H.isLast _ s h, H.next _ s h, List.head?_cons, Option.map_some,
        Res.ok_bind, Option.any_some]
      cases hr : f.rights with
      | nil => simp
      | cons r rs => simp [hr]
    cases hr : f.rights with
    | nil =>
      simp only [hr, List.isEmpty_nil, if_true] at e
      simp only [lead, hr, List.isEmpty_nil, if_true, climbTarget]
      refine ⟨fun n hn => ?_, fun n hn => ?_⟩
      · cases n with
        | zero => rfl
        | succ m => exact (e m).trans (ih.1 m (by omega))
      · obtain ⟨m, rfl⟩ : ∃ m, n = m + 1 := ⟨n - 1, by omega⟩
        exact (e m).trans (by simpa [climbTarget] using ih.2 m (by omega))
    | cons r rs =>
      simp only [hr, List.isEmpty_cons, Bool.false_eq_true, if_false, List.head?_cons, Option.map_some] at e
      simp only [lead, hr, List.isEmpty_cons, Bool.false_eq_true, if_false, climbTarget]
      refine ⟨fun n hn => ?_, fun n hn => ?_⟩
      · obtain rfl : n = 0 := by omega
        rfl
      · obtain ⟨m, rfl⟩ : ∃ m, n = m + 1 := ⟨n - 1, by omega⟩
        simpa using e m

/-! ### pre-order -/

theorem preInc_takes (H : NavSpec nav t) (fs : List (Frame Addr)) (s : Tree Addr) (h : plug fs s = t) :
    Takes (fun n => preInc nav n s.label) (if s.children.isEmpty then lead fs + 1 else 0) (preL s.children ++ preAfter fs).head? := by
  cases s with
  | node a cs =>
    cases cs with
    | cons c cs =>
      refine (Takes.const _).congr fun n => ?_
      simp only [preInc, H.first fs _ h, Res.ok_bind]
      cases c; simp
    | nil =>
      have hc := climb_takes H fs _ h
      simp only [children_node, List.isEmpty_nil, if_true, preL_nil, List.nil_append]
      have e : ∀ n, preInc nav n (node a []).label = (do
          let r ← climb nav n (fun c => do pure (!(← nav.isLast c))) (fun c => nav.next c) (node a []).label
          if r == nav.root then pure none else pure r) := by
        intro n
        simp only [preInc, H.first fs _ h, Res.ok_bind, children_node, List.head?_nil, Option.map_none]
      refine ⟨fun n hn => ?_, fun n hn => ?_⟩
      · have h1 : climb nav n (fun c => do pure (!(← nav.isLast c))) (fun c => nav.next c) (node a []).label = _ := hc.1 n hn
        show preInc nav n _ = _
        rw [e, h1]; rfl
      have h1 : climb nav n (fun c => do pure (!(← nav.isLast c))) (fun c => nav.next c) (node a []).label = _ := hc.2 n hn
      show preInc nav n _ = _
      rw [e, h1]
      simp only [Res.ok_bind, climbTarget_eq, H.root]
      cases hp : (preAfter fs).head? with
      | none => simp
      | some b =>
        have : b ≠ t.label := preAfter_ne_root H h (List.mem_of_head? hp)
        simp [this]

mutual
/-- The nodes in pre-order, each with the rounds `++` makes there; `c`: as `lead`. -/
def Tree.preRounds (c : Nat) : Tree Addr → List (Addr × Nat)
  | node a cs => (a, if cs.isEmpty then c + 1 else 0) :: preRoundsL c cs
def Tree.preRoundsL (c : Nat) : List (Tree Addr) → List (Addr × Nat)
  | [] => []
  | u :: us => preRounds (if us.isEmpty then c + 1 else 0) u ++ preRoundsL c us
end

theorem preRoundsL_fst (us : List (Tree Addr)) : ∀ c, (preRoundsL c us).map Prod.fst = preL us := by
  match us with
  | [] => intro c; simp [preRoundsL]
  | node a cs :: us =>
    intro c
    simp only [preRoundsL, preRounds, List.map_append, List.map_cons, preL, pre, preRoundsL_fst cs, preRoundsL_fst us, List.cons_append]
termination_by sizeL us
decreasing_by all_goals (simp only [sizeL, size]; omega)

theorem preRounds_fst (s : Tree Addr) (c : Nat) : (preRounds c s).map Prod.fst = s.pre := by
  cases s; simp [preRounds, preRoundsL_fst, pre]

theorem preRoundsL_sum (us : List (Tree Addr)) : ∀ c, ((preRoundsL c us).map Prod.snd).sum = if us.isEmpty then 0 else c + 1 + sizeL us := by
  match us with
  | [] => intro c; simp [preRoundsL]
  | node a cs :: us =>
    intro c
    simp only [preRoundsL, preRounds, List.map_append, List.map_cons, List.sum_append, List.sum_cons, preRoundsL_sum cs, preRoundsL_sum us, sizeL, size]
    cases cs <;> cases us <;> simp [sizeL] <;> omega
termination_by sizeL us
decreasing_by all_goals (simp only [sizeL, size]; omega)

theorem preRounds_sum (s : Tree Addr) (c : Nat) : ((preRounds c s).map Prod.snd).sum = c + s.size := by
  cases s with
  | node a cs =>
    simp only [preRounds, List.map_cons, List.sum_cons, preRoundsL_sum, size]
    cases cs <;> simp [sizeL]; omega

theorem preRounds_mem : ∀ (s : Tree Addr) (fs : List (Frame Addr)), plug fs s = t → ∀ a k, (a, k) ∈ preRounds (lead fs) s →
    ∃ fs' s', plug fs' s' = t ∧ s'.label = a ∧ k = if s'.children.isEmpty then lead fs' + 1 else 0 := by
  intro s
  induction s using Tree.ind with
  | h p cs ih =>
    intro fs h a k hm
    simp only [preRounds, List.mem_cons, Prod.mk.injEq] at hm
    rcases hm with ⟨rfl, rfl⟩ | hm
    · exact ⟨fs, _, h, rfl, rfl⟩
    · have key : ∀ (us ls : List (Tree Addr)), cs = ls ++ us → (a, k) ∈ preRoundsL (lead fs) us →
          ∃ fs' s', plug fs' s' = t ∧ s'.label = a ∧ k = if s'.children.isEmpty then lead fs' + 1 else 0 := by
        intro us
        induction us with
        | nil => intro ls _ hm; simp [preRoundsL] at hm
        | cons u us ih2 =>
          intro ls e hm
          simp only [preRoundsL, List.mem_append] at hm
          rcases hm with hm | hm
          · refine ih u (by rw [e]; simp) (⟨p, ls, us⟩ :: fs) (by simp [← e, h]) a k ?_
            simpa [lead] using hm
          · exact ih2 (ls ++ [u]) (by simp [e]) hm
      exact key cs [] rfl hm

theorem split_fst {L : List (Addr × Nat)} {l1 l2 : List (Addr × Nat)} {a : Addr} {k : Nat} (h : L = l1 ++ (a, k) :: l2)
    {b1 b2 l : List Addr} (hL : L.map Prod.fst = l) (hn : l.Nodup) (hb : l = b1 ++ a :: b2) : l1.map Prod.fst = b1 ∧ l2.map Prod.fst = b2 := by
  subst h
  simp only [List.map_append, List.map_cons] at hL
  rw [← hL] at hb hn
  have := split_unique hn hb
  exact ⟨this.1, this.2⟩

theorem preRounds_le {a : Addr} {k : Nat} (h : (a, k) ∈ preRounds 0 t) : k ≤ t.height := by
  obtain ⟨fs, s, hp, _, rfl⟩ := preRounds_mem t [] rfl a k h
  have h1 := height_plug fs s
  rw [show plug fs s = t from hp] at h1
  have h2 := lead_le fs
  have h3 : 0 < s.height := by cases s; simp
  split <;> omega

theorem preOrder_forward (H : NavSpec nav t) : ForwardTakes preOrder nav t.size t.size t.height := by
  have hfst := preRounds_fst t 0
  have hloop := loop_along (step := Iter.inc preOrder nav) (stop := none) (preRounds 0 t) none rfl (by simp) (fun p hp => preRounds_le hp) (by
    intro l1 a k l2 e
    obtain ⟨fs, s, hp, rfl, rfl⟩ := preRounds_mem t [] rfl a k (by rw [show lead [] = 0 from rfl, e]; simp)
    have hp : plug fs s = t := hp
    have hb : t.pre = preBefore fs ++ s.label :: (preL s.children ++ preAfter fs) := by
      rw [← hp, pre_plug, pre_eq_cons s]; simp
    have h2 := (split_fst e hfst H.nodup hb).2
    have := (preInc_takes H fs s hp).map (fun r => (⟨r, []⟩ : ItState))
    rw [← h2] at this
    simpa [Iter.inc, preOrder, stateless] using this) (preRounds 0 t) [] rfl
  refine ⟨⟨some t.label, []⟩, 0, t.size, ?_, Nat.zero_le _, ?_, by omega⟩
  · refine (Takes.const _).congr fun n => ?_
    simp [Iter.begin_, Iter.end_, Iter.inc, preOrder, stateless, H.root]
  · have e1 : ((preRounds 0 t).map Prod.snd).sum = t.size := by rw [preRounds_sum]; omega
    have e2 : (preRounds 0 t).length = t.size := by rw [← List.length_map (f := Prod.fst), hfst, length_pre]
    rw [e1, e2] at hloop
    have e3 : ((preRounds 0 t).head?.map Prod.fst).or none = some t.label := by
      cases t; simp [preRounds]
    rwa [e3] at hloop

/-! ### pre-order, backwards -/

mutual
/-- The number of nodes from a node down its last children. -/
def Tree.lastChain : Tree Addr → Nat
  | node _ cs => lastL cs + 1
def Tree.lastL : List (Tree Addr) → Nat
  | [] => 0
  | u :: us => if us.isEmpty then lastChain u else lastL us
end

@[simp] theorem lastL_concat (u : Tree Addr) : ∀ us : List (Tree Addr), lastL (us ++ [u]) = lastChain u
  | [] => by simp [lastL]
  | v :: us => by
    have := lastL_concat u us
    simp [lastL, this]

theorem lastL_le : ∀ us : List (Tree Addr), lastL us ≤ heightL us
  | [] => by simp [lastL]
  | node a cs :: us => by
    have h1 := lastL_le cs
    have h2 := lastL_le us
    simp only [lastL, lastChain, heightL, height]
    split <;> omega
termination_by us => sizeL us
decreasing_by all_goals (simp only [sizeL, size]; omega)

theorem lastChain_le (s : Tree Addr) : lastChain s ≤ s.height := by
  have := lastL_le [s]
  simpa [lastL] using this

theorem chain_takes (H : NavSpec nav t) : ∀ (s : Tree Addr) (fs : List (Frame Addr)), plug fs s = t →
    ∃ b, Takes (fun n => keepCalling nav.last n s.label) (lastChain s) b := by
  intro s
  induction s using Tree.ind with
  | h p cs ih =>
    intro fs h
    have e : ∀ n, keepCalling nav.last (n + 1) p =
        match cs.getLast?.map Tree.label with
        | some nx => keepCalling nav.last n nx
        | none => Res.ok p := by
      intro n
      have := H.last fs _ h
      simp only [label_node, children_node] at this
      simp only [keepCalling, this, Res.ok_bind]
      rfl
    rcases List.eq_nil_or_concat cs with rfl | ⟨cs', c, rfl⟩
    · refine ⟨p, fun n hn => ?_, fun n hn => ?_⟩
      · obtain rfl : n = 0 := by simp [lastChain, lastL] at hn; omega
        rfl
      · obtain ⟨m, rfl⟩ : ∃ m, n = m + 1 := ⟨n - 1, by simp [lastChain] at hn; omega⟩
        simpa using e m
    · rw [List.concat_eq_append] at *
      obtain ⟨b, hb⟩ := ih c (by simp) (⟨p, cs', []⟩ :: fs) (by simpa using h)
      simp only [List.getLast?_append, List.getLast?_singleton, Option.some_or, Option.map_some] at e
      refine ⟨b, fun n hn => ?_, fun n hn => ?_⟩
      · cases n with
        | zero => rfl
        | succ m => exact (e m).trans (hb.1 m (by simp [lastChain] at hn; omega))
      · simp only [lastChain, lastL_concat] at hn
        obtain ⟨m, rfl⟩ : ∃ m, n = m + 1 := ⟨n - 1, by omega⟩
        exact (e m).trans (hb.2 m (by omega))

/-- The rounds of `--` at a hole. -/
def Tree.decAt : List (Frame Addr) → Nat
  | [] => 0
  | f :: _ => lastL f.lefts

theorem preDec_takes (H : NavSpec nav t) (fs : List (Frame Addr)) (s : Tree Addr) (h : plug fs s = t) :
    Takes (fun n => preDec nav n s.label) (decAt fs) (preBefore fs).getLast? := by
  have hr := H.isRoot_iff h
  suffices ∃ b, Takes (fun n => preDec nav n s.label) (decAt fs) b by
    obtain ⟨b, hb⟩ := this
    exact hb.to (preDec_spec H t.size fs s h (Nat.le_refl _))
  cases fs with
  | nil =>
    refine ⟨none, (Takes.const _).congr fun n => ?_⟩
    simp [preDec, hr]
  | cons f fs =>
    have e : ∀ n, preDec nav n s.label = match f.lefts.getLast?.map Tree.label with
        | none => Res.ok (some f.label)
        | some p => (do pure (some (← keepCalling nav.last n p))) := by
      intro n
      simp only [preDec, hr, H.prev _ s h, H.parent _ s h, List.isEmpty_cons, Res.ok_bind, List.head?_cons, Option.bind_some,
        Option.map_some, Bool.false_eq_true, if_false]
      rfl
    rcases List.eq_nil_or_concat f.lefts with hl | ⟨ls, l, hl⟩
    · refine ⟨some f.label, ?_⟩
      simp only [decAt, hl, lastL]
      refine (Takes.const _).congr fun n => ?_
      rw [e, hl]; rfl
    · rw [List.concat_eq_append] at hl
      have hp : plug (⟨f.label, ls, s :: f.rights⟩ :: fs) l = t := by rw [← h]; simp [hl]
      obtain ⟨b, hb⟩ := chain_takes H l _ hp
      refine ⟨some b, ?_⟩
      simp only [decAt, hl, lastL_concat]
      refine (hb.map some).congr fun n => ?_
      rw [e, hl]; simp

mutual
/-- The nodes in pre-order, each with the rounds `--` makes there; `c`: the `lastChain` of the sibling before. -/
def Tree.decRounds (c : Nat) : Tree Addr → List (Addr × Nat)
  | node a cs => (a, c) :: decRoundsL 0 cs
def Tree.decRoundsL (c : Nat) : List (Tree Addr) → List (Addr × Nat)
  | [] => []
  | u :: us => decRounds c u ++ decRoundsL (lastChain u) us
end

theorem decRoundsL_fst (us : List (Tree Addr)) : ∀ c, (decRoundsL c us).map Prod.fst = preL us := by
  match us with
  | [] => intro c; simp [decRoundsL]
  | node a cs :: us =>
    intro c
    simp only [decRoundsL, decRounds, List.map_append, List.map_cons, preL, pre, decRoundsL_fst cs, decRoundsL_fst us, List.cons_append]
termination_by sizeL us
decreasing_by all_goals (simp only [sizeL, size]; omega)

theorem decRounds_fst (s : Tree Addr) (c : Nat) : (decRounds c s).map Prod.fst = s.pre := by
  cases s; simp [decRounds, decRoundsL_fst, pre]

theorem decRoundsL_sum (us : List (Tree Addr)) : ∀ c, ((decRoundsL c us).map Prod.snd).sum + lastL us =
    if us.isEmpty then 0 else c + sizeL us := by
  match us with
  | [] => intro c; simp [decRoundsL, lastL]
  | node a cs :: us =>
    intro c
    have h1 := decRoundsL_sum cs 0
    have h2 := decRoundsL_sum us (lastL cs + 1)
    simp only [decRoundsL, decRounds, List.map_append, List.map_cons, List.sum_append, List.sum_cons, sizeL, size, lastL, lastChain,
      List.isEmpty_cons, Bool.false_eq_true, if_false]
    cases cs <;> cases us <;> simp [sizeL] at h1 h2 ⊢ <;> omega
termination_by sizeL us
decreasing_by all_goals (simp only [sizeL, size]; omega)

theorem decRounds_sum (s : Tree Addr) (c : Nat) : ((decRounds c s).map Prod.snd).sum + lastChain s = c + s.size := by
  have := decRoundsL_sum [s] c
  simpa [decRoundsL, lastL] using this

theorem decRounds_mem : ∀ (s : Tree Addr) (fs : List (Frame Addr)), plug fs s = t → ∀ a k, (a, k) ∈ decRounds (decAt fs) s →
    ∃ fs' s', plug fs' s' = t ∧ s'.label = a ∧ k = decAt fs' := by
  intro s
  induction s using Tree.ind with
  | h p cs ih =>
    intro fs h a k hm
    simp only [decRounds, List.mem_cons, Prod.mk.injEq] at hm
    rcases hm with ⟨rfl, rfl⟩ | hm
    · exact ⟨fs, _, h, rfl, rfl⟩
    · have key : ∀ (us ls : List (Tree Addr)), cs = ls ++ us → (a, k) ∈ decRoundsL (lastL ls) us →
          ∃ fs' s', plug fs' s' = t ∧ s'.label = a ∧ k = decAt fs' := by
        intro us
        induction us with
        | nil => intro ls _ hm; simp [decRoundsL] at hm
        | cons u us ih2 =>
          intro ls e hm
          simp only [decRoundsL, List.mem_append] at hm
          rcases hm with hm | hm
          · exact ih u (by rw [e]; simp) (⟨p, ls, us⟩ :: fs) (by simp [← e, h]) a k hm
          · exact ih2 (ls ++ [u]) (by simp [e]) (by simpa using hm)
      exact key cs [] rfl (by simpa [lastL] using hm)

theorem decRounds_le {a : Addr} {k : Nat} (h : (a, k) ∈ decRounds 0 t) : k ≤ t.height := by
  obtain ⟨fs, s, hp, _, rfl⟩ := decRounds_mem t [] rfl a k h
  cases fs with
  | nil => simp [decAt]
  | cons f fs =>
    have h1 := height_plug fs (node f.label (f.lefts ++ s :: f.rights))
    rw [show plug fs (node f.label (f.lefts ++ s :: f.rights)) = t by simpa using hp] at h1
    have h2 := lastL_le f.lefts
    simp [decAt] at h1 ⊢
    omega

theorem getLast?_eq_head? {β : Type} (l : List β) : l.getLast? = l.reverse.head? := by simp

/-- What `--` does at the nodes of `decRounds`. -/
theorem dec_at (H : NavSpec nav t) {l1 l2 : List (Addr × Nat)} {a : Addr} {k : Nat}
    (e : (decRounds 0 t).reverse = l1 ++ (a, k) :: l2) :
    Takes (fun n => preDec nav n a) k (l2.head?.map Prod.fst) := by
  have e' : decRounds 0 t = l2.reverse ++ (a, k) :: l1.reverse := by
    rw [← List.reverse_reverse (decRounds 0 t), e]; simp
  obtain ⟨fs, s, hp, rfl, rfl⟩ := decRounds_mem t [] rfl a k (by rw [show decAt [] = 0 from rfl, e']; simp)
  have hp : plug fs s = t := hp
  have hb : t.pre = preBefore fs ++ s.label :: (preL s.children ++ preAfter fs) := by
    rw [← hp, pre_plug, pre_eq_cons s]; simp
  have h1 := (split_fst e' (decRounds_fst t 0) H.nodup hb).1
  have := preDec_takes H fs s hp
  rw [← h1] at this
  simpa using this

theorem preOrder_backward (H : NavSpec nav t) : BackwardTakes preOrder nav t.size t.size t.height := by
  have hroot : ∃ M, decRounds 0 t = (t.label, 0) :: M := by cases t; exact ⟨_, rfl⟩
  obtain ⟨M, hM⟩ := hroot
  have hfst := decRounds_fst t 0
  have hnd : t.label ∉ M.map Prod.fst := by
    have := H.nodup
    rw [← hfst, hM] at this
    simpa using (List.nodup_cons.mp this).1
  have hloop := loop_along (step := Iter.dec preOrder nav) (stop := some t.label) (most := t.height) M.reverse (some t.label) rfl
    (by
      intro p hp e
      simp only [Option.some.injEq] at e
      exact hnd (e ▸ List.mem_map_of_mem (by simpa using hp)))
    (fun p hp => decRounds_le (a := p.1) (by rw [hM]; simp; right; simpa using hp)) (by
    intro l1 a k l2 e
    have := (dec_at H (l1 := l1) (a := a) (k := k) (l2 := l2 ++ [(t.label, 0)]) (by rw [hM]; simp [e])).map (fun r => (⟨r, []⟩ : ItState))
    have e2 : (((l2 ++ [(t.label, 0)]).head?).map Prod.fst) = ((l2.head?.map Prod.fst).or (some t.label)) := by cases l2 <;> simp
    rw [e2] at this
    simpa [Iter.dec, preOrder, stateless] using this) M.reverse [] rfl
  have hsum := decRounds_sum t 0
  have hlen : (decRounds 0 t).length = t.size := by rw [← List.length_map (f := Prod.fst), hfst, length_pre]
  rw [hM] at hsum hlen hfst
  simp only [List.map_cons, List.sum_cons, List.length_cons] at hsum hlen
  obtain ⟨b, hb⟩ := chain_takes H t [] rfl
  have hb : Takes (fun n => keepCalling nav.last n t.label) (lastChain t) b := hb
  have hg : Takes (fun n => Iter.dec preOrder nav n ⟨none, []⟩) (lastChain t) ⟨some b, []⟩ := by
    refine (hb.map (fun a => (⟨some a, []⟩ : ItState))).congr fun n => ?_
    simp only [Iter.dec, preOrder, stateless, H.root, Nav.getHighestLeaf, deref, Res.pure_eq, Res.ok_bind, Bool.false_eq_true, if_false]
    cases keepCalling nav.last n t.label <;> rfl
  have hv : some b = t.pre.getLast? := by
    have h1 := preLast_spec H (t.size + lastChain t) (by omega)
    have h2 : keepCalling nav.last (t.size + lastChain t) t.label = Res.ok b := hb.2 _ (by omega)
    simp only [Nav.getHighestLeaf, H.root, deref, Res.pure_eq, Res.ok_bind] at h1
    simp [h2] at h1
    exact h1
  rw [← hfst] at hv
  have hv : some b = (M.reverse.head?.map Prod.fst).or (some t.label) := by
    rw [hv, getLast?_eq_head?, ← List.map_reverse, List.reverse_cons]
    cases M.reverse <;> simp
  rw [← hv] at hloop
  refine ⟨⟨some t.label, []⟩, ⟨none, []⟩, 0, ?_, ⟨fun n hn => absurd hn (Nat.not_lt_zero n), fun _ _ => rfl⟩, ?_⟩
  · refine (Takes.const _).congr fun n => ?_
    simp [Iter.begin_, Iter.end_, Iter.inc, preOrder, stateless, H.root]
  · have := Loop.step (s := ⟨none, []⟩) (by simp) hg (lastChain_le t) hloop
    have e1 : lastChain t + (M.reverse.map Prod.snd).sum = t.size := by simp; omega
    have e2 : M.reverse.length + 1 = t.size := by simp; omega
    rwa [e1, e2] at this

/-! ### post-order -/

theorem postOrder_forward (H : NavSpec nav t) : ForwardTakes postOrder nav t.size t.size t.height := by
  have H' := H.mirror
  have hloop := loop_along (step := Iter.inc postOrder nav) (stop := none) (most := t.height) (decRounds 0 t.mirror).reverse none rfl (by simp)
    (fun p hp => by rw [← height_mirror t]; exact decRounds_le (a := p.1) (by simpa using hp)) (by
    intro l1 a k l2 e
    have := (dec_at H' e).map (fun r => (⟨r, []⟩ : ItState))
    simpa [Iter.inc, postOrder, stateless, postInc_mirror] using this) (decRounds 0 t.mirror).reverse [] rfl
  have hsum := decRounds_sum t.mirror 0
  have hlen : (decRounds 0 t.mirror).length = t.size := by
    rw [← List.length_map (f := Prod.fst), decRounds_fst, length_pre, size_mirror]
  obtain ⟨b, hb⟩ := chain_takes H' t.mirror [] rfl
  have hb : Takes (fun n => keepCalling nav.first n t.label) (lastChain t.mirror) b := by simpa [Nav.mirror] using hb
  have hg : Takes (fun n => Iter.begin_ postOrder nav n) (lastChain t.mirror) ⟨some b, []⟩ := by
    refine (hb.map (fun a => (⟨some a, []⟩ : ItState))).congr fun n => ?_
    simp only [Iter.begin_, Iter.end_, Iter.inc, postOrder, stateless, H.root, Nav.getHighestLeaf, deref, Res.pure_eq, Res.ok_bind, if_true]
    cases keepCalling nav.first n t.label <;> rfl
  have hv : some b = t.post.head? := by
    have h1 := postFirst_spec H (t.size + lastChain t.mirror) (by omega)
    have h2 : keepCalling nav.first (t.size + lastChain t.mirror) t.label = Res.ok b := hb.2 _ (by omega)
    simp only [Nav.getHighestLeaf, H.root, deref, Res.pure_eq, Res.ok_bind] at h1
    simp [h2] at h1
    exact h1
  have hv : some b = ((decRounds 0 t.mirror).reverse.head?.map Prod.fst).or none := by
    have e := decRounds_fst t.mirror 0
    rw [pre_mirror] at e
    rw [hv, Option.or_none, ← List.head?_map, List.map_reverse, e, List.reverse_reverse]
  rw [← hv, List.length_reverse, hlen] at hloop
  have hle := lastChain_le t.mirror
  rw [height_mirror] at hle
  rw [size_mirror] at hsum
  refine ⟨_, _, _, hg, hle, hloop, ?_⟩
  · simp; omega

theorem postDec_takes (H : NavSpec nav t) (fs : List (Frame Addr)) (s : Tree Addr) (h : plug fs s = t.mirror) :
    Takes (fun n => postDec nav n s.label) (if s.children.isEmpty then lead fs + 1 else 0)
      (some ((preL s.children ++ preAfter fs).head?.getD t.label)) := by
  have H' := H.mirror
  have hf : nav.last s.label = Res.ok (s.children.head?.map Tree.label) := by simpa [Nav.mirror] using H'.first fs s h
  cases s with
  | node a cs =>
    cases cs with
    | cons c cs =>
      refine (Takes.const _).congr fun n => ?_
      simp only [postDec, hf, Res.ok_bind]
      cases c; simp
    | nil =>
      have hc := climb_takes H' fs _ h
      simp only [children_node, List.isEmpty_nil, if_true, preL_nil, List.nil_append]
      rw [← climbTarget_eq]
      refine Takes.congr (by simpa [Nav.mirror] using hc) fun n => ?_
      simp only [postDec, hf, Res.ok_bind, children_node, List.head?_nil, Option.map_none]
      rfl

theorem postOrder_backward (H : NavSpec nav t) : ∃ total, total ≤ t.size ∧ BackwardTakes postOrder nav t.size total t.height := by
  have H' := H.mirror
  have hfst := preRounds_fst t.mirror 0
  have hne : preRounds 0 t.mirror ≠ [] := by cases t; simp [preRounds]
  have hroot : (preRounds 0 t.mirror).head?.map Prod.fst = some t.label := by cases t; simp [preRounds]
  obtain ⟨L, ⟨z, kz⟩, hL⟩ : ∃ L p, preRounds 0 t.mirror = L ++ [p] := by
    rcases List.eq_nil_or_concat (preRounds 0 t.mirror) with h | ⟨L, p, h⟩
    · exact absurd h hne
    · exact ⟨L, p, by rw [h, List.concat_eq_append]⟩
  have hnd := H'.nodup
  rw [← hfst, hL, List.map_append] at hnd
  have hz : z ∉ L.map Prod.fst := fun hm => (List.nodup_append.mp hnd).2.2 z hm z (by simp) rfl
  have hloop := loop_along (step := Iter.dec postOrder nav) (stop := some z) (most := t.height) L (some z) rfl
    (by
      intro p hp e
      simp only [Option.some.injEq] at e
      exact hz (e ▸ List.mem_map_of_mem hp))
    (fun p hp => by rw [← height_mirror t]; exact preRounds_le (a := p.1) (by rw [hL]; simp; left; exact hp)) (by
    intro l1 a k l2 e
    have e' : preRounds 0 t.mirror = l1 ++ (a, k) :: (l2 ++ [(z, kz)]) := by rw [hL, e]; simp
    obtain ⟨fs, s, hp, rfl, rfl⟩ := preRounds_mem t.mirror [] rfl a k (by rw [show lead [] = 0 from rfl, e']; simp)
    have hp : plug fs s = t.mirror := hp
    have hb : t.mirror.pre = preBefore fs ++ s.label :: (preL s.children ++ preAfter fs) := by
      rw [← hp, pre_plug, pre_eq_cons s]; simp
    have h2 := (split_fst e' hfst H'.nodup hb).2
    have := (postDec_takes H fs s hp).map (fun r => (⟨r, []⟩ : ItState))
    rw [← h2] at this
    have e2 : some (((l2 ++ [(z, kz)]).map Prod.fst).head?.getD t.label) = (l2.head?.map Prod.fst).or (some z) := by cases l2 <;> simp
    rw [e2] at this
    simpa [Iter.dec, postOrder, stateless] using this) L [] rfl
  have hsum := preRounds_sum t.mirror 0
  have hlen : (preRounds 0 t.mirror).length = t.size := by
    rw [← List.length_map (f := Prod.fst), hfst, length_pre, size_mirror]
  rw [hL, size_mirror] at hsum
  rw [hL] at hlen hroot
  simp only [List.map_append, List.sum_append, List.length_append, List.length_singleton] at hsum hlen
  have hstart : (L.head?.map Prod.fst).or (some z) = some t.label := by
    rw [← hroot]; cases L <;> simp
  rw [hstart] at hloop
  have hg : Takes (fun n => Iter.dec postOrder nav n ⟨none, []⟩) 0 ⟨some t.label, []⟩ := by
    refine (Takes.const _).congr fun n => ?_
    simp [Iter.dec, postOrder, stateless, H.root]
  obtain ⟨b, k, _, hbeg, _, _, _⟩ := postOrder_forward H
  have hbz : b.cur = some z := by
    have h1 := postFirst_spec H (t.size + k) (by omega)
    have h2 : Iter.begin_ postOrder nav (t.size + k) = Res.ok b := hbeg.2 _ (by omega)
    simp only [Iter.begin_, Iter.end_, Iter.inc, postOrder, stateless, H.root, Res.pure_eq, Res.ok_bind, h1] at h2
    simp only [Res.ok.injEq] at h2
    rw [← h2]
    have : t.post.head? = t.mirror.pre.getLast? := by rw [pre_mirror]; simp
    show t.post.head? = some z
    rw [this, ← hfst, hL]
    simp
  refine ⟨0 + (L.map Prod.snd).sum, by omega, b, ⟨none, []⟩, k, hbeg,
    ⟨fun n hn => absurd hn (Nat.not_lt_zero n), fun _ _ => rfl⟩, ?_⟩
  rw [hbz, ← hlen]
  exact Loop.step (s := ⟨none, []⟩) (by simp) hg (Nat.zero_le _) hloop
