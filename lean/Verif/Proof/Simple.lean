import Verif.Model.Pattern
/-!
# Searching a pattern without `star`

A simpler search, equal to the modelled one for patterns without `star`: there the functions `ackowledge` and `rematch` are never
used, `subtree_cut` does not exist and all iterators have the policy `fixed` or `siblings`.
-/

set_option linter.unusedSimpArgs false

/-- An iterator with the policy `fixed` or `siblings`: its navigator's root and the current node. -/
structure PIt where
  fixed : Bool
  root : Ptr
  cur : Ptr

namespace Simple
open Pat
variable {α : Type} (nav : Ptr → Nav) (val : Addr → Res α) (fuel : Nat)

/-- `++it` for an iterator at the node `a`: fixed.hpp 17-19, siblings.hpp 21-23. -/
def next (it : PIt) (a : Addr) : Res PIt := do
  if it.fixed then pure { it with cur := none } else pure { it with cur := ← (nav it.root).next a }

/-- one_matcher.hpp 43-53, opt_matcher.hpp 56-65: `other_navigator(basic_navigator())` sets the root by `fix_navigator_root`
(policy_base.hpp 83-87, siblings.hpp 14-19), then `go_first_child()`, then `other_policy(siblings())`. -/
def childIt (it : PIt) (a : Addr) : Res PIt := do
  let root ← if it.fixed then pure a else do
    match ← (nav none).parent a with
    | some p => pure p
    | none => pure a
  pure ⟨false, some root, ← (nav (some root)).first a⟩

/-- The loop of matcher.hpp 184-204 and what follows it: `step` is `search_node_impl` at a node. -/
def loop (step : Marks → PIt → Addr → Res (Bool × Marks)) (i : Nat) (null : Bool) (begin_ : PIt) :
    Nat → Marks → PIt → Res (Bool × Marks × PIt)
  | 0, _, _ => Res.diverge
  | fuel + 1, m, it =>
    match it.cur with
    | none => if null then pure (true, m, begin_) else pure (false, m, it)
    | some a => do
      let (ok, m) ← step m it a
      let it ← next nav it a
      if ok then pure (true, m.set i (some a), it) else loop step i null begin_ fuel m it

mutual
/-- `search_node_this`: matcher.hpp 169-205, capture.hpp 29-44; with `search_node_impl` of one_matcher.hpp 37-55 and
opt_matcher.hpp 46-77. -/
def this : Pat α → Marks → PIt → Res (Bool × Marks × PIt)
  | Pat.node i .cpt _ ps, m, it => do
    let (ok, m, it) ← all ps m it
    if ok then pure (true, m.set i (headMark ps m), it) else pure (false, m, it)
  | Pat.node i .one test ps, m, it =>
    loop nav (fun m it a => do
      if !test (← val a) then pure (false, m)
      else do
        let (ok, m, _) ← all ps m (← childIt nav it a)
        pure (ok, m)) i false it fuel m it
  | Pat.node i (.opt q) test ps, m, it =>
    if prefersNull (Pat.node i (.opt q) test ps) then pure (true, m, it)
    else loop nav (fun m it a => do
      if !test (← val a) then
        if childMaySteal ps then do
          let (ok, m, _) ← all ps m ⟨true, it.root, some a⟩
          pure (ok, m)
        else pure (false, m)
      else do
        let (ok, m, _) ← all ps m (← childIt nav it a)
        if !ok && q != .possessive && childMaySteal ps then do
          let (ok, m, _) ← all ps m ⟨true, it.root, some a⟩
          pure (ok, m)
        else pure (ok, m)) i (matchesNull (Pat.node i (.opt q) test ps)) it fuel m it
  | Pat.node _ (.star _) _ _, _, _ => Res.ub
/-- `search_node` of the first matcher of a list of siblings (matcher.hpp 266-280, with `search_node_sibling`, 225-264; 207-223
for the empty list). -/
def all : List (Pat α) → Marks → PIt → Res (Bool × Marks × PIt)
  | [], m, it => pure (true, m, it)
  | p :: ps, m, it => do
    let (ok, m, it) ← this p m it
    if !ok then pure (false, m, it)
    else do
      let (ok, m, it) ← all ps m it
      if ok then pure (true, m, it)
      else if p.matchesNull && (m p.id).isSome then
        all ps (resetL (p :: ps) m) { it with cur := m p.id }
      else pure (false, m, it)
end

/-- pattern.hpp 28-41, `do_search` of a tree or view with the given root. The test of lines 30-32 compares the address of a
tree object with the address of a node, which are never equal here. `tree.root()` is a fixed iterator: tree_base.hpp 250-256. -/
def search (root : Ptr) (p : Pat α) (m : Marks) : Res (Bool × Marks) := do
  let (ok, m, _) ← all nav val fuel [p] (resetL [p] m) ⟨true, root, root⟩
  pure (ok, m)

end Simple

namespace Pat
variable {α : Type}

theorem starless_node {i k f} {ps : List (Pat α)} (h : (node i k f ps).starless) :
    (∀ q, k ≠ .star q) ∧ ∀ j q g qs, node j (.star q) g qs ∉ preL ps := by
  constructor
  · rintro q rfl; exact h i q f ps (by simp [pre])
  · intro j q g qs hm; exact h j q g qs (by simp [pre, hm])

mutual
theorem starless_plain : (p : Pat α) → p.plain → ∀ i q f ps, node i (.star q) f ps ∉ p.pre
  | node _ .one _ ps, h => by
    simp only [plain] at h; intro j q g qs hm
    simp only [pre, List.mem_cons, node.injEq, reduceCtorEq, false_and, and_false, false_or] at hm
    exact starlessL_plain ps h j q g qs hm
  | node _ .cpt _ ps, h => by
    simp only [plain] at h; intro j q g qs hm
    simp only [pre, List.mem_cons, node.injEq, reduceCtorEq, false_and, and_false, false_or] at hm
    exact starlessL_plain ps h.2 j q g qs hm
  | node _ (.opt _) _ ps, h => by
    simp only [plain] at h; intro j q g qs hm
    simp only [pre, List.mem_cons, node.injEq, reduceCtorEq, false_and, and_false, false_or] at hm
    exact starlessL_plain ps h.2 j q g qs hm
  | node _ (.star _) _ ps, h => by simp [plain] at h
theorem starlessL_plain : (ps : List (Pat α)) → plainL ps → ∀ i q f qs, node i (.star q) f qs ∉ preL ps
  | [], _ => by simp [preL]
  | p :: ps, h => by
    simp only [plainL] at h; intro j q g qs hm
    simp only [preL, List.mem_append] at hm
    rcases hm with hm | hm
    · exact starless_plain p h.1 j q g qs hm
    · exact starlessL_plain ps h.2 j q g qs hm
end
theorem plain.starless {p : Pat α} (h : p.plain) : p.starless := starless_plain p h
end Pat

namespace Simple
open Pat
variable {α : Type} (nav : Ptr → Nav) (val : Addr → Res α) (fuel : Nat)

/-- The iterator of the model. -/
def up (it : PIt) : SIt α := ⟨if it.fixed then .fixed else .siblings, it.root, it.cur, []⟩

/-- The answer of the model. -/
def ups (c : Marks) (r : Res (Bool × Marks × PIt)) : Res (Bool × Memo × SIt α) := do
  let (ok, m, it) ← r
  pure (ok, ⟨m, c⟩, up it)
def ups' (c : Marks) (r : Res (Bool × Marks)) : Res (Bool × Memo) := do
  let (ok, m) ← r
  pure (ok, ⟨m, c⟩)

theorem next_up (s : Memo) (it : PIt) (a : Addr) :
    Search.next nav val fuel s (up it) a = (do let it ← next nav it a; pure (up it)) := by
  obtain ⟨f, r, c⟩ := it
  cases f
  · simp only [Search.next, up, next, Bool.false_eq_true, if_false]
    cases (nav r).next a <;> simp
  · simp [Search.next, up, next]

theorem childIt_up (it : PIt) (a : Addr) :
    Search.childIt nav (up (α := α) it) a = (do let it ← childIt nav it a; pure (up it)) := by
  obtain ⟨f, r, c⟩ := it
  cases f
  · simp only [Search.childIt, up, childIt, Bool.false_eq_true, if_false]
    cases (nav none).parent a with
    | ok p =>
      cases p with
      | none => simp; cases (nav (some a)).first a <;> simp
      | some p => simp; cases (nav (some p)).first a <;> simp
    | ub => simp
    | diverge => simp
  · simp only [Search.childIt, up, childIt, if_true]
    simp; cases (nav (some a)).first a <;> simp

theorem fixedIt_up (it : PIt) (a : Addr) : Search.fixedIt (up (α := α) it) a = up ⟨true, it.root, some a⟩ := by
  simp [Search.fixedIt, up]

theorem loop_up {c : Marks} {step : Marks → PIt → Addr → Res (Bool × Marks)} {step' : Memo → SIt α → Addr → Res (Bool × Memo)}
    (h : ∀ m it a, step' ⟨m, c⟩ (up it) a = ups' c (step m it a)) (i : Nat) (null : Bool) (b : PIt) (n : Nat) (m : Marks) (it : PIt) :
    Search.loop nav val fuel step' i none null (up b) n ⟨m, c⟩ (up it) = ups c (loop nav step i null b n m it) := by
  induction n generalizing m it with
  | zero => rfl
  | succ n ih =>
    rw [Search.loop, loop]
    have hc : (up (α := α) it).cur = it.cur := rfl
    rw [hc]
    cases it.cur with
    | none => cases null <;> simp [ups]
    | some a =>
      simp only [h, ups']
      cases step m it a with
      | ok r =>
        obtain ⟨ok, m⟩ := r
        simp only [Res.ok_bind, Res.pure_eq, next_up]
        cases ok
        · cases next nav it a <;> simp [ups, ih] <;> rfl
        · cases next nav it a <;> simp [ups, Search.acknowledge, Memo.mark]
      | ub => simp [ups]
      | diverge => simp [ups]

mutual
theorem this_up (c : Marks) : (p : Pat α) → p.starless → (m : Marks) → (it : PIt) →
    Search.this nav val fuel p none ⟨m, c⟩ (up it) = ups c (this nav val fuel p m it)
  | Pat.node i .cpt f ps, h, m, it => by
    simp only [Search.this, this, all_up c ps (starless_node h).2 m it, ups]
    cases all nav val fuel ps m it with
    | ok r => obtain ⟨ok, m, it⟩ := r; cases ok <;> simp [Memo.mark]
    | ub => simp
    | diverge => simp
  | Pat.node i .one f ps, h, m, it => by
    simp only [Search.this, this]
    refine loop_up nav val fuel ?_ i false it fuel m it
    intro m it a
    cases val a with
    | ok v =>
      simp only [Res.ok_bind, childIt_up]
      cases f v
      · simp [ups']
      · cases childIt nav it a with
        | ok it =>
          simp [all_up c ps (starless_node h).2, ups]
          cases all nav val fuel ps m it <;> simp [ups']
        | ub => simp [ups']
        | diverge => simp [ups']
    | ub => simp [ups']
    | diverge => simp [ups']
  | Pat.node i (.opt q) f ps, h, m, it => by
    simp only [Search.this, this]
    cases prefersNull (Pat.node i (.opt q) f ps) with
    | true => simp [ups]
    | false =>
    refine loop_up nav val fuel ?_ i _ it fuel m it
    intro m it a
    have key : ∀ m it', (do let (ok, s, _) ← Search.all nav val fuel ps none none ⟨m, c⟩ (up it'); pure (ok, s) : Res (Bool × Memo)) =
        ups' c (do let (ok, m, _) ← all nav val fuel ps m it'; pure (ok, m)) := by
      intro m it'
      rw [all_up c ps (starless_node h).2]
      cases all nav val fuel ps m it' <;> simp [ups, ups']
    cases val a with
    | ok v =>
      simp only [Res.ok_bind, childIt_up, fixedIt_up]
      cases f v
      · cases childMaySteal ps
        · simp [ups']
        · simpa using key m ⟨true, it.root, some a⟩
      · cases childIt nav it a with
        | ok it' =>
          simp only [Res.ok_bind, Res.pure_eq]
          have := all_up c ps (starless_node h).2 m it'
          rw [this, ups]
          cases all nav val fuel ps m it' with
          | ok r =>
            obtain ⟨ok, m, it2⟩ := r
            simp only [Res.ok_bind, Res.pure_eq]
            have := key m ⟨true, it.root, some a⟩
            simp only [Res.pure_eq] at this
            rw [this]
            cases ok <;> cases q <;> cases childMaySteal ps <;> simp [ups']
          | ub => simp [ups']
          | diverge => simp [ups']
        | ub => simp [ups']
        | diverge => simp [ups']
    | ub => simp [ups']
    | diverge => simp [ups']
  | Pat.node i (.star q) f ps, h, m, it => absurd rfl ((starless_node h).1 q)
theorem all_up (c : Marks) : (ps : List (Pat α)) → (∀ i q f qs, Pat.node i (.star q) f qs ∉ preL ps) → (m : Marks) → (it : PIt) →
    Search.all nav val fuel ps none none ⟨m, c⟩ (up it) = ups c (all nav val fuel ps m it)
  | [], h, m, it => by simp [Search.all, all, ups]
  | p :: ps, h, m, it => by
    have hp : p.starless := fun i q f qs hm => h i q f qs (by simp [preL, hm])
    have hps : ∀ i q f qs, Pat.node i (.star q) f qs ∉ preL ps := fun i q f qs hm => h i q f qs (by simp [preL, hm])
    simp only [Search.all, all, this_up c p hp m it, ups]
    cases this nav val fuel p m it with
    | ok r =>
      obtain ⟨ok, m, it⟩ := r
      simp only [Res.ok_bind, Res.pure_eq]
      cases ok
      · simp
      · simp only [Bool.not_true, Bool.false_eq_true, if_false, all_up c ps hps m it, ups]
        cases all nav val fuel ps m it with
        | ok r =>
          obtain ⟨ok, m, it⟩ := r
          cases ok
          · have e : Search.otherNode nav val fuel ⟨m, c⟩ (up it) (m p.id) = Res.ok (up { it with cur := m p.id }) := by
              obtain ⟨f, r, x⟩ := it
              cases f <;> simp [Search.otherNode, up]
            simp only [Res.ok_bind, Res.pure_eq, Bool.false_eq_true, if_false, e, Memo.reset, all_up c ps hps, ups]
            split <;> rfl
          · simp
        | ub => simp
        | diverge => simp
    | ub => simp
    | diverge => simp
end

/-- The search of a pattern without `star`. -/
theorem search_up {p : Pat α} (hp : p.starless) (root : Ptr) (s : Memo) :
    Search.search nav val fuel root p s = (do let (ok, m) ← search nav val fuel root p s.marks; pure (ok, ⟨m, s.cuts⟩)) := by
  have := all_up nav val fuel s.cuts [p] (fun i q f qs hm => hp i q f qs (by simpa [preL] using hm)) (resetL [p] s.marks) ⟨true, root, root⟩
  simp only [Search.search, search, Memo.reset]
  have e : up (α := α) ⟨true, root, root⟩ = ⟨.fixed, root, root, []⟩ := rfl
  rw [e] at this
  rw [this, ups]
  cases all nav val fuel [p] (resetL [p] s.marks) ⟨true, root, root⟩ <;> simp
end Simple
