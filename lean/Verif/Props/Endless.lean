import Verif.Props.Star
/-!
# A search that does not end

For C75: `one(1)(one(11)(star(1)(opt(), one(5)(opt(), one(7))), one(12)))` in
`1(11(1(8, 5(8, 7))), 11(1(8, 5)), 11(1, 12))`. The `opt` marked under the second 11 is used again under the third, where the
iterator has another root (matcher.hpp 255-261); from there pre_order.hpp 15-37 goes up to the root of the tree and starts again.
`rfl` runs the model here with `m + 40` in place of the bound of each loop, for any `m`.
-/

open Samples Tree Pat Search
namespace Endless
def anyOpt (i : Nat) : Pat Nat := .node i (.opt .default) (fun _ => true) []
def four : Pat Nat := one 4 5 [anyOpt 5, one 6 7 []]
def two : Pat Nat := star .default 2 (· == 1) [anyOpt 3, four]
def P : Pat Nat := one 0 1 [one 1 11 [two, one 7 12 []]]
def T : Tree Nat := node 1 [node 11 [node 1 [node 8 [], node 5 [node 8 [], node 7 []]]], node 11 [node 1 [node 8 [], node 5 []]], node 11 [node 1 [], node 12 []]]

abbrev nav : Ptr → Nav := Nary.nav (worldOf T).heap
abbrev val : Addr → Res Nat := fun a => do pure (NNode.value (← (worldOf T).heap.read a))

variable (m : Nat) (s : Memo)

/-- A state in which the `opt` marks 8 under the second 11 and the cut is the 5 beside it. -/
def stale (s : Memo) : Memo := (s.mark 3 (some 7)).cut 2 (some 8)
def spot (p : Ptr) : SIt Nat := ⟨.pre 2 (· == 1), some 4, p, []⟩
def state : Memo := (stale s).reset [anyOpt 3, four]

theorem step7 : Search.next nav val (m + 40) (state s) (spot (some 7)) 7 = Res.ok (spot (some 8)) := rfl
theorem step8 : Search.next nav val (m + 40) (state s) (spot (some 8)) 8 = Res.ok (spot (some 3)) := rfl
theorem step3 : Search.next nav val (m + 40) (state s) (spot (some 3)) 3 = Res.ok (spot (some 0)) := rfl
theorem step0 : Search.next nav val (m + 40) (state s) (spot (some 0)) 0 = Res.ok (spot (some 1)) := rfl
theorem step1 : Search.next nav val (m + 40) (state s) (spot (some 1)) 1 = Res.ok (spot (some 2)) := rfl
theorem step2 : Search.next nav val (m + 40) (state s) (spot (some 2)) 2 = Res.ok (spot (some 3)) := rfl


theorem loop_go {step : Memo → SIt Nat → Addr → Res (Bool × Memo)} {i ack null b fuel n s it a s' it'} (h : it.cur = some a)
    (h1 : step s it a = Res.ok (false, s')) (h2 : Search.next nav val fuel s' it a = Res.ok it') :
    loop nav val fuel step i ack null b (n + 1) s it = loop nav val fuel step i ack null b n s' it' := by
  simp only [loop, h, h1, h2, Res.ok_bind]; rfl

theorem loop_stop {step : Memo → SIt Nat → Addr → Res (Bool × Memo)} {i ack null b fuel n s it a} (h : it.cur = some a)
    (h1 : step s it a = Res.diverge) : loop nav val fuel step i ack null b (n + 1) s it = Res.diverge := by
  simp only [loop, h, h1, Res.diverge_bind]

def body (fuel : Nat) (f : Nat → Bool) (ps : List (Pat Nat)) (s : Memo) (it : SIt Nat) (a : Addr) : Res (Bool × Memo) := do
  if !f (← val a) then pure (false, s)
  else do
    let (ok, s, _) ← all nav val fuel ps none none s (← childIt nav it a)
    pure (ok, s)

theorem cycle (b : SIt Nat) : ∀ n, (∀ a ∈ [0, 1, 2, 3],
    loop nav val (m + 40) (body (m + 40) (· == 5) [anyOpt 5, one 6 7 []]) 4 (some 2) false b n (state s) (spot (some a)) = Res.diverge)
  | 0 => fun _ _ => rfl
  | n + 1 => by
    have ih := cycle b n
    intro a ha
    simp only [List.mem_cons, List.not_mem_nil, or_false] at ha
    rcases ha with rfl | rfl | rfl | rfl
    · rw [loop_go (s' := state s) rfl rfl (step0 m s)]; exact ih _ (by simp)
    · rw [loop_go (s' := state s) rfl rfl (step1 m s)]; exact ih _ (by simp)
    · rw [loop_go (s' := state s) rfl rfl (step2 m s)]; exact ih _ (by simp)
    · rw [loop_go (s' := state s) rfl rfl (step3 m s)]; exact ih _ (by simp)

theorem enter (b : SIt Nat) : loop nav val (m + 40) (body (m + 40) (· == 5) [anyOpt 5, one 6 7 []]) 4 (some 2) false b (m + 40) (state s)
    (spot (some 7)) = Res.diverge := by
  rw [loop_go (s' := state s) rfl rfl (step7 m s), loop_go (s' := state s) rfl rfl (step8 m s)]
  exact cycle m s b _ _ (by simp)

theorem this_one (i v : Nat) (ps : List (Pat Nat)) (fuel : Nat) (ack : Option Nat) (s : Memo) (it : SIt Nat) :
    this nav val fuel (one i v ps) ack s it = loop nav val fuel (body fuel (· == v) ps) i ack false it fuel s it := rfl

/-- The arguments of the `star`, from nowhere. -/
theorem inside : all nav val (m + 40) [anyOpt 3, four] (some 2) (some 2) (stale s) (spot none) = Res.diverge := by
  have h1 : this nav val (m + 40) (anyOpt 3) (some 2) (stale s) (spot none) = Res.ok (true, stale s, spot none) := rfl
  have h2 : all nav val (m + 40) [four] (some 2) (some 2) (stale s) (spot none) = Res.ok (false, stale s, spot none) := rfl
  have h3 : rematch nav val (m + 40) (this nav val (m + 40) (anyOpt 3) (some 2)) (all nav val (m + 40) [four] (some 2) (some 2)) 2 3 (m + 40)
      (stale s) (spot none) = Res.ok (false, stale s, spot none) := rfl
  have h4 : otherNode nav val (m + 40) (stale s) (spot none) ((stale s).marks 3) = Res.ok (spot (some 7)) := rfl
  have h5 : (anyOpt 3).matchesNull && ((stale s).marks 3).isSome = true := rfl
  have h6 : all nav val (m + 40) [four] (some 2) (some 2) (state s) (spot (some 7)) = Res.diverge := by
    rw [all_single]
    exact (this_one _ _ _ _ _ _ _).trans (enter m s _)
  rw [all]
  simp only [h1, h2, Res.ok_bind]
  simp
  rw [show (anyOpt 3).id = 3 from rfl, h3]
  simp only [Res.ok_bind, Bool.false_eq_true, if_false]
  rw [if_pos (show (anyOpt 3).matchesNull = true ∧ Option.isSome ((stale s).marks 3) = true from ⟨rfl, rfl⟩), h4, Res.ok_bind]
  exact h6

theorem all_cons_div {p : Pat Nat} {ps : List (Pat Nat)} {fuel ack rem s it} (h : this nav val fuel p ack s it = Res.diverge) :
    all nav val fuel (p :: ps) ack rem s it = Res.diverge := by
  rw [all]; simp only [h, Res.diverge_bind]

def star11 : List (Pat Nat) := [two, one 7 12 []]

/-- The `star`, at the node 1 under the third 11. -/
theorem outside : this nav val (m + 40) two none (stale s) ⟨.siblings, some 0, some 4, []⟩ = Res.diverge := by
  have h1 : targetIt nav val (m + 40) 2 .default (· == 1) (stale s) 4 = Res.ok (spot none) := rfl
  have h2 : val 4 = Res.ok 1 := rfl
  rw [two, star, this]
  rw [if_neg (by decide)]
  refine loop_stop (a := 4) rfl ?_
  simp only [h2, Res.ok_bind, if_neg (show ¬ ((!((1 : Nat) == 1)) = true) by decide)]
  simp [h1]
  have := inside m s
  simp [this]

/-- The third 11. -/
theorem third : body (m + 40) (· == 11) star11 (stale s) ⟨.siblings, some 0, some 3, []⟩ 3 = Res.diverge := by
  have h1 : childIt nav ⟨.siblings, some 0, some 3, []⟩ 3 = Res.ok (⟨.siblings, some 0, some 4, []⟩ : SIt Nat) := rfl
  have h2 : val 3 = Res.ok 11 := rfl
  have h3 : all nav val (m + 40) star11 none none (stale s) ⟨.siblings, some 0, some 4, []⟩ = Res.diverge := all_cons_div (outside m s)
  simp only [body, h2, Res.ok_bind, if_neg (show ¬ ((!((11 : Nat) == 11)) = true) by decide), h1, h3, Res.diverge_bind]

/-- What the first two 11 leave behind. -/
def visits (fuel : Nat) (s : Memo) : Bool :=
  match body fuel (· == 11) star11 s ⟨.siblings, some 0, some 1, []⟩ 1 with
  | .ok (false, s) =>
    match body fuel (· == 11) star11 s ⟨.siblings, some 0, some 2, []⟩ 2 with
    | .ok (false, s) => s.marks 3 == some 7 && s.cuts 2 == some 8
    | _ => false
  | _ => false

theorem visited : visits (m + 40) (unused.memo.reset [P]) = true := by cbv

theorem stale_of {s : Memo} (h1 : s.marks 3 = some 7) (h2 : s.cuts 2 = some 8) : stale s = s := by
  cases s with
  | mk mk ct =>
    simp only [stale, Memo.mark, Memo.cut, Memo.mk.injEq] at *
    constructor <;> funext j <;> simp only [Marks.set] <;> split <;> simp_all

theorem top (h : visits (m + 40) s = true) : body (m + 40) (· == 1) [one 1 11 star11] s ⟨.fixed, some 0, some 0, []⟩ 0 = Res.diverge := by
  have h1 : childIt nav ⟨.fixed, some 0, some 0, []⟩ 0 = Res.ok (⟨.siblings, some 0, some 1, []⟩ : SIt Nat) := rfl
  have h2 : val 0 = Res.ok 1 := rfl
  suffices h3 : all nav val (m + 40) [one 1 11 star11] none none s ⟨.siblings, some 0, some 1, []⟩ = Res.diverge by
    simp only [body, h2, Res.ok_bind, if_neg (show ¬ ((!((1 : Nat) == 1)) = true) by decide), h1, h3, Res.diverge_bind]
  rw [all_single, this_one]
  unfold visits at h
  split at h
  · next s1 e1 =>
    split at h
    · next s2 e2 =>
      have hs : stale s2 = s2 := by simp at h; exact stale_of h.1 h.2
      rw [loop_go (it' := ⟨.siblings, some 0, some 2, []⟩) rfl e1 rfl, loop_go (it' := ⟨.siblings, some 0, some 3, []⟩) rfl e2 rfl]
      refine loop_stop rfl ?_
      rw [← hs]
      exact third m s2
    · cases h
  · cases h

def isDiverge (r : Res (Bool × Memo)) : Bool :=
  match r with
  | .diverge => true
  | _ => false

theorem few : ∀ n < 40, isDiverge (Search.search nav val n (some 0) P unused.memo) = true := by decide +kernel

theorem endless (fuel : Nat) : Search.search nav val fuel (some 0) P unused.memo = Res.diverge := by
  by_cases hf : fuel < 40
  · have := few fuel hf
    unfold isDiverge at this
    split at this
    · assumption
    · cases this
  · obtain ⟨m, rfl⟩ : ∃ m, fuel = m + 40 := ⟨fuel - 40, by omega⟩
    have h : all nav val (m + 40) [P] none none (unused.memo.reset [P]) ⟨.fixed, some 0, some 0, []⟩ = Res.diverge := by
      rw [all_single, P, this_one]
      exact loop_stop rfl (top m _ (visited m))
    rw [Search.search, h, Res.diverge_bind]
end Endless
