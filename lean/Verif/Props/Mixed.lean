import Verif.Props.SampleWorlds
import Verif.Proof.Mixed
/-!
# C100: programs that use nary and binary trees together

`Both.run eqv` runs any list of calls on nary trees, calls on binary trees, conversions of binary trees to nary trees and
comparisons (nary with nary, binary with binary, nary with binary, either with a literal), see Spec/Mixed.lean.
-/
open Tree World

variable {α : Type}

/-- Every program all whose calls are supported when they are made runs without undefined behaviour, and every call has its
effect on the trees; at the end, the allocated nodes are exactly those of the trees. -/
theorem C100_history (eqv : α → α → Bool) {ops : List (MOp α)} (h : MSupports eqv Both.start ops) :
    ∃ W as F, Both.run eqv Both.start ops = Res.ok (W, as) ∧ as.length = ops.length ∧
      MTrace (fun _ _ _ => True) eqv Both.start Forests.none (ops.zip as) W F ∧ W.Owned F :=
  Both.history ops Both.start_owned h

/-- If no call spoils the remembered counts (`CountsOk`) then all answers are the truth: `size()`, `arity()` and every
comparison, at whatever point of the program it is made. -/
theorem C100_answers (eqv : α → α → Bool) {ops : List (MOp α)} (h : MSupports eqv Both.start ops)
    (hk : MKeepsCounts eqv Both.start ops) :
    ∃ W as F, Both.run eqv Both.start ops = Res.ok (W, as) ∧ as.length = ops.length ∧
      MTrace (MTrue eqv) eqv Both.start Forests.none (ops.zip as) W F ∧ W.Owned F := by
  obtain ⟨W, as, F, h1, h2, h3, h4, _⟩ := Both.history_counts ops Both.start_owned
    ⟨by intro x r t hr; simp [Both.start, World.start] at hr, by intro x r t hr; simp [Both.start, World.start] at hr⟩ h hk
  exact ⟨W, as, F, h1, h2, h3, h4⟩

/-- When all tree objects of both kinds are gone, no node of either kind is left. -/
theorem C100_no_leak (eqv : α → α → Bool) {ops : List (MOp α)} (h : MSupports eqv Both.start ops) {W : Both α} {as : List MAns}
    (hr : Both.run eqv Both.start ops = Res.ok (W, as)) (hn : ∀ x, W.1.vars x = none) (hb : ∀ x, W.2.vars x = none) :
    ∀ a, W.1.heap.cells a = none ∧ W.2.heap.cells a = none := by
  obtain ⟨W', as', F, h1, _, _, O⟩ := C100_history eqv h
  rw [hr] at h1; cases h1
  intro a
  constructor
  · cases hc : W.1.heap.cells a with
    | none => rfl
    | some v =>
      obtain ⟨z, t, hz, _⟩ := O.n.noLeak a (by simp [hc])
      rw [dead O.n (hn z)] at hz; cases hz
  · cases hc : W.2.heap.cells a with
    | none => rfl
    | some v =>
      obtain ⟨z, t, hz, _⟩ := O.b.noLeak a (by simp [hc])
      rw [dead O.b (hb z)] at hz; cases hz

/-! ## An example

A binary tree is built and converted; the nary tree is changed and compared with it, assigned from it again and compared again,
and all trees are destroyed. -/

namespace Samples

def mnext {α : Type} (eqv : α → α → Bool) (W : Both α) (op : MOp α) : Both α :=
  match Both.step eqv W op with
  | .ok (W', _) => W'
  | _ => W

theorem msupports_next {eqv : α → α → Bool} {W : Both α} {F : Forests α} (O : W.Owned F) {op : MOp α} {ops : List (MOp α)}
    (hl : MLegal W F op) (k : ∀ F1, (mnext eqv W op).Owned F1 → MSupports eqv (mnext eqv W op) ops) :
    MSupports eqv W (op :: ops) := by
  refine ⟨⟨F, O, hl⟩, fun W1 o h => ?_⟩
  obtain ⟨W1', o', F1, h1, h2, _, _⟩ := Both.step_spec (eqv := eqv) O op hl
  rw [h1] at h; cases h
  have : mnext eqv W op = W1 := by simp [mnext, h1]
  rw [← this] at h2 ⊢
  exact k F1 h2

def mhist : List (MOp Nat) :=
  [.binary (.newLit 0 (node (some 1) [node (some 2) [], node (some 3) []])), .newBinary 0 0,
   .nary (.insertChild true Policy.preOrder 0 ⟨⟨some 1, []⟩, some 0⟩ (.value 9)), .eqNB 0 0, .assignBinary 0 0, .eqNB 0 0,
   .nary (.destroy 0), .binary (.destroy 0)]

theorem mhist_supported : MSupports (· == ·) Both.start mhist := by
  refine msupports_next Both.start_owned ⟨rfl, rfl⟩ ?_
  intro F1 O1
  refine msupports_next O1 ⟨dead O1.n rfl, live O1.b rfl⟩ ?_
  intro F2 O2
  have h2 : F2.n 0 = some (some (node (0,1) [node (1,2) [], node (2,3) []])) :=
    pin (Nary.determined Nat) O2.n rfl ((Nary.shape_rep _ _).mpr (by decide)) rfl
  refine msupports_next O2 ⟨_, h2, trivial, Or.inr (Or.inl ⟨_, _, nary_at preOrder_mem
    [⟨(0,1), [], [node (2,3) []]⟩] (node (1,2) []) rfl rfl rfl rfl, Or.inl rfl⟩)⟩ ?_
  intro F3 O3
  refine msupports_next O3 ⟨live O3.n rfl, live O3.b rfl⟩ ?_
  intro F4 O4
  refine msupports_next O4 ⟨live O4.n rfl, live O4.b rfl⟩ ?_
  intro F5 O5
  refine msupports_next O5 ⟨live O5.n rfl, live O5.b rfl⟩ ?_
  intro F6 O6
  refine msupports_next O6 (live O6.n rfl) ?_
  intro F7 O7
  refine msupports_next O7 (live O7.b rfl) ?_
  intros; trivial

theorem mkeeps_next {eqv : α → α → Bool} {W : Both α} {F : Forests α} (O : W.Owned F) {op : MOp α} {ops : List (MOp α)}
    (hl : MLegal W F op) (hc : MCountsOk W F op) (hs : MSmall F)
    (k : ∀ F1, (mnext eqv W op).Owned F1 → MKeepsCounts eqv (mnext eqv W op) ops) : MKeepsCounts eqv W (op :: ops) := by
  refine ⟨fun G OG => by cases O.unique OG; exact ⟨hc, hs⟩, fun W1 o h => ?_⟩
  obtain ⟨W1', o', F1, h1, h2, _, _⟩ := Both.step_spec (eqv := eqv) O op hl
  rw [h1] at h; cases h
  have : mnext eqv W op = W1 := by simp [mnext, h1]
  rw [← this] at h2 ⊢
  exact k F1 h2

theorem small_one {ν lit T V C : Type} {K : Kind ν α lit} {S : Shape K T V C} {W : World ν} {ts : Nat → Option T} (O : Owned S W ts)
    (h : ∀ x, x ≠ 0 → W.vars x = none) (h0 : ∀ t, ts 0 = some t → S.size t < 2 ^ 64) : Small S ts := by
  intro x t hx
  by_cases e : x = 0
  · subst e; exact h0 t hx
  · rw [dead O (h x e)] at hx; cases hx

theorem msmall {W : Both Nat} {F : Forests Nat} (O : W.Owned F) (hn : ∀ x, x ≠ 0 → W.1.vars x = none)
    (hb : ∀ x, x ≠ 0 → W.2.vars x = none) (n : ∀ t, F.n 0 = some t → (Nary.shape Nat).size t < 2 ^ 64)
    (b : ∀ t, F.b 0 = some t → (Binary.shape Nat).size t < 2 ^ 64) : MSmall F := ⟨small_one O.n hn n, small_one O.b hb b⟩

theorem mhist_counts : MKeepsCounts (· == ·) Both.start mhist := by
  have D := Nary.determined Nat
  have DB := Binary.determined Nat
  refine mkeeps_next Both.start_owned ⟨rfl, rfl⟩ (show _ ∧ _ from ⟨by simp [Lit.valid, Lit.validL], by simp [Lit.atMostTwo, Lit.atMostTwoL]⟩)
    ⟨by rintro _ _ ⟨⟩, by rintro _ _ ⟨⟩⟩ ?_
  intro F1 O1
  have b1 : F1.b 0 = some (.node (0,1) (.node (1,2) .nil .nil) (.node (2,3) .nil .nil)) :=
    pin DB O1.b rfl (show Binary.Rep _ _ by decide) rfl
  refine mkeeps_next O1 ⟨dead O1.n rfl, live O1.b rfl⟩ trivial (msmall O1 (fun _ _ => rfl) (fun x hx => by cases x <;> trivial)
    (by rw [dead O1.n rfl]; rintro _ ⟨⟩) (by rw [b1]; rintro _ ⟨⟩; decide)) ?_
  intro F2 O2
  have h2 : F2.n 0 = some (some (node (0,1) [node (1,2) [], node (2,3) []])) :=
    pin D O2.n rfl ((Nary.shape_rep _ _).mpr (by decide)) rfl
  have b2 : F2.b 0 = some (.node (0,1) (.node (1,2) .nil .nil) (.node (2,3) .nil .nil)) :=
    pin DB O2.b rfl (show Binary.Rep _ _ by decide) rfl
  refine mkeeps_next O2 ⟨_, h2, trivial, Or.inr (Or.inl ⟨_, _, nary_at preOrder_mem
    [⟨(0,1), [], [node (2,3) []]⟩] (node (1,2) []) rfl rfl rfl rfl, Or.inl rfl⟩)⟩
    (show _ ∧ _ from ⟨trivial, Or.inl trivial, by rintro r t ⟨⟩ ht; rw [h2] at ht; cases ht; decide⟩)
    (msmall O2 (fun x hx => by cases x <;> trivial) (fun x hx => by cases x <;> trivial)
    (by rw [h2]; rintro _ ⟨⟩; decide) (by rw [b2]; rintro _ ⟨⟩; decide)) ?_
  intro F3 O3
  have h3 : F3.n 0 = some (some (node (0,1) [node (1,2) [node (3,9) []], node (2,3) []])) :=
    pin D O3.n rfl ((Nary.shape_rep _ _).mpr (by decide)) rfl
  have b3 : F3.b 0 = some (.node (0,1) (.node (1,2) .nil .nil) (.node (2,3) .nil .nil)) :=
    pin DB O3.b rfl (show Binary.Rep _ _ by decide) rfl
  refine mkeeps_next O3 ⟨live O3.n rfl, live O3.b rfl⟩ trivial
    (msmall O3 (fun x hx => by cases x <;> trivial) (fun x hx => by cases x <;> trivial)
    (by rw [h3]; rintro _ ⟨⟩; decide) (by rw [b3]; rintro _ ⟨⟩; decide)) ?_
  intro F4 O4
  have h4 : F4.n 0 = some (some (node (0,1) [node (1,2) [node (3,9) []], node (2,3) []])) :=
    pin D O4.n rfl ((Nary.shape_rep _ _).mpr (by decide)) rfl
  have b4 : F4.b 0 = some (.node (0,1) (.node (1,2) .nil .nil) (.node (2,3) .nil .nil)) :=
    pin DB O4.b rfl (show Binary.Rep _ _ by decide) rfl
  refine mkeeps_next O4 ⟨live O4.n rfl, live O4.b rfl⟩ trivial
    (msmall O4 (fun x hx => by cases x <;> trivial) (fun x hx => by cases x <;> trivial)
    (by rw [h4]; rintro _ ⟨⟩; decide) (by rw [b4]; rintro _ ⟨⟩; decide)) ?_
  intro F5 O5
  have h5 : F5.n 0 = some (some (node (4,1) [node (5,2) [], node (6,3) []])) :=
    pin D O5.n rfl ((Nary.shape_rep _ _).mpr (by decide)) rfl
  have b5 : F5.b 0 = some (.node (0,1) (.node (1,2) .nil .nil) (.node (2,3) .nil .nil)) :=
    pin DB O5.b rfl (show Binary.Rep _ _ by decide) rfl
  refine mkeeps_next O5 ⟨live O5.n rfl, live O5.b rfl⟩ trivial
    (msmall O5 (fun x hx => by cases x <;> trivial) (fun x hx => by cases x <;> trivial)
    (by rw [h5]; rintro _ ⟨⟩; decide) (by rw [b5]; rintro _ ⟨⟩; decide)) ?_
  intro F6 O6
  have h6 : F6.n 0 = some (some (node (4,1) [node (5,2) [], node (6,3) []])) :=
    pin D O6.n rfl ((Nary.shape_rep _ _).mpr (by decide)) rfl
  have b6 : F6.b 0 = some (.node (0,1) (.node (1,2) .nil .nil) (.node (2,3) .nil .nil)) :=
    pin DB O6.b rfl (show Binary.Rep _ _ by decide) rfl
  refine mkeeps_next O6 (live O6.n rfl) trivial
    (msmall O6 (fun x hx => by cases x <;> trivial) (fun x hx => by cases x <;> trivial)
    (by rw [h6]; rintro _ ⟨⟩; decide) (by rw [b6]; rintro _ ⟨⟩; decide)) ?_
  intro F7 O7
  have b7 : F7.b 0 = some (.node (0,1) (.node (1,2) .nil .nil) (.node (2,3) .nil .nil)) :=
    pin DB O7.b rfl (show Binary.Rep _ _ by decide) rfl
  refine mkeeps_next O7 (live O7.b rfl) trivial
    (msmall O7 (fun x hx => by cases x <;> trivial) (fun x hx => by cases x <;> trivial)
    (by rw [dead O7.n rfl]; rintro _ ⟨⟩) (by rw [b7]; rintro _ ⟨⟩; decide)) ?_
  intro F8 O8 G OG
  exact msmall OG (fun x hx => by cases x <;> trivial) (fun x hx => by cases x <;> trivial)
    (by rw [dead OG.n rfl]; rintro _ ⟨⟩) (by rw [dead OG.b rfl]; rintro _ ⟨⟩)

/-- Both hypotheses of `C100_answers` hold for this program. -/
example : MSupports (· == ·) Both.start mhist ∧ MKeepsCounts (· == ·) Both.start mhist := ⟨mhist_supported, mhist_counts⟩

/-- The answers of the two comparisons: different, then equal. -/
example : (match Both.run (· == ·) Both.start mhist with | .ok (_, as) => some as | _ => none) =
    some [.call .unit, .call .unit, .call (.iter (.ret ⟨⟨some 1, []⟩, some 0⟩)), .bool false, .call .unit, .bool true,
      .call .unit, .call .unit] := by decide +kernel

end Samples
