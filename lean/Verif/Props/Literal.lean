import Verif.Proof.StructNode
import Verif.Proof.WorldOps
import Verif.Props.SampleWorlds
import Verif.Props.Pattern
/-!
# C46: literals, and trees made from them (C24, C64)
-/
open SNode
variable {α : Type}

namespace Expr

theorem fresh_alone {e : Expr α} {t : Lit α} {ts : List (Lit α)} (M : Means e t ts) (h : e.fresh = true) : ts = [] := by
  match e, M with
  | .n _, .n _ => rfl
  | .hole, .hole => rfl
  | .call e _, .call M1 _ _ => exact fresh_alone M1 h

end Expr

namespace Samples

/-- `n(1)(n(2)(n(4)), n(), n(3))`. -/
def literal : Expr Nat := .call (.n 1) [.call (.n 2) [.n 4], .hole, .n 3]

/-- `n(9)(l.get_child(0)(n(7)), l.get_child(2), l.get_child(0).get_child(0))`: parts of `literal` put together. -/
def patchwork : Expr Nat :=
  .call (.n 9) [.call (.child literal 0) [.n 7], .child literal 2, .child (.child literal 0) 0]

def literalMeans : Lit Nat := .node (some 1) [.node (some 2) [.node (some 4) []], .node none [], .node (some 3) []]

theorem literal_means : Expr.Means literal literalMeans [] :=
  .call (.n 1) (.cons (.call (.n 2) (.cons (.n 4) .nil) (by simp)) (.cons .hole (.cons (.n 3) .nil))) (by simp)

theorem patchwork_means : Expr.Means patchwork
    (.node (some 9) [.node (some 2) [.node (some 7) []], .node (some 3) [], .node (some 4) []]) [] :=
  .call (.n 9) (.cons (.call (.child literal_means rfl) (.cons (.n 7) .nil) (by simp))
    (.cons (.child literal_means rfl) (.cons (.child (.child literal_means rfl) rfl) .nil))) (by simp)

end Samples

/-- An expression compiles exactly when it means something, and it means one thing. -/
theorem C46_compiles (e : Expr α) :
    ((Expr.eval e).isSome = true ↔ ∃ t ts, Expr.Means e t ts) ∧
    ∀ t t' ts ts', Expr.Means e t ts → Expr.Means e t' ts' → t = t' ∧ ts = ts' := by
  refine ⟨⟨fun h => ?_, fun ⟨t, ts, M⟩ => ?_⟩, fun _ _ _ _ => Expr.means_unique⟩
  · obtain ⟨s, hs⟩ := Option.isSome_iff_exists.mp h
    exact Expr.means_of_eval e hs
  · obtain ⟨s, hs, -⟩ := Expr.eval_of_means M
    rw [hs]; rfl

/-- Every part of the literal is found at its place in the object, with its value, its counts, and the level and index
of its place (counted from those of the object itself); nothing else is found. -/
theorem C46_parts {e : Expr α} {t : Lit α} {ts : List (Lit α)} {s : SNode α} (M : Expr.Means e t ts)
    (hs : Expr.eval e = some s) (p : List Nat) :
    (t.at? p = none → s.at? p = none) ∧
    ∀ u, t.at? p = some u → ∃ c, s.at? p = some c ∧ c.value? = u.label ∧ c.children = u.used ∧
      c.childrenAll = u.children.length ∧ c.subtreeSize = u.values.length ∧
      (∀ q w, u.at? q = some w → w.used ≤ c.subtreeArity) ∧ (∃ q w, u.at? q = some w ∧ w.used = c.subtreeArity) ∧
      c.getLevel = s.getLevel + p.length ∧ c.getIndex = p.getLastD s.getIndex := by
  obtain ⟨s', hs', O⟩ := Expr.eval_of_means M
  rw [hs] at hs'
  cases hs'
  refine ⟨O.at_none p, fun u hu => ?_⟩
  obtain ⟨c, us, h1, h2, h3, h4⟩ := O.at_some p hu
  refine ⟨c, h1, ?_, h2.children, h2.childrenAll, h2.subtreeSize, ?_, ?_, h3, h4⟩
  · cases h2; rfl
  · rw [h2.subtreeArity]
    exact (Lit.subtreeArity_le u _).mp (Nat.le_refl _)
  · rw [h2.subtreeArity]
    exact Lit.subtreeArity_attained u

example : (∃ t, Expr.Means Samples.patchwork t []) ∧ (Expr.eval Samples.patchwork).isSome = true :=
  ⟨⟨_, Samples.patchwork_means⟩, rfl⟩

/-- An object made by `n` or by a call is a root: level 0 and index 0. An object taken with `get_child` keeps the level
and the index it has in the literal it was taken from, and the slots that follow it. -/
theorem C46_root {e : Expr α} {s : SNode α} (hs : Expr.eval e = some s) :
    (∀ v, e = .n v → s.getLevel = 0 ∧ s.getIndex = 0 ∧ s.followingSiblings = 0) ∧
    (e = .hole → s.getLevel = 0 ∧ s.getIndex = 0 ∧ s.followingSiblings = 0) ∧
    (∀ e' args, e = .call e' args → s.getLevel = 0 ∧ s.getIndex = 0) ∧
    (∀ e' i, e = .child e' i → ∃ s', Expr.eval e' = some s' ∧ s.getLevel = s'.getLevel + 1 ∧ s.getIndex = i ∧
      i + s.followingSiblings + 1 = s'.childrenAll) := by
  refine ⟨?_, ?_, ?_, ?_⟩
  · rintro v rfl
    cases hs
    exact ⟨rfl, rfl, rfl⟩
  · rintro rfl
    cases hs
    exact ⟨rfl, rfl, rfl⟩
  · rintro e' args rfl
    rw [Expr.eval] at hs
    obtain ⟨s0, hs0, hs⟩ := Option.bind_eq_some_iff.mp hs
    obtain ⟨ss, hss, hs⟩ := Option.bind_eq_some_iff.mp hs
    dsimp only at hs
    split at hs
    · cases hs
    · cases hs
      cases s0 <;> exact ⟨rfl, rfl⟩
  · rintro e' i rfl
    rw [Expr.eval] at hs
    obtain ⟨s0, hs0, hs⟩ := Option.bind_eq_some_iff.mp hs
    obtain ⟨⟨v, cs⟩, ts, M⟩ := Expr.means_of_eval e' hs0
    obtain ⟨s1, hs1, O⟩ := Expr.eval_of_means M
    rw [hs0] at hs1
    cases hs1
    refine ⟨s0, hs0, ?_⟩
    rcases O.getChild i with ⟨-, h⟩ | ⟨y, us, c, hd, hc, S⟩
    · rw [h] at hs; cases hs
    · rw [hc] at hs
      cases hs
      obtain ⟨h1, h2, h3⟩ := S.level
      refine ⟨h1, h2, ?_⟩
      rw [h3, O.childrenAll]
      have h4 := congrArg List.length hd
      have h5 : i < cs.length := by
        apply Classical.byContradiction
        intro hn
        rw [List.drop_eq_nil_of_le (by omega)] at hd
        cases hd
      simp only [List.length_drop, List.length_cons] at h4
      simp only [Tree.children]
      omega

example : ∃ s, Expr.eval (.child Samples.literal 0) = some s ∧ s.getLevel = 1 ∧ s.getIndex = 0 ∧ s.followingSiblings = 2 :=
  ⟨_, rfl, rfl, rfl, rfl⟩

/-- A tree made from an expression is the tree made from its meaning (C24 says what that tree is), for nary trees when no
slot follows. -/
theorem C24_object_nary {e : Expr α} {l : Tree α} {s : SNode α} (M : Expr.Means e (Lit.full l) [])
    (hs : Expr.eval e = some s) (W : World (NNode α)) (x : Nat) :
    W.newStructNary x s = W.newLit (Nary.kind α) x l := by
  obtain ⟨s', hs', O⟩ := Expr.eval_of_means M
  rw [hs] at hs'
  cases hs'
  have e1 := Nary.ofStruct_eq (t := l) (ts := []) O W.heap none none l.size (by simp [Tree.sizeL])
  rw [World.newStructNary, World.newLit, e1, O.subtreeSize', O.subtreeArity]
  rfl

/-- Following slots are only left by `get_child`. -/
theorem C46_alone {e : Expr α} {t : Lit α} {ts : List (Lit α)} (M : Expr.Means e t ts) (h : e.fresh = true) : ts = [] :=
  Expr.fresh_alone M h

example : Expr.Means Samples.patchwork (Lit.full (.node 9 [.node 2 [.node 7 []], .node 3 [], .node 4 []])) [] ∧
    Samples.patchwork.fresh = true := ⟨Samples.patchwork_means, rfl⟩

/-- Binary trees: whatever follows. -/
theorem C24_object_binary {e : Expr α} {t : Lit α} {ts : List (Lit α)} {s : SNode α} (M : Expr.Means e t ts)
    (hs : Expr.eval e = some s) (W : World (BNode α)) (x : Nat) :
    W.newStructBinary t.size x s = W.newLit (Binary.kind α) x t := by
  obtain ⟨s', hs', O⟩ := Expr.eval_of_means M
  rw [hs] at hs'
  cases hs'
  rw [World.newStructBinary, World.newLit, Binary.ofStruct_eq O, O.subtreeSize', O.subtreeArity]
  rfl

example : Expr.Means (.child Samples.literal 0) (.node (some 2) [.node (some 4) []]) [.node none [], .node (some 3) []] :=
  .child Samples.literal_means rfl

/-- An nary tree made from a slot that others follow, `nary_tree<int> x = l.get_child(const_index<i>())`: the root has a
next sibling and the following slots become nodes too, which `size()` does not count. -/
theorem C64_slot_defect {e : Expr α} {l : Tree α} {ls : List (Tree α)} {s : SNode α} (hls : ls ≠ [])
    (M : Expr.Means e (Lit.full l) (ls.map Lit.full)) (hs : Expr.eval e = some s) (W : World (NNode α)) (hW : W.heap.WF)
    (x : Nat) : ∃ W' a n b m, W.newStructNary x s = Res.ok W' ∧
      W'.get x = Res.ok ⟨some a, l.size, l.arity, some a⟩ ∧
      W'.heap.read a = Res.ok n ∧ n.next = some b ∧ W'.heap.read b = Res.ok m ∧ m.prev = some a ∧ m.parent = none := by
  obtain ⟨s', hs', O⟩ := Expr.eval_of_means M
  rw [hs] at hs'
  cases hs'
  have e1 := Nary.ofStruct_eq (t := l) (ts := ls) O W.heap none none _ (Nat.le_refl _)
  obtain ⟨h', a, us, e2, ha, B, hv⟩ := Nary.ofLits_spec (h := W.heap) l ls _ (Nat.le_refl _) (par := none) (prev := none)
    hW (by simp)
  match us, hv with
  | [], hv => simp [Nary.valsL] at hv
  | [u], hv =>
    have := congrArg List.length hv
    cases ls with
    | nil => exact absurd rfl hls
    | cons => simp [Nary.valsL] at this
  | .node (u, x1) c1 :: .node (w, x2) c2 :: us, hv =>
    simp only [Tree.headAddr, Tree.addr, Tree.label, List.head?_cons, Option.map_some, Option.some.injEq] at ha
    have h1 := B.holds (u, _) (List.mem_append_left _ (List.mem_cons_self ..))
    have h2 := B.holds (w, _) (List.mem_append_right _ (List.mem_append_left _ (List.mem_cons_self ..)))
    subst ha
    refine ⟨_, u, ⟨x1, none, us.length + 1 + 0, none, some w, Tree.headAddr c1, Tree.lastAddr c1⟩, w,
      ⟨x2, none, us.length + 0, some u, Option.or (Tree.headAddr us) none, Tree.headAddr c2, Tree.lastAddr c2⟩,
      by rw [World.newStructNary, e1, e2]; rfl, ?_, ?_, rfl, ?_, rfl, rfl⟩
    · rw [O.subtreeSize', O.subtreeArity, (Nary.full_sizes l).1, (Nary.full_sizes l).2]
      simp [World.get, World.put]
    · show h'.read u = _
      rw [Heap.read, h1]
      rfl
    · show h'.read w = _
      rw [Heap.read, h2]
      rfl

example : Expr.Means (.child (.call (.n 1) [.n 2, .n 3]) 0) (Lit.full (.node 2 [])) ([.node 3 []].map Lit.full) :=
  .child (.call (.n 1) (.cons (.n 2) (.cons (.n 3) .nil)) (by simp)) rfl

/-- Comparing such a tree is undefined: with `auto l = n(1)(n(2), n(3)); nary_tree<int> x = l.get_child(const_index<0>());`
and `nary_tree<int> y = n(2);`, `x == y` follows a null pointer, and `y == x` is true. -/
theorem C64_slot_compare_defect : ∃ s W,
    Expr.eval (.child (.call (.n 1) [.n 2, .n 3]) 0) = some s ∧
    (do let W ← (World.start : World (NNode Nat)).newStructNary 0 s
        W.newLit (Nary.kind Nat) 1 (.node 2 [])) = Res.ok W ∧
    World.eq (Nary.kind Nat) (· == ·) W 0 1 = Res.ub ∧
    ∃ W', World.eq (Nary.kind Nat) (· == ·) W 1 0 = Res.ok (W', true) :=
  ⟨_, _, rfl, rfl, rfl, _, rfl⟩
