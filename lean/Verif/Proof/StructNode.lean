import Verif.Model.StructNode
import Verif.Model.Lit
import Verif.Proof.NaryBuild
import Verif.Proof.BinQuery
/-!
# The objects of literal expressions
-/

namespace SNode
variable {α : Type}

/-- A chain of siblings at level `l`, numbered from `i`, storing the forest `ts`. -/
inductive Shows : SNode α → List (Lit α) → Nat → Nat → Prop where
  | empty {l i : Nat} : Shows .empty [] l i
  | mk {v : Option α} {f n : SNode α} {cs ts : List (Lit α)} {l i : Nat} :
      Shows f cs (l + 1) 0 → Shows n ts l (i + 1) → Shows (.mk v f n l i) (.node v cs :: ts) l i

/-- A chain of siblings before it is given levels and indexes. -/
inductive Row : SNode α → List (Lit α) → Prop where
  | empty : Row .empty []
  | mk {v : Option α} {f n : SNode α} {cs ts : List (Lit α)} {l i k : Nat} :
      Shows f cs k 0 → Row n ts → Row (.mk v f n l i) (.node v cs :: ts)

/-- The object of an expression. -/
inductive Obj : SNode α → Lit α → List (Lit α) → Prop where
  | mk {v : Option α} {f n : SNode α} {cs ts : List (Lit α)} {l i l' i' : Nat} :
      Shows f cs (l + 1) 0 → Shows n ts l' i' → Obj (.mk v f n l i) (.node v cs) ts

theorem Shows.setLevel {s : SNode α} {ts : List (Lit α)} {l i : Nat} (H : Shows s ts l i) (k : Nat) :
    Shows (s.setLevel k) ts k i := by
  induction H generalizing k with
  | empty => exact .empty
  | mk _ _ h1 h2 => exact .mk (h1 _) (h2 _)

theorem Row.fix {s : SNode α} {ts : List (Lit α)} (H : Row s ts) (l i : Nat) :
    Shows ((s.assignIndexes i).setLevel l) ts l i := by
  induction H generalizing i with
  | empty => exact .empty
  | mk h1 _ h2 => exact .mk (h1.setLevel _) (h2 _)

theorem Shows.row {s : SNode α} {ts : List (Lit α)} {l i : Nat} (H : Shows s ts l i) : Row s ts := by
  induction H with
  | empty => exact .empty
  | mk h1 _ _ h2 => exact .mk h1 h2

theorem Row.obj_make {v : Option α} {f n : SNode α} {cs ts : List (Lit α)} {l i : Nat} (H : Row f cs)
    (Hn : Shows n ts l i) : Obj (make v f n) (.node v cs) ts := .mk (H.fix _ _) Hn

theorem Obj.withNext {s r : SNode α} {t : Lit α} {ts us : List (Lit α)} (H : Obj s t ts) (R : Row r us) :
    Row (s.withNext r) (t :: us) := by
  cases H with
  | mk h1 h2 => exact .mk (h1.row.fix _ _) R

/-- The nodes of a chain. -/
def chain : SNode α → List (SNode α)
  | empty => []
  | mk v f n l i => mk v f n l i :: chain n

theorem countAll_chain (s : SNode α) (k : Nat) : countAllFrom k s = k + s.chain.length := by
  induction s generalizing k with
  | empty => simp [countAllFrom, chain]
  | mk v f n l i _ ih => simp [countAllFrom, chain, ih]; omega

theorem successors_chain (s : SNode α) (h : s.isEmpty = false) : successors (s.chain.length - 1) s = some s.chain := by
  induction s with
  | empty => cases h
  | mk v f n l i _ ih =>
    cases n with
    | empty => simp [chain, successors]
    | mk v' f' n' l' i' =>
      have := ih rfl
      simp only [chain, List.length_cons, Nat.add_sub_cancel, successors, next] at this ⊢
      rw [this]
      rfl

theorem getChildren_eq (s : SNode α) : s.getChildren = some s.first.chain := by
  rw [getChildren]
  cases hf : s.first with
  | empty => rfl
  | mk v f n l i =>
    have := successors_chain (mk v f n l i) rfl
    simp only [isEmpty, Bool.false_eq_true, if_false]
    rw [childrenAll, hf, countAll_chain, Nat.zero_add]
    exact this

theorem getChild_eq (s : SNode α) (i : Nat) : s.getChild i = s.first.chain[i]? := by
  rw [getChild, getChildren_eq]; rfl

/-- What is at position `k` of a chain. -/
theorem Shows.at_chain {s : SNode α} {ts : List (Lit α)} {l i : Nat} (H : Shows s ts l i) (k : Nat) :
    (ts[k]? = none ∧ s.chain[k]? = none) ∨
    ∃ t us c, ts.drop k = t :: us ∧ s.chain[k]? = some c ∧ Shows c (t :: us) l (i + k) := by
  induction H generalizing k with
  | empty => left; simp [chain]
  | @mk v f n cs ts l i h1 h2 _ ih =>
    cases k with
    | zero => right; exact ⟨_, _, _, rfl, rfl, .mk h1 h2⟩
    | succ k =>
      simp only [chain, List.getElem?_cons_succ, List.drop_succ_cons]
      rw [show i + (k + 1) = i + 1 + k by omega]
      exact ih k

theorem Shows.obj {s : SNode α} {t : Lit α} {ts : List (Lit α)} {l i : Nat} (H : Shows s (t :: ts) l i) : Obj s t ts := by
  cases H with
  | mk h1 h2 => exact .mk h1 h2

theorem Shows.level {s : SNode α} {t : Lit α} {ts : List (Lit α)} {l i : Nat} (H : Shows s (t :: ts) l i) :
    s.getLevel = l ∧ s.getIndex = i ∧ s.followingSiblings = ts.length := by
  refine ⟨by cases H; rfl, by cases H; rfl, ?_⟩
  induction s generalizing t ts i with
  | empty => cases H
  | mk v f n l i _ ih =>
    cases H with
    | mk h1 h2 =>
      cases h2 with
      | empty => rfl
      | mk h3 h4 =>
        rw [followingSiblings]
        have := ih (.mk h3 h4)
        simp only [isEmpty, Bool.false_eq_true, if_false, this, List.length_cons]
        omega

theorem isEmpty_empty : (SNode.empty : SNode α).isEmpty = true := rfl

theorem Shows.nonempty {s : SNode α} {t : Lit α} {ts : List (Lit α)} {l i : Nat} (H : Shows s (t :: ts) l i) :
    s.isEmpty = false := by
  cases s with
  | empty => cases H
  | mk => rfl

theorem Obj.first {s : SNode α} {v : Option α} {cs ts : List (Lit α)} (H : Obj s (.node v cs) ts) :
    Shows s.first cs (s.getLevel + 1) 0 ∧ s.value? = v := by
  cases H with
  | mk h1 h2 => exact ⟨h1, rfl⟩

theorem Obj.getChild {s : SNode α} {v : Option α} {cs ts : List (Lit α)} (H : Obj s (.node v cs) ts) (k : Nat) :
    (cs[k]? = none ∧ s.getChild k = none) ∨
    ∃ t us c, cs.drop k = t :: us ∧ s.getChild k = some c ∧ Shows c (t :: us) (s.getLevel + 1) k := by
  rw [getChild_eq]
  have := H.first.1.at_chain k
  rwa [Nat.zero_add] at this

/-! ### Counts -/

theorem Shows.count {s : SNode α} {ts : List (Lit α)} {l i : Nat} (H : Shows s ts l i) (k : Nat) :
    countFrom k s = k + (ts.filter (fun c => c.label.isSome)).length := by
  induction H generalizing k with
  | empty => simp [countFrom]
  | @mk v f n cs ts l i _ _ _ ih =>
    rw [countFrom, ih]
    cases v <;> simp [Tree.label] <;> omega

theorem Shows.countAll {s : SNode α} {ts : List (Lit α)} {l i : Nat} (H : Shows s ts l i) (k : Nat) :
    countAllFrom k s = k + ts.length := by
  induction H generalizing k with
  | empty => simp [countAllFrom]
  | @mk v f n cs ts l i _ _ _ ih => rw [countAllFrom, ih]; simp; omega

theorem Shows.size {s : SNode α} {ts : List (Lit α)} {l i : Nat} (H : Shows s ts l i) (k : Nat) :
    sizeFrom k s = k + ((Tree.preL ts).filterMap id).length := by
  induction H generalizing k with
  | empty => simp [sizeFrom, Tree.preL]
  | @mk v f n cs ts l i _ _ ih1 ih2 =>
    rw [sizeFrom, ih2, ih1]
    cases v <;> simp [Tree.preL, Tree.pre] <;> omega

theorem Obj.subtreeSize {s : SNode α} {t : Lit α} {ts : List (Lit α)} (H : Obj s t ts) :
    s.subtreeSize = t.values.length := by
  cases H with
  | @mk v f n cs ts l i l' i' h1 h2 =>
    rw [SNode.subtreeSize, h1.size, Lit.values]
    cases v <;> simp [Tree.pre]; omega

theorem Shows.size' {s : SNode α} {ts : List (Lit α)} {l i : Nat} (H : Shows s ts l i) (k : Nat) :
    sizeFrom k s = k + Lit.subtreeSizeL ts := by
  induction H generalizing k with
  | empty => simp [sizeFrom, Lit.subtreeSizeL]
  | @mk v f n cs ts l i _ _ ih1 ih2 =>
    rw [sizeFrom, ih2, ih1, Lit.subtreeSizeL, Lit.subtreeSize]
    omega

theorem Obj.subtreeSize' {s : SNode α} {t : Lit α} {ts : List (Lit α)} (H : Obj s t ts) :
    s.subtreeSize = Lit.subtreeSize t := by
  cases H with
  | @mk v f n cs ts l i l' i' h1 h2 =>
    rw [SNode.subtreeSize, h1.size', Lit.subtreeSize]
    omega

theorem Obj.children {s : SNode α} {t : Lit α} {ts : List (Lit α)} (H : Obj s t ts) : s.children = t.used := by
  cases H with
  | @mk v f n cs ts l i l' i' h1 h2 => simp [SNode.children, SNode.first, h1.count, Lit.used, Tree.children]

theorem Obj.childrenAll {s : SNode α} {t : Lit α} {ts : List (Lit α)} (H : Obj s t ts) :
    s.childrenAll = t.children.length := by
  cases H with
  | @mk v f n cs ts l i l' i' h1 h2 => simp [SNode.childrenAll, SNode.first, h1.countAll, Tree.children]

theorem Shows.arity {s : SNode α} {ts : List (Lit α)} {l i : Nat} (H : Shows s ts l i) (own k : Nat) :
    arityFrom own k s = max k (Lit.subtreeArityL own ts) := by
  induction H generalizing own k with
  | empty => simp [arityFrom, Lit.subtreeArityL]
  | @mk v f n cs ts l i h1 _ ih1 ih2 =>
    rw [arityFrom, ih2, ih1, h1.count]
    have e : Lit.subtreeArity (.node v cs) = Lit.subtreeArityL ((cs.filter (fun c => c.label.isSome)).length) cs := by
      rw [Lit.subtreeArity]; rfl
    rw [Lit.subtreeArityL, e, Nat.zero_add]
    omega

theorem Obj.subtreeArity {s : SNode α} {t : Lit α} {ts : List (Lit α)} (H : Obj s t ts) :
    s.subtreeArity = Lit.subtreeArity t := by
  have h := H.children
  cases H with
  | @mk v f n cs ts l i l' i' h1 h2 =>
    rw [SNode.subtreeArity, SNode.first, h1.arity, h, Lit.subtreeArity, Nat.zero_max]
    rfl

end SNode

namespace Lit
variable {α : Type}

theorem subtreeArityL_le (own k : Nat) (ts : List (Lit α)) :
    subtreeArityL own ts ≤ k ↔ (ts ≠ [] → own ≤ k) ∧ ∀ t ∈ ts, subtreeArity t ≤ k := by
  induction ts with
  | nil => simp [subtreeArityL]
  | cons t ts ih =>
    simp only [subtreeArityL, List.mem_cons, forall_eq_or_imp, ne_eq, reduceCtorEq, not_false_eq_true, forall_const]
    rw [Nat.max_le, Nat.max_le, ih]
    constructor
    · rintro ⟨⟨h1, h2⟩, -, h3⟩; exact ⟨h1, h2, h3⟩
    · rintro ⟨h1, h2, h3⟩; exact ⟨⟨h1, h2⟩, fun _ => h1, h3⟩

theorem subtreeArity_le (t : Lit α) (k : Nat) : subtreeArity t ≤ k ↔ ∀ q w, t.at? q = some w → w.used ≤ k := by
  induction t using Tree.ind with
  | h v cs ih =>
    rw [subtreeArity, subtreeArityL_le]
    constructor
    · rintro ⟨h1, h2⟩ q w hw
      cases q with
      | nil =>
        simp only [at?, Option.some.injEq] at hw
        subst hw
        by_cases hc : cs = []
        · simp [used, Tree.children, hc]
        · exact h1 hc
      | cons i q =>
        rw [at?] at hw
        obtain ⟨c, hc, hw⟩ := Option.bind_eq_some_iff.mp hw
        exact (ih c (List.mem_of_getElem? hc)).mp (h2 c (List.mem_of_getElem? hc)) q w hw
    · intro h
      refine ⟨fun _ => h [] _ rfl, fun t ht => (ih t ht).mpr fun q w hw => ?_⟩
      obtain ⟨i, hi⟩ := List.getElem?_of_mem ht
      exact h (i :: q) w (by rw [at?, hi]; exact hw)

theorem subtreeArity_attained (t : Lit α) : ∃ q w, t.at? q = some w ∧ w.used = subtreeArity t := by
  by_cases h0 : subtreeArity t = 0
  · exact ⟨[], t, by cases t; rfl, by
      have := (subtreeArity_le t 0).mp (by omega) [] t (by cases t; rfl)
      omega⟩
  · suffices ¬ ∀ q w, t.at? q = some w → w.used ≤ subtreeArity t - 1 by
      simp only [Classical.not_forall] at this
      obtain ⟨q, w, hw, hn⟩ := this
      have := (subtreeArity_le t _).mp (Nat.le_refl _) q w hw
      exact ⟨q, w, hw, by omega⟩
    intro h
    have := (subtreeArity_le t _).mpr h
    omega

end Lit

namespace SNode
variable {α : Type}

theorem Obj.at_some {s : SNode α} {t : Lit α} {ts : List (Lit α)} (H : Obj s t ts) (p : List Nat) {u : Lit α}
    (hu : t.at? p = some u) : ∃ c us, s.at? p = some c ∧ Obj c u us ∧ c.getLevel = s.getLevel + p.length ∧
      c.getIndex = p.getLastD s.getIndex := by
  induction p generalizing s t ts with
  | nil =>
    cases t
    simp only [Lit.at?, Option.some.injEq] at hu
    subst hu
    exact ⟨s, ts, rfl, H, rfl, rfl⟩
  | cons i p ih =>
    obtain ⟨v, cs⟩ := t
    rw [Lit.at?] at hu
    obtain ⟨x, hx, hu⟩ := Option.bind_eq_some_iff.mp hu
    rcases H.getChild i with ⟨h, -⟩ | ⟨y, us, c, hd, hc, S⟩
    · rw [hx] at h; cases h
    · have : y = x := by
        have := congrArg (·[0]?) hd
        simp only [List.getElem?_drop, Nat.add_zero, hx, List.getElem?_cons_zero, Option.some.injEq] at this
        exact this.symm
      subst this
      obtain ⟨c', us', h1, h2, h3, h4⟩ := ih S.obj hu
      refine ⟨c', us', by rw [at?, hc]; exact h1, h2, ?_, ?_⟩
      · rw [h3, S.level.1, List.length_cons]; omega
      · rw [h4, S.level.2.1]
        cases p <;> rfl

theorem Obj.at_none {s : SNode α} {t : Lit α} {ts : List (Lit α)} (H : Obj s t ts) (p : List Nat)
    (hu : t.at? p = none) : s.at? p = none := by
  induction p generalizing s t ts with
  | nil => cases t; cases hu
  | cons i p ih =>
    obtain ⟨v, cs⟩ := t
    rw [Lit.at?] at hu
    rcases H.getChild i with ⟨h, h'⟩ | ⟨y, us, c, hd, hc, S⟩
    · rw [at?, h']; rfl
    · have hx : cs[i]? = some y := by
        have := congrArg (·[0]?) hd
        simpa using this
      rw [hx] at hu
      rw [at?, hc]
      exact ih S.obj hu

end SNode

namespace Expr
variable {α : Type}
open SNode

theorem call_obj {s : SNode α} {v : Option α} {old new rest : List (Lit α)} (H : Obj s (.node v old) rest)
    {ss : List (SNode α)} (R : Row (ss.foldr (fun element accumulated => element.withNext accumulated) SNode.empty) new) :
    Obj (s.call ss) (.node v new) rest := by
  cases H with
  | mk h1 h2 => exact R.obj_make h2

mutual
theorem eval_of_means {e : Expr α} {t : Lit α} {ts : List (Lit α)} (M : Means e t ts) :
    ∃ s, eval e = some s ∧ Obj s t ts := by
  cases M with
  | n v => exact ⟨_, rfl, Row.obj_make .empty (.empty (l := 0) (i := 0))⟩
  | hole => exact ⟨_, rfl, Row.obj_make .empty (.empty (l := 0) (i := 0))⟩
  | call M1 M2 hv =>
    obtain ⟨s, hs, H⟩ := eval_of_means M1
    obtain ⟨ss, hss, R⟩ := evalL_of_means M2
    have O := call_obj H R
    refine ⟨_, ?_, O⟩
    rw [eval, hs, hss]
    have h := O.first
    simp only [Option.bind_eq_bind, Option.bind_some]
    rw [if_neg]
    simp only [Bool.and_eq_true, Option.isNone_iff_eq_none, h.2, Bool.not_eq_true', not_and]
    intro hvn
    have h1 := h.1
    rw [hv hvn] at h1
    cases h' : (s.call ss).first with
    | empty => simp [SNode.isEmpty]
    | mk => rw [h'] at h1; cases h1
  | @child e v cs rest ts t i M1 hd =>
    obtain ⟨s, hs, H⟩ := eval_of_means M1
    rcases H.getChild i with ⟨h, -⟩ | ⟨y, us, c, hd', hc, S⟩
    · have := congrArg (·[0]?) hd
      simp [h] at this
    · rw [hd] at hd'
      cases hd'
      exact ⟨c, by rw [eval, hs]; exact hc, S.obj⟩
theorem evalL_of_means {es : List (Expr α)} {ts : List (Lit α)} (M : MeansL es ts) :
    ∃ ss, evalL es = some ss ∧ Row (ss.foldr (fun element accumulated => element.withNext accumulated) SNode.empty) ts := by
  cases M with
  | nil => exact ⟨[], rfl, .empty⟩
  | cons M1 M2 =>
    obtain ⟨s, hs, H⟩ := eval_of_means M1
    obtain ⟨ss, hss, R⟩ := evalL_of_means M2
    exact ⟨s :: ss, by rw [evalL, hs, hss]; rfl, H.withNext R⟩
end

mutual
theorem means_of_eval (e : Expr α) {s : SNode α} (h : eval e = some s) : ∃ t ts, Means e t ts := by
  match e with
  | .n v => exact ⟨_, _, .n v⟩
  | .hole => exact ⟨_, _, .hole⟩
  | .call e args =>
    rw [eval] at h
    obtain ⟨s0, hs, h⟩ := Option.bind_eq_some_iff.mp h
    obtain ⟨ss, hss, h⟩ := Option.bind_eq_some_iff.mp h
    obtain ⟨⟨v, old⟩, rest, M1⟩ := means_of_eval e hs
    obtain ⟨new, M2⟩ := meansL_of_eval args hss
    refine ⟨_, _, .call M1 M2 ?_⟩
    intro hv
    obtain ⟨s1, e1, H⟩ := eval_of_means M1
    rw [hs] at e1
    cases e1
    obtain ⟨ss1, e1, R⟩ := evalL_of_means M2
    rw [hss] at e1
    cases e1
    have O := (call_obj H R).first
    dsimp only at h
    split at h
    · cases h
    · rename_i hn
      rw [O.2, hv] at hn
      simp only [Option.isNone_none, Bool.true_and, Bool.not_eq_true, Bool.not_eq_false'] at hn
      have h1 := O.1
      cases h' : (s0.call ss).first with
      | empty => rw [h'] at h1; cases h1; rfl
      | mk => rw [h'] at hn; cases hn
  | .child e i =>
    rw [eval] at h
    obtain ⟨s0, hs, h⟩ := Option.bind_eq_some_iff.mp h
    obtain ⟨⟨v, old⟩, rest, M1⟩ := means_of_eval e hs
    obtain ⟨s1, e1, H⟩ := eval_of_means M1
    rw [hs] at e1
    cases e1
    rcases H.getChild i with ⟨-, h'⟩ | ⟨y, us, c, hd, hc, S⟩
    · rw [h'] at h; cases h
    · exact ⟨y, us, .child M1 hd⟩
theorem meansL_of_eval (es : List (Expr α)) {ss : List (SNode α)} (h : evalL es = some ss) : ∃ ts, MeansL es ts := by
  match es with
  | [] => exact ⟨_, .nil⟩
  | e :: es =>
    rw [evalL] at h
    obtain ⟨s0, hs, h⟩ := Option.bind_eq_some_iff.mp h
    obtain ⟨ss, hss, h⟩ := Option.bind_eq_some_iff.mp h
    obtain ⟨t, ts, M1⟩ := means_of_eval e hs
    obtain ⟨new, M2⟩ := meansL_of_eval es hss
    exact ⟨_, .cons M1 M2⟩
end

mutual
theorem means_unique {e : Expr α} {t t' : Lit α} {ts ts' : List (Lit α)} (M : Means e t ts) (M' : Means e t' ts') :
    t = t' ∧ ts = ts' := by
  cases M with
  | n v => cases M'; exact ⟨rfl, rfl⟩
  | hole => cases M'; exact ⟨rfl, rfl⟩
  | call M1 M2 _ =>
    cases M' with
    | call N1 N2 _ =>
      obtain ⟨h1, h2⟩ := means_unique M1 N1
      cases h1
      exact ⟨by rw [meansL_unique M2 N2], h2⟩
  | child M1 hd =>
    cases M' with
    | child N1 hd' =>
      obtain ⟨h1, h2⟩ := means_unique M1 N1
      cases h1
      rw [hd] at hd'
      cases hd'
      exact ⟨rfl, rfl⟩
theorem meansL_unique {es : List (Expr α)} {ts ts' : List (Lit α)} (M : MeansL es ts) (M' : MeansL es ts') : ts = ts' := by
  cases M with
  | nil => cases M'; rfl
  | cons M1 M2 =>
    cases M' with
    | cons N1 N2 => rw [(means_unique M1 N1).1, meansL_unique M2 N2]
end

end Expr

namespace Nary
variable {α : Type}
open SNode

/-- Building from the object is building from the literal. -/
theorem ofStruct_eq {s : SNode α} {t : Tree α} {ts : List (Tree α)}
    (H : Obj s (t.map some) (ts.map (Tree.map some))) (h : NHeap α) (par prev : Ptr) (fuel : Nat)
    (hf : Tree.sizeL (t :: ts) ≤ fuel) : ofStruct h s par prev = ofLits fuel h t ts par prev := by
  induction s generalizing t ts h par prev fuel with
  | empty => cases H
  | mk v f n l i ihf ihn =>
    obtain ⟨x, cs⟩ := t
    cases fuel with
    | zero => simp [Tree.sizeL, Tree.size] at hf
    | succ fuel =>
      rw [Tree.map, Tree.mapL_eq] at H
      simp only [Tree.sizeL, Tree.size] at hf
      cases H with
      | mk h1 h2 =>
        have hfol : (SNode.mk (some x) f n l i).followingSiblings = ts.length := by
          cases ts with
          | nil => cases h2; rfl
          | cons t2 ts =>
            have := h2.level.2.2
            rw [SNode.followingSiblings, this, h2.nonempty]
            simp
            omega
        rw [ofStruct, ofLits, hfol]
        cases ts with
        | nil =>
          cases h2
          cases cs with
          | nil => cases h1; simp [SNode.isEmpty_empty, Tree.children, Tree.label]
          | cons t2 cs =>
            have e := fun g a => ihf h1.obj g (some a) none fuel (by simp only [Tree.sizeL] at hf ⊢; omega)
            simp [SNode.isEmpty_empty, Tree.children, Tree.label, h1.nonempty, e]
        | cons t3 ts =>
          have e' := fun g a => ihn h2.obj g par (some a) fuel (by simp only [Tree.sizeL] at hf ⊢; omega)
          cases cs with
          | nil => cases h1; simp [SNode.isEmpty_empty, Tree.children, Tree.label, h2.nonempty, e']
          | cons t2 cs =>
            have e := fun g a => ihf h1.obj g (some a) none fuel (by simp only [Tree.sizeL] at hf ⊢; omega)
            simp [Tree.children, Tree.label, h1.nonempty, h2.nonempty, e, e']

end Nary

namespace Binary
variable {α : Type}
open SNode

/-- Building from the object is building from the literal. -/
theorem ofStruct_eq {s : SNode α} {t : Lit α} {ts : List (Lit α)} (H : Obj s t ts) (h : BHeap α) (fuel : Nat) :
    ofStruct fuel h s = ofLit' fuel h t := by
  induction fuel generalizing s t ts h with
  | zero => rfl
  | succ fuel ih =>
    obtain ⟨v, cs⟩ := t
    rw [ofStruct, ofLit', H.first.2]
    cases v with
    | none => rfl
    | some v =>
      have h1 := H.first.1
      generalize s.first = f at h1
      cases h1 with
      | empty => simp [SNode.isEmpty, Tree.children, Tree.label]
      | @mk v1 f1 n1 cs1 ts1 l i a1 a2 =>
        have e1 := fun g => ih (Obj.mk (v := v1) (l := s.getLevel + 1) (i := 0) a1 a2) g
        cases a2 with
        | empty => cases v1 <;> simp [SNode.isEmpty, Tree.children, Tree.label, SNode.value?, SNode.next, Res.bind_assoc, e1]
        | @mk v2 f2 n2 cs2 ts2 l i a3 a4 =>
          have e2 := fun g => ih (Obj.mk (v := v2) (l := s.getLevel + 1) (i := 1) a3 a4) g
          cases v1 <;> cases v2 <;> simp [SNode.isEmpty, Tree.children, Tree.label, SNode.value?, SNode.next, Res.bind_assoc, e1, e2]

end Binary
