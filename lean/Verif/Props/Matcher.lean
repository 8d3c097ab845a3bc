import Verif.Proof.Matcher
import Verif.Props.Named
/-!
# C52, C79: the pattern an expression makes

`PExpr.Means e t` (Spec/Written.lean): the expression `e` stands for the tree of matchers `t`. `Pat.Written name p t`: the pattern `p` is
the one written as `t`.
-/
open SNode Pat Samples

variable {α β : Type}

/-- An expression that means something compiles if no name is given twice, and it means one thing. -/
theorem C52_compiles {e : PExpr α β} {t : Tree (Label α β)} (M : PExpr.Means e t) :
    (e.distinct → (PExpr.eval e).isSome = true) ∧ ∀ t', PExpr.Means e t' → t' = t := by
  refine ⟨fun h => ?_, fun t' M' => PExpr.means_unique M' M⟩
  obtain ⟨s, hs, -⟩ := PExpr.eval_of_means M h
  rw [hs]; rfl

/-- The object it makes is searched as the pattern that is written: matcher by matcher the same kind and quantifier, accepting
the same values, with the same arguments and name. The matchers are different objects, and the names pass the check. -/
theorem C52_written [DecidableEq α] [DecidableEq β] {e : PExpr α β} {t : Tree (Label α β)} {s : SNode (Label α β)}
    (M : PExpr.Means e t) (hs : PExpr.eval e = some s) :
    ∃ p, s.pattern = some p ∧ Written s.nameOf p t ∧ p.ids.Nodup ∧ p.compiles s.nameOf = true := by
  have H := PExpr.holds M hs
  have hS := PExpr.sound hs
  have hw : WrittenL s.nameOf (s.pats 0) [t] := H.written 0 fun j l hl c hc => by
    simp [nameOf, hl, hc]
  have hi := H.ids 0
  have hv := H.valid hS 0 hw
  cases hp : s.pats 0 with
  | nil =>
    rw [hp] at hw
    simp only [WrittenL] at hw
    cases hw
  | cons p ps =>
    rw [hp] at hw hi hv
    simp only [WrittenL] at hw
    obtain ⟨t', us, e', h1, h2⟩ := hw
    cases e'
    cases ps with
    | cons q qs =>
      simp only [WrittenL] at h2
      obtain ⟨_, _, e', _⟩ := h2
      cases e'
    | nil =>
      refine ⟨p, by rw [pattern, hp]; rfl, h1, ?_, ?_⟩
      · have : p.ids = idsL [p] := by simp [ids, idsL, preL]
        rw [this, hi]
        exact List.Pairwise.map _ (by intro a b h; omega) List.nodup_range
      · simpa [validNamesL, compiles] using hv

/-- What is written decides which trees match: two patterns that are both written as `t` match the same trees, and if `t` has
no matcher that can match nothing neither has. -/
theorem C52_decides {name name' : Nat → List Char} {p p' : Pat α} {t : Tree (Label α β)} (h : Written name p t) (h' : Written name' p' t) :
    (p.plain ↔ p'.plain) ∧ ∀ {γ : Type} (val : γ → α) (T : Tree γ), Fits val p T ↔ Fits val p' T :=
  ⟨⟨plain_of_written p p' h h', plain_of_written p' p h' h⟩,
    fun _ T => ⟨fits_of_written p p' h h' T, fits_of_written p' p h' h T⟩⟩

/-- The captures are numbered in the order in which they are written. -/
theorem C52_captures {name : Nat → List Char} {p : Pat α} {t : Tree (Label α β)} (h : Written name p t) :
    p.markCount = t.pre.countP (fun l => l.kind = .cpt) ∧
    ∀ k : Nat, (p.captures[k]?).map (fun q : Pat α => name q.id) = (t.pre.filterMap Label.name?)[k]? := by
  have hc := written_captures p h
  refine ⟨?_, fun k => ?_⟩
  · have := congrArg List.length hc
    rw [List.length_map] at this
    rw [markCount, this, List.countP_eq_length_filter]
    generalize t.pre = l
    induction l with
    | nil => rfl
    | cons x l ih =>
      have e := name?_kind x
      cases hx : x.name? with
      | none => simp [hx] at e; simp [hx, e, ih]
      | some c => simp [hx] at e; simp [hx, e, ih]
  · rw [← hc, List.getElem?_map]

/-- An object made by an expression finds a tree exactly if it matches what is written, and never fails otherwise. -/
theorem C52_search_nary [DecidableEq α] [DecidableEq β] {e : PExpr α β} {t : Tree (Label α β)} {s : SNode (Label α β)} {p : Pat α}
    (M : PExpr.Means e t) (hs : PExpr.eval e = some s) (hp : s.pattern = some p)
    {name : Nat → List Char} {w : Pat α} (hw : Written name w t) (hplain : w.plain)
    {W : World (NNode α)} {ts : Nat → Option (Option (Tree (Addr × α)))} {x : Nat} {T : Option (Tree (Addr × α))}
    (O : Owned (Nary.shape α) W ts) (hx : ts x = some T) (m : Pattern.State) :
    ∃ ok m', W.search (Nary.kind α) NNode.value p m x = Res.ok (ok, m') ∧
      (ok = true ↔ ∃ u, T = some u ∧ Fits Prod.snd w u) := by
  obtain ⟨p', e1, h1, h2, -⟩ := C52_written M hs
  cases hp.symm.trans e1
  obtain ⟨hpl, hf⟩ := C52_decides h1 hw
  obtain ⟨ok, m', e2, -, h3, -⟩ := C35_search_nary O hx (hpl.mpr hplain) h2 m
  exact ⟨ok, m', e2, by simpa only [hf Prod.snd] using h3⟩

theorem C52_search_binary [DecidableEq α] [DecidableEq β] {e : PExpr α β} {t : Tree (Label α β)} {s : SNode (Label α β)} {p : Pat α}
    (M : PExpr.Means e t) (hs : PExpr.eval e = some s) (hp : s.pattern = some p)
    {name : Nat → List Char} {w : Pat α} (hw : Written name w t) (hplain : w.plain)
    {W : World (BNode α)} {ts : Nat → Option (BTree (Addr × α))} {x : Nat} {T : BTree (Addr × α)}
    (O : Owned (Binary.shape α) W ts) (hx : ts x = some T) (m : Pattern.State) :
    ∃ ok m', W.search (Binary.kind α) BNode.value p m x = Res.ok (ok, m') ∧
      (ok = true ↔ ∃ u, T.toRose = [u] ∧ Fits Prod.snd w u) := by
  obtain ⟨p', e1, h1, h2, -⟩ := C52_written M hs
  cases hp.symm.trans e1
  obtain ⟨hpl, hf⟩ := C52_decides h1 hw
  obtain ⟨ok, m', e2, -, h3, -⟩ := C35_search_binary O hx (hpl.mpr hplain) h2 m
  exact ⟨ok, m', e2, by simpa only [hf Prod.snd] using h3⟩

/-- C79: an expression that means nothing should not compile. A capture that is called, which the library means to
reject (capture.hpp 57-63), compiles and forgets what it was to capture: `cpt(e)(a)` is `cpt(a)`. -/
theorem C79_called_capture_defect {c : List Char} {e : PExpr α β} {w : Wanted α β} (he : (PExpr.eval (.cpt c e)).isSome = true) :
    (∀ t, ¬ PExpr.Means (.call (.cpt c e) [.one w]) t) ∧
    PExpr.eval (.call (.cpt c e) [.one w]) = PExpr.eval (.cpt c (.one w)) ∧
    (PExpr.eval (.call (.cpt c e) [.one w])).isSome = true := by
  obtain ⟨s, hs⟩ := Option.isSome_iff_exists.mp he
  have hs' := hs
  rw [PExpr.eval] at hs'
  obtain ⟨s0, -, hs'⟩ := Option.bind_eq_some_iff.mp hs'
  obtain ⟨rfl, -⟩ := PExpr.checked_some hs'
  refine ⟨fun t M => ?_, ?_, ?_⟩
  · cases M with
    | call M hk _ => cases M; exact hk rfl
  all_goals
    have h1 : ∀ s1 : SNode (Label α β), (make (some (Label.cpt c)) s1 .empty).checked = some (make (some (Label.cpt c)) s1 .empty) := by
      intro s1
      simp [checked, clash, make, Label.name?, SNode.isEmpty]
    have h2 : PExpr.eval (.call (.cpt c e) [.one w]) = some (make (some (Label.cpt c)) (make (some (Label.one w)) .empty .empty) .empty) := by
      rw [PExpr.eval, hs]
      have h3 : (make (some (Label.one w)) .empty .empty : SNode (Label α β)).checked = some (make (some (Label.one w)) .empty .empty) := rfl
      have h4 : callMatcher (make (some (Label.cpt c)) s0 .empty) [make (some (Label.one w)) .empty .empty] =
          some (make (some (Label.cpt c)) (make (some (Label.one w)) .empty .empty) .empty) := by
        rw [callMatcher, List.foldr_cons, List.foldr_nil]
        simp only [Option.bind_eq_bind, Option.bind_some]
        rw [show (make (some (Label.one w)) .empty .empty : SNode (Label α β)).withNext .empty = make (some (Label.one w)) .empty .empty from rfl, h3]
        exact h1 _
      simp only [PExpr.evalL, PExpr.eval, Option.bind_eq_bind, Option.bind_some, Option.pure_def, h4]
      rfl
    rw [h2]
  · rw [PExpr.eval]; exact (h1 _).symm
  · rfl

/-- In `1(2)`: `cpt(one(1))(one(2))` does not match, although what is written first does. -/
theorem C79_called_capture_search_defect : ∃ s p, PExpr.eval (.call (.cpt [] (.one (.value 1))) [.one (.value 2)] : PExpr Nat Nat) = some s ∧
    s.pattern = some p ∧ ¬ Fits (fun x : Nat => x) p (.node 1 [.node 2 []]) ∧
    ∃ s' p', PExpr.eval (.cpt [] (.one (.value 1)) : PExpr Nat Nat) = some s' ∧ s'.pattern = some p' ∧
      Fits (fun x : Nat => x) p' (.node 1 [.node 2 []]) := by
  refine ⟨_, _, rfl, rfl, ?_, _, _, rfl, rfl, ?_⟩
  · show ¬ Fits _ (Pat.node 0 .cpt (fun _ => true) [Pat.node 1 .one (2 == ·) []]) _
    simp only [Fits, FitsL]
    rintro ⟨l, u, r, e, ⟨h, -⟩, -⟩
    match l, e with
    | [], e => cases e; cases h
    | [_], e => cases e
    | _ :: _ :: _, e => cases e
  · show Fits _ (Pat.node 0 .cpt (fun _ => true) [Pat.node 1 .one (1 == ·) []]) _
    simp only [Fits, FitsL]
    exact ⟨[], _, [], rfl, ⟨rfl, trivial⟩, trivial⟩

/-! The hypotheses are met: `one(1)(cpt("a", one(having(1, mod 5))(opt<RELUCTANT>())), star(2))`. -/
namespace Samples
def written : PExpr Nat Nat :=
  .call (.one (.value 1)) [.cpt ['a'] (.call (.one (.having 1 (· % 5))) [.opt .reluctant .any]), .star .default (.value 2)]
def writtenMeans : Tree (Label Nat Nat) :=
  .node (.one (.value 1)) [.node (.cpt ['a']) [.node (.one (.having 1 (· % 5))) [.node (.opt .reluctant .any) []]],
    .node (.star .default (.value 2)) []]
theorem written_means : PExpr.Means written writtenMeans :=
  .call (.one _) (by simp [Label.kind]) (.cons (.cpt _ (.call (.one _) (by simp [Label.kind]) (.cons (.opt _ _) .nil))) (.cons (.star _ _) .nil))
theorem written_distinct : written.distinct := by simp [written, PExpr.distinct, PExpr.names, PExpr.namesL]
/-- `one(1)(cpt("a", one(2)(one(6))), opt(9)(one(having(4, id))))`, found in `1(2(5,6(7)),3,4)`. -/
def found : PExpr Nat Nat :=
  .call (.one (.value 1)) [.cpt ['a'] (.call (.one (.value 2)) [.one (.value 6)]), .call (.opt .default (.value 9)) [.one (.having 4 id)]]
def foundMeans : Tree (Label Nat Nat) :=
  .node (.one (.value 1)) [.node (.cpt ['a']) [.node (.one (.value 2)) [.node (.one (.value 6)) []]],
    .node (.opt .default (.value 9)) [.node (.one (.having 4 id)) []]]
theorem found_means : PExpr.Means found foundMeans :=
  .call (.one _) (by simp [Label.kind]) (.cons (.cpt _ (.call (.one _) (by simp [Label.kind]) (.cons (.one _) .nil)))
    (.cons (.call (.opt _ _) (by simp [Label.kind]) (.cons (.one _) .nil)) .nil))
end Samples

example : ∃ s, PExpr.eval written = some s ∧ PExpr.Means written writtenMeans ∧ written.distinct := ⟨_, rfl, written_means, written_distinct⟩
example : ∃ s p ts m', PExpr.eval found = some s ∧ s.pattern = some p ∧ PExpr.Means found foundMeans ∧ Written (fun _ => ['a']) pat foundMeans ∧
    pat.plain ∧ Owned (Nary.shape Nat) nworld ts ∧ ts 0 = some (some deep) ∧
    nworld.search (Nary.kind Nat) NNode.value p unused 0 = Res.ok (true, m') := by
  obtain ⟨ts, O, h0, -⟩ := nstate
  have hv : ∀ v x : Nat, (x == v) = true ↔ x = v := fun v x => by simp
  have hw : Written (fun _ => ['a']) pat foundMeans :=
    ⟨rfl, hv 1, nofun, _, _, rfl,
      ⟨rfl, fun _ => ⟨fun _ => trivial, fun _ => rfl⟩, fun c hc => Option.some.inj hc, _, _, rfl,
        ⟨rfl, hv 2, nofun, _, _, rfl, ⟨rfl, hv 6, nofun, rfl⟩, rfl⟩, rfl⟩,
      _, _, rfl, ⟨rfl, hv 9, nofun, _, _, rfl, ⟨rfl, hv 4, nofun, rfl⟩, rfl⟩, rfl⟩
  obtain ⟨m', e⟩ : ∃ m', nworld.search (Nary.kind Nat) NNode.value ((((PExpr.eval found).get rfl).pattern).get rfl) unused 0 = Res.ok (true, m') :=
    ok_of_test (by decide +kernel)
  exact ⟨_, _, ts, m', rfl, rfl, found_means, hw, pat_plain, O, h0, e⟩
