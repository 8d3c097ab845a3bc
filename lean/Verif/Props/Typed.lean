import Verif.Model.Typed
import Verif.Proof.Frame
import Verif.Props.Pattern
/-!
# C53, C80: assigning the result to a tree of the right kind

`lastFound` (Spec/Matched.lean): the object of the last search that found a match.
-/
open Tree Pat Samples
variable {α : Type}

namespace Session

theorem searches_type (p : Pat α) : ∀ (ts : List (Session α × Target)) (s s' : Pattern.Typed) (oks : List Bool),
    searches p s ts = Res.ok (oks, s') → oks.length = ts.length ∧
      s'.nodeType = ((lastFound ((ts.map Prod.snd).zip oks)).map Target.nodeType).or s.nodeType := by
  intro ts
  induction ts with
  | nil =>
    intro s s' oks h
    cases h
    exact ⟨rfl, rfl⟩
  | cons T ts ih =>
    obtain ⟨S, t⟩ := T
    intro s s' oks h
    rw [searches] at h
    obtain ⟨⟨ok, s1⟩, h1, h⟩ := Res.bind_eq_ok.mp h
    obtain ⟨⟨oks1, s2⟩, h2, h⟩ := Res.bind_eq_ok.mp h
    cases h
    obtain ⟨h3, h4⟩ := ih _ _ _ h2
    refine ⟨by simp [h3], ?_⟩
    rw [h4]
    rw [search] at h1
    obtain ⟨⟨ok', m⟩, -, h1⟩ := Res.bind_eq_ok.mp h1
    cases h1
    simp only [List.map_cons, List.zip_cons_cons, lastFound]
    cases lastFound ((ts.map Prod.snd).zip oks1) with
    | some u => rfl
    | none => cases ok <;> simp

end Session

/-- The check of an assignment to an nary tree throws exactly if the last match was not found in an nary tree, and then nothing
changes. -/
theorem C53_throws_nary {p q : Pat α} {ts : List (Session α × Target)} {oks : List Bool} {s : Pattern.Typed}
    (h : Session.searches p .new ts = Res.ok (oks, s)) (S : Session α) (y : Nat) :
    ((∀ x, lastFound ((ts.map Prod.snd).zip oks) ≠ some (.naryTree x)) → S.assignNary q s y = Res.ok (false, S)) ∧
    (∀ x, lastFound ((ts.map Prod.snd).zip oks) = some (.naryTree x) → ∀ S', S.assignNary q s y ≠ Res.ok (false, S')) := by
  obtain ⟨-, ht⟩ := Session.searches_type p ts _ _ _ h
  constructor
  · intro hx
    have : s.nodeType ≠ some (Target.naryTree y).nodeType := by
      rw [ht]
      cases hl : lastFound ((ts.map Prod.snd).zip oks) with
      | none => simp [Pattern.Typed.new]
      | some t =>
        cases t with
        | naryTree x => exact absurd hl (hx x)
        | binaryTree x => simp [Target.nodeType, Target.isBinary]
        | naryView x => simp [Target.nodeType, Target.isView]
        | binaryView x => simp [Target.nodeType, Target.isBinary]
    rw [Session.assignNary, if_pos this]; rfl
  · intro x hx S' h'
    have : s.nodeType = some (Target.naryTree y).nodeType := by rw [ht, hx]; rfl
    rw [Session.assignNary, if_neg (by simpa using this)] at h'
    split at h'
    · cases h'
    · obtain ⟨_, _, h'⟩ := Res.bind_eq_ok.mp h'
      cases h'

theorem C53_throws_binary {p q : Pat α} {ts : List (Session α × Target)} {oks : List Bool} {s : Pattern.Typed}
    (h : Session.searches p .new ts = Res.ok (oks, s)) (S : Session α) (y : Nat) :
    ((∀ x, lastFound ((ts.map Prod.snd).zip oks) ≠ some (.binaryTree x)) → S.assignBinary q s y = Res.ok (false, S)) ∧
    (∀ x, lastFound ((ts.map Prod.snd).zip oks) = some (.binaryTree x) → ∀ S', S.assignBinary q s y ≠ Res.ok (false, S')) := by
  obtain ⟨-, ht⟩ := Session.searches_type p ts _ _ _ h
  constructor
  · intro hx
    have : s.nodeType ≠ some (Target.binaryTree y).nodeType := by
      rw [ht]
      cases hl : lastFound ((ts.map Prod.snd).zip oks) with
      | none => simp [Pattern.Typed.new]
      | some t =>
        cases t with
        | binaryTree x => exact absurd hl (hx x)
        | naryTree x => simp [Target.nodeType, Target.isBinary]
        | naryView x => simp [Target.nodeType, Target.isView]
        | binaryView x => simp [Target.nodeType, Target.isBinary, Target.isView]
    rw [Session.assignBinary, if_pos this]; rfl
  · intro x hx S' h'
    have : s.nodeType = some (Target.binaryTree y).nodeType := by rw [ht, hx]; rfl
    rw [Session.assignBinary, if_neg (by simpa using this)] at h'
    split at h'
    · cases h'
    · obtain ⟨_, _, h'⟩ := Res.bind_eq_ok.mp h'
      cases h'

/-- After a match in an nary tree `x`, whatever was searched before, `assign_result` makes an nary tree `y` the nodes matched (C35 says which these
are). -/
theorem C53_result_nary {S S2 : Session α} {ts ts2 : Nat → Option (Option (Tree (Addr × α)))} {x y : Nat} {T : Tree (Addr × α)}
    {u : Option (Tree (Addr × α))} (O : Owned (Nary.shape α) S.nary ts) (hx : ts x = some (some T)) {p : Pat α} (hp : p.plain)
    (hn : p.ids.Nodup) {s s' : Pattern.Typed} (hsearch : S.search p s (.naryTree x) = Res.ok (true, s'))
    (O2 : Owned (Nary.shape α) S2.nary ts2) (hx2 : ts2 x = some (some T)) (hy : ts2 y = some u) :
    ∃ W' c n, S2.assignNary p s' y = Res.ok (true, ⟨W', S2.binary⟩) ∧
      Owned (Nary.shape α) W' (upd ts2 y (some (some n))) ∧ n.vals = c.vals ∧ Tree.Part c T ∧
      Exact Prod.snd Prod.fst s'.memo.marks p c := by
  rw [Session.search, Session.searchIn] at hsearch
  obtain ⟨⟨ok, m⟩, h1, hs⟩ := Res.bind_eq_ok.mp hsearch
  cases hs
  obtain ⟨⟨ok', s1⟩, h2, hs⟩ := Res.bind_eq_ok.mp h1
  cases hs
  obtain ⟨W', c, n, e, h3, h4, h5, h6, -⟩ := C35_result_nary O hx hp hn h2 O2 hx2 hy
  have ht : s1.typed = true := by
    obtain ⟨ok, s2, e2, h7, -⟩ := C35_search_nary O hx hp hn ⟨s.memo, false⟩
    cases h2.symm.trans e2
    simpa using h7
  refine ⟨W', c, n, ?_, h3, h4, h5, h6⟩
  rw [Session.assignNary, if_neg (by simp [Target.nodeType, Target.isBinary, Target.isView]), if_neg (by simp [Target.isBinary])]
  have e' : S2.nary.assignPart (Nary.kind α) NNode.value (Nary.builder α) p ⟨s1.memo, true⟩ y = Res.ok (true, W') := by
    have : (⟨s1.memo, true⟩ : Pattern.State) = s1 := by cases s1; cases ht; rfl
    rw [this]; exact e
  show (S2.nary.assignPart (Nary.kind α) NNode.value (Nary.builder α) p ⟨s1.memo, true⟩ y).bind _ = _
  rw [e']; rfl

theorem C53_result_binary {S S2 : Session α} {ts ts2 : Nat → Option (BTree (Addr × α))} {x y : Nat} {t u : BTree (Addr × α)}
    (O : Owned (Binary.shape α) S.binary ts) (hx : ts x = some t) {p : Pat α} (hp : p.plain)
    (hn : p.ids.Nodup) {s s' : Pattern.Typed} (hsearch : S.search p s (.binaryTree x) = Res.ok (true, s'))
    (O2 : Owned (Binary.shape α) S2.binary ts2) (hx2 : ts2 x = some t) (hy : ts2 y = some u) :
    ∃ W' c n C, S2.assignBinary p s' y = Res.ok (true, ⟨S2.nary, W'⟩) ∧
      Owned (Binary.shape α) W' (upd ts2 y (some n)) ∧ n.vals = c.vals ∧ BTree.Part c t ∧ c.toRose = [C] ∧
      Exact Prod.snd Prod.fst s'.memo.marks p C := by
  rw [Session.search, Session.searchIn] at hsearch
  obtain ⟨⟨ok, m⟩, h1, hs⟩ := Res.bind_eq_ok.mp hsearch
  cases hs
  obtain ⟨⟨ok', s1⟩, h2, hs⟩ := Res.bind_eq_ok.mp h1
  cases hs
  obtain ⟨W', c, n, C, e, h3, h4, h5, h6, h7, -⟩ := C35_result_binary O hx hp hn h2 O2 hx2 hy
  have ht : s1.typed = true := by
    obtain ⟨ok, s2, e2, h8, -⟩ := C35_search_binary O hx hp hn ⟨s.memo, false⟩
    cases h2.symm.trans e2
    simpa using h8
  refine ⟨W', c, n, C, ?_, h3, h4, h5, h6, h7⟩
  rw [Session.assignBinary, if_neg (by simp [Target.nodeType, Target.isBinary, Target.isView]), if_neg (by simp [Target.isBinary])]
  have e' : S2.binary.assignPart (Binary.kind α) BNode.value (Binary.builder α) p ⟨s1.memo, true⟩ y = Res.ok (true, W') := by
    have : (⟨s1.memo, true⟩ : Pattern.State) = s1 := by cases s1; cases ht; rfl
    rw [this]; exact e
  show (S2.binary.assignPart (Binary.kind α) BNode.value (Binary.builder α) p ⟨s1.memo, true⟩ y).bind _ = _
  rw [e']; rfl

/-- A search that fails keeps the kind of tree: after a match in an nary tree and then a failed search in an nary tree, `assign_result` empties the tree. -/
theorem C53_failed_nary {p : Pat α} (hp : p.plain) (hn : p.ids.Nodup) {hist : List (Session α × Target)} {oks : List Bool} {s s' : Pattern.Typed} {z : Nat}
    (h : Session.searches p .new hist = Res.ok (oks, s)) (hz : lastFound ((hist.map Prod.snd).zip oks) = some (.naryTree z))
    {S S2 : Session α} {ts : Nat → Option (Option (Tree (Addr × α)))} {ts2 : Nat → Option (Option (Tree (Addr × α)))} {x y : Nat} {t : Option (Tree (Addr × α))} {u : Option (Tree (Addr × α))}
    (O : Owned (Nary.shape α) S.nary ts) (hx : ts x = some t) (hsearch : S.search p s (.naryTree x) = Res.ok (false, s'))
    (O2 : Owned (Nary.shape α) S2.nary ts2) (hy : ts2 y = some u) :
    ∃ W', S2.assignNary p s' y = Res.ok (true, ⟨W', S2.binary⟩) ∧ Owned (Nary.shape α) W' (upd ts2 y (some none)) := by
  obtain ⟨-, ht⟩ := Session.searches_type p hist _ _ _ h
  rw [hz] at ht
  rw [Session.search, Session.searchIn] at hsearch
  obtain ⟨⟨ok, m⟩, h1, hs⟩ := Res.bind_eq_ok.mp hsearch
  cases hs
  obtain ⟨⟨ok', s1⟩, h2, hs⟩ := Res.bind_eq_ok.mp h1
  cases hs
  have hm : s1.memo.marks p.id = none := by
    obtain ⟨ok, s2, e, -, h3⟩ := Nary.search_spec O hx hp hn ⟨s.memo, false⟩
    cases h2.symm.trans e
    rcases h3 with ⟨h, _⟩ | ⟨_, h3, _⟩
    · cases h
    · exact h3
  obtain ⟨W', e, h3⟩ := Nary.assignPart_none (s := ⟨s1.memo, true⟩) (q := p) O2 hy rfl hm
  refine ⟨W', ?_, h3⟩
  rw [Session.assignNary, if_neg (by simp [ht]; rfl), if_neg (by simp [hm])]
  show (S2.nary.assignPart (Nary.kind α) NNode.value (Nary.builder α) p ⟨s1.memo, true⟩ y).bind _ = _
  rw [e]; rfl

/-- The same when the search that fails is in a binary tree. -/
theorem C53_failed_nary_after_binary {p : Pat α} (hp : p.plain) (hn : p.ids.Nodup) {hist : List (Session α × Target)} {oks : List Bool} {s s' : Pattern.Typed} {z : Nat}
    (h : Session.searches p .new hist = Res.ok (oks, s)) (hz : lastFound ((hist.map Prod.snd).zip oks) = some (.naryTree z))
    {S S2 : Session α} {ts : Nat → Option (BTree (Addr × α))} {ts2 : Nat → Option (Option (Tree (Addr × α)))} {x y : Nat} {t : BTree (Addr × α)} {u : Option (Tree (Addr × α))}
    (O : Owned (Binary.shape α) S.binary ts) (hx : ts x = some t) (hsearch : S.search p s (.binaryTree x) = Res.ok (false, s'))
    (O2 : Owned (Nary.shape α) S2.nary ts2) (hy : ts2 y = some u) :
    ∃ W', S2.assignNary p s' y = Res.ok (true, ⟨W', S2.binary⟩) ∧ Owned (Nary.shape α) W' (upd ts2 y (some none)) := by
  obtain ⟨-, ht⟩ := Session.searches_type p hist _ _ _ h
  rw [hz] at ht
  rw [Session.search, Session.searchIn] at hsearch
  obtain ⟨⟨ok, m⟩, h1, hs⟩ := Res.bind_eq_ok.mp hsearch
  cases hs
  obtain ⟨⟨ok', s1⟩, h2, hs⟩ := Res.bind_eq_ok.mp h1
  cases hs
  have hm : s1.memo.marks p.id = none := by
    obtain ⟨ok, s2, e, -, h3⟩ := Binary.search_spec O hx hp hn ⟨s.memo, false⟩
    cases h2.symm.trans e
    rcases h3 with ⟨h, _⟩ | ⟨_, h3, _⟩
    · cases h
    · exact h3
  obtain ⟨W', e, h3⟩ := Nary.assignPart_none (s := ⟨s1.memo, true⟩) (q := p) O2 hy rfl hm
  refine ⟨W', ?_, h3⟩
  rw [Session.assignNary, if_neg (by simp [ht]; rfl), if_neg (by simp [hm])]
  show (S2.nary.assignPart (Nary.kind α) NNode.value (Nary.builder α) p ⟨s1.memo, true⟩ y).bind _ = _
  rw [e]; rfl

/-- A search that fails keeps the kind of tree: after a match in a binary tree and then a failed search in a binary tree, `assign_result` empties the tree. -/
theorem C53_failed_binary {p : Pat α} (hp : p.plain) (hn : p.ids.Nodup) {hist : List (Session α × Target)} {oks : List Bool} {s s' : Pattern.Typed} {z : Nat}
    (h : Session.searches p .new hist = Res.ok (oks, s)) (hz : lastFound ((hist.map Prod.snd).zip oks) = some (.binaryTree z))
    {S S2 : Session α} {ts : Nat → Option (BTree (Addr × α))} {ts2 : Nat → Option (BTree (Addr × α))} {x y : Nat} {t : BTree (Addr × α)} {u : BTree (Addr × α)}
    (O : Owned (Binary.shape α) S.binary ts) (hx : ts x = some t) (hsearch : S.search p s (.binaryTree x) = Res.ok (false, s'))
    (O2 : Owned (Binary.shape α) S2.binary ts2) (hy : ts2 y = some u) :
    ∃ W', S2.assignBinary p s' y = Res.ok (true, ⟨S2.nary, W'⟩) ∧ Owned (Binary.shape α) W' (upd ts2 y (some .nil)) := by
  obtain ⟨-, ht⟩ := Session.searches_type p hist _ _ _ h
  rw [hz] at ht
  rw [Session.search, Session.searchIn] at hsearch
  obtain ⟨⟨ok, m⟩, h1, hs⟩ := Res.bind_eq_ok.mp hsearch
  cases hs
  obtain ⟨⟨ok', s1⟩, h2, hs⟩ := Res.bind_eq_ok.mp h1
  cases hs
  have hm : s1.memo.marks p.id = none := by
    obtain ⟨ok, s2, e, -, h3⟩ := Binary.search_spec O hx hp hn ⟨s.memo, false⟩
    cases h2.symm.trans e
    rcases h3 with ⟨h, _⟩ | ⟨_, h3, _⟩
    · cases h
    · exact h3
  obtain ⟨W', e, h3⟩ := Binary.assignPart_none (s := ⟨s1.memo, true⟩) (q := p) O2 hy rfl hm
  refine ⟨W', ?_, h3⟩
  rw [Session.assignBinary, if_neg (by simp [ht]; rfl), if_neg (by simp [hm])]
  show (S2.binary.assignPart (Binary.kind α) BNode.value (Binary.builder α) p ⟨s1.memo, true⟩ y).bind _ = _
  rw [e]; rfl

/-- The same when the search that fails is in an nary tree. -/
theorem C53_failed_binary_after_nary {p : Pat α} (hp : p.plain) (hn : p.ids.Nodup) {hist : List (Session α × Target)} {oks : List Bool} {s s' : Pattern.Typed} {z : Nat}
    (h : Session.searches p .new hist = Res.ok (oks, s)) (hz : lastFound ((hist.map Prod.snd).zip oks) = some (.binaryTree z))
    {S S2 : Session α} {ts : Nat → Option (Option (Tree (Addr × α)))} {ts2 : Nat → Option (BTree (Addr × α))} {x y : Nat} {t : Option (Tree (Addr × α))} {u : BTree (Addr × α)}
    (O : Owned (Nary.shape α) S.nary ts) (hx : ts x = some t) (hsearch : S.search p s (.naryTree x) = Res.ok (false, s'))
    (O2 : Owned (Binary.shape α) S2.binary ts2) (hy : ts2 y = some u) :
    ∃ W', S2.assignBinary p s' y = Res.ok (true, ⟨S2.nary, W'⟩) ∧ Owned (Binary.shape α) W' (upd ts2 y (some .nil)) := by
  obtain ⟨-, ht⟩ := Session.searches_type p hist _ _ _ h
  rw [hz] at ht
  rw [Session.search, Session.searchIn] at hsearch
  obtain ⟨⟨ok, m⟩, h1, hs⟩ := Res.bind_eq_ok.mp hsearch
  cases hs
  obtain ⟨⟨ok', s1⟩, h2, hs⟩ := Res.bind_eq_ok.mp h1
  cases hs
  have hm : s1.memo.marks p.id = none := by
    obtain ⟨ok, s2, e, -, h3⟩ := Nary.search_spec O hx hp hn ⟨s.memo, false⟩
    cases h2.symm.trans e
    rcases h3 with ⟨h, _⟩ | ⟨_, h3, _⟩
    · cases h
    · exact h3
  obtain ⟨W', e, h3⟩ := Binary.assignPart_none (s := ⟨s1.memo, true⟩) (q := p) O2 hy rfl hm
  refine ⟨W', ?_, h3⟩
  rw [Session.assignBinary, if_neg (by simp [ht]; rfl), if_neg (by simp [hm])]
  show (S2.binary.assignPart (Binary.kind α) BNode.value (Binary.builder α) p ⟨s1.memo, true⟩ y).bind _ = _
  rw [e]; rfl

/-- C80: a match found in a view can never be assigned, not even to a tree with the same kind of nodes. -/
theorem C80_view_defect {S S2 : Session α} {p q : Pat α} {s s' : Pattern.Typed} {root : Ptr} (y : Nat) :
    (S.search p s (.naryView root) = Res.ok (true, s') → S2.assignNary q s' y = Res.ok (false, S2)) ∧
    (S.search p s (.binaryView root) = Res.ok (true, s') → S2.assignBinary q s' y = Res.ok (false, S2)) := by
  constructor <;> intro h <;> rw [Session.search] at h <;> obtain ⟨⟨ok, m⟩, -, h⟩ := Res.bind_eq_ok.mp h <;> cases h
  · rw [Session.assignNary, if_pos (by simp [Target.nodeType, Target.isView])]; rfl
  · rw [Session.assignBinary, if_pos (by simp [Target.nodeType, Target.isView])]; rfl

namespace Samples
/-- `nary_tree<int> x{n(1)(n(2))}` and `binary_tree<int> x{n(1)(n(2), n(3))}`, and empty trees `y`. -/
def session : Session Nat :=
  ⟨after (Nary.kind Nat) [.newLit 0 (.node 1 [.node 2 []]), .newEmpty 1],
   after (Binary.kind Nat) [.newLit 0 (.node (some 1) [.node (some 2) [], .node (some 3) []]), .newEmpty 1]⟩
/-- `one(1)(cpt(one(2)), one(3))` -/
def mixed : Pat Nat := one 0 1 [cpt 1 (one 2 2 []), one 3 3 []]
end Samples

/-- The check does not see that the matchers have been used since: `one(1)(cpt(one(2)), one(3))` is found in the binary tree
`1(2,3)`, then searched without success in the nary tree `1(2)`, and then the node of the nary tree that the capture remembers is
taken for a binary node when it is assigned to a binary tree. -/
theorem C80_wrong_kind_defect : ∃ s, Session.searches mixed .new [(session, .binaryTree 0), (session, .naryTree 0)] = Res.ok ([true, false], s) ∧
    session.assignBinary (cpt 1 (one 2 2 [])) s 1 = Res.ub := by
  obtain ⟨⟨oks, s⟩, e, h⟩ := Res.ok_and (r := Session.searches mixed .new [(session, .binaryTree 0), (session, .naryTree 0)])
    (P := fun r => r.1 = [true, false] ∧ r.2.nodeType = some ⟨true, false⟩ ∧ r.2.memo.marks 1 = some 1 ∧ r.2.binary = false) (by decide +kernel)
  obtain ⟨rfl, h1, h2, h3⟩ := h
  dsimp only at h1 h2 h3
  refine ⟨s, e, ?_⟩
  rw [Session.assignBinary, if_neg (by rw [h1]; decide), if_pos (by rw [h3]; simp [cpt, Pat.id, h2])]

/-- Non-vacuity: in the sample states, `one(1)(one(2))` is found in both trees `x0` and not in the empty trees `x1`. -/
def Samples.both : Session Nat := ⟨nworld, bworld⟩

example : ∃ ts tb, Owned (Nary.shape Nat) both.nary ts ∧ ts 0 = some (some deep) ∧ ts 1 = some none ∧
    Owned (Binary.shape Nat) both.binary tb ∧ tb 0 = some bin ∧ tb 1 = some .nil := by
  obtain ⟨ts, h1, h2, h3, -⟩ := nstate
  obtain ⟨tb, h4, h5, h6, -⟩ := bstate
  exact ⟨ts, tb, h1, h2, h3, h4, h5, h6⟩

example : ∃ s, Session.searches (one 0 1 [one 1 2 []]) .new
      [(both, .binaryTree 0), (both, .naryTree 1), (both, .naryTree 0), (both, .binaryTree 1)] = Res.ok ([true, false, true, false], s) ∧
    lastFound ([Target.binaryTree 0, .naryTree 1, .naryTree 0, .binaryTree 1].zip [true, false, true, false]) = some (.naryTree 0) := by
  obtain ⟨⟨oks, s⟩, e, h⟩ := Res.ok_and (r := Session.searches (one 0 1 [one 1 2 []]) .new
    [(both, .binaryTree 0), (both, .naryTree 1), (both, .naryTree 0), (both, .binaryTree 1)]) (P := fun r => r.1 = [true, false, true, false]) (by decide +kernel)
  cases h
  exact ⟨s, e, rfl⟩

example : (one 0 1 [one 1 2 []] : Pat Nat).plain ∧ (one 0 1 [one 1 2 []] : Pat Nat).ids.Nodup :=
  ⟨by simp [one, plain, plainL], by decide⟩

example : ∃ s, Session.searches (one 0 1 [one 1 2 []]) .new [(both, .naryView (some 0))] = Res.ok ([true], s) := by
  obtain ⟨⟨oks, s⟩, e, h⟩ := Res.ok_and (r := Session.searches (one 0 1 [one 1 2 []]) .new
    [(both, .naryView (some 0))]) (P := fun r => r.1 = [true]) (by decide +kernel)
  cases h
  exact ⟨s, e⟩
