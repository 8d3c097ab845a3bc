import Verif.Props.StarResult
import Verif.Proof.Again
/-!
# C104: what a pattern gives back is matched by it again

`plain`, `solid`: no matcher of the pattern can match nothing; a `plain` pattern has no `star`. `thin`: every reluctant `star` has
one argument; `single`: every `star` that is not possessive has.
-/
open Tree World Pat
variable {α : Type}

namespace Pat
mutual
theorem solid_of_plain : (p : Pat α) → p.plain → p.solid
  | node _ .one _ ps, h => by simp only [plain] at h; simp only [solid]; exact solidL_of_plain ps h
  | node _ .cpt _ ps, h => by simp only [plain] at h; simp only [solid]; exact ⟨h.1, solidL_of_plain ps h.2⟩
  | node _ (.opt _) _ ps, h => by simp only [plain] at h; simp only [solid]; exact ⟨h.1, solidL_of_plain ps h.2⟩
  | node _ (.star _) _ _, h => by simp [plain] at h
theorem solidL_of_plain : (ps : List (Pat α)) → plainL ps → solidL ps
  | [], _ => by simp [solidL]
  | p :: ps, h => by simp only [plainL] at h; simp only [solidL]; exact ⟨solid_of_plain p h.1, solidL_of_plain ps h.2⟩
end
theorem plain.thin {p : Pat α} (h : p.plain) : p.thin := fun i f ps hm => absurd hm (h.starless i _ f ps)
theorem plain.solid {p : Pat α} (h : p.plain) : p.solid := solid_of_plain p h
end Pat

theorem bpart_size {β : Type} {c t : BTree β} (h : BTree.Part c t) : c.size ≤ t.size ∧ (c.size = t.size → c = t) := by
  induction h with
  | nil t => cases t <;> simp [BTree.size]
  | node a _ _ ih1 ih2 =>
    simp only [BTree.size]
    refine ⟨by omega, fun e => ?_⟩
    rw [ih1.2 (by omega), ih2.2 (by omega)]

/-- After a successful search of the tree `T` of `x` the result is assigned to `y`: the pattern matches the new tree of `y`. So in
any later state in which `y` still has that tree the search of `y` succeeds, with a new pattern object or with the same one. -/
theorem C104_found_again_nary {W W2 : World (NNode α)} {ts ts2 : Nat → Option (Option (Tree (Addr × α)))} {x y : Nat} {T : Tree (Addr × α)}
    {u : Option (Tree (Addr × α))} (O : Owned (Nary.shape α) W ts) (hx : ts x = some (some T)) {p : Pat α} (hp : p.solid) (ht : p.thin)
    (hn : p.ids.Nodup) {s s' : Pattern.State} (hsearch : W.search (Nary.kind α) NNode.value p s x = Res.ok (true, s'))
    (O2 : Owned (Nary.shape α) W2 ts2) (hx2 : ts2 x = some (some T)) (hy : ts2 y = some u) :
    ∃ W' n, W2.assignResult (Nary.kind α) NNode.value (Nary.builder α) p s' y = Res.ok (true, W') ∧
      Owned (Nary.shape α) W' (upd ts2 y (some (some n))) ∧ Fits Prod.snd p n ∧
      ∀ W3 ts3, Owned (Nary.shape α) W3 ts3 → ts3 y = some (some n) → p.single → ∀ s3, SearchedIn (Nary.shape α) NNode.value ts3 p s3 →
        ∃ s4, W3.search (Nary.kind α) NNode.value p s3 y = Res.ok (true, s4) := by
  obtain ⟨W', c, n, h1, h2, h3, -, h4, -⟩ := C42_result_nary O hx hp ht hn hsearch O2 hx2 hy
  have hf : Fits Prod.snd p n := (fits_vals h3).mpr (yields_fits p _ _ h4)
  refine ⟨W', n, h1, h2, hf, ?_⟩
  intro W3 ts3 O3 hy3 hs s3 hs3
  obtain ⟨ok, s4, e, hok⟩ := C41_exact_nary O3 hy3 hp hs hn hs3
  cases hok.mpr ⟨n, rfl, hf⟩
  exact ⟨s4, e⟩

theorem C104_found_again_binary {W W2 : World (BNode α)} {ts ts2 : Nat → Option (BTree (Addr × α))} {x y : Nat} {t u : BTree (Addr × α)}
    (O : Owned (Binary.shape α) W ts) (hx : ts x = some t) {p : Pat α} (hp : p.solid) (ht : p.thin)
    (hn : p.ids.Nodup) {s s' : Pattern.State} (hsearch : W.search (Binary.kind α) BNode.value p s x = Res.ok (true, s'))
    (O2 : Owned (Binary.shape α) W2 ts2) (hx2 : ts2 x = some t) (hy : ts2 y = some u) :
    ∃ W' n N, W2.assignResult (Binary.kind α) BNode.value (Binary.builder α) p s' y = Res.ok (true, W') ∧
      Owned (Binary.shape α) W' (upd ts2 y (some n)) ∧ n.toRose = [N] ∧ Fits Prod.snd p N ∧
      ∀ W3 ts3, Owned (Binary.shape α) W3 ts3 → ts3 y = some n → p.single → ∀ s3, SearchedIn (Binary.shape α) BNode.value ts3 p s3 →
        ∃ s4, W3.search (Binary.kind α) BNode.value p s3 y = Res.ok (true, s4) := by
  obtain ⟨W', c, n, T, C, h1, h2, h3, -, -, h5, h4, -⟩ := C42_result_binary O hx hp ht hn hsearch O2 hx2 hy
  have e : n.toRose.map (Tree.map Prod.snd) = [C.map Prod.snd] := by
    rw [← BTree.toRose_map]
    show n.vals.toRose = _
    rw [h3]
    show (c.map Prod.snd).toRose = _
    rw [BTree.toRose_map, h5]; rfl
  obtain ⟨N, hN, eN⟩ : ∃ N, n.toRose = [N] ∧ N.map Prod.snd = C.map Prod.snd := by
    obtain ⟨N, l, e1, e2, e3⟩ := List.map_eq_cons_iff.mp e
    simp only [List.map_eq_nil_iff] at e3
    subst e3
    exact ⟨N, e1, e2⟩
  have hf : Fits Prod.snd p N := (fits_vals eN).mpr (yields_fits p _ _ h4)
  refine ⟨W', n, N, h1, h2, hN, hf, ?_⟩
  intro W3 ts3 O3 hy3 hs s3 hs3
  obtain ⟨ok, s4, e, hok⟩ := C41_exact_binary O3 hy3 hp hs hn hs3
  cases hok.mpr ⟨N, hN, hf⟩
  exact ⟨s4, e⟩

/-- The same for `assign_mark`: what is assigned for a capture is matched by the capture. -/
theorem C104_mark_again_nary {W W2 : World (NNode α)} {ts ts2 : Nat → Option (Option (Tree (Addr × α)))} {x y k : Nat} {T : Tree (Addr × α)}
    {u : Option (Tree (Addr × α))} (O : Owned (Nary.shape α) W ts) (hx : ts x = some (some T)) {p q : Pat α} (hp : p.solid) (ht : p.thin)
    (hn : p.ids.Nodup) {s s' : Pattern.State} (hsearch : W.search (Nary.kind α) NNode.value p s x = Res.ok (true, s'))
    (hq : (p.pre.filter (fun q => q.kind = .cpt))[k - 1]? = some q)
    (O2 : Owned (Nary.shape α) W2 ts2) (hx2 : ts2 x = some (some T)) (hy : ts2 y = some u) :
    ∃ W' n, W2.assignMark (Nary.kind α) NNode.value (Nary.builder α) p s' k y = Res.ok (true, W') ∧
      Owned (Nary.shape α) W' (upd ts2 y (some (some n))) ∧ Fits Prod.snd q n := by
  obtain ⟨W', c, n, fs, v, h1, h2, h3, -, -, -, h4, -⟩ := C42_mark_nary O hx hp ht hn hsearch hq O2 hx2 hy
  exact ⟨W', n, h1, h2, (fits_vals h3).mpr (yields_fits q _ _ h4)⟩

theorem C104_mark_again_binary {W W2 : World (BNode α)} {ts ts2 : Nat → Option (BTree (Addr × α))} {x y k : Nat} {t u : BTree (Addr × α)}
    (O : Owned (Binary.shape α) W ts) (hx : ts x = some t) {p q : Pat α} (hp : p.solid) (ht : p.thin)
    (hn : p.ids.Nodup) {s s' : Pattern.State} (hsearch : W.search (Binary.kind α) BNode.value p s x = Res.ok (true, s'))
    (hq : (p.pre.filter (fun q => q.kind = .cpt))[k - 1]? = some q)
    (O2 : Owned (Binary.shape α) W2 ts2) (hx2 : ts2 x = some t) (hy : ts2 y = some u) :
    ∃ W' n N, W2.assignMark (Binary.kind α) BNode.value (Binary.builder α) p s' k y = Res.ok (true, W') ∧
      Owned (Binary.shape α) W' (upd ts2 y (some n)) ∧ n.toRose = [N] ∧ Fits Prod.snd q N := by
  obtain ⟨W', c, n, fs, v, V, C, h1, h2, h3, -, -, -, -, h5, h4, -⟩ := C42_mark_binary O hx hp ht hn hsearch hq O2 hx2 hy
  have e : n.toRose.map (Tree.map Prod.snd) = [C.map Prod.snd] := by
    rw [← BTree.toRose_map]
    show n.vals.toRose = _
    rw [h3]
    show (c.map Prod.snd).toRose = _
    rw [BTree.toRose_map, h5]; rfl
  obtain ⟨N, l, e1, e2, e3⟩ := List.map_eq_cons_iff.mp e
  simp only [List.map_eq_nil_iff] at e3
  subst e3
  exact ⟨W', n, N, h1, h2, e1, (fits_vals e2).mpr (yields_fits q _ _ h4)⟩

/-- For patterns without `star` the result of searching the result is the result: whatever pattern object state the second search
starts from, it succeeds, and its result, assigned to any `z`, has the same values. -/
theorem C104_same_result_nary {W W2 : World (NNode α)} {ts ts2 : Nat → Option (Option (Tree (Addr × α)))} {x y : Nat} {T : Tree (Addr × α)}
    {u : Option (Tree (Addr × α))} (O : Owned (Nary.shape α) W ts) (hx : ts x = some (some T)) {p : Pat α} (hp : p.plain)
    (hn : p.ids.Nodup) {s s' : Pattern.State} (hsearch : W.search (Nary.kind α) NNode.value p s x = Res.ok (true, s'))
    (O2 : Owned (Nary.shape α) W2 ts2) (hx2 : ts2 x = some (some T)) (hy : ts2 y = some u) :
    ∃ W' n, W2.assignResult (Nary.kind α) NNode.value (Nary.builder α) p s' y = Res.ok (true, W') ∧
      Owned (Nary.shape α) W' (upd ts2 y (some (some n))) ∧
      ∀ W3 ts3, Owned (Nary.shape α) W3 ts3 → ts3 y = some (some n) → ∀ s3,
        ∃ s4, W3.search (Nary.kind α) NNode.value p s3 y = Res.ok (true, s4) ∧
          ∀ W4 ts4 z v, Owned (Nary.shape α) W4 ts4 → ts4 y = some (some n) → ts4 z = some v →
            ∃ W5 n', W4.assignResult (Nary.kind α) NNode.value (Nary.builder α) p s4 z = Res.ok (true, W5) ∧
              Owned (Nary.shape α) W5 (upd ts4 z (some (some n'))) ∧ n'.vals = n.vals := by
  obtain ⟨W', c, n, h1, h2, h3, -, h4, -⟩ := C42_result_nary O hx hp.solid hp.thin hn hsearch O2 hx2 hy
  have hF : Found Prod.snd Prod.fst s'.marks p T := by
    obtain ⟨ok, s1, e, -, -, h, -⟩ := C35_search_nary O hx hp hn s
    cases hsearch.symm.trans e
    exact (h rfl T rfl).1
  have hT : T.addrs.Nodup := ((Nary.shape_rep _ _).mp (O.rep x _ hx)).2
  refine ⟨W', n, h1, h2, ?_⟩
  intro W3 ts3 O3 hy3 s3
  have hf : Fits Prod.snd p n := (fits_vals h3).mpr (yields_fits p _ _ h4)
  have hN : n.addrs.Nodup := ((Nary.shape_rep _ _).mp (O3.rep y _ hy3)).2
  obtain ⟨ok, s4, e, -, hok, hfound, -⟩ := C35_search_nary O3 hy3 hp hn s3
  cases hok.mpr ⟨n, rfl, hf⟩
  refine ⟨s4, e, ?_⟩
  intro W4 ts4 z v O4 hy4 hz
  obtain ⟨W5, c', n', k1, k2, k3, -, k4, -⟩ := C42_result_nary O3 hy3 hp.solid hp.thin hn e O4 hy4 hz
  refine ⟨W5, n', k1, k2, ?_⟩
  rw [k3, yields_again p hp T c n c' hT hN hF h4 h3.symm (hfound rfl n rfl).1 k4]

theorem C104_same_result_binary {W W2 : World (BNode α)} {ts ts2 : Nat → Option (BTree (Addr × α))} {x y : Nat} {t u : BTree (Addr × α)}
    (O : Owned (Binary.shape α) W ts) (hx : ts x = some t) {p : Pat α} (hp : p.plain)
    (hn : p.ids.Nodup) {s s' : Pattern.State} (hsearch : W.search (Binary.kind α) BNode.value p s x = Res.ok (true, s'))
    (O2 : Owned (Binary.shape α) W2 ts2) (hx2 : ts2 x = some t) (hy : ts2 y = some u) :
    ∃ W' n, W2.assignResult (Binary.kind α) BNode.value (Binary.builder α) p s' y = Res.ok (true, W') ∧
      Owned (Binary.shape α) W' (upd ts2 y (some n)) ∧
      ∀ W3 ts3, Owned (Binary.shape α) W3 ts3 → ts3 y = some n → ∀ s3,
        ∃ s4, W3.search (Binary.kind α) BNode.value p s3 y = Res.ok (true, s4) ∧
          ∀ W4 ts4 z v, Owned (Binary.shape α) W4 ts4 → ts4 y = some n → ts4 z = some v →
            ∃ W5 n', W4.assignResult (Binary.kind α) BNode.value (Binary.builder α) p s4 z = Res.ok (true, W5) ∧
              Owned (Binary.shape α) W5 (upd ts4 z (some n')) ∧ n'.vals = n.vals := by
  obtain ⟨W', c, n, T, C, h1, h2, h3, -, h6, h5, h4, -⟩ := C42_result_binary O hx hp.solid hp.thin hn hsearch O2 hx2 hy
  have e : n.toRose.map (Tree.map Prod.snd) = [C.map Prod.snd] := by
    rw [← BTree.toRose_map]
    show n.vals.toRose = _
    rw [h3]
    show (c.map Prod.snd).toRose = _
    rw [BTree.toRose_map, h5]; rfl
  obtain ⟨N, hN, eN⟩ : ∃ N, n.toRose = [N] ∧ N.map Prod.snd = C.map Prod.snd := by
    obtain ⟨N, l, e1, e2, e3⟩ := List.map_eq_cons_iff.mp e
    simp only [List.map_eq_nil_iff] at e3
    subst e3
    exact ⟨N, e1, e2⟩
  have hF : Found Prod.snd Prod.fst s'.marks p T := by
    obtain ⟨ok, s1, e, -, -, h, -⟩ := C35_search_binary O hx hp hn s
    cases hsearch.symm.trans e
    exact (h rfl T h6).1
  have nd : ∀ {b : BTree (Addr × α)} {B : Tree (Addr × α)}, b.toRose = [B] → b.addrs.Nodup → (B.pre.map Prod.fst).Nodup := by
    intro b B hb h
    have := BTree.preL_toRose b
    rw [hb] at this
    simp only [Tree.preL, List.append_nil] at this
    rw [this]; exact h
  have hT := nd h6 ((Binary.shape_rep _ _).mp (O.rep x _ hx)).2
  refine ⟨W', n, h1, h2, ?_⟩
  intro W3 ts3 O3 hy3 s3
  have hf : Fits Prod.snd p N := (fits_vals eN).mpr (yields_fits p _ _ h4)
  have hNn := nd hN ((Binary.shape_rep _ _).mp (O3.rep y _ hy3)).2
  obtain ⟨ok, s4, e, -, hok, hfound, -⟩ := C35_search_binary O3 hy3 hp hn s3
  cases hok.mpr ⟨N, hN, hf⟩
  refine ⟨s4, e, ?_⟩
  intro W4 ts4 z v O4 hy4 hz
  obtain ⟨W5, c', n', T', C', k1, k2, k3, k6, k5, k7, k4, -⟩ := C42_result_binary O3 hy3 hp.solid hp.thin hn e O4 hy4 hz
  refine ⟨W5, n', k1, k2, ?_⟩
  rw [hN] at k5
  simp only [List.cons.injEq, and_true] at k5
  subst k5
  have eC := yields_again p hp T C N C' hT hNn hF h4 eN.symm (hfound rfl N hN).1 k4
  rw [k3]
  have := (bpart_size k6).2 (by rw [← Binary.size_toRose c', ← Binary.size_toRose n, k7, hN, eC])
  rw [this]

/-! ## The hypotheses are met -/
open Samples

example : ∃ ts s', Owned (Nary.shape Nat) nworld ts ∧ ts 0 = some (some deep) ∧ ts 1 = some none ∧ pat.plain ∧ pat.ids.Nodup ∧
    nworld.search (Nary.kind Nat) NNode.value pat unused 0 = Res.ok (true, s') := by
  obtain ⟨ts, O, h0, h1, _⟩ := nstate
  obtain ⟨s', e⟩ : ∃ s', nworld.search (Nary.kind Nat) NNode.value pat unused 0 = Res.ok (true, s') := ok_of_test (by decide +kernel)
  exact ⟨ts, s', O, h0, h1, pat_plain, pat_ids, e⟩
example : ∃ ts s', Owned (Binary.shape Nat) bworld ts ∧ ts 0 = some bin ∧ ts 1 = some .nil ∧ (bpat 5).plain ∧ (bpat 5).ids.Nodup ∧
    bworld.search (Binary.kind Nat) BNode.value (bpat 5) unused 0 = Res.ok (true, s') := by
  obtain ⟨ts, O, h0, h1, _⟩ := bstate
  obtain ⟨s', e⟩ : ∃ s', bworld.search (Binary.kind Nat) BNode.value (bpat 5) unused 0 = Res.ok (true, s') := ok_of_test (by decide +kernel)
  exact ⟨ts, s', O, h0, h1, by simp [bpat, one, cpt, plain, plainL], by decide, e⟩
/-- With `star`: searched in `x0`; `single` for the second search. -/
example : ∃ ts s, Owned (Nary.shape Nat) nworld ts ∧ ts 0 = some (some deep) ∧ ts 1 = some none ∧ (starPat 4).solid ∧ (starPat 4).thin ∧
    (starPat 4).single ∧ (starPat 4).ids.Nodup ∧ nworld.search (Nary.kind Nat) NNode.value (starPat 4) unused 0 = Res.ok (true, s) ∧
    SearchedIn (Nary.shape Nat) NNode.value ts (starPat 4) s ∧ ((starPat 4).pre.filter (fun q => q.kind = .cpt)).length = 1 := by
  obtain ⟨ts, O, h0, h1, _⟩ := nstate
  obtain ⟨s, e⟩ : ∃ s', nworld.search (Nary.kind Nat) NNode.value (starPat 4) unused 0 = Res.ok (true, s') := ok_of_test (by decide +kernel)
  exact ⟨ts, s, O, h0, h1, starPat_solid 4, starPat_thin 4, starPat_single 4, by decide, e,
    .search (.new unused fun _ => rfl) O rfl e, by decide⟩

/-! ## Where the claim fails -/

namespace Samples
/-- `star(v)(one(2), one(2))` for the values `v` below 3. -/
def twoTwos : Pat Nat := star .default 0 (· < 3) [one 1 2 [], one 2 2 []]
end Samples

/-- `star(…)(one(2), one(2))` is found in `1(2(2, 2), 3)`, with the result `1(2(2, 2))`; it is not found in its own result: with the
first `2` taken there is nothing after it any more, and the search does not go below (matcher.hpp 244). -/
theorem C72_own_result_defect : ∃ W' n, searchAssign (Nary.kind Nat) NNode.value (Nary.builder Nat)
      (after (Nary.kind Nat) [.newLit 0 (node 1 [node 2 [node 2 [], node 2 []], node 3 []]), .newEmpty 1]) twoTwos = Res.ok (true, W') ∧
    W'.vars 1 = some ⟨some n.addr, 0, 0, some n.addr⟩ ∧ Nary.Rep W'.heap n ∧ n.vals = node 1 [node 2 [node 2 [], node 2 []]] ∧
    ∃ s, W'.search (Nary.kind Nat) NNode.value twoTwos unused 1 = Res.ok (false, s) := by
  obtain ⟨⟨b, W'⟩, e, rfl, h1, h2, h3⟩ := Res.ok_and (r := searchAssign (Nary.kind Nat) NNode.value (Nary.builder Nat)
      (after (Nary.kind Nat) [.newLit 0 (node 1 [node 2 [node 2 [], node 2 []], node 3 []]), .newEmpty 1]) twoTwos)
    (P := fun x => x.1 = true ∧ x.2.vars 1 = some ⟨some 5, 0, 0, some 5⟩ ∧
      Nary.Rep x.2.heap (node (5, 1) [node (8, 2) [node (6, 2) [], node (7, 2) []]]) ∧
      (match x.2.search (Nary.kind Nat) NNode.value twoTwos unused 1 with | .ok (b, _) => !b | _ => false) = true)
    (by decide +kernel)
  refine ⟨W', node (5, 1) [node (8, 2) [node (6, 2) [], node (7, 2) []]], e, h1, h2, rfl, ?_⟩
  dsimp only at h3
  split at h3
  · rename_i b s es
    cases b
    · exact ⟨s, es⟩
    · cases h3
  · cases h3

/-- `star<RELUCTANT>()(one(3), one(2))` in `1(2(3, 2))` has the result `1(2(3), 2(2))`; searched again it has the result `1(2(3), 2)`. -/
theorem C73_second_result_defect : ∃ W1 W2 n n' s, searchAssign (Nary.kind Nat) NNode.value (Nary.builder Nat)
      (after (Nary.kind Nat) [.newLit 0 (node 1 [node 2 [node 3 [], node 2 []]]), .newEmpty 1])
      (star .reluctant 0 (fun _ => true) [one 1 3 [], one 2 2 []]) = Res.ok (true, W1) ∧
    W1.vars 1 = some ⟨some n.addr, 0, 0, some n.addr⟩ ∧ Nary.Rep W1.heap n ∧ n.vals = node 1 [node 2 [node 3 []], node 2 [node 2 []]] ∧
    W1.search (Nary.kind Nat) NNode.value (star .reluctant 0 (fun _ => true) [one 1 3 [], one 2 2 []]) unused 1 = Res.ok (true, s) ∧
    W1.assignResult (Nary.kind Nat) NNode.value (Nary.builder Nat) (star .reluctant 0 (fun _ => true) [one 1 3 [], one 2 2 []]) s 0 =
      Res.ok (true, W2) ∧
    W2.vars 0 = some ⟨some n'.addr, 0, 0, some n'.addr⟩ ∧ Nary.Rep W2.heap n' ∧ n'.vals = node 1 [node 2 [node 3 []], node 2 []] := by
  obtain ⟨⟨b, W1⟩, e, rfl, h1, h2, h3⟩ := Res.ok_and (r := searchAssign (Nary.kind Nat) NNode.value (Nary.builder Nat)
      (after (Nary.kind Nat) [.newLit 0 (node 1 [node 2 [node 3 [], node 2 []]]), .newEmpty 1])
      (star .reluctant 0 (fun _ => true) [one 1 3 [], one 2 2 []]))
    (P := fun x => x.1 = true ∧ x.2.vars 1 = some ⟨some 4, 0, 0, some 4⟩ ∧
      Nary.Rep x.2.heap (node (4, 1) [node (6, 2) [node (5, 3) []], node (8, 2) [node (7, 2) []]]) ∧
      (match x.2.search (Nary.kind Nat) NNode.value (star .reluctant 0 (fun _ => true) [one 1 3 [], one 2 2 []]) unused 1 with
        | .ok (b, s) => match x.2.assignResult (Nary.kind Nat) NNode.value (Nary.builder Nat)
            (star .reluctant 0 (fun _ => true) [one 1 3 [], one 2 2 []]) s 0 with
          | .ok (b', W2) => b && b' && decide (W2.vars 0 = some ⟨some 9, 0, 0, some 9⟩ ∧
              Nary.Rep W2.heap (node (9, 1) [node (11, 2) [node (10, 3) []], node (12, 2) []]))
          | _ => false
        | _ => false) = true)
    (by decide +kernel)
  split at h3
  · split at h3
    · rename_i b s es _ b' W2 ea
      simp only [Bool.and_eq_true, decide_eq_true_eq] at h3
      obtain ⟨⟨rfl, rfl⟩, h4, h5⟩ := h3
      exact ⟨W1, W2, node (4, 1) [node (6, 2) [node (5, 3) []], node (8, 2) [node (7, 2) []]],
        node (9, 1) [node (11, 2) [node (10, 3) []], node (12, 2) []], s, e, h1, h2, rfl, es, ea, h4, h5, rfl⟩
    · simp at h3
  · simp at h3
