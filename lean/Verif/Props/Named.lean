import Verif.Model.Named
import Verif.Spec.Named
import Verif.Props.Pattern
/-!
# C48, C77: captures with a name

`name i` is the name of the capture with identity `i`, empty for a capture without a name. `Pat.withName` (Spec/Named.lean): the
captures with a given name.
-/
open Tree Pat Samples

variable {α : Type} {name : Nat → List Char}

namespace Pat

theorem indexOfCapture_spec (c : List Char) (qs : List (Pat α)) :
    qs[indexOfCapture name c qs]? = (qs.filter (fun q => decide (name q.id = c))).head? := by
  induction qs with
  | nil => simp [indexOfCapture]
  | cons q qs ih =>
    by_cases h : name q.id = c
    · simp [indexOfCapture, h]
    · simp [indexOfCapture, h, Nat.add_comm 1, ih]

theorem withName_captures (c : List Char) (p : Pat α) :
    p.withName name c = p.captures.filter (fun q => decide (name q.id = c)) := by
  rw [captures_pre, withName, List.filter_filter]
  congr 1
  funext q
  simp [Bool.decide_and, Bool.and_comm]

/-- A pattern that compiles: every matcher in it passed its check. -/
theorem validNames_mem {p : Pat α} : ∀ {b : Bool}, validNames name b p = true → ∀ {i k f l q q2 r},
    node i k f (l ++ q :: q2 :: r) ∈ p.pre → validNames name true q = true := by
  have hl : ∀ (l : List (Pat α)) (q q2 : Pat α) (r : List (Pat α)), validNamesL name (l ++ q :: q2 :: r) = true →
      validNames name true q = true := by
    intro l
    induction l with
    | nil =>
      intro q q2 r h
      simp only [List.nil_append, validNamesL, Bool.and_eq_true] at h
      simpa using h.1
    | cons p l ih =>
      intro q q2 r h
      simp only [List.cons_append, validNamesL, Bool.and_eq_true] at h
      exact ih q q2 r h.2
  suffices H : (∀ (p : Pat α) (b : Bool), validNames name b p = true → ∀ i k f l q q2 r,
      node i k f (l ++ q :: q2 :: r) ∈ p.pre → validNames name true q = true) by
    intro b h i k f l q q2 r hm
    exact H p b h i k f l q q2 r hm
  intro p
  induction p using Pat.rec (motive_2 := fun ps => validNamesL name ps = true → ∀ i k f l q q2 r,
      node i k f (l ++ q :: q2 :: r) ∈ preL ps → validNames name true q = true) with
  | node i k f ps ih =>
    intro b h i' k' f' l q q2 r hm
    simp only [validNames, Bool.and_eq_true] at h
    simp only [Pat.pre, List.mem_cons] at hm
    rcases hm with hm | hm
    · cases hm
      exact hl l q q2 r h.2
    · exact ih h.2 i' k' f' l q q2 r hm
  | nil =>
    rename_i hm
    simp [preL] at hm
  | cons p ps ihp ihps =>
    rename_i h i k f l q q2 r hm
    simp only [validNamesL, Bool.and_eq_true] at h
    simp only [preL, List.mem_append] at hm
    rcases hm with hm | hm
    · exact ihp _ h.1 i k f l q q2 r hm
    · exact ihps h.2 i k f l q q2 r hm

end Pat

/-- `assign_mark(name, y)` compiles exactly if the name is not empty and some capture of the pattern has it. -/
theorem C48_compiles {ν lit : Type} (K : Kind ν α lit) (value : ν → α) (B : Pattern.Builder ν) (W : World ν) (p : Pat α)
    (s : Pattern.State) (c : List Char) (y : Nat) :
    (W.assignMarkNamed K value B name p s c y).isSome ↔ c ≠ [] ∧ ∃ q ∈ p.pre, q.kind = .cpt ∧ name q.id = c := by
  have e := indexOfCapture_spec (name := name) c p.captures
  rw [← withName_captures] at e
  have hm : (∃ q ∈ p.pre, q.kind = .cpt ∧ name q.id = c) ↔ p.withName name c ≠ [] := by
    simp [withName, List.filter_eq_nil_iff]
  rw [hm]
  by_cases hc : c = []
  · simp [World.assignMarkNamed, hc]
  · by_cases hv : isValidName name c p.captures = true
    · have hlt : indexOfCapture name c p.captures < p.captures.length := by simpa [isValidName] using hv
      have hne : p.withName name c ≠ [] := by
        intro h0
        rw [h0] at e
        simp at e
        omega
      simp [World.assignMarkNamed, hc, hv, hlt, hne]
    · have hge : p.captures.length ≤ indexOfCapture name c p.captures := by simpa [isValidName] using hv
      have h0 : p.withName name c = [] := by
        rw [List.getElem?_eq_none hge] at e
        simpa using e.symm
      simp [World.assignMarkNamed, hc, hv, h0]

/-- It then does what `assign_mark(k, y)` does for the number `k` of the first capture with that name. -/
theorem C48_first {ν lit : Type} (K : Kind ν α lit) (value : ν → α) (B : Pattern.Builder ν) {p q : Pat α} {c : List Char}
    (hc : c ≠ []) (hq : (p.withName name c).head? = some q) :
    ∃ k, 1 ≤ k ∧ k ≤ p.markCount ∧ (p.pre.filter (fun q => q.kind = .cpt))[k - 1]? = some q ∧
      ∀ (W : World ν) (s : Pattern.State) (y : Nat),
        W.assignMarkNamed K value B name p s c y = some (W.assignMark K value B p s k y) := by
  have e := indexOfCapture_spec (name := name) c p.captures
  rw [← withName_captures, hq] at e
  have hlt := (List.getElem?_eq_some_iff.mp e).1
  refine ⟨indexOfCapture name c p.captures + 1, by omega, hlt, by rw [← captures_pre]; simpa using e, fun W s y => ?_⟩
  have hv : isValidName name c p.captures = true := by simpa [isValidName] using hlt
  simp only [World.assignMarkNamed, hc, if_false, hv, if_true, e, World.assignMark, Nat.add_sub_cancel, Option.map_some]

/-- A capture whose name no other capture has is the one a name designates: `assign_mark(name, y)` makes `y` a tree of new
nodes, the nodes matched within that capture. -/
theorem C48_mark_nary {W W2 : World (NNode α)} {ts ts2 : Nat → Option (Option (Tree (Addr × α)))} {x y : Nat} {T : Tree (Addr × α)}
    {u : Option (Tree (Addr × α))} (O : Owned (Nary.shape α) W ts) (hx : ts x = some (some T)) {p q : Pat α} (hp : p.plain)
    (hn : p.ids.Nodup) {s s' : Pattern.State} (hsearch : W.search (Nary.kind α) NNode.value p s x = Res.ok (true, s'))
    {c : List Char} (hc : c ≠ []) (hq : q ∈ p.pre) (hk : q.kind = .cpt) (hname : name q.id = c)
    (hu : ∀ q' ∈ p.pre, q'.kind = .cpt → name q'.id = c → q' = q)
    (O2 : Owned (Nary.shape α) W2 ts2) (hx2 : ts2 x = some (some T)) (hy : ts2 y = some u) :
    ∃ W' d n fs v, W2.assignMarkNamed (Nary.kind α) NNode.value (Nary.builder α) name p s' c y = some (Res.ok (true, W')) ∧
      Owned (Nary.shape α) W' (upd ts2 y (some (some n))) ∧ n.vals = d.vals ∧ plug fs v = T ∧ Tree.Part d v ∧
      s'.marks q.id = some v.label.1 ∧ Exact Prod.snd Prod.fst s'.marks q d ∧ (∀ a ∈ n.addrs, W2.heap.cells a = none) ∧
      (∀ z, z ≠ y → W'.vars z = W2.vars z) := by
  have hh : (p.withName name c).head? = some q := by
    have hmem : q ∈ p.withName name c := List.mem_filter.mpr ⟨hq, by simp [hk, hname]⟩
    cases hl : p.withName name c with
    | nil => rw [hl] at hmem; simp at hmem
    | cons q' l =>
      have : q' ∈ p.withName name c := by simp [hl]
      obtain ⟨h1, h2⟩ := List.mem_filter.mp this
      simp at h2
      simp [hu q' h1 h2.1 h2.2]
  obtain ⟨k, _, _, hk', hall⟩ := C48_first (Nary.kind α) NNode.value (Nary.builder α) hc hh
  obtain ⟨W', d, n, fs, v, h1, h2⟩ := C34_mark_nary O hx hp hn hsearch hk' O2 hx2 hy
  exact ⟨W', d, n, fs, v, by rw [hall, h1], h2⟩

theorem C48_mark_binary {W W2 : World (BNode α)} {ts ts2 : Nat → Option (BTree (Addr × α))} {x y : Nat} {t u : BTree (Addr × α)}
    (O : Owned (Binary.shape α) W ts) (hx : ts x = some t) {p q : Pat α} (hp : p.plain)
    (hn : p.ids.Nodup) {s s' : Pattern.State} (hsearch : W.search (Binary.kind α) BNode.value p s x = Res.ok (true, s'))
    {c : List Char} (hc : c ≠ []) (hq : q ∈ p.pre) (hk : q.kind = .cpt) (hname : name q.id = c)
    (hu : ∀ q' ∈ p.pre, q'.kind = .cpt → name q'.id = c → q' = q)
    (O2 : Owned (Binary.shape α) W2 ts2) (hx2 : ts2 x = some t) (hy : ts2 y = some u) :
    ∃ W' d n C fs v, W2.assignMarkNamed (Binary.kind α) BNode.value (Binary.builder α) name p s' c y = some (Res.ok (true, W')) ∧
      Owned (Binary.shape α) W' (upd ts2 y (some n)) ∧ n.vals = d.vals ∧ BTree.plug fs v = t ∧ BTree.Part d v ∧ d.toRose = [C] ∧
      s'.marks q.id = v.addr? ∧ Exact Prod.snd Prod.fst s'.marks q C ∧ (∀ a ∈ n.addrs, W2.heap.cells a = none) ∧
      (∀ z, z ≠ y → W'.vars z = W2.vars z) := by
  have hh : (p.withName name c).head? = some q := by
    have hmem : q ∈ p.withName name c := List.mem_filter.mpr ⟨hq, by simp [hk, hname]⟩
    cases hl : p.withName name c with
    | nil => rw [hl] at hmem; simp at hmem
    | cons q' l =>
      have : q' ∈ p.withName name c := by simp [hl]
      obtain ⟨h1, h2⟩ := List.mem_filter.mp this
      simp at h2
      simp [hu q' h1 h2.1 h2.2]
  obtain ⟨k, _, _, hk', hall⟩ := C48_first (Binary.kind α) BNode.value (Binary.builder α) hc hh
  obtain ⟨W', d, n, C, fs, v, h1, h2⟩ := C34_mark_binary O hx hp hn hsearch hk' O2 hx2 hy
  exact ⟨W', d, n, C, fs, v, by rw [hall, h1], h2⟩

/-- C77: two captures with the same name should never compile. Rejected is only a capture below another one with
the same name which has a next sibling; see `C77_duplicate_defect`. -/
theorem C77_unique_partial {p : Pat α} (hp : p.compiles name = true) {i : Nat} {k : MKind} {f : α → Bool} {l r : List (Pat α)}
    {j : Nat} {g : α → Bool} {ps : List (Pat α)} {q2 : Pat α} (hm : node i k f (l ++ node j .cpt g ps :: q2 :: r) ∈ p.pre)
    (hj : name j ≠ []) : ∀ q ∈ preL ps, q.kind = .cpt → name q.id ≠ name j := by
  intro q hq hk hn
  have hv := validNames_mem hp hm
  simp only [validNames, Bool.and_eq_true, Bool.not_eq_true'] at hv
  have hc : childrenCaptures true ps = capturesL ps := by cases ps <;> simp [childrenCaptures, capturesL]
  rw [hc] at hv
  have h1 : isValidName name (name j) (capturesL ps) = false := by
    have := hv.1
    simpa [hj] using this
  have hge : (capturesL ps).length ≤ indexOfCapture name (name j) (capturesL ps) := by simpa [isValidName] using h1
  have e := indexOfCapture_spec (name := name) (name j) (capturesL ps)
  rw [List.getElem?_eq_none hge] at e
  have : q ∈ (capturesL ps).filter (fun q => decide (name q.id = name j)) := by
    have hpre : capturesL ps = (preL ps).filter (fun q => q.kind = .cpt) := by
      have := captures_pre (node 0 .one (fun _ => true) ps)
      simpa [captures, Pat.pre, kind] using this
    simp [hpre, List.mem_filter, hq, hk, hn]
  rw [List.head?_eq_none_iff.mp e.symm] at this
  simp at this

/-- `one(1)(cpt("a", one(2)), cpt("a", one(3)))` and `cpt("a", one(1)(cpt("a", one(2))))` compile although both captures are
called "a"; the second one cannot be had by its name: `assign_mark("a", y)` is `assign_mark(1, y)`. -/
theorem C77_duplicate_defect {ν lit : Type} (K : Kind ν Nat lit) (value : ν → Nat) (B : Pattern.Builder ν) :
    ∀ p ∈ [one 0 1 [cpt 1 (one 2 2 []), cpt 3 (one 4 3 [])], cpt 1 (one 0 1 [cpt 3 (one 4 2 [])])],
      p.compiles (fun _ => ['a']) = true ∧ p.markCount = 2 ∧ ∀ (W : World ν) (s : Pattern.State) (y : Nat),
        W.assignMarkNamed K value B (fun _ => ['a']) p s ['a'] y = some (W.assignMark K value B p s 1 y) := by
  intro p hp
  simp only [List.mem_cons, List.not_mem_nil, or_false] at hp
  rcases hp with rfl | rfl <;> exact ⟨rfl, rfl, fun _ _ _ => rfl⟩

/-! The hypotheses are met: `one(1)(cpt("a", one(2)(one(6))), opt(9)(one(4)))` is found in `1(2(5,6(7)),3,4)`. A capture with the same name below a
capture with a next sibling does not compile. -/

example : ∃ ts s', Owned (Nary.shape Nat) nworld ts ∧ ts 0 = some (some deep) ∧ ts 1 = some none ∧
    nworld.search (Nary.kind Nat) NNode.value pat unused 0 = Res.ok (true, s') ∧
    ∃ q ∈ pat.pre, q.kind = .cpt ∧ (fun _ => ['a']) q.id = ['a'] ∧
      ∀ q' ∈ pat.pre, q'.kind = .cpt → (fun _ => ['a']) q'.id = ['a'] → q' = q := by
  obtain ⟨ts, O, h0, h1, _⟩ := nstate
  obtain ⟨s', e⟩ : ∃ s', nworld.search (Nary.kind Nat) NNode.value pat unused 0 = Res.ok (true, s') := ok_of_test (by decide +kernel)
  refine ⟨ts, s', O, h0, h1, e, cpt 1 (one 2 2 [one 3 6 []]), ?_, rfl, rfl, ?_⟩
  · simp [pat, one, cpt, Pat.pre, Pat.preL]
  · intro q' hq' hk _
    simp [pat, one, cpt, Pat.pre, Pat.preL] at hq'
    rcases hq' with rfl | rfl | rfl | rfl | rfl | rfl <;> simp [kind] at hk
    rfl

example : (one 0 1 [cpt 1 (one 2 2 [cpt 3 (one 4 5 [])]), one 5 6 []]).compiles (fun _ => ['a']) = false := rfl
example := C77_unique_partial (p := one 0 1 [cpt 1 (one 2 2 [cpt 3 (one 4 5 [])]), one 5 6 []]) (name := fun i => if i = 1 then ['a'] else ['b'])
  rfl (i := 0) (k := .one) (f := (· == 1)) (l := []) (r := []) (j := 1) (g := fun _ => true)
  (ps := [one 2 2 [cpt 3 (one 4 5 [])]]) (q2 := one 5 6 []) (by simp [one, cpt, Pat.pre]) (by simp)
