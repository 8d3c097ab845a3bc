import Verif.Props.SampleWorlds
/-!
# C20, C21, C62: size() and arity()

The true counts are `Shape.size` and `Shape.arity` (Spec/World.lean): number of nodes, largest number of children. The
library remembers counts and adjusts them with partial information; `KeepsCounts` (Spec/History.lean) describes the
histories in which it does so rightly. The theorems named `_defect` are histories of ordinary calls after which `size()` or
`arity()` is wrong.
-/
open Tree World

variable {α : Type}

/-! ## A discipline that keeps the counts right

Call `size()` and `arity()` on a tree right before each modification, and use only literals that fit and the overloads that
pass on what they know. -/

section
variable {ν lit T V C : Type} {K : Kind ν α lit} (S : Shape K T V C)

/-- `Careful ops`: each change of the nodes of a tree object comes right after `size()` and `arity()` of the same object. -/
inductive Careful : List (Op α lit) → Prop where
  | nil : Careful []
  | newEmpty x ops : Careful ops → Careful (.newEmpty x :: ops)
  | newCopy x y ops : Careful ops → Careful (.newCopy x y :: ops)
  | newMove x y ops : Careful ops → Careful (.newMove x y :: ops)
  | newLit x l ops : S.litFits l → Careful ops → Careful (.newLit x l :: ops)
  | destroy x ops : Careful ops → Careful (.destroy x :: ops)
  | clear x ops : Careful ops → Careful (.clear x :: ops)
  | assignCopy x y ops : Careful ops → Careful (.assignCopy x y :: ops)
  | assignMove x y ops : Careful ops → Careful (.assignMove x y :: ops)
  | assignLit x l ops : S.litFits l → Careful ops → Careful (.assignLit x l :: ops)
  | swap x y ops : Careful ops → Careful (.swap x y :: ops)
  | size x ops : Careful ops → Careful (.size x :: ops)
  | arity x ops : Careful ops → Careful (.arity x :: ops)
  | updateCounts x ops : Careful ops → Careful (.updateCounts x :: ops)
  | write x pos v ops : Careful ops → Careful (.write x pos v :: ops)
  | insertOver sb ab P x pos src ops : SrcFits S src → Careful ops →
      Careful (.size x :: .arity x :: .insertOver sb ab P x pos src :: ops)
  | insertChild front P x pos src ops : SrcFits S src → childCounts front src → Careful ops →
      Careful (.size x :: .arity x :: .insertChild front P x pos src :: ops)
  | erase x pos ops : Careful ops → Careful (.size x :: .arity x :: .erase x pos :: ops)

/-- In no state of the run has a tree 2^64 nodes. -/
def StaysSmall : World ν → List (Op α lit) → Prop
  | W, [] => ∀ ts, Owned S W ts → Small S ts
  | W, op :: ops => (∀ ts, Owned S W ts → Small S ts) ∧ ∀ W' o, W.step K op = Res.ok (W', o) → StaysSmall W' ops

end

namespace Generic
variable {ν lit T V C : Type} {K : Kind ν α lit} {S : Shape K T V C} {ts : Nat → Option T} {W : World ν}

theorem start_cached : Cached S (start : World ν) (fun _ => none) := fun _ _ _ h => by cases h

theorem counts (L : Lawful S) (D : Determined S) {ops : List (Op α lit)} (h : Supports S start ops) (hk : KeepsCounts S start ops) :
    ∃ W as ts, start.run K ops = Res.ok (W, as) ∧ Owned S W ts ∧ ∀ x t, ts x = some t →
      (∃ W', W.size K x = Res.ok (W', S.size t)) ∧ ∃ W', W.arity K x = Res.ok (W', S.arity t) := by
  obtain ⟨W, as, ts, h1, O, hC⟩ := history_counts L D ops (start_owned L) start_cached h hk
  refine ⟨W, as, ts, h1, O, fun x t ht => ⟨?_, ?_⟩⟩
  · obtain ⟨W', o, ts', e, _, _, hq⟩ := step_spec L O (.size x) (by show (ts x).isSome = true; simp [ht])
    have ho : o = .num (S.size t) := (hq hC).1 t ht
    subst ho
    simp only [World.step] at e
    cases hs : W.size K x with
    | ok p => rw [hs] at e; obtain ⟨W1, n⟩ := p; cases e; exact ⟨_, rfl⟩
    | ub => rw [hs] at e; cases e
    | diverge => rw [hs] at e; cases e
  · obtain ⟨W', o, ts', e, _, _, hq⟩ := step_spec L O (.arity x) (by show (ts x).isSome = true; simp [ht])
    have ho : o = .num (S.arity t) := (hq hC).1 t ht
    subst ho
    simp only [World.step] at e
    cases hs : W.arity K x with
    | ok p => rw [hs] at e; obtain ⟨W1, n⟩ := p; cases e; exact ⟨_, rfl⟩
    | ub => rw [hs] at e; cases e
    | diverge => rw [hs] at e; cases e

theorem keep1 (L : Lawful S) (D : Determined S) {op : Op α lit} {ops : List (Op α lit)} (O : Owned S W ts) (hC : Cached S W ts)
    (hs : Supports S W (op :: ops)) (hm : StaysSmall S W (op :: ops)) (hk : CountsOk S W ts op)
    (k : ∀ W1 o ts1, W.step K op = Res.ok (W1, o) → Effect S W.heap ts W1.heap ts1 o op → TrueCounts S ts o op → Owned S W1 ts1 →
      Cached S W1 ts1 → Supports S W1 ops → StaysSmall S W1 ops → KeepsCounts S W1 ops) : KeepsCounts S W (op :: ops) := by
  obtain ⟨⟨ts0, O0, hl⟩, hrest⟩ := hs
  have e := OwnedBut.unique D O0 O
  subst e
  refine ⟨fun us U => ?_, fun W1 o h => ?_⟩
  · have e := OwnedBut.unique D U O
    subst e
    exact ⟨hk, hm.1 _ O⟩
  · obtain ⟨W1', o', ts1, h1, h2, h3, h4⟩ := step_spec L O op hl
    rw [h1] at h; cases h
    have hm1 := hm.2 W1 o h1
    have hsm : Small S ts1 := by
      cases ops with
      | nil => exact hm1 ts1 h2
      | cons op' ops => exact hm1.1 ts1 h2
    exact k W1 o ts1 h1 h3 (h4 hC).1 h2 ((h4 hC).2 hk (hm.1 _ O) hsm) (hrest W1 o h1) hm1

theorem size_known {x : Nat} {W1 : World ν} {o : Ans} (h : W.step K (.size x) = Res.ok (W1, o)) :
    ∃ r, W1.vars x = some r ∧ o = .num r.size := by
  simp only [World.step, World.size, World.get] at h
  cases hv : W.vars x with
  | none => rw [hv] at h; cases h
  | some r =>
    rw [hv] at h
    simp only [Res.ok_bind, TreeOps.sizeQ] at h
    cases hr : r.root with
    | none => rw [hr] at h; cases h; exact ⟨r, by simp [put], rfl⟩
    | some a =>
      rw [hr] at h
      simp only at h
      split at h
      · cases hc : K.calcSize W.heap.fuel W.heap a with
        | ok n => rw [hc] at h; cases h; exact ⟨{ r with size := n }, by simp [put, hr], rfl⟩
        | ub => rw [hc] at h; cases h
        | diverge => rw [hc] at h; cases h
      · cases h; exact ⟨r, by simp [put], rfl⟩

theorem arity_known {x : Nat} {W1 : World ν} {o : Ans} {r : TreeRec} (h : W.step K (.arity x) = Res.ok (W1, o)) (hv : W.vars x = some r) :
    ∃ r', W1.vars x = some r' ∧ r'.size = r.size ∧ o = .num r'.arity := by
  simp only [World.step, World.arity, World.get] at h
  rw [hv] at h
  simp only [Res.ok_bind, TreeOps.arityQ] at h
  cases hr : r.root with
  | none => rw [hr] at h; cases h; exact ⟨r, by simp [put], rfl, rfl⟩
  | some a =>
    rw [hr] at h
    simp only at h
    split at h
    · cases hf : K.first W.heap a with
      | ub => rw [hf] at h; cases h
      | diverge => rw [hf] at h; cases h
      | ok q =>
        rw [hf] at h
        cases q with
        | none => cases h; exact ⟨r, by simp [put], rfl, rfl⟩
        | some b =>
          simp only [Res.ok_bind] at h
          cases hc : K.calcArity W.heap.fuel W.heap a with
          | ok n => rw [hc] at h; cases h; exact ⟨{ r with arity := n }, by simp [put, hr], rfl, rfl⟩
          | ub => rw [hc] at h; cases h
          | diverge => rw [hc] at h; cases h
    · cases h; exact ⟨r, by simp [put], rfl, rfl⟩

/-- After `size()` and `arity()` the object remembers both. -/
theorem keep3 (L : Lawful S) (D : Determined S) {x : Nat} {op : Op α lit} {ops : List (Op α lit)} (O : Owned S W ts) (hC : Cached S W ts)
    (hs : Supports S W (.size x :: .arity x :: op :: ops)) (hm : StaysSmall S W (.size x :: .arity x :: op :: ops))
    (hk : ∀ (W2 : World ν), Knows S W2 ts x → CountsOk S W2 ts op)
    (k : ∀ W1 ts1, Owned S W1 ts1 → Cached S W1 ts1 → Supports S W1 ops → StaysSmall S W1 ops → KeepsCounts S W1 ops) :
    KeepsCounts S W (.size x :: .arity x :: op :: ops) := by
  refine keep1 L D O hC hs hm trivial fun W1 o ts1 e1 f1 n1 O1 C1 s1 m1 => ?_
  obtain ⟨rfl, _⟩ : ts1 = ts ∧ _ := f1
  refine keep1 L D O1 C1 s1 m1 trivial fun W2 o2 ts2 e2 f2 n2 O2 C2 s2 m2 => ?_
  obtain ⟨rfl, _⟩ : ts2 = ts1 ∧ _ := f2
  refine keep1 L D O2 C2 s2 m2 (hk W2 ?_) fun W3 o3 ts3 _ _ _ O3 C3 s3 m3 => k W3 ts3 O3 C3 s3 m3
  intro r t hr ht
  obtain ⟨r1, v1, a1⟩ := size_known e1
  obtain ⟨r2, v2, b2, a2⟩ := arity_known e2 v1
  rw [hr] at v2; cases v2
  have q1 := n1 t ht
  have q2 := n2 t ht
  rw [a1] at q1; rw [a2] at q2
  exact ⟨by rw [b2]; exact Ans.num.inj q1, Ans.num.inj q2⟩

theorem size_ne (L : Lawful S) {P : Policy} {h : Heap ν} {t s : T} {c : C} {pos : It} (A : At S P h t pos c s) : S.size t ≠ 0 := by
  have h1 := size_plug (c := c) (s := s) L
  have h2 := size_pos L A.node
  rw [A.place] at h1
  omega

theorem careful_keeps (L : Lawful S) (D : Determined S) {ops : List (Op α lit)} (hc : Careful S ops) :
    ∀ {W : World ν} {ts : Nat → Option T}, Owned S W ts → Cached S W ts → Supports S W ops → StaysSmall S W ops → KeepsCounts S W ops := by
  induction hc with
  | nil => intro W ts O _ _ hm; exact hm
  | newLit x l ops hl _ ih => intro W ts O hC hs hm; exact keep1 L D O hC hs hm hl fun _ _ _ _ _ _ O1 C1 s1 m1 => ih O1 C1 s1 m1
  | assignLit x l ops hl _ ih => intro W ts O hC hs hm; exact keep1 L D O hC hs hm hl fun _ _ _ _ _ _ O1 C1 s1 m1 => ih O1 C1 s1 m1
  | insertOver sb ab P x pos src ops hf _ ih =>
    intro W ts O hC hs hm
    refine keep3 L D O hC hs hm (fun W2 hK => ⟨hf, fun r t c s hr ht A => Or.inr (Or.inr (Or.inl ?_))⟩) fun _ _ O1 C1 s1 m1 => ih O1 C1 s1 m1
    rw [(hK r t hr ht).1]; exact size_ne L A
  | insertChild front P x pos src ops hf hcc _ ih =>
    intro W ts O hC hs hm
    exact keep3 L D O hC hs hm (fun W2 hK => ⟨hf, Or.inl hcc, hK⟩) fun _ _ O1 C1 s1 m1 => ih O1 C1 s1 m1
  | erase x pos ops _ ih =>
    intro W ts O hC hs hm
    refine keep3 L D O hC hs hm (fun W2 hK => fun r t c s hr ht A => Or.inr (Or.inr ?_)) fun _ _ O1 C1 s1 m1 => ih O1 C1 s1 m1
    rw [(hK r t hr ht).1]; exact size_ne L A
  | newEmpty x ops _ ih => intro W ts O hC hs hm; exact keep1 L D O hC hs hm trivial fun _ _ _ _ _ _ O1 C1 s1 m1 => ih O1 C1 s1 m1
  | newCopy x y ops _ ih => intro W ts O hC hs hm; exact keep1 L D O hC hs hm trivial fun _ _ _ _ _ _ O1 C1 s1 m1 => ih O1 C1 s1 m1
  | newMove x y ops _ ih => intro W ts O hC hs hm; exact keep1 L D O hC hs hm trivial fun _ _ _ _ _ _ O1 C1 s1 m1 => ih O1 C1 s1 m1
  | destroy x ops _ ih => intro W ts O hC hs hm; exact keep1 L D O hC hs hm trivial fun _ _ _ _ _ _ O1 C1 s1 m1 => ih O1 C1 s1 m1
  | clear x ops _ ih => intro W ts O hC hs hm; exact keep1 L D O hC hs hm trivial fun _ _ _ _ _ _ O1 C1 s1 m1 => ih O1 C1 s1 m1
  | assignCopy x y ops _ ih => intro W ts O hC hs hm; exact keep1 L D O hC hs hm trivial fun _ _ _ _ _ _ O1 C1 s1 m1 => ih O1 C1 s1 m1
  | assignMove x y ops _ ih => intro W ts O hC hs hm; exact keep1 L D O hC hs hm trivial fun _ _ _ _ _ _ O1 C1 s1 m1 => ih O1 C1 s1 m1
  | swap x y ops _ ih => intro W ts O hC hs hm; exact keep1 L D O hC hs hm trivial fun _ _ _ _ _ _ O1 C1 s1 m1 => ih O1 C1 s1 m1
  | size x ops _ ih => intro W ts O hC hs hm; exact keep1 L D O hC hs hm trivial fun _ _ _ _ _ _ O1 C1 s1 m1 => ih O1 C1 s1 m1
  | updateCounts x ops _ ih => intro W ts O hC hs hm; exact keep1 L D O hC hs hm trivial fun _ _ _ _ _ _ O1 C1 s1 m1 => ih O1 C1 s1 m1
  | write x pos v ops _ ih => intro W ts O hC hs hm; exact keep1 L D O hC hs hm trivial fun _ _ _ _ _ _ O1 C1 s1 m1 => ih O1 C1 s1 m1
  | arity x ops _ ih => intro W ts O hC hs hm; exact keep1 L D O hC hs hm trivial fun _ _ _ _ _ _ O1 C1 s1 m1 => ih O1 C1 s1 m1

theorem careful (L : Lawful S) (D : Determined S) {ops : List (Op α lit)} (h : Supports S start ops) (hc : Careful S ops)
    (hm : StaysSmall S start ops) :
    ∃ W as ts, start.run K ops = Res.ok (W, as) ∧ Owned S W ts ∧ ∀ x t, ts x = some t →
      (∃ W', W.size K x = Res.ok (W', S.size t)) ∧ ∃ W', W.arity K x = Res.ok (W', S.arity t) :=
  counts L D h (careful_keeps L D hc (start_owned L) start_cached h hm)

end Generic

/-! ## C20, C21, C62: the positive part -/

/-- `size()` is the number of nodes after every supported history whose calls keep the remembered counts right. (A prefix
of such a history is one, so that this speaks of every moment.) Other histories: C62. -/
theorem C20_size_nary {ops : List (Op α (Tree α))} (h : Supports (Nary.shape α) start ops)
    (hk : KeepsCounts (Nary.shape α) start ops) :
    ∃ W as ts, start.run (Nary.kind α) ops = Res.ok (W, as) ∧ Owned (Nary.shape α) W ts ∧
      ∀ x t, ts x = some t → ∃ W', W.size (Nary.kind α) x = Res.ok (W', (Nary.shape α).size t) := by
  obtain ⟨W, as, ts, h1, h2, h3⟩ := Generic.counts (Nary.lawful α) (Nary.determined α) h hk
  exact ⟨W, as, ts, h1, h2, fun x t ht => (h3 x t ht).1⟩

theorem C20_size_binary {ops : List (Op α (Lit α))} (h : Supports (Binary.shape α) start ops)
    (hk : KeepsCounts (Binary.shape α) start ops) :
    ∃ W as ts, start.run (Binary.kind α) ops = Res.ok (W, as) ∧ Owned (Binary.shape α) W ts ∧
      ∀ x t, ts x = some t → ∃ W', W.size (Binary.kind α) x = Res.ok (W', (Binary.shape α).size t) := by
  obtain ⟨W, as, ts, h1, h2, h3⟩ := Generic.counts (Binary.lawful α) (Binary.determined α) h hk
  exact ⟨W, as, ts, h1, h2, fun x t ht => (h3 x t ht).1⟩

theorem C21_arity_nary {ops : List (Op α (Tree α))} (h : Supports (Nary.shape α) start ops)
    (hk : KeepsCounts (Nary.shape α) start ops) :
    ∃ W as ts, start.run (Nary.kind α) ops = Res.ok (W, as) ∧ Owned (Nary.shape α) W ts ∧
      ∀ x t, ts x = some t → ∃ W', W.arity (Nary.kind α) x = Res.ok (W', (Nary.shape α).arity t) := by
  obtain ⟨W, as, ts, h1, h2, h3⟩ := Generic.counts (Nary.lawful α) (Nary.determined α) h hk
  exact ⟨W, as, ts, h1, h2, fun x t ht => (h3 x t ht).2⟩

theorem C21_arity_binary {ops : List (Op α (Lit α))} (h : Supports (Binary.shape α) start ops)
    (hk : KeepsCounts (Binary.shape α) start ops) :
    ∃ W as ts, start.run (Binary.kind α) ops = Res.ok (W, as) ∧ Owned (Binary.shape α) W ts ∧
      ∀ x t, ts x = some t → ∃ W', W.arity (Binary.kind α) x = Res.ok (W', (Binary.shape α).arity t) := by
  obtain ⟨W, as, ts, h1, h2, h3⟩ := Generic.counts (Binary.lawful α) (Binary.determined α) h hk
  exact ⟨W, as, ts, h1, h2, fun x t ht => (h3 x t ht).2⟩

/-- With the discipline `Careful` both are right. -/
theorem C20_careful_nary {ops : List (Op α (Tree α))} (h : Supports (Nary.shape α) start ops)
    (hc : Careful (Nary.shape α) ops) (hm : StaysSmall (Nary.shape α) start ops) :
    ∃ W as ts, start.run (Nary.kind α) ops = Res.ok (W, as) ∧ Owned (Nary.shape α) W ts ∧
      ∀ x t, ts x = some t → (∃ W', W.size (Nary.kind α) x = Res.ok (W', (Nary.shape α).size t)) ∧
        ∃ W', W.arity (Nary.kind α) x = Res.ok (W', (Nary.shape α).arity t) :=
  Generic.careful (Nary.lawful α) (Nary.determined α) h hc hm

theorem C20_careful_binary {ops : List (Op α (Lit α))} (h : Supports (Binary.shape α) start ops)
    (hc : Careful (Binary.shape α) ops) (hm : StaysSmall (Binary.shape α) start ops) :
    ∃ W as ts, start.run (Binary.kind α) ops = Res.ok (W, as) ∧ Owned (Binary.shape α) W ts ∧
      ∀ x t, ts x = some t → (∃ W', W.size (Binary.kind α) x = Res.ok (W', (Binary.shape α).size t)) ∧
        ∃ W', W.arity (Binary.kind α) x = Res.ok (W', (Binary.shape α).arity t) :=
  Generic.careful (Binary.lawful α) (Binary.determined α) h hc hm

/-! ### Examples -/

section
variable {ν lit T V C : Type} {K : Kind ν α lit} {S : Shape K T V C}

/-- Fewer than 2^64 nodes are allocated in the run. -/
def fewNodes (K : Kind ν α lit) : World ν → List (Op α lit) → Bool
  | W, [] => W.heap.next < 2 ^ 64
  | W, op :: ops => W.heap.next < 2 ^ 64 && fewNodes K (next K W op) ops

theorem staysSmall (L : Lawful S) : ∀ (ops : List (Op α lit)) (W : World ν), fewNodes K W ops = true → StaysSmall S W ops
  | [], W, h => fun ts O => small_of_next L O (by simpa [fewNodes] using h)
  | op :: ops, W, h => by
    simp only [fewNodes, Bool.and_eq_true, decide_eq_true_eq] at h
    refine ⟨fun ts O => small_of_next L O h.1, fun W' o e => ?_⟩
    have : next K W op = W' := by simp [next, e]
    rw [← this]
    exact staysSmall L ops _ h.2
end

namespace Samples

/-- Build, replace, insert, copy, erase, always with the counts refreshed before. -/
def ncare : List (Op Nat (Tree Nat)) :=
  [.newLit 0 (node 1 [node 2 [], node 3 [], node 4 []]), .size 0, .arity 0,
   .insertOver true true Policy.preOrder 0 ⟨⟨some 2, []⟩, some 0⟩ (.lit (node 5 [node 6 [], node 7 []])), .size 0, .arity 0,
   .insertChild true Policy.preOrder 0 ⟨⟨some 1, []⟩, some 0⟩ (.value 9), .newCopy 1 0, .size 0, .arity 0,
   .erase 0 ⟨⟨some 4, []⟩, some 0⟩]

theorem ncare_careful : Careful (Nary.shape Nat) ncare :=
  .newLit _ _ _ trivial (.insertOver _ _ _ _ _ _ _ trivial (.insertChild _ _ _ _ _ _ trivial trivial (.newCopy _ _ _ (.erase _ _ _ .nil))))

theorem ncare_supported : Supports (Nary.shape Nat) start ncare := by
  have L := Nary.lawful Nat
  have D := Nary.determined Nat
  refine supports_next L (start_owned L) ⟨rfl, trivial⟩ fun ts1 O1 => ?_
  refine supports_next L O1 (live O1 rfl) fun ts2 O2 => ?_
  refine supports_next L O2 (live O2 rfl) fun ts3 O3 => ?_
  have h3 : ts3 0 = some (some (node (0,1) [node (1,2) [], node (2,3) [], node (3,4) []])) :=
    pin D O3 rfl ((Nary.shape_rep _ _).mpr (by decide)) rfl
  refine supports_next L O3 ⟨_, h3, trivial, Or.inr (Or.inl ⟨_, _, nary_at preOrder_mem
    [⟨(0,1), [node (1,2) []], [node (3,4) []]⟩] (node (2,3) []) rfl rfl rfl rfl, Or.inr (Or.inl id)⟩)⟩ fun ts4 O4 => ?_
  refine supports_next L O4 (live O4 rfl) fun ts5 O5 => ?_
  refine supports_next L O5 (live O5 rfl) fun ts6 O6 => ?_
  have h6 : ts6 0 = some (some (node (0,1) [node (1,2) [], node (4,5) [node (5,6) [], node (6,7) []], node (3,4) []])) :=
    pin D O6 rfl ((Nary.shape_rep _ _).mpr (by decide)) rfl
  refine supports_next L O6 ⟨_, h6, trivial, Or.inr (Or.inl ⟨_, _, nary_at preOrder_mem
    [⟨(0,1), [], [node (4,5) [node (5,6) [], node (6,7) []], node (3,4) []]⟩] (node (1,2) []) rfl rfl rfl rfl, Or.inl rfl⟩)⟩ fun ts7 O7 => ?_
  refine supports_next L O7 ⟨dead O7 rfl, live O7 rfl⟩ fun ts8 O8 => ?_
  refine supports_next L O8 (live O8 rfl) fun ts9 O9 => ?_
  refine supports_next L O9 (live O9 rfl) fun ts10 O10 => ?_
  have h10 : ts10 0 = some (some (node (0,1) [node (1,2) [node (7,9) []], node (4,5) [node (5,6) [], node (6,7) []], node (3,4) []])) :=
    pin D O10 rfl ((Nary.shape_rep _ _).mpr (by decide)) rfl
  refine supports_next L O10 ⟨_, h10, Or.inl ⟨_, _, nary_at postOrder_mem
    [⟨(0,1), [node (1,2) [node (7,9) []]], [node (3,4) []]⟩]
    (node (4,5) [node (5,6) [], node (6,7) []]) rfl rfl rfl rfl, Or.inr rfl⟩⟩ fun _ _ => trivial

/-- Build, insert, erase a subtree, with the default policy for the insertion. -/
def bcare : List (Op Nat (Lit Nat)) :=
  [.newLit 0 (node (some 1) [node (some 2) [], node (some 3) []]), .size 0, .arity 0,
   .insertChild false Policy.breadthFirst 0 ⟨⟨some 1, [2]⟩, some 0⟩ (.lit (node (some 7) [node none [], node (some 8) []])),
   .size 0, .arity 0, .erase 0 ⟨⟨some 2, []⟩, some 0⟩]

theorem bcare_careful : Careful (Binary.shape Nat) bcare :=
  .newLit _ _ _ (by simp [Binary.shape, Lit.valid, Lit.validL, Lit.atMostTwo, Lit.atMostTwoL]) (.insertChild _ _ _ _ _ _ (by simp [SrcFits, Binary.shape, Lit.valid, Lit.validL, Lit.atMostTwo, Lit.atMostTwoL]) rfl (.erase _ _ _ .nil))

theorem bcare_supported : Supports (Binary.shape Nat) start bcare := by
  have L := Binary.lawful Nat
  have D := Binary.determined Nat
  refine supports_next L (start_owned L) ⟨rfl, rfl⟩ fun ts1 O1 => ?_
  refine supports_next L O1 (live O1 rfl) fun ts2 O2 => ?_
  refine supports_next L O2 (live O2 rfl) fun ts3 O3 => ?_
  have h3 : ts3 0 = some (.node (0,1) (.node (1,2) .nil .nil) (.node (2,3) .nil .nil)) :=
    pin D O3 rfl (show Binary.Rep _ _ by decide) rfl
  refine supports_next L O3 ⟨_, h3, rfl, Or.inr (Or.inl ⟨_, _, binary_at breadthFirst_mem
    [⟨(0,1), true, .node (2,3) .nil .nil⟩] (.node (1,2) .nil .nil) rfl (by simp) rfl rfl rfl, Or.inl rfl⟩)⟩ fun ts4 O4 => ?_
  refine supports_next L O4 (live O4 rfl) fun ts5 O5 => ?_
  refine supports_next L O5 (live O5 rfl) fun ts6 O6 => ?_
  have h6 : ts6 0 = some (.node (0,1) (.node (1,2) .nil (.node (3,7) .nil (.node (4,8) .nil .nil))) (.node (2,3) .nil .nil)) :=
    pin D O6 rfl (show Binary.Rep _ _ by decide) rfl
  refine supports_next L O6 ⟨_, h6, Or.inl ⟨_, _, binary_at postOrder_mem
    [⟨(0,1), false, .node (1,2) .nil (.node (3,7) .nil (.node (4,8) .nil .nil))⟩] (.node (2,3) .nil .nil) rfl (by simp) rfl rfl rfl,
    Or.inr trivial⟩⟩ fun _ _ => trivial

theorem ncare_small : StaysSmall (Nary.shape Nat) start ncare := staysSmall (Nary.lawful Nat) _ _ (by decide)
theorem bcare_small : StaysSmall (Binary.shape Nat) start bcare := staysSmall (Binary.lawful Nat) _ _ (by decide)

end Samples

example := C20_careful_nary Samples.ncare_supported Samples.ncare_careful Samples.ncare_small
example := C20_careful_binary Samples.bcare_supported Samples.bcare_careful Samples.bcare_small
example := C20_size_nary Samples.ncare_supported
  (Generic.careful_keeps (Nary.lawful Nat) (Nary.determined Nat) Samples.ncare_careful (start_owned (Nary.lawful Nat)) Generic.start_cached
    Samples.ncare_supported Samples.ncare_small)
example := C20_size_binary Samples.bcare_supported
  (Generic.careful_keeps (Binary.lawful Nat) (Binary.determined Nat) Samples.bcare_careful (start_owned (Binary.lawful Nat)) Generic.start_cached
    Samples.bcare_supported Samples.bcare_small)

/-! ## The histories after which the counts are wrong -/

theorem World.size_of {ν lit : Type} {K : Kind ν α lit} {W : World ν} {x n : Nat}
    (h : ((do let p ← W.size K x; pure p.2) : Res Nat) = Res.ok n) : W.size K x = Res.ok (next K W (.size x), n) := by
  cases e : W.size K x with
  | ok p => rw [e] at h; cases h; simp [next, World.step, e]
  | ub => rw [e] at h; cases h
  | diverge => rw [e] at h; cases h
theorem World.arity_of {ν lit : Type} {K : Kind ν α lit} {W : World ν} {x n : Nat}
    (h : ((do let p ← W.arity K x; pure p.2) : Res Nat) = Res.ok n) : W.arity K x = Res.ok (next K W (.arity x), n) := by
  cases e : W.arity K x with
  | ok p => rw [e] at h; cases h; simp [next, World.step, e]
  | ub => rw [e] at h; cases h
  | diverge => rw [e] at h; cases h

section
variable {ν lit T V C : Type} {K : Kind ν α lit} (S : Shape K T V C)

/-- After the supported history `ops`, object 0 is a tree of `size` nodes with arity `arity`, but `size()` and `arity()` answer
`size'` and `arity'`. -/
def Miscounts (ops : List (Op α lit)) (size arity size' arity' : Nat) : Prop :=
  Supports S start ops ∧ ∃ W as ts t, start.run K ops = Res.ok (W, as) ∧ Owned S W ts ∧ ts 0 = some t ∧
    S.size t = size ∧ S.arity t = arity ∧ (∃ W', W.size K 0 = Res.ok (W', size')) ∧ ∃ W', W.arity K 0 = Res.ok (W', arity')

variable {S}
theorem miscounts (L : Lawful S) (D : Determined S) {ops : List (Op α lit)} (hs : Supports S start ops) {W : World ν} {as : List Ans}
    (hrun : start.run K ops = Res.ok (W, as)) {r : TreeRec} (hr : W.vars 0 = some r) (t : T) (H : S.Rep W.heap t) (hp : r.root = S.ptr t)
    {n a n' a' : Nat} (hn : S.size t = n) (ha : S.arity t = a) {W1 W2 : World ν} (h1 : W.size K 0 = Res.ok (W1, n'))
    (h2 : W.arity K 0 = Res.ok (W2, a')) : Miscounts S ops n a n' a' := by
  obtain ⟨ts, O⟩ := ended L D hs hrun
  exact ⟨hs, W, as, ts, t, hrun, O, pin D O hr H hp, hn, ha, ⟨W1, h1⟩, W2, h2⟩
end

/-- `insert_child_front` of a literal counts one node: `x = n(1); x.insert_child_front(x.begin(), n(2)(n(3), n(4)));` -/
theorem C62_insert_child_front_literal_defect :
    Miscounts (Nary.shape Nat) [.newLit 0 (node 1 []),
      .insertChild true Policy.preOrder 0 ⟨⟨some 0, []⟩, some 0⟩ (.lit (node 2 [node 3 [], node 4 []]))] 4 2 2 1 := by
  have L := Nary.lawful Nat
  have D := Nary.determined Nat
  refine miscounts L D ?_ rfl rfl (some (node (0,1) [node (1,2) [node (2,3) [], node (3,4) []]]))
    ((Nary.shape_rep _ _).mpr (by decide)) rfl rfl rfl rfl rfl
  refine supports_next L (start_owned L) ⟨rfl, trivial⟩ fun ts1 O1 => ?_
  have h1 : ts1 0 = some (some (node (0,1) [])) := pin D O1 rfl ((Nary.shape_rep _ _).mpr (by decide)) rfl
  exact supports_next L O1 ⟨_, h1, trivial, Or.inr (Or.inl ⟨_, _, nary_at preOrder_mem [] (node (0,1) []) rfl rfl rfl rfl,
    Or.inl rfl⟩)⟩ fun _ _ => trivial

/-- So does `insert_child_back` of a moved tree. -/
theorem C62_insert_child_back_move_defect :
    Miscounts (Nary.shape Nat) [.newLit 0 (node 1 []), .newLit 1 (node 2 [node 3 [], node 4 []]),
      .insertChild false Policy.preOrder 0 ⟨⟨some 0, []⟩, some 0⟩ (.moveOf 1)] 4 2 2 1 := by
  have L := Nary.lawful Nat
  have D := Nary.determined Nat
  refine miscounts L D ?_ rfl rfl (some (node (0,1) [node (1,2) [node (2,3) [], node (3,4) []]]))
    ((Nary.shape_rep _ _).mpr (by decide)) rfl rfl rfl rfl rfl
  refine supports_next L (start_owned L) ⟨rfl, trivial⟩ fun ts1 O1 => ?_
  refine supports_next L O1 ⟨dead O1 rfl, trivial⟩ fun ts2 O2 => ?_
  have h2 : ts2 0 = some (some (node (0,1) [])) := pin D O2 rfl ((Nary.shape_rep _ _).mpr (by decide)) rfl
  exact supports_next L O2 ⟨_, h2, live O2 rfl, Or.inr (Or.inl ⟨_, _, nary_at preOrder_mem [] (node (0,1) []) rfl rfl rfl rfl,
    Or.inl rfl⟩)⟩ fun _ _ => trivial

/-- Inserting a copy of an empty tree as a child changes nothing but counts a node and a child. -/
theorem C62_insert_child_empty_defect :
    Miscounts (Nary.shape Nat) [.newLit 0 (node 1 []), .newEmpty 1,
      .insertChild true Policy.preOrder 0 ⟨⟨some 0, []⟩, some 0⟩ (.copyOf 1)] 1 0 2 1 := by
  have L := Nary.lawful Nat
  have D := Nary.determined Nat
  refine miscounts L D ?_ rfl rfl (some (node (0,1) [])) ((Nary.shape_rep _ _).mpr (by decide)) rfl rfl rfl rfl rfl
  refine supports_next L (start_owned L) ⟨rfl, trivial⟩ fun ts1 O1 => ?_
  refine supports_next L O1 (dead O1 rfl) fun ts2 O2 => ?_
  have h2 : ts2 0 = some (some (node (0,1) [])) := pin D O2 rfl ((Nary.shape_rep _ _).mpr (by decide)) rfl
  exact supports_next L O2 ⟨_, h2, live O2 rfl, Or.inr (Or.inl ⟨_, _, nary_at preOrder_mem [] (node (0,1) []) rfl rfl rfl rfl,
    Or.inl rfl⟩)⟩ fun _ _ => trivial

/-- A third slot in a binary literal is dropped but counted: `binary_tree<int> x = n(1)(n(2), n(), n(3));` -/
theorem C62_third_slot_defect :
    Miscounts (Binary.shape Nat) [.newLit 0 (node (some 1) [node (some 2) [], node none [], node (some 3) []])] 2 1 3 2 := by
  have L := Binary.lawful Nat
  have D := Binary.determined Nat
  refine miscounts L D ?_ rfl rfl (.node (0,1) (.node (1,2) .nil .nil) .nil) (show Binary.Rep _ _ by decide) rfl rfl rfl rfl rfl
  exact supports_next L (start_owned L) ⟨rfl, rfl⟩ fun ts1 O1 => trivial

/-- After a subtree with children was replaced the size is unknown; erasing a leaf then subtracts one from the unknown size, which
is 0, and `size()` answers 2^64-1: `x = n(1)(n(2)(n(4)), n(3)); x.insert_over(2, 9); x.erase(3);` -/
theorem C62_erase_unknown_defect :
    Miscounts (Binary.shape Nat) [.newLit 0 (node (some 1) [node (some 2) [node (some 4) []], node (some 3) []]),
      .insertOver true true Policy.preOrder 0 ⟨⟨some 1, []⟩, some 0⟩ (.value 9),
      .erase 0 ⟨⟨some 3, []⟩, some 0⟩] 2 1 (2 ^ 64 - 1) 1 := by
  have L := Binary.lawful Nat
  have D := Binary.determined Nat
  refine miscounts L D ?_ rfl rfl (.node (0,1) (.node (4,9) .nil .nil) .nil) (show Binary.Rep _ _ by decide) rfl rfl rfl rfl rfl
  refine supports_next L (start_owned L) ⟨rfl, rfl⟩ fun ts1 O1 => ?_
  have h1 : ts1 0 = some (.node (0,1) (.node (1,2) (.node (2,4) .nil .nil) .nil) (.node (3,3) .nil .nil)) :=
    pin D O1 rfl (show Binary.Rep _ _ by decide) rfl
  refine supports_next L O1 ⟨_, h1, trivial, Or.inr (Or.inl ⟨_, _, binary_at preOrder_mem
    [⟨(0,1), true, .node (3,3) .nil .nil⟩] (.node (1,2) (.node (2,4) .nil .nil) .nil) rfl (by simp) rfl rfl rfl,
    Or.inr (Or.inl id)⟩)⟩ fun ts2 O2 => ?_
  have h2 : ts2 0 = some (.node (0,1) (.node (4,9) .nil .nil) (.node (3,3) .nil .nil)) :=
    pin D O2 rfl (show Binary.Rep _ _ by decide) rfl
  exact supports_next L O2 ⟨_, h2, Or.inl ⟨_, _, binary_at postOrder_mem
    [⟨(0,1), false, .node (4,9) .nil .nil⟩] (.node (3,3) .nil .nil) rfl (by simp) rfl rfl rfl, Or.inr trivial⟩⟩ fun _ _ => trivial

/-- With the size unknown, adding a child makes it known and wrong. -/
theorem C62_insert_child_unknown_defect :
    Miscounts (Binary.shape Nat) [.newLit 0 (node (some 1) [node (some 2) [node (some 4) []], node (some 3) []]),
      .insertOver true true Policy.preOrder 0 ⟨⟨some 1, []⟩, some 0⟩ (.value 9),
      .insertChild true Policy.preOrder 0 ⟨⟨some 3, []⟩, some 0⟩ (.value 5)] 4 2 1 1 := by
  have L := Binary.lawful Nat
  have D := Binary.determined Nat
  refine miscounts L D ?_ rfl rfl (.node (0,1) (.node (4,9) .nil .nil) (.node (3,3) (.node (5,5) .nil .nil) .nil))
    (show Binary.Rep _ _ by decide) rfl rfl rfl rfl rfl
  refine supports_next L (start_owned L) ⟨rfl, rfl⟩ fun ts1 O1 => ?_
  have h1 : ts1 0 = some (.node (0,1) (.node (1,2) (.node (2,4) .nil .nil) .nil) (.node (3,3) .nil .nil)) :=
    pin D O1 rfl (show Binary.Rep _ _ by decide) rfl
  refine supports_next L O1 ⟨_, h1, trivial, Or.inr (Or.inl ⟨_, _, binary_at preOrder_mem
    [⟨(0,1), true, .node (3,3) .nil .nil⟩] (.node (1,2) (.node (2,4) .nil .nil) .nil) rfl (by simp) rfl rfl rfl,
    Or.inr (Or.inl id)⟩)⟩ fun ts2 O2 => ?_
  have h2 : ts2 0 = some (.node (0,1) (.node (4,9) .nil .nil) (.node (3,3) .nil .nil)) :=
    pin D O2 rfl (show Binary.Rep _ _ by decide) rfl
  exact supports_next L O2 ⟨_, h2, trivial, Or.inr (Or.inl ⟨_, _, binary_at preOrder_mem
    [⟨(0,1), false, .node (4,9) .nil .nil⟩] (.node (3,3) .nil .nil) rfl (by simp) rfl rfl rfl, Or.inl rfl⟩)⟩ fun _ _ => trivial

/-- With the size unknown, replacing a leaf by a larger tree makes it known and wrong. -/
theorem C62_insert_over_unknown_defect :
    Miscounts (Binary.shape Nat) [.newLit 0 (node (some 1) [node (some 2) [node (some 4) []], node (some 3) []]),
      .insertOver true true Policy.preOrder 0 ⟨⟨some 1, []⟩, some 0⟩ (.value 9),
      .insertOver true true Policy.preOrder 0 ⟨⟨some 3, []⟩, some 0⟩ (.lit (node (some 5) [node (some 6) []]))] 4 2 1 2 := by
  have L := Binary.lawful Nat
  have D := Binary.determined Nat
  refine miscounts L D ?_ rfl rfl (.node (0,1) (.node (4,9) .nil .nil) (.node (5,5) (.node (6,6) .nil .nil) .nil))
    (show Binary.Rep _ _ by decide) rfl rfl rfl (World.size_of (by decide +kernel)) (World.arity_of (by decide +kernel))
  refine supports_next L (start_owned L) ⟨rfl, rfl⟩ fun ts1 O1 => ?_
  have h1 : ts1 0 = some (.node (0,1) (.node (1,2) (.node (2,4) .nil .nil) .nil) (.node (3,3) .nil .nil)) :=
    pin D O1 rfl (show Binary.Rep _ _ by decide) rfl
  refine supports_next L O1 ⟨_, h1, trivial, Or.inr (Or.inl ⟨_, _, binary_at preOrder_mem
    [⟨(0,1), true, .node (3,3) .nil .nil⟩] (.node (1,2) (.node (2,4) .nil .nil) .nil) rfl (by simp) rfl rfl rfl,
    Or.inr (Or.inl id)⟩)⟩ fun ts2 O2 => ?_
  have h2 : ts2 0 = some (.node (0,1) (.node (4,9) .nil .nil) (.node (3,3) .nil .nil)) :=
    pin D O2 rfl (show Binary.Rep _ _ by decide) rfl
  exact supports_next L O2 ⟨_, h2, rfl, Or.inr (Or.inl ⟨_, _, binary_at preOrder_mem
    [⟨(0,1), false, .node (4,9) .nil .nil⟩] (.node (3,3) .nil .nil) rfl (by simp) rfl rfl rfl, Or.inr (Or.inl id)⟩)⟩ fun _ _ => trivial

/-- Replacing a leaf forgets the arity; adding a child then remembers the number of children of one node only:
`x = n(1)(n(2), n(3)); x.insert_over(2, 9); x.insert_child_front(3, 5);` answers 1 for 2. -/
theorem C62_local_arity_defect :
    Miscounts (Binary.shape Nat) [.newLit 0 (node (some 1) [node (some 2) [], node (some 3) []]),
      .insertOver true true Policy.preOrder 0 ⟨⟨some 1, []⟩, some 0⟩ (.value 9),
      .insertChild true Policy.preOrder 0 ⟨⟨some 2, []⟩, some 0⟩ (.value 5)] 4 2 4 1 := by
  have L := Binary.lawful Nat
  have D := Binary.determined Nat
  refine miscounts L D ?_ rfl rfl (.node (0,1) (.node (3,9) .nil .nil) (.node (2,3) (.node (4,5) .nil .nil) .nil))
    (show Binary.Rep _ _ by decide) rfl rfl rfl rfl rfl
  refine supports_next L (start_owned L) ⟨rfl, rfl⟩ fun ts1 O1 => ?_
  have h1 : ts1 0 = some (.node (0,1) (.node (1,2) .nil .nil) (.node (2,3) .nil .nil)) :=
    pin D O1 rfl (show Binary.Rep _ _ by decide) rfl
  refine supports_next L O1 ⟨_, h1, trivial, Or.inr (Or.inl ⟨_, _, binary_at preOrder_mem
    [⟨(0,1), true, .node (2,3) .nil .nil⟩] (.node (1,2) .nil .nil) rfl (by simp) rfl rfl rfl,
    Or.inr (Or.inl id)⟩)⟩ fun ts2 O2 => ?_
  have h2 : ts2 0 = some (.node (0,1) (.node (3,9) .nil .nil) (.node (2,3) .nil .nil)) :=
    pin D O2 rfl (show Binary.Rep _ _ by decide) rfl
  exact supports_next L O2 ⟨_, h2, trivial, Or.inr (Or.inl ⟨_, _, binary_at preOrder_mem
    [⟨(0,1), false, .node (3,9) .nil .nil⟩] (.node (2,3) .nil .nil) rfl (by simp) rfl rfl rfl, Or.inl rfl⟩)⟩ fun _ _ => trivial
