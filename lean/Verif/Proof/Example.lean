import Verif.Proof.History
/-! Tools for concrete histories in examples. -/
open Tree World

instance {ν : Type} [DecidableEq ν] (h : Heap ν) (l : List (Addr × ν)) : Decidable (Holds h l) :=
  inferInstanceAs (Decidable (∀ p ∈ l, h.cells p.1 = some p.2))
instance {α : Type} [DecidableEq α] (h : NHeap α) (t : Tree (Addr × α)) : Decidable (Nary.Rep h t) :=
  inferInstanceAs (Decidable (_ ∧ _))
instance {α : Type} [DecidableEq α] (h : BHeap α) (t : BTree (Addr × α)) : Decidable (Binary.Rep h t) :=
  inferInstanceAs (Decidable (_ ∧ _))

section
variable {ν α lit T V C : Type} {K : Kind ν α lit} {S : Shape K T V C} {ts : Nat → Option T} {W : World ν} {Z : Addr → Prop}

/-- Recognise the tree of an object. -/
theorem pin (D : Determined S) (O : OwnedBut Z S W ts) {x : Nat} {r : TreeRec} {t : T} (hr : W.vars x = some r) (H : S.Rep W.heap t)
    (hp : r.root = S.ptr t) : ts x = some t := by
  have h1 := O.alive x
  rw [hr] at h1
  obtain ⟨u, hu⟩ := Option.isSome_iff_exists.mp h1.symm
  rw [hu, D W.heap u t (O.rep x u hu) H ((O.root x r u hr hu).1.symm.trans hp)]

theorem supports_cons (L : Lawful S) (O : Owned S W ts) {op : Op α lit} {ops : List (Op α lit)} (hl : Legal S W.heap ts op)
    (k : ∀ W1 o ts1, W.step K op = Res.ok (W1, o) → Owned S W1 ts1 → Effect S W.heap ts W1.heap ts1 o op → Supports S W1 ops) :
    Supports S W (op :: ops) := by
  refine ⟨⟨ts, O, hl⟩, fun W1 o h => ?_⟩
  obtain ⟨W1', o', ts1, h1, h2, h3, _⟩ := step_spec L O op hl
  rw [h1] at h; cases h
  exact k _ _ _ h1 h2 h3

/-- The state after a call. -/
def next (K : Kind ν α lit) (W : World ν) (op : Op α lit) : World ν :=
  match W.step K op with
  | .ok (W', _) => W'
  | _ => W

theorem supports_next (L : Lawful S) (O : Owned S W ts) {op : Op α lit} {ops : List (Op α lit)} (hl : Legal S W.heap ts op)
    (k : ∀ ts1, Owned S (next K W op) ts1 → Supports S (next K W op) ops) :
    Supports S W (op :: ops) := by
  refine supports_cons L O hl fun W1 o ts1 e O1 _ => ?_
  have : next K W op = W1 := by simp [next, e]
  rw [← this] at O1 ⊢
  exact k ts1 O1

theorem dead (O : OwnedBut Z S W ts) {x : Nat} (hr : W.vars x = none) : ts x = none := by
  have h1 := O.alive x
  rw [hr] at h1
  cases h : ts x with
  | none => rfl
  | some t => rw [h] at h1; cases h1

theorem live (O : OwnedBut Z S W ts) {x : Nat} (hr : (W.vars x).isSome = true) : (ts x).isSome := by rw [← O.alive x]; exact hr

end

theorem preOrder_mem : Policy.preOrder ∈ libraryPolicies := by simp [libraryPolicies]
theorem postOrder_mem : Policy.postOrder ∈ libraryPolicies := by simp [libraryPolicies]
theorem inOrder_mem : Policy.inOrder ∈ libraryPolicies := by simp [libraryPolicies]
theorem breadthFirst_mem : Policy.breadthFirst ∈ libraryPolicies := by simp [libraryPolicies]

/-- An nary position, checked by computation. -/
theorem nary_at {α : Type} {P : Policy} (hP : P ∈ libraryPolicies) {h : NHeap α} {t : Option (Tree (Addr × α))} {pos : It}
    (c : List (Frame (Addr × α))) (s : Tree (Addr × α)) (h1 : Nary.fill c (some s) = t)
    (h2 : pos.st.cur = some s.addr) (h3 : pos.root = (Nary.shape α).ptr t)
    (h4 : P.make (Nary.nav h pos.root) h.fuel pos.st.cur = Res.ok pos.st) : At (Nary.shape α) P h t pos c (some s) :=
  ⟨hP, h1, (by intro e; cases e), by rw [h2, Nary.shape_ptr]; rfl, h3, fun _ => h4⟩

/-- A binary position, checked by computation. -/
theorem binary_at {α : Type} {P : Policy} (hP : P ∈ libraryPolicies) {h : BHeap α} {t : BTree (Addr × α)} {pos : It}
    (c : List (BTree.Frame (Addr × α))) (s : BTree (Addr × α)) (h1 : BTree.plug c s = t) (h0 : s ≠ .nil)
    (h2 : pos.st.cur = s.addr?) (h3 : pos.root = (Binary.shape α).ptr t)
    (h4 : P.make (Binary.nav h pos.root) h.fuel pos.st.cur = Res.ok pos.st) : At (Binary.shape α) P h t pos c s :=
  ⟨hP, h1, h0, by rw [h2, Binary.shape_ptr], h3, fun _ => h4⟩

section
variable {ν α lit T V C : Type} {K : Kind ν α lit} {S : Shape K T V C} {ts : Nat → Option T} {W : World ν}

theorem small_of_next (L : Lawful S) (O : Owned S W ts) (h : W.heap.next < 2 ^ 64) : Small S ts := by
  intro x t ht
  have H := O.rep x t ht
  have h1 : (S.addrs t).length ≤ W.heap.next := by
    refine list_length_le_of_lt (L.rep_nodup _ _ H) fun a ha => ?_
    have h2 := L.rep_alive _ _ H a ha
    apply Nat.lt_of_not_le
    intro h3
    rw [O.wf a h3] at h2; cases h2
  rw [L.length_addrs] at h1
  exact Nat.lt_of_le_of_lt h1 h

/-- The trees of an object at the end of a supported history, checked by computation. -/
theorem ended (L : Lawful S) (D : Determined S) {ops : List (Op α lit)} (hs : Supports S start ops) {as : List Ans}
    (hrun : start.run K ops = Res.ok (W, as)) : ∃ ts, Owned S W ts := by
  obtain ⟨W', as', ts, h1, _, _, O⟩ := history_trace L D ops (start_owned L) hs
  rw [hrun] at h1; cases h1
  exact ⟨ts, O⟩

end
