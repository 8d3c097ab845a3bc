import Verif.Proof.PatternYields
import Verif.Proof.MakesBin
import Verif.Proof.PatternWorld
/-! The results of patterns with `star`, and tree objects. -/
open Tree

set_option linter.unusedSimpArgs false

namespace Tree
variable {β : Type}

theorem PartL.drop {u : Tree β} : ∀ {cs us : List (Tree β)}, PartL cs us → PartL cs (u :: us)
  | [], _, _ => by simp [PartL]
  | c :: cs, us, h => by
    simp only [PartL] at h ⊢
    obtain ⟨l, t, r, rfl, h1, h2⟩ := h
    exact ⟨u :: l, t, r, rfl, h1, h2⟩

mutual
theorem map_twice {γ δ : Type} (f : β → γ) (g : γ → δ) : (t : Tree β) → (t.map f).map g = t.map (fun x => g (f x))
  | .node a cs => by simp [mapL_twice f g cs]
theorem mapL_twice {γ δ : Type} (f : β → γ) (g : γ → δ) : (ts : List (Tree β)) → mapL g (mapL f ts) = mapL (fun x => g (f x)) ts
  | [] => by simp
  | t :: ts => by simp [map_twice f g t, mapL_twice f g ts]
end

theorem Kept.part {q : Quantifier} {f : β → Bool} {n d us cs vs} (h : Kept q f n d us cs vs) : (∀ v ∈ vs, Part v.2 v.1) → PartL cs us := by
  induction h with
  | nil => intro _; simp [PartL]
  | drop _ _ _ ih => intro hv; exact (ih hv).drop
  | @stop d u c us cs vs _ _ _ ih =>
    intro hv
    simp only [PartL]
    exact ⟨[], u, us, rfl, hv (u, c) (by simp), ih (fun v h => hv v (by simp [h]))⟩
  | @pass d u ds ws us cs vs _ _ _ _ _ ih1 ih2 =>
    intro hv
    simp only [PartL]
    refine ⟨[], u, us, rfl, ?_, ih2 (fun v h => hv v (by simp [h]))⟩
    simp only [Part]
    exact ⟨trivial, ih1 (fun v h => hv v (by simp [h]))⟩
end Tree

namespace Pat
variable {α β : Type} {val : β → α} {addr : β → Nat} {m : Nat → Option Nat}

theorem partL_one {c t : Tree β} (h : Tree.PartL [c] [t]) : Tree.Part c t := by
  simp only [Tree.PartL] at h
  obtain ⟨l, u, r, e, h1, _⟩ := h
  cases l with
  | nil => simp at e; rw [e.1]; exact h1
  | cons a l => simp at e

theorem yields_part (p : Pat α) : ∀ t c : Tree β, Yields val addr m p t c → Tree.Part c t := by
  induction p using Pat.ind with
  | h i k f ps ih =>
    intro t c h
    have hL : ∀ (ps' : List (Pat α)), (∀ p ∈ ps', p ∈ ps) → ∀ us cs : List (Tree β), YieldsL val addr m ps' us cs → Tree.PartL cs us := by
      intro ps'
      induction ps' with
      | nil => intro _ us cs h; simp only [YieldsL] at h; subst h; simp [Tree.PartL]
      | cons p ps' ih' =>
        intro hm us cs h
        simp only [YieldsL] at h
        obtain ⟨l, t, r, c, cs', rfl, rfl, h1, h2⟩ := h
        simp only [Tree.PartL]
        exact ⟨l, t, r, rfl, ih p (hm p (by simp)) t c h1, ih' (fun q hq => hm q (by simp [hq])) r cs' h2⟩
    have hP : ∀ (ps' : List (Pat α)), (∀ p ∈ ps', p ∈ ps) → ∀ vs : List (Tree β × Tree β), YieldsP val addr m ps' vs → ∀ v ∈ vs, Tree.Part v.2 v.1 := by
      intro ps'
      induction ps' with
      | nil => intro _ vs h; simp only [YieldsP] at h; subst h; simp
      | cons p ps' ih' =>
        intro hm vs h
        simp only [YieldsP] at h
        obtain ⟨t, c, vs', rfl, h1, h2⟩ := h
        intro v hv
        rcases List.mem_cons.mp hv with rfl | hv
        · exact ih p (hm p (by simp)) t c h1
        · exact ih' (fun q hq => hm q (by simp [hq])) vs' h2 v hv
    have hN : c.label = t.label → Tree.PartL c.children t.children → Tree.Part c t := by
      cases c
      simp only [label_node, children_node, Tree.Part]
      exact fun h1 h2 => ⟨h1, h2⟩
    cases k with
    | one =>
      simp only [Yields] at h
      exact hN h.2.1 (hL ps (fun _ h => h) _ _ h.2.2.2)
    | cpt =>
      simp only [Yields] at h
      exact partL_one (hL ps (fun _ h => h) _ _ h.2)
    | opt q =>
      simp only [Yields] at h
      rcases h.2 with h | h
      · exact hN h.1 (hL ps (fun _ h => h) _ _ h.2.2)
      · exact partL_one (hL ps (fun _ h => h) _ _ h.2)
    | star q =>
      simp only [Yields] at h
      rcases h.2 with ⟨h1, h2, _, vs, h3, h4, _⟩ | h
      · exact hN h1 (h3.part (hP ps (fun _ h => h) vs h4))
      · exact partL_one (hL ps (fun _ h => h) _ _ h.2)

theorem solid_mem {p : Pat α} (hp : p.solid) : ∀ q ∈ p.pre, q.solid := by
  induction p using Pat.ind with
  | h i k f ps ih =>
    have hs : solidL ps := by cases k <;> simp only [solid] at hp <;> first | exact hp | exact hp.2
    intro q hq
    simp only [Pat.pre, List.mem_cons] at hq
    rcases hq with rfl | hq
    · exact hp
    · have : ∀ l : List (Pat α), (∀ p ∈ l, p ∈ ps) → q ∈ preL l → q.solid := by
        intro l
        induction l with
        | nil => intro _ h; simp [preL] at h
        | cons p l ih' =>
          intro hl h
          simp only [preL, List.mem_append] at h
          rcases h with h | h
          · exact ih p (hl p (by simp)) (solidL_mem hs p (hl p (by simp))) q h
          · exact ih' (fun p hp => hl p (by simp [hp])) h
      exact this ps (fun _ h => h) hq

theorem preL_mem {q : Pat α} : ∀ {l : List (Pat α)}, q ∈ preL l → ∃ p ∈ l, q ∈ p.pre := by
  intro l
  induction l with
  | nil => intro h; simp [preL] at h
  | cons p l ih =>
    intro h
    simp only [preL, List.mem_append] at h
    rcases h with h | h
    · exact ⟨p, by simp, h⟩
    · obtain ⟨p', h1, h2⟩ := ih h
      exact ⟨p', by simp [h1], h2⟩

theorem mem_preL {q p : Pat α} : ∀ {l : List (Pat α)}, p ∈ l → q ∈ p.pre → q ∈ preL l := by
  intro l
  induction l with
  | nil => intro h; cases h
  | cons a l ih =>
    intro h hq
    simp only [preL, List.mem_append]
    rcases List.mem_cons.mp h with rfl | h
    · exact .inl hq
    · exact .inr (ih h hq)

theorem pre_trans {p : Pat α} : ∀ {q r : Pat α}, q ∈ p.pre → r ∈ q.pre → r ∈ p.pre := by
  induction p using Pat.ind with
  | h i k f ps ih =>
    intro q r hq hr
    simp only [Pat.pre, List.mem_cons] at hq
    rcases hq with rfl | hq
    · exact hr
    · obtain ⟨p, h1, h2⟩ := preL_mem hq
      simp only [Pat.pre, List.mem_cons]
      exact .inr (mem_preL h1 (ih p h1 h2 hr))

theorem thin_mem {p : Pat α} (hp : p.thin) : ∀ q ∈ p.pre, q.thin :=
  fun _ hq i f ps h => hp i f ps (pre_trans hq h)

/-- Every matcher of a pattern that was found was found somewhere in the tree. -/
theorem placed_sub (p : Pat α) : ∀ s : Tree β, Placed val addr m p s → ∀ q ∈ p.pre, ∃ fs u, plug fs u = s ∧ Placed val addr m q u := by
  induction p using Pat.ind with
  | h i k f ps ih =>
    intro s h q hq
    have hq' := hq
    simp only [Pat.pre, List.mem_cons] at hq
    rcases hq with rfl | hq
    · exact ⟨[], s, rfl, h⟩
    obtain ⟨p, hp, hqp⟩ := preL_mem hq
    have hA : ∀ (l : List (Pat α)) (ts : List (Tree β)), PlacedAt val addr m l ts → p ∈ l → ∃ t ∈ ts, Placed val addr m p t := by
      intro l
      induction l with
      | nil => intro _ _ h; cases h
      | cons a l ihl =>
        intro ts h hm
        simp only [PlacedAt] at h
        obtain ⟨t, ts', rfl, h1, h2⟩ := h
        rcases List.mem_cons.mp hm with rfl | hm
        · exact ⟨t, by simp, h1⟩
        · obtain ⟨u, h3, h4⟩ := ihl ts' h2 hm
          exact ⟨u, by simp [h3], h4⟩
    have hdone : ∀ fs t, plug fs t = s → Placed val addr m p t → ∃ fs u, plug fs u = s ∧ Placed val addr m q u := by
      intro fs t h1 h2
      obtain ⟨gs, u, h3, h4⟩ := ih p hp t h2 q hqp
      exact ⟨gs ++ fs, u, sub_trans h3 h1, h4⟩
    have hchild : PlacedL val addr m ps s.children → ∃ fs u, plug fs u = s ∧ Placed val addr m q u := by
      intro h
      obtain ⟨ts, h1, h2⟩ := placedL_sublist h
      obtain ⟨t, h3, h4⟩ := hA ps ts h2 hp
      obtain ⟨g, h5, -⟩ := plug_child (gs := []) rfl (h1.subset h3)
      exact hdone [g] t h5 h4
    have hself : PlacedL val addr m ps [s] → ∃ fs u, plug fs u = s ∧ Placed val addr m q u := by
      intro h
      obtain ⟨ts, h1, h2⟩ := placedL_sublist h
      obtain ⟨t, h3, h4⟩ := hA ps ts h2 hp
      have := h1.subset h3
      simp at this
      subst this
      exact hdone [] t rfl h4
    have hreach : ∀ (g : β → Bool) ts, Reach g s.children ts → PlacedAt val addr m ps ts → ∃ fs u, plug fs u = s ∧ Placed val addr m q u := by
      intro g ts h1 h2
      obtain ⟨t, h3, h4⟩ := hA ps ts h2 hp
      have key : ∀ us ts : List (Tree β), Reach g us ts → ∀ t ∈ ts, ∃ u ∈ us, ∃ fs, plug fs t = u := by
        intro us ts h
        induction h with
        | nil => intro t ht; cases ht
        | drop _ ih => intro t ht; obtain ⟨u, h1, h2⟩ := ih t ht; exact ⟨u, by simp [h1], h2⟩
        | @take t' us ts _ ih =>
          intro t ht
          rcases List.mem_cons.mp ht with rfl | ht
          · exact ⟨t, by simp, [], rfl⟩
          · obtain ⟨u, h1, h2⟩ := ih t ht; exact ⟨u, by simp [h1], h2⟩
        | @pass t' us ts ts' _ _ _ ih1 ih2 =>
          intro t ht
          rcases List.mem_append.mp ht with ht | ht
          · obtain ⟨u, h1, fs, h2⟩ := ih1 t ht
            obtain ⟨g, h5, -⟩ := plug_child (gs := []) (s := t') rfl h1
            exact ⟨t', by simp, fs ++ [g], sub_trans h2 h5⟩
          · obtain ⟨u, h1, h2⟩ := ih2 t ht; exact ⟨u, by simp [h1], h2⟩
      obtain ⟨u, h5, fs, h6⟩ := key _ _ h1 t h3
      obtain ⟨g, h7, -⟩ := plug_child (gs := []) (s := s) rfl h5
      exact hdone (fs ++ [g]) t (sub_trans h6 h7) h4
    cases k with
    | one => simp only [Placed] at h; exact hchild h.2.2
    | cpt => simp only [Placed] at h; exact hself h.2
    | opt q' =>
      simp only [Placed] at h
      rcases h.2 with h | h
      · exact hchild h.2
      · exact hself h.2
    | star q' =>
      simp only [Placed] at h
      rcases h.2 with h | h
      · by_cases hq : q' = .possessive
        · obtain ⟨ts, h1, h2⟩ := placedL_sublist (h.2.2 hq)
          exact hreach _ ts (.frontier _ (Nat.le_refl _) h1) h2
        · obtain ⟨ts, h1, h2⟩ := placedS_reach (h.2.1 hq)
          exact hreach _ ts h1 h2
      · exact hself h.2
end Pat

namespace Nary
open Pat
variable {α : Type} {W : World (NNode α)} {ts : Nat → Option (Option (Tree (Addr × α)))} {x y : Nat}

/-- A tree that has been made is assigned. -/
theorem assignMade_spec (O : Owned (Nary.shape α) W ts) {u} (hy : ts y = some u) {q : Pat α} {s : Pattern.State} (hs : s.typed = true)
    {h' : NHeap α} {P : Tree (Lab α)} (e : Pattern.result (Nary.kind α) NNode.value (Nary.builder α) s.marks q W.heap = Res.ok (h', some P.label.2))
    (H : Rep h' (P.map rel)) (G : Grown W.heap h' P.gens) :
    ∃ W' n, W.assignPart (Nary.kind α) NNode.value (Nary.builder α) q s y = Res.ok (true, W') ∧
      Owned (Nary.shape α) W' (upd ts y (some (some n))) ∧ n.vals = P.refs.vals ∧ (∀ a ∈ n.addrs, W.heap.cells a = none) ∧
      (∀ z, z ≠ y → W'.vars z = W.vars z) := by
  have V : (P.map rel).vals = P.refs.vals := by
    simp only [Tree.vals, refs, Tree.map_twice]; rfl
  have hla : (P.map rel).addr = P.label.2 := addr_rel P
  have G : Grown W.heap h' (P.map rel).addrs := by rw [addrs_rel]; exact G
  generalize hn : P.map rel = n at *
  obtain ⟨O1, M⟩ := (owned_match (Nary.lawful α)).mp O
  obtain ⟨rx, g1, g2, g3, _⟩ := O.get (Nary.lawful α) hy
  have G' : Grown W.heap h' ((Nary.shape α).addrs (some n)) := G.congr (by intro x; simp [shape_addrs])
  have O2 := O1.grow (Nary.lawful α) G' (by rw [shape_rep]; exact H)
  obtain ⟨e2, O3⟩ := TreeOps.assign_spec (Nary.lawful α) (rs := 0) (ra := 0) O2 hy g3
  refine ⟨⟨h'.freeAll ((Nary.shape α).addrs u), upd W.vars y (some ⟨some n.addr, 0, 0, some n.addr⟩)⟩, n, ?_, (owned_match (Nary.lawful α)).mpr ⟨O3, match_upd (fun z _ => M z) (.some (by rw [shape_ptr]; rfl) (by rw [shape_ptr]; rfl))⟩, V, ?_, ?_⟩
  · rw [shape_ptr] at e2
    simp only [Option.map_some, hla] at e2
    simp only [World.assignPart, hs, e, Res.ok_bind, g2, Bool.not_true, Bool.false_eq_true, if_false]
    rw [e2, hla]; rfl
  · have := loose_fresh O O2
    simpa [shape_addrs] using this
  · intro z hz; simp [upd, hz]

theorem assignYield_spec (O : Owned (Nary.shape α) W ts) {T u gs v} (hx : ts x = some (some T)) (hy : ts y = some u) {q : Pat α}
    (hq : q.solid) (ht : q.thin) {s : Pattern.State} (hs : s.typed = true) (hv : plug gs v = T) (hF : Placed Prod.snd Prod.fst s.marks q v) :
    ∃ W' c n, W.assignPart (Nary.kind α) NNode.value (Nary.builder α) q s y = Res.ok (true, W') ∧
      Owned (Nary.shape α) W' (upd ts y (some (some n))) ∧ n.vals = c.vals ∧ Tree.Part c v ∧
      Yields Prod.snd Prod.fst s.marks q v c ∧ (∀ a ∈ n.addrs, W.heap.cells a = none) ∧
      (∀ z, z ≠ y → W'.vars z = W.vars z) := by
  have HT : Rep W.heap T := O.rep x _ hx T rfl
  have hlt : ∀ a ∈ T.addrs, a < W.heap.next := fun a ha => HT.1.lt_next O.wf (by rw [keys_cells]; exact ha)
  obtain ⟨h', P, e, H, hl, Y, G⟩ := Generate.result_spec (m := s.marks) (makes HT.2) q W.heap gs v O.wf HT hlt hv hq ht hF
  obtain ⟨W', n, k1, k2, k3, k4, k5⟩ := assignMade_spec O hy hs e H G
  exact ⟨W', P.refs, n, k1, k2, k3, yields_part _ _ _ Y, Y, k4, k5⟩
end Nary
