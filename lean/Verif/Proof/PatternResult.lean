import Verif.Proof.Pattern
import Verif.Proof.NaryChild
import Verif.Proof.BinEdit
import Verif.Proof.Lawful
/-! The trees made of what a pattern has matched. -/
open Tree

set_option linter.unusedSimpArgs false

theorem Pat.ind {α : Type} {P : Pat α → Prop} (h : ∀ i k f ps, (∀ p ∈ ps, P p) → P (.node i k f ps)) : ∀ p, P p := by
  intro p
  exact Pat.rec (motive_1 := P) (motive_2 := fun l => ∀ c ∈ l, P c)
    (fun i k f ps ih => h i k f ps ih) (by simp)
    (fun hd tl h1 h2 => by
      intro c hc
      cases hc with
      | head => exact h1
      | tail _ hc => exact h2 c hc) p

/-- Changing cells that were allocated. -/
theorem Grown.modify {ν : Type} {h h' h'' : Heap ν} {ks : List Addr} (G : Grown h h' ks) (hn : h''.next = h'.next)
    (hs : ∀ a, a ∉ ks → h''.cells a = h'.cells a) : Grown h h'' ks := by
  have hle := G.le
  refine ⟨?_, by rw [hn]; exact hle, by rw [hn]; exact G.fresh, ?_, ?_⟩
  · intro a ha
    rw [hn] at ha
    rw [hs a (fun hm => by have := G.fresh a hm; grind)]
    exact G.wf a ha
  · intro a ha hm
    rw [hs a hm]; exact G.only a ha hm
  · intro a ha
    rw [hs a (fun hm => by have := G.fresh a hm; grind)]
    exact G.same a ha

/-- The values of the nodes of `T` can be read from the heap. -/
def Readable {ν α : Type} (value : ν → α) (h : Heap ν) (T : Tree (Addr × α)) : Prop :=
  ∀ fs s, plug fs s = T → ∃ n, h.cells s.addr = some n ∧ value n = s.label.2

theorem Readable.grown {ν α : Type} {value : ν → α} {h h' : Heap ν} {T : Tree (Addr × α)} {ks} (R : Readable value h T)
    (hw : h.WF) (G : Grown h h' ks) : Readable value h' T := by
  intro fs s hs
  obtain ⟨n, h1, h2⟩ := R fs s hs
  refine ⟨n, ?_, h2⟩
  rw [G.same, h1]
  refine Nat.lt_of_not_le fun hle => ?_
  rw [hw _ hle] at h1; cases h1

theorem plug_child {β : Type} {gs : List (Frame β)} {s t T : Tree β} (h : plug gs s = T) (ht : t ∈ s.children) :
    ∃ f, plug (f :: gs) t = T ∧ plug [f] t = s := by
  obtain ⟨a, cs⟩ := s
  obtain ⟨l, r, e⟩ := List.append_of_mem ht
  simp only [children_node] at e
  exact ⟨⟨a, l, r⟩, by simp only [plug]; rw [← e]; exact h, by simp only [plug]; rw [← e]⟩

theorem mem_of_foundL {α : Type} {m : Marks} {q : Pat α} {ts : List (Tree (Addr × α))}
    (h : Pat.FoundL Prod.snd Prod.fst m [q] ts) : ∃ t ∈ ts, Pat.Found Prod.snd Prod.fst m q t := by
  simp only [Pat.FoundL] at h
  obtain ⟨l, t, r, rfl, _, h2, _⟩ := h
  exact ⟨t, by simp, h2⟩

namespace Nary
open Pat
variable {α : Type} {m : Marks} {T : Tree (Addr × α)}

/-- The result of a matcher, for a match found in `T`. -/
def Good (m : Marks) (T : Tree (Addr × α)) (p : Pat α) : Prop :=
  ∀ (h : NHeap α) gs s, h.WF → Readable NNode.value h T → plug gs s = T → p.plain → Found Prod.snd Prod.fst m p s →
    ∃ h' c c', Pattern.result (Nary.kind α) NNode.value (Nary.builder α) m p h = Res.ok (h', some c'.addr) ∧
      Rep h' c' ∧ c'.vals = c.vals ∧ Tree.Part c s ∧ Exact Prod.snd Prod.fst m p c ∧ Grown h h' c'.addrs

theorem resultL_spec (ps : List (Pat α)) (ih : ∀ p ∈ ps, Good m T p) (hp : plainL ps) (h0 h : NHeap α) (r : Addr) (v : α)
    (cs ts : List (Tree (Addr × α))) (hw0 : h0.WF) (hR : Readable NNode.value h0 T) (G : Grown h0 h (node (r, v) cs).addrs)
    (H : Rep h (node (r, v) cs)) (hts : ∀ t ∈ ts, ∃ gs, plug gs t = T)
    (hF : FoundL Prod.snd Prod.fst m ps ts) :
    ∃ h' ds ds', Pattern.resultL (Nary.kind α) NNode.value (Nary.builder α) m r ps h = Res.ok h' ∧
      Rep h' (node (r, v) (cs ++ ds')) ∧ valsL ds' = valsL ds ∧ PartL ds ts ∧ ExactL Prod.snd Prod.fst m ps ds ∧
      Grown h0 h' (node (r, v) (cs ++ ds')).addrs := by
  induction ps generalizing h cs ts with
  | nil =>
    exact ⟨h, [], [], by simp [Pattern.resultL], by simpa using H, rfl, by simp [PartL], by simp [ExactL], by simpa using G⟩
  | cons p ps ih' =>
    simp only [plainL] at hp
    simp only [FoundL] at hF
    obtain ⟨l, t, ts', rfl, _, hF1, hF2⟩ := hF
    obtain ⟨gs, hgs⟩ := hts t (by simp)
    obtain ⟨h1, c, c1, e1, R1, V1, P1, E1, G1⟩ := ih p (by simp) h gs t G.wf (hR.grown hw0 G) hgs hp.1 hF1
    have H1 : Rep h1 (node (r, v) cs) := ⟨G1.holds G.wf H.1, H.2⟩
    have hd : ∀ a ∈ c1.addrs, a ∉ (plug [] (node (r, v) cs)).addrs := by
      intro a ha hm
      have h1 := G1.fresh a ha
      have h2 := G.fresh a hm
      grind
    obtain ⟨h2, e2, H2, hn2, hs2⟩ := append_spec (fs := []) (fuel := h1.fuel) H1 R1 hd (by
      have h1 := size_le G1.wf H1
      have h2 := Simple.length_le_sizeL cs
      simp only [size_node, Heap.fuel] at h1 ⊢; omega)
    simp only [plug] at H2 hs2
    have G2 : Grown h0 h2 (node (r, v) (cs ++ [c1])).addrs := by
      have := G.trans G1
      refine (this.modify hn2 ?_).congr ?_
      · intro a ha
        simp only [List.mem_append, not_or] at ha
        exact hs2 a ha.1 ha.2
      · intro x; simp [addrs_node, addrsL_append]
    obtain ⟨h3, ds, ds', e3, H3, V3, P3, E3, G3⟩ := ih' (fun q hq => ih q (by simp [hq])) hp.2 h2 (cs ++ [c1]) ts' G2 H2
      (fun t ht => hts t (by simp [ht])) hF2
    refine ⟨h3, c :: ds, c1 :: ds', ?_, by simpa using H3, by simp [V1, V3], ?_, ?_, by simpa using G3⟩
    · simp only [Pattern.resultL, found_mark hF1, e1, Res.ok_bind]
      have e2' : (Nary.builder α).attach h1 r c1.addr t.label.1 = Res.ok h2 := e2
      simp only [deref, Res.pure_eq, Res.ok_bind, e2', e3]
    · simp only [PartL]
      exact ⟨l, t, ts', rfl, P1, P3⟩
    · simp only [ExactL]
      exact ⟨c, ds, rfl, E1, E3⟩

theorem clone_spec (ps : List (Pat α)) (ih : ∀ p ∈ ps, Good m T p) (hp : plainL ps) (h : NHeap α)
    {gs s} (hw : h.WF) (hR : Readable NNode.value h T) (hs : plug gs s = T) (hF : FoundL Prod.snd Prod.fst m ps s.children) :
    ∃ h' c c', (do
        let n ← h.read s.addr
        let (h, r) := h.alloc ((Nary.kind α).leaf (NNode.value n))
        let h ← Pattern.resultL (Nary.kind α) NNode.value (Nary.builder α) m r ps h
        pure (h, some r)) = Res.ok (h', some c'.addr) ∧
      Rep h' c' ∧ c'.vals = c.vals ∧ Tree.Part c s ∧ c.label = s.label ∧ ExactL Prod.snd Prod.fst m ps c.children ∧
      Grown h h' c'.addrs := by
  obtain ⟨n, hn, hv⟩ := hR gs s hs
  have hcell : (h.alloc (leaf n.value)).1.cells h.next = some (leaf n.value) := by simp [Heap.alloc]
  obtain ⟨h', ds, ds', e, H, V, P, E, G⟩ := resultL_spec (m := m) (T := T) ps ih hp h (h.alloc (leaf n.value)).1 h.next
    n.value [] s.children hw hR (by simpa [addrs_node] using grown_alloc hw (leaf n.value))
    ⟨by simp only [cells, headAddr, lastAddr]; simpa [leaf] using hcell, by simp [addrs_node]⟩
    (fun t ht => (plug_child hs ht).elim fun f hf => ⟨_, hf.1⟩) hF
  refine ⟨h', node s.label ds, node (h.next, n.value) ds', ?_, by simpa using H, ?_, ?_, by simp, by simpa using E, by simpa using G⟩
  · simp only [Heap.read_of hn, Res.ok_bind]
    have e1 : (Nary.kind α).leaf n.value = leaf n.value := rfl
    have e2 : (h.alloc (leaf n.value)).2 = h.next := rfl
    rw [e1, e2, e]; rfl
  · have : s.label = (s.label.1, s.label.2) := rfl
    rw [this, vals_node, vals_node, V, hv]
  · simp only [Tree.Part]; exact ⟨trivial, P⟩

theorem result_spec (hT : T.addrs.Nodup) : ∀ p : Pat α, Good m T p := by
  intro p
  induction p using Pat.ind with
  | h i k f ps ih =>
    intro h gs s hw hR hs hp hF
    cases k with
    | one =>
      simp only [plain] at hp
      simp only [Found] at hF
      obtain ⟨h', c, c', e, H, V, P, hl, E, G⟩ := clone_spec (m := m) ps ih hp h hw hR hs hF.2.2
      refine ⟨h', c, c', ?_, H, V, P, ?_, G⟩
      · simp only [Pattern.result, hF.1]; exact e
      · simp only [Exact, hl]; exact ⟨hF.1, hF.2.1, E⟩
    | star q => simp [plain] at hp
    | cpt =>
      simp only [plain] at hp
      simp only [Found] at hF
      obtain ⟨q, rfl⟩ := List.length_eq_one_iff.mp hp.1
      obtain ⟨t, ht, hq⟩ := mem_of_foundL hF.2
      simp only [List.mem_singleton] at ht
      subst ht
      obtain ⟨h', c, c', e, H, V, P, E, G⟩ := ih q (by simp) h gs t hw hR hs hp.2.1 hq
      refine ⟨h', c, c', ?_, H, V, P, ?_, G⟩
      · simp only [Pattern.result, hF.1, Pattern.resultHead]; exact e
      · simp only [Exact, ExactL]
        have hl : c.label = t.label := by cases c; simp only [Tree.Part] at P; exact P.1
        exact ⟨by rw [hl]; exact hF.1, c, [], rfl, E, rfl⟩
    | opt q =>
      simp only [plain] at hp
      simp only [Found] at hF
      have hone : ps.length = 1 ∨ childMaySteal ps = false := by
        rw [childMaySteal_plain hp.2]
        cases ps with
        | nil => simp at hp
        | cons p ps => cases ps <;> simp
      rcases hF.2 with ⟨hv, hF2⟩ | ⟨_, _, hF2⟩
      · obtain ⟨h', c, c', e, H, V, P, hl, E, G⟩ := clone_spec (m := m) ps ih hp.2 h hw hR hs hF2
        refine ⟨h', c, c', ?_, H, V, P, ?_, G⟩
        · simp only [Pattern.result, hF.1]
          rcases hone with ho | ho
          · obtain ⟨q, rfl⟩ := List.length_eq_one_iff.mp ho
            obtain ⟨t, ht, hq⟩ := mem_of_foundL hF2
            obtain ⟨g, _, h3⟩ := plug_child hs ht
            have hne : t.addr ≠ s.addr := by
              refine Tree.addr_ne_of_plug_cons h3 ?_
              rw [← hs] at hT
              exact (List.nodup_append.mp ((Nary.addrs_plug gs _).nodup_iff.mp hT)).2.1
            have hm : m q.id ≠ some s.label.1 := by
              rw [found_mark hq]; simpa [Tree.addr] using hne
            simp only [childMaySteal_plain hp.2, Pattern.stealL, hm, if_false]
            simp only [List.length_singleton, Nat.le_refl, decide_true, if_true, Res.pure_eq, Res.ok_bind, Bool.false_eq_true, if_false]
            exact e
          · simp only [ho, Bool.false_eq_true, if_false]
            simp only [Res.pure_eq, Res.ok_bind, Bool.false_eq_true, if_false]
            exact e
        · simp only [Exact, hl]; exact ⟨hF.1, .inl ⟨hv, E⟩⟩
      · have ho : ps.length = 1 := by
          have := fitsL_length (foundL_fits _ _ hF2)
          cases ps with
          | nil => simp at hp
          | cons p ps => simp at this ⊢; exact this
        obtain ⟨q, rfl⟩ := List.length_eq_one_iff.mp ho
        obtain ⟨t, ht, hq⟩ := mem_of_foundL hF2
        simp only [List.mem_singleton] at ht
        subst ht
        obtain ⟨h', c, c', e, H, V, P, E, G⟩ := ih q (by simp) h gs t hw hR hs (plainL_mem hp.2 q (by simp)) hq
        refine ⟨h', c, c', ?_, H, V, P, ?_, G⟩
        · have hm : m q.id = some t.label.1 := found_mark hq
          simp only [Pattern.result, hF.1, childMaySteal_plain hp.2, Pattern.stealL, hm, if_true, e, Res.ok_bind]
          simp
        · simp only [Exact, ExactL]
          have hl : c.label = t.label := by cases c; simp only [Tree.Part] at P; exact P.1
          exact ⟨by rw [hl]; exact hF.1, .inr ⟨c, [], rfl, E, rfl⟩⟩
end Nary
