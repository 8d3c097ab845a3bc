import Verif.Model.Faults
import Verif.Proof.Steps
/-! Making nodes when an event throws. -/
open Tree World

section
variable {ν β γ : Type} {lo : Addr} {J : Heap ν → Prop} {Q : β → Prop} {h h' h'' : Heap ν}

/-- Only cells from `lo` on were written, and new cells were added. -/
structure Adds (lo : Addr) (h h' : Heap ν) : Prop where
  le : h.next ≤ h'.next
  wf : h'.WF
  same : ∀ a, a < lo → h'.cells a = h.cells a
  live : ∀ a, a < h.next → (h'.cells a).isSome = (h.cells a).isSome
  new : ∀ a, h.next ≤ a → a < h'.next → (h'.cells a).isSome

theorem Adds.refl (hw : h.WF) : Adds lo h h := ⟨Nat.le_refl _, hw, fun _ _ => rfl, fun _ _ => rfl, fun a h1 h2 => by grind⟩

theorem Adds.trans (A : Adds lo h h') (B : Adds lo h' h'') : Adds lo h h'' := by
  refine ⟨Nat.le_trans A.le B.le, B.wf, fun a ha => (B.same a ha).trans (A.same a ha),
    fun a ha => (B.live a (Nat.lt_of_lt_of_le ha A.le)).trans (A.live a ha), fun a h1 h2 => ?_⟩
  by_cases h3 : a < h'.next
  · rw [B.live a h3]; exact A.new a h1 h3
  · exact B.new a (Nat.le_of_not_lt h3) h2

theorem Adds.alloc (hw : h.WF) (hlo : lo ≤ h.next) (n : ν) : Adds lo h (h.alloc n).1 := by
  refine ⟨Nat.le_succ _, ?_, ?_, ?_, ?_⟩
  · intro a ha
    simp only [Heap.alloc] at ha ⊢
    rw [if_neg (by grind)]
    exact hw a (Nat.le_of_succ_le ha)
  · intro a ha
    simp only [Heap.alloc]
    rw [if_neg (by grind)]
  · intro a ha
    simp only [Heap.alloc]
    rw [if_neg (by grind)]
  · intro a h1 h2
    simp only [Heap.alloc] at h2 ⊢
    rw [if_pos (by grind)]; rfl

theorem Adds.set (hw : h.WF) {a : Addr} {m n : ν} (ha : h.cells a = some m) (hlo : lo ≤ a) : Adds lo h (h.set a n) := by
  have hlt : a < h.next := by
    refine Nat.lt_of_not_le fun hle => ?_
    rw [hw a hle] at ha; cases ha
  refine ⟨Nat.le_refl _, ?_, ?_, ?_, ?_⟩
  · intro b hb
    simp only [Heap.set] at hb ⊢
    rw [if_neg (by grind)]
    exact hw b hb
  · intro b hb
    simp only [Heap.set]
    rw [if_neg (by grind)]
  · intro b hb
    simp only [Heap.set]
    split
    · subst b; rw [ha]; rfl
    · rfl
  · intro b h1 h2
    simp only [Heap.set] at h2
    grind

/-- `F` is the code `R` with events: without a fault it does the same; when one of the events, two for each node made, throws,
the nodes requested so far stay. -/
def Mir (lo : Addr) (J : Heap ν → Prop) (Q : β → Prop) (h : Heap ν) (R : Res (Heap ν × β)) (F : Fa ν β) : Prop :=
  h.WF → lo ≤ h.next → J h → ∀ h' b, R = .ok (h', b) → Adds lo h h' ∧ J h' ∧ Q b ∧
    (∀ k, F h (2 * (h'.next - h.next) + k) = .ok (.done h' k b)) ∧
    (∀ k, k < 2 * (h'.next - h.next) → ∃ h'', F h k = .ok (.threw h'') ∧ Adds lo h h'' ∧ h''.next = h.next + (k + 1) / 2)

theorem Mir.bind {Q' : γ → Prop} {R : Res (Heap ν × β)} {F : Fa ν β} {g : Heap ν × β → Res (Heap ν × γ)} {G : β → Fa ν γ}
    (A : Mir lo J Q h R F) (B : ∀ h' b, R = .ok (h', b) → Q b → Mir lo J Q' h' (g (h', b)) (G b)) :
    Mir lo J Q' h (R >>= g) (F >>= G) := by
  intro hw hlo hJ h2 c e
  cases hR : R with
  | ub => rw [hR] at e; cases e
  | diverge => rw [hR] at e; cases e
  | ok p =>
    obtain ⟨h1, b⟩ := p
    rw [hR] at e
    obtain ⟨a1, a2, a3, a4, a5⟩ := A hw hlo hJ h1 b hR
    obtain ⟨b1, b2, b3, b4, b5⟩ := B h1 b hR a3 a1.wf (Nat.le_trans hlo a1.le) a2 h2 c e
    have le1 := a1.le
    have le2 := b1.le
    refine ⟨a1.trans b1, b2, b3, fun k => ?_, fun k hk => ?_⟩
    · show Fa.bind F G h _ = _
      unfold Fa.bind
      have : 2 * (h2.next - h.next) + k = 2 * (h1.next - h.next) + (2 * (h2.next - h1.next) + k) := by grind
      rw [this, a4]
      exact b4 k
    · show ∃ h'', Fa.bind F G h _ = _ ∧ _
      unfold Fa.bind
      by_cases hk1 : k < 2 * (h1.next - h.next)
      · obtain ⟨h3, e3, c1, c2⟩ := a5 k hk1
        exact ⟨h3, by rw [e3], c1, c2⟩
      · obtain ⟨j, rfl⟩ := Nat.exists_eq_add_of_le (Nat.le_of_not_lt hk1)
        obtain ⟨h3, e3, c1, c2⟩ := b5 j (by grind)
        refine ⟨h3, by rw [a4]; exact e3, a1.trans c1, ?_⟩
        rw [c2]
        generalize h1.next = n1 at *
        generalize h.next = n0 at *
        simp only [Addr] at *
        omega

/-- Code without events. -/
theorem Mir.lift {f : Heap ν → Res (Heap ν × β)}
    (A : h.WF → lo ≤ h.next → J h → ∀ h' b, f h = .ok (h', b) → Adds lo h h' ∧ J h' ∧ Q b ∧ h'.next = h.next) :
    Mir lo J Q h (f h) (Fa.lift f) := by
  intro hw hlo hJ h' b e
  obtain ⟨a1, a2, a3, a4⟩ := A hw hlo hJ h' b e
  refine ⟨a1, a2, a3, fun k => ?_, fun k hk => ?_⟩
  · simp [Fa.lift, e, a4]
  · rw [a4] at hk
    simp at hk

theorem Mir.ret {b : β} (hb : Q b) : Mir lo J Q h (.ok (h, b)) (Fa.pure b) := by
  intro hw hlo hJ h' b' e
  cases e
  exact ⟨.refl hw, hJ, hb, fun k => by simp [Fa.pure], fun k hk => by simp at hk⟩

theorem Mir.alloc {n : ν} {Q : Addr → Prop} (hQ : lo ≤ h.next → Q h.next) (hJ' : lo ≤ h.next → J h → J (h.alloc n).1) :
    Mir lo J Q h (.ok (h.alloc n)) (Fa.alloc n) := by
  intro hw hlo hJ h' b e
  obtain ⟨rfl, rfl⟩ : h' = (h.alloc n).1 ∧ b = h.next := by cases e; exact ⟨rfl, rfl⟩
  have hn : (h.alloc n).1.next - h.next = 1 := by show h.next + 1 - h.next = 1; grind
  refine ⟨.alloc hw hlo n, hJ' hlo hJ, hQ hlo, fun k => ?_, fun k hk => ?_⟩
  · rw [hn, Nat.add_comm]; rfl
  · rw [hn] at hk
    have : k = 0 ∨ k = 1 := by grind
    rcases this with rfl | rfl
    · exact ⟨h, rfl, .refl hw, rfl⟩
    · exact ⟨_, rfl, .alloc hw hlo n, rfl⟩

/-! Steps of code in sequence. -/

theorem Mir.nested {δ ε ι : Type} {Q' : ε → Prop} {R : Res (Heap ν × β)} {F : Fa ν β} {f : Heap ν × β → Res δ} {g : δ → Res (Heap ν × ε)}
    {F' : β → Fa ν ι} {G : ι → Fa ν ε} (A : Mir lo J Q h R F)
    (B : ∀ h' b, Q b → Mir lo J Q' h' (f (h', b) >>= g) (F' b >>= G)) :
    Mir lo J Q' h ((R >>= f) >>= g) ((F >>= F') >>= G) := by
  have e1 : ((R >>= f) >>= g) = R >>= fun p => f p >>= g := by cases R <;> rfl
  have e2 : ((F >>= F') >>= G) = F >>= fun b => F' b >>= G := by
    funext h k
    show Fa.bind (Fa.bind F F') G h k = Fa.bind F (fun b => Fa.bind (F' b) G) h k
    unfold Fa.bind
    cases F h k with
    | ub => rfl
    | diverge => rfl
    | ok t => cases t <;> rfl
  rw [e1, e2]
  exact Mir.bind A fun h' b _ hb => B h' b hb

theorem Mir.readBind {a : Addr} {g : ν → Res (Heap ν × β)} {G : ν → Fa ν β}
    (B : ∀ o, h.cells a = some o → Mir lo J Q h (g o) (G o)) : Mir lo J Q h (h.read a >>= g) (Fa.read a >>= G) := by
  cases hc : h.cells a with
  | none => intro _ _ _ h' b e; simp [Heap.read, hc] at e
  | some o =>
    have e1 : h.read a = .ok o := by simp [Heap.read, hc]
    have e2 : ∀ k, (Fa.read a >>= G) h k = G o h k := by
      intro k
      show Fa.bind _ _ _ _ = _
      simp [Fa.bind, Fa.read, Fa.lift, e1]
    have := B o hc
    unfold Mir at this ⊢
    simpa only [e1, Res.ok_bind, e2] using this

/-- Code that only looks at something else. -/
theorem Mir.lookBind {r : Res γ} {g : γ → Res (Heap ν × β)} {G : γ → Fa ν β}
    (B : ∀ o, r = .ok o → Mir lo J Q h (g o) (G o)) :
    Mir lo J Q h (r >>= g) ((Fa.lift fun h => do pure (h, ← r)) >>= G) := by
  cases hc : r with
  | ub => intro _ _ _ h' b e; cases e
  | diverge => intro _ _ _ h' b e; cases e
  | ok o =>
    exact B o hc

theorem Mir.allocBind {n : ν} {R : Res (Heap ν × β)} {G : Addr → Fa ν β} (hJ' : lo ≤ h.next → J h → J (h.alloc n).1)
    (B : lo ≤ h.next → Mir lo J Q (h.alloc n).1 R (G h.next)) : Mir lo J Q h R (Fa.alloc n >>= G) := by
  intro hw hlo
  exact Mir.bind (R := .ok (h.alloc n)) (Q := fun a => a = h.next) (g := fun _ => R) (Mir.alloc (fun _ => rfl) hJ')
    (fun h' b e hb => by cases e; exact B hlo) hw hlo

/-- Code that changes the heap without events. -/
theorem Mir.liftBind {f : Heap ν → Res (Heap ν)} {g : Heap ν → Res (Heap ν × β)} {G : Unit → Fa ν β}
    (A : h.WF → lo ≤ h.next → J h → ∀ h', f h = .ok h' → Adds lo h h' ∧ J h' ∧ h'.next = h.next)
    (B : ∀ h', f h = .ok h' → Mir lo J Q h' (g h') (G ())) :
    Mir lo J Q h (f h >>= g) ((Fa.lift fun h => do pure (← f h, ())) >>= G) := by
  cases hf : f h with
  | ub => intro _ _ _ h' b e; cases e
  | diverge => intro _ _ _ h' b e; cases e
  | ok h1 =>
    have := Mir.bind (lo := lo) (J := J) (Q' := Q) (h := h) (R := do pure (← f h, ())) (F := Fa.lift fun h => do pure (← f h, ()))
      (g := fun p => g p.1) (G := G) (Q := fun _ => True) (Mir.lift (f := fun h => do pure (← f h, ())) (fun hw hlo hJ h' b e => by
        rw [hf] at e
        cases e
        obtain ⟨a1, a2, a3⟩ := A hw hlo hJ h1 hf
        exact ⟨a1, a2, trivial, a3⟩)) (fun h' b e _ => by
        rw [hf] at e
        cases e
        exact B h1 hf)
    rw [hf] at this
    exact this

theorem modify_adds {a : Addr} {f : ν → ν} (ha : lo ≤ a) (hJ' : ∀ m, h.cells a = some m → J h → J (h.set a (f m)))
    (hw : h.WF) (hJ : J h) {h' : Heap ν} (e : h.modify a f = .ok h') : Adds lo h h' ∧ J h' ∧ h'.next = h.next := by
  simp only [Heap.modify] at e
  cases hc : h.cells a with
  | none => simp [hc] at e
  | some m =>
    simp only [hc] at e
    cases e
    exact ⟨.set hw hc ha, hJ' m hc hJ, rfl⟩

theorem Mir.modifyBind {a : Addr} {f : ν → ν} {g : Heap ν → Res (Heap ν × β)} {G : Unit → Fa ν β} (ha : lo ≤ a)
    (hJ' : ∀ m, h.cells a = some m → J h → J (h.set a (f m)))
    (B : ∀ h', Mir lo J Q h' (g h') (G ())) : Mir lo J Q h (h.modify a f >>= g) (Fa.modify a f >>= G) :=
  Mir.liftBind (f := fun h => h.modify a f) (fun hw _ hJ _ e => modify_adds ha hJ' hw hJ e) (fun h' _ => B h')

end

/-! ### nary nodes -/

namespace Nary
variable {α : Type} {lo : Addr} {h h' : NHeap α}

/-- The parents of the new nodes are new. -/
def NewParents (lo : Addr) (h : NHeap α) : Prop := ∀ a n, lo ≤ a → h.cells a = some n → ∀ p, n.parent = some p → lo ≤ p

theorem newParents_set {a : Addr} {m n : NNode α} (ha : h.cells a = some m) (hp : n.parent = m.parent) (H : NewParents lo h) :
    NewParents lo (h.set a n) := by
  intro b w hb hw p hwp
  simp only [Heap.set] at hw
  split at hw
  · subst b; cases hw; exact H a m hb ha p (by rw [← hp]; exact hwp)
  · exact H b w hb hw p hwp

theorem newParents_alloc {n : NNode α} (hn : ∀ p, n.parent = some p → lo ≤ p) (H : NewParents lo h) : NewParents lo (h.alloc n).1 := by
  intro b w hb hw p hwp
  simp only [Heap.alloc] at hw
  split at hw
  · cases hw; exact hn p hwp
  · exact H b w hb hw p hwp

theorem newParents_modify {a : Addr} {f : NNode α → NNode α} (hf : ∀ m, (f m).parent = m.parent) (hlo : lo ≤ a) (hw : h.WF)
    (H : NewParents lo h) {h' : NHeap α} (e : h.modify a f = .ok h') : Adds lo h h' ∧ NewParents lo h' ∧ h'.next = h.next := by
  simp only [Heap.modify] at e
  cases hc : h.cells a with
  | none => simp [hc] at e
  | some m =>
    simp only [hc] at e
    cases e
    exact ⟨.set hw hc hlo, newParents_set hc (hf m) H, rfl⟩

theorem manage_adds {a : Addr} (hlo : lo ≤ a) (hw : h.WF) (H : NewParents lo h) {h' : NHeap α}
    (e : manageParentLast h a = .ok h') : Adds lo h h' ∧ NewParents lo h' ∧ h'.next = h.next := by
  unfold manageParentLast at e
  cases hc : h.cells a with
  | none => simp [Heap.read, hc] at e
  | some n =>
    simp only [Heap.read, hc, Res.ok_bind] at e
    have second : ∀ {h1 : NHeap α}, h1.WF → NewParents lo h1 →
        (if n.first.isNone then h1.modify a (fun m => { m with last := none }) else pure h1) = .ok h' →
        Adds lo h1 h' ∧ NewParents lo h' ∧ h'.next = h1.next := by
      intro h1 hw1 H1 e1
      split at e1
      · exact newParents_modify (by exact fun _ => rfl) hlo hw1 H1 e1
      · cases e1; exact ⟨.refl hw1, H1, rfl⟩
    cases hp : n.parent with
    | none =>
      simp only [hp, Res.pure_eq, Res.ok_bind] at e
      exact second hw H e
    | some p =>
      simp only [hp] at e
      split at e
      · cases hm : h.modify p (fun m => { m with last := some a }) with
        | ub => rw [hm] at e; cases e
        | diverge => rw [hm] at e; cases e
        | ok h1 =>
          rw [hm] at e
          obtain ⟨b1, b2, b3⟩ := newParents_modify (by exact fun _ => rfl) (H a n hlo hc p hp) hw H hm
          obtain ⟨c1, c2, c3⟩ := second b1.wf b2 e
          exact ⟨b1.trans c1, c2, c3.trans b3⟩
      · exact second hw H e

theorem manage_mir {β : Type} {Q : β → Prop} {a : Addr} {g : NHeap α → Res (NHeap α × β)} {G : Unit → Fa (NNode α) β}
    (hlo : lo ≤ a) (B : ∀ h', Mir lo (NewParents lo) Q h' (g h') (G ())) :
    Mir lo (NewParents lo) Q h (manageParentLast h a >>= g) ((Fa.lift fun h => do pure (← manageParentLast h a, ())) >>= G) :=
  Mir.liftBind (f := fun h => manageParentLast h a) (fun hw _ H _ e => manage_adds hlo hw H e) (fun h' _ => B h')

theorem copy_mir : ∀ (fuel : Nat) (h : NHeap α) (a : Addr) (parent prev : Ptr), (∀ p, parent = some p → lo ≤ p) →
    Mir lo (NewParents lo) (fun _ => True) h (copy fuel h a parent prev) (copyF fuel a parent prev)
  | 0, _, _, _, _, _ => by intro _ _ _ h' b e; cases e
  | fuel + 1, h, a, parent, prev, hp => by
    rw [copy, copyF]
    refine Mir.readBind fun o _ => ?_
    refine Mir.allocBind (fun _ => newParents_alloc hp) fun hlo => ?_
    have fin : ∀ h' : NHeap α, Mir lo (NewParents lo) (fun _ => True) h' (do
          let h2 ← manageParentLast h' h.next
          pure (h2, h.next)) (do
          Fa.lift fun h' => do pure (← manageParentLast h' h.next, ())
          pure h.next) := fun h' => manage_mir hlo fun h2 => Mir.ret trivial
    have children : ∀ h' : NHeap α, Mir lo (NewParents lo) (fun _ => True) h' (do
          let h' ← match o.first with
            | some c => do
              let (h', a) ← copy fuel h' c (some h.next) none
              h'.modify h.next (fun m => { m with first := some a })
            | none => pure h'
          let h' ← manageParentLast h' h.next
          pure (h', h.next)) (do
          match o.first with
            | some c => do
              let a ← copyF fuel c (some h.next) none
              Fa.modify h.next (fun m => { m with first := some a })
            | none => pure ()
          Fa.lift fun h' => do pure (← manageParentLast h' h.next, ())
          pure h.next) := by
      intro h'
      cases o.first with
      | none => exact fin h'
      | some c =>
        refine Mir.bind (copy_mir fuel h' c (some h.next) none (by rintro _ ⟨⟩; exact hlo)) fun h2 b _ _ => ?_
        exact Mir.modifyBind hlo (fun m hm => newParents_set hm rfl) fin
    cases o.next with
    | none => exact children _
    | some nx =>
      refine Mir.bind (copy_mir fuel _ nx parent (some h.next) hp) fun h2 b _ _ => ?_
      exact Mir.modifyBind hlo (fun m hm => newParents_set hm rfl) children

theorem ofLits_mir : ∀ (fuel : Nat) (h : NHeap α) (t : Tree α) (ts : List (Tree α)) (parent prev : Ptr),
    (∀ p, parent = some p → lo ≤ p) →
    Mir lo (NewParents lo) (fun _ => True) h (ofLits fuel h t ts parent prev) (ofLitsF fuel t ts parent prev)
  | 0, _, _, _, _, _, _ => by intro _ _ _ h' b e; cases e
  | fuel + 1, h, t, ts, parent, prev, hp => by
    rw [ofLits, ofLitsF]
    refine Mir.allocBind (fun _ => newParents_alloc hp) fun hlo => ?_
    have fin : ∀ h' : NHeap α, Mir lo (NewParents lo) (fun _ => True) h' (do
          let h2 ← manageParentLast h' h.next
          pure (h2, h.next)) (do
          Fa.lift fun h' => do pure (← manageParentLast h' h.next, ())
          pure h.next) := fun h' => manage_mir hlo fun h2 => Mir.ret trivial
    have children : ∀ h' : NHeap α, Mir lo (NewParents lo) (fun _ => True) h' (do
          let h' ← match t.children with
            | c :: cs => do
              let (h', a) ← ofLits fuel h' c cs (some h.next) none
              h'.modify h.next (fun m => { m with first := some a })
            | [] => pure h'
          let h' ← manageParentLast h' h.next
          pure (h', h.next)) (do
          match t.children with
            | c :: cs => do
              let a ← ofLitsF fuel c cs (some h.next) none
              Fa.modify h.next (fun m => { m with first := some a })
            | [] => pure ()
          Fa.lift fun h' => do pure (← manageParentLast h' h.next, ())
          pure h.next) := by
      intro h'
      cases t.children with
      | nil => exact fin h'
      | cons c cs =>
        refine Mir.bind (ofLits_mir fuel h' c cs (some h.next) none (by rintro _ ⟨⟩; exact hlo)) fun h2 b _ _ => ?_
        exact Mir.modifyBind hlo (fun m hm => newParents_set hm rfl) fin
    cases ts with
    | nil => exact children _
    | cons nx ts =>
      refine Mir.bind (ofLits_mir fuel _ nx ts parent (some h.next) hp) fun h2 b _ _ => ?_
      exact Mir.modifyBind hlo (fun m hm => newParents_set hm rfl) children

theorem ofBinary_mir : ∀ (fuel : Nat) (hb : BHeap α) (h : NHeap α) (a : Addr) (parent prev : Ptr), (∀ p, parent = some p → lo ≤ p) →
    Mir lo (NewParents lo) (fun _ => True) h (ofBinary fuel hb a h parent prev) (ofBinaryF fuel hb a parent prev)
  | 0, _, _, _, _, _, _ => by intro _ _ _ h' b e; cases e
  | fuel + 1, hb, h, a, parent, prev, hp => by
    rw [ofBinary, ofBinaryF]
    refine Mir.lookBind fun o _ => Mir.lookBind fun fol _ => ?_
    refine Mir.allocBind (fun _ => newParents_alloc hp) fun hlo => ?_
    have fin : ∀ h' : NHeap α, Mir lo (NewParents lo) (fun _ => True) h' (do
          let h2 ← manageParentLast h' h.next
          pure (h2, h.next)) (do
          Fa.lift fun h' => do pure (← manageParentLast h' h.next, ())
          pure h.next) := fun h' => manage_mir hlo fun h2 => Mir.ret trivial
    refine Mir.lookBind fun nx _ => ?_
    have children : ∀ h' : NHeap α, Mir lo (NewParents lo) (fun _ => True) h' (do
          let fc ← Binary.first hb a
          let h' ← match fc with
            | some c => do
              let (h', a) ← ofBinary fuel hb c h' (some h.next) none
              h'.modify h.next (fun m => { m with first := some a })
            | none => pure h'
          let h' ← manageParentLast h' h.next
          pure (h', h.next)) (do
          let fc ← Fa.lift fun h => do pure (h, ← Binary.first hb a)
          match fc with
            | some c => do
              let a ← ofBinaryF fuel hb c (some h.next) none
              Fa.modify h.next (fun m => { m with first := some a })
            | none => pure ()
          Fa.lift fun h' => do pure (← manageParentLast h' h.next, ())
          pure h.next) := by
      intro h'
      refine Mir.lookBind fun fc _ => ?_
      cases fc with
      | none => exact fin h'
      | some c =>
        refine Mir.bind (ofBinary_mir fuel hb h' c (some h.next) none (by rintro _ ⟨⟩; exact hlo)) fun h2 b _ _ => ?_
        exact Mir.modifyBind hlo (fun m hm => newParents_set hm rfl) fin
    cases nx with
    | none => exact children _
    | some nx =>
      refine Mir.bind (ofBinary_mir fuel hb _ nx parent (some h.next) hp) fun h2 b _ _ => ?_
      exact Mir.modifyBind hlo (fun m hm => newParents_set hm rfl) children

end Nary

/-! ### binary nodes -/

namespace Binary
variable {α : Type} {lo : Addr} {h h' : BHeap α}

/-- The children of the new nodes are new. -/
def NewKids (lo : Addr) (h : BHeap α) : Prop :=
  ∀ a n, lo ≤ a → h.cells a = some n → (∀ p, n.left = some p → lo ≤ p) ∧ (∀ p, n.right = some p → lo ≤ p)

theorem newKids_set {a : Addr} {n : BNode α} (hl : ∀ p, n.left = some p → lo ≤ p) (hr : ∀ p, n.right = some p → lo ≤ p)
    (H : NewKids lo h) : NewKids lo (h.set a n) := by
  intro b w hb hw
  simp only [Heap.set] at hw
  split at hw
  · cases hw; exact ⟨hl, hr⟩
  · exact H b w hb hw

theorem newKids_alloc {v : α} (H : NewKids lo h) : NewKids lo (h.alloc ⟨v, none, none, none⟩).1 := by
  intro b w hb hw
  simp only [Heap.alloc] at hw
  split at hw
  · cases hw; exact ⟨by rintro _ ⟨⟩, by rintro _ ⟨⟩⟩
  · exact H b w hb hw

theorem attach_adds {a : Addr} (hlo : lo ≤ a) (hw : h.WF) (H : NewKids lo h) {h' : BHeap α}
    (e : attach h a = .ok h') : Adds lo h h' ∧ NewKids lo h' ∧ h'.next = h.next := by
  unfold attach at e
  cases hc : h.cells a with
  | none => simp [Heap.read, hc] at e
  | some n =>
    simp only [Heap.read, hc, Res.ok_bind] at e
    have K := H a n hlo hc
    have set : ∀ {h1 h2 : BHeap α} {p : Addr}, h1.WF → NewKids lo h1 → lo ≤ p →
        h1.modify p (fun m => { m with parent := some a }) = .ok h2 → Adds lo h1 h2 ∧ NewKids lo h2 ∧ h2.next = h1.next := by
      intro h1 h2 p hw1 H1 hp e1
      exact modify_adds (J := NewKids lo) (f := fun m => { m with parent := some a }) hp (fun m hm J => newKids_set (J p m hp hm).1 (J p m hp hm).2 J) hw1 H1 e1
    have second : ∀ {h1 : BHeap α}, h1.WF → NewKids lo h1 → (match n.right with
          | some r => h1.modify r (fun m => { m with parent := some a })
          | none => pure h1) = .ok h' → Adds lo h1 h' ∧ NewKids lo h' ∧ h'.next = h1.next := by
      intro h1 hw1 H1 e1
      cases hr : n.right with
      | none => simp only [hr] at e1; cases e1; exact ⟨.refl hw1, H1, rfl⟩
      | some r => simp only [hr] at e1; exact set hw1 H1 (K.2 r hr) e1
    cases hl : n.left with
    | none => simp only [hl] at e; exact second hw H e
    | some l =>
      simp only [hl] at e
      cases hm : h.modify l (fun m => { m with parent := some a }) with
      | ub => rw [hm] at e; cases e
      | diverge => rw [hm] at e; cases e
      | ok h1 =>
        rw [hm] at e
        obtain ⟨b1, b2, b3⟩ := set hw H (K.1 l hl) hm
        obtain ⟨c1, c2, c3⟩ := second b1.wf b2 e
        exact ⟨b1.trans c1, c2, c3.trans b3⟩

theorem attach_mir {β : Type} {Q : β → Prop} {a : Addr} {g : BHeap α → Res (BHeap α × β)} {G : Unit → Fa (BNode α) β}
    (hlo : lo ≤ a) (B : ∀ h', Mir lo (NewKids lo) Q h' (g h') (G ())) :
    Mir lo (NewKids lo) Q h (attach h a >>= g) ((Fa.lift fun h => do pure (← attach h a, ())) >>= G) :=
  Mir.liftBind (f := fun h => attach h a) (fun hw _ H _ e => attach_adds hlo hw H e) (fun h' _ => B h')

theorem copy_mir : ∀ (fuel : Nat) (h : BHeap α) (a : Addr),
    Mir lo (NewKids lo) (fun b => lo ≤ b) h (copy fuel h a) (copyF fuel a)
  | 0, _, _ => by intro _ _ _ h' b e; cases e
  | fuel + 1, h, a => by
    rw [copy, copyF]
    refine Mir.readBind fun o _ => ?_
    refine Mir.allocBind (fun _ => newKids_alloc) fun hlo => ?_
    have fin : ∀ h' : BHeap α, Mir lo (NewKids lo) (fun b => lo ≤ b) h' (do
          let h2 ← attach h' h.next
          pure (h2, h.next)) (do
          Fa.lift fun h' => do pure (← attach h' h.next, ())
          pure h.next) := fun h' => attach_mir hlo fun h2 => Mir.ret hlo
    have right : ∀ h' : BHeap α, Mir lo (NewKids lo) (fun b => lo ≤ b) h' (do
          let h' ← match o.right with
            | some c => do
              let (h', a) ← copy fuel h' c
              h'.modify h.next (fun m => { m with right := some a })
            | none => pure h'
          let h' ← attach h' h.next
          pure (h', h.next)) (do
          match o.right with
            | some c => do
              let a ← copyF fuel c
              Fa.modify h.next (fun m => { m with right := some a })
            | none => pure ()
          Fa.lift fun h' => do pure (← attach h' h.next, ())
          pure h.next) := by
      intro h'
      cases o.right with
      | none => exact fin h'
      | some c =>
        refine Mir.bind (copy_mir fuel h' c) fun h2 b _ hb => ?_
        exact Mir.modifyBind hlo (fun m hm J => newKids_set (J _ m hlo hm).1 (by rintro _ ⟨⟩; exact hb) J) fin
    cases o.left with
    | none => exact right _
    | some l =>
      refine Mir.bind (copy_mir fuel _ l) fun h2 b _ hb => ?_
      exact Mir.modifyBind hlo (fun m hm J => newKids_set (by rintro _ ⟨⟩; exact hb) (J _ m hlo hm).2 J) right

theorem ofLit_mir : ∀ (fuel : Nat) (h : BHeap α) (t : Tree (Option α)),
    Mir lo (NewKids lo) (fun b => lo ≤ b) h (ofLit' fuel h t) (ofLitF' fuel t)
  | 0, _, _ => by intro _ _ _ h' b e; cases e
  | fuel + 1, h, t => by
    rw [ofLit', ofLitF']
    cases t.label with
    | none => intro _ _ _ h' b e; cases e
    | some v =>
      refine Mir.allocBind (fun _ => newKids_alloc) fun hlo => ?_
      have fin : ∀ h' : BHeap α, Mir lo (NewKids lo) (fun b => lo ≤ b) h' (do
            let h2 ← attach h' h.next
            pure (h2, h.next)) (do
            Fa.lift fun h' => do pure (← attach h' h.next, ())
            pure h.next) := fun h' => attach_mir hlo fun h2 => Mir.ret hlo
      have setL : ∀ {h2 : BHeap α} {b : Addr}, lo ≤ b → ∀ m, h2.cells h.next = some m → NewKids lo h2 →
          NewKids lo (h2.set h.next { m with left := some b }) :=
        fun hb m hm J => newKids_set (by rintro _ ⟨⟩; exact hb) (J _ m hlo hm).2 J
      have setR : ∀ {h2 : BHeap α} {b : Addr}, lo ≤ b → ∀ m, h2.cells h.next = some m → NewKids lo h2 →
          NewKids lo (h2.set h.next { m with right := some b }) :=
        fun hb m hm J => newKids_set (J _ m hlo hm).1 (by rintro _ ⟨⟩; exact hb) J
      cases t.children with
      | nil => exact fin _
      | cons c cs =>
        have right : ∀ h' : BHeap α, Mir lo (NewKids lo) (fun b => lo ≤ b) h' (do
              let h' ← match c :: cs with
                | _ :: c :: _ => (match c.label with
                  | some _ => do
                    let (h', a) ← ofLit' fuel h' c
                    h'.modify h.next (fun m => { m with right := some a })
                  | none => pure h')
                | _ => pure h'
              let h' ← attach h' h.next
              pure (h', h.next)) (do
              match c :: cs with
                | _ :: c :: _ => (match c.label with
                  | some _ => do
                    let a ← ofLitF' fuel c
                    Fa.modify h.next (fun m => { m with right := some a })
                  | none => pure ())
                | _ => pure ()
              Fa.lift fun h' => do pure (← attach h' h.next, ())
              pure h.next) := by
          intro h'
          cases cs with
          | nil => exact fin h'
          | cons d ds =>
            dsimp only
            cases d.label with
            | none => exact fin h'
            | some _ =>
              refine Mir.nested (ofLit_mir fuel h' d) fun h2 b hb => ?_
              exact Mir.modifyBind hlo (setR hb) fin
        dsimp only
        cases c.label with
        | none => exact right _
        | some _ =>
          refine Mir.nested (ofLit_mir fuel _ c) fun h2 b hb => ?_
          exact Mir.modifyBind hlo (setL hb) right

end Binary
