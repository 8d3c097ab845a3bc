import Verif.Proof.Erase
import Verif.Spec.History
/-! Operations on program states. -/
open Tree World

section
variable {ν α lit T V C : Type} {K : Kind ν α lit} {Z : Addr → Prop} {S : Shape K T V C} {h h' : Heap ν} {ts : Nat → Option T} {W W1 : World ν}
  {n s t u : T} {x y : Nat} {c : C} {a : Addr} {P : Policy} {r : TreeRec} {pos : It} {rs ra : Nat} {src : Src α lit}

/-- A tree object and the tree it holds. -/
structure Match (S : Shape K T V C) (o : Option TreeRec) (p : Option T) : Prop where
  alive : o.isSome = p.isSome
  root : ∀ r t, o = some r → p = some t → r.root = S.ptr t ∧ r.navRoot = S.ptr t

theorem Match.some {r : TreeRec} {t : T} (h1 : r.root = S.ptr t) (h2 : r.navRoot = S.ptr t) :
    Match S (some r) (some t) := ⟨rfl, by rintro _ _ ⟨⟩ ⟨⟩; exact ⟨h1, h2⟩⟩
theorem Match.none : Match S none none := ⟨rfl, by rintro _ _ ⟨⟩⟩

theorem Match.get {o : Option TreeRec} (M : Match S o (Option.some t)) : ∃ r, o = Option.some r ∧ r.root = S.ptr t ∧ r.navRoot = S.ptr t := by
  cases o with
  | none => cases M.alive
  | some r => exact ⟨r, rfl, M.root r t rfl rfl⟩

theorem owned_match (L : Lawful S) : OwnedBut Z S W ts ↔ Own Z S W.heap ts S.nil ∧ ∀ z, Match S (W.vars z) (ts z) := by
  rw [owned_iff L]
  constructor
  · rintro ⟨h1, h2, h3⟩; exact ⟨h1, fun z => ⟨h2 z, h3 z⟩⟩
  · rintro ⟨h1, h2⟩; exact ⟨h1, fun z => (h2 z).alive, fun z => (h2 z).root⟩

theorem OwnedBut.get (L : Lawful S) (O : OwnedBut Z S W ts) (hx : ts x = some t) :
    ∃ r, W.vars x = some r ∧ W.get x = Res.ok r ∧ r.root = S.ptr t ∧ r.navRoot = S.ptr t := by
  have := ((owned_match L).mp O).2 x
  rw [hx] at this
  obtain ⟨r, h1, h2⟩ := this.get
  exact ⟨r, h1, by simp [World.get, h1], h2⟩

theorem match_upd {f : Nat → Option TreeRec} (M : ∀ z, z ≠ x → Match S (f z) (ts z)) {o : Option TreeRec} {p : Option T}
    (Mx : Match S o p) : ∀ z, Match S (upd f x o z) (upd ts x p z) := by
  intro z
  unfold upd
  split
  · exact Mx
  · exact M z ‹_›

theorem upd_twice {β : Type} (f : Nat → β) (x : Nat) (b b' : β) : upd (upd f x b) x b' = upd f x b' := by
  funext z; simp [upd]; grind
theorem upd_comm {β : Type} (f : Nat → β) {x y : Nat} (b b' : β) (hxy : x ≠ y) :
    upd (upd f x b) y b' = upd (upd f y b') x b := by
  funext z; simp [upd]; grind
theorem upd_self {β : Type} (f : Nat → β) (x : Nat) : upd f x (f x) = f := by
  funext z; simp [upd]; grind

theorem put_eq (W : World ν) (h : Heap ν) (x : Nat) (o : Option TreeRec) : (W.setHeap h).put x o = ⟨h, upd W.vars x o⟩ := rfl
theorem put_eq' (W : World ν) (x : Nat) (o : Option TreeRec) : W.put x o = ⟨W.heap, upd W.vars x o⟩ := rfl

variable (L : Lawful S)
include L

/-! ### construction, assignment, destruction -/

theorem newEmpty_spec (O : OwnedBut Z S W ts) (hx : ts x = none) :
    W.newEmpty x = Res.ok ⟨W.heap, upd W.vars x (some TreeRec.empty)⟩ ∧
      OwnedBut Z S ⟨W.heap, upd W.vars x (some TreeRec.empty)⟩ (upd ts x (some S.nil)) := by
  obtain ⟨O1, M⟩ := (owned_match L).mp O
  exact ⟨rfl, (owned_match L).mpr ⟨O1.name L hx, match_upd (fun z _ => M z) (Match.some (r := TreeRec.empty) L.ptr_nil.symm L.ptr_nil.symm)⟩⟩

omit L in
/-- A loose tree beside the named trees of a state consists of new nodes. -/
theorem loose_fresh (O : OwnedBut Z S W ts) (O2 : Own Z S h' ts n) : ∀ a ∈ S.addrs n, W.heap.cells a = none := by
  intro a ha
  cases hc : W.heap.cells a with
  | none => rfl
  | some v =>
    rcases O.noLeakBut a (by simp [hc]) with ⟨z, t, hz, hm⟩ | hm
    · exact absurd ha (O2.disjN z t hz a hm)
    · exact absurd hm (O2.apartN a ha)

/-- Copying the nodes of a tree. -/
theorem copyNodes_spec (O1 : Own Z S W.heap ts S.nil) (hy : ts y = some t) (hr : r.root = S.ptr t) :
    ∃ h' n, copyNodes K W r = Res.ok (W.setHeap h', S.ptr n) ∧ Own Z S h' ts n ∧ S.vals n = S.vals t := by
  unfold copyNodes
  rw [hr]
  cases hp : S.ptr t with
  | none =>
    have := L.ptr_none_iff.mp hp
    subst this
    exact ⟨W.heap, S.nil, by simp [setHeap, L.ptr_nil], O1, rfl⟩
  | some a =>
    obtain ⟨h', b, t', e, h1, h2, h3, h4⟩ := L.copy W.heap t a O1.wf (O1.rep y t hy) hp
    exact ⟨h', t', by simp [e, h1], O1.grow L h4 h2, h3⟩

theorem newCopy_spec (O : OwnedBut Z S W ts) (hx : ts x = none) (hy : ts y = some t) (hr : W.vars y = some r) :
    ∃ h' n, W.newCopy K x y = Res.ok ⟨h', upd W.vars x (some ⟨S.ptr n, r.size, r.arity, S.ptr n⟩)⟩ ∧
      OwnedBut Z S ⟨h', upd W.vars x (some ⟨S.ptr n, r.size, r.arity, S.ptr n⟩)⟩ (upd ts x (some n)) ∧ S.vals n = S.vals t ∧
      (∀ a ∈ S.addrs n, W.heap.cells a = none) := by
  obtain ⟨O1, M⟩ := (owned_match L).mp O
  have hr' := ((M y).root r t hr hy).1
  obtain ⟨h', n, e, O2, hv⟩ := copyNodes_spec L O1 hy hr'
  refine ⟨h', n, ?_, (owned_match L).mpr ⟨O2.name L hx, match_upd (fun z _ => M z) (.some rfl rfl)⟩, hv, loose_fresh O O2⟩
  simp [newCopy, World.get, hr, e, put_eq]

theorem newMove_spec (O : OwnedBut Z S W ts) (hx : ts x = none) (hy : ts y = some t) (hr : W.vars y = some r) :
    W.newMove x y = Res.ok ⟨W.heap, upd (upd W.vars x (some ⟨r.root, r.size, r.arity, r.root⟩)) y (some TreeRec.empty)⟩ ∧
      OwnedBut Z S ⟨W.heap, upd (upd W.vars x (some ⟨r.root, r.size, r.arity, r.root⟩)) y (some TreeRec.empty)⟩
        (upd (upd ts x (some t)) y (some S.nil)) := by
  obtain ⟨O1, M⟩ := (owned_match L).mp O
  have hr' := ((M y).root r t hr hy).1
  have hne : x ≠ y := by rintro rfl; rw [hx] at hy; cases hy
  refine ⟨by simp [newMove, World.get, hr, put_eq'], (owned_match L).mpr ⟨?_, ?_⟩⟩
  · have := (O1.exchange L hy).name L (x := x) (by simp [upd, hne, hx])
    rwa [upd_comm ts _ _ (Ne.symm hne)] at this
  · exact match_upd (fun z _ => match_upd (fun z _ => M z) (Match.some (r := ⟨r.root, r.size, r.arity, r.root⟩) hr' hr') z) (Match.some (r := TreeRec.empty) L.ptr_nil.symm L.ptr_nil.symm)

theorem newLit_spec (O : OwnedBut Z S W ts) (hx : ts x = none) {l : lit} (hl : S.litOk l) :
    ∃ h' n, W.newLit K x l = Res.ok ⟨h', upd W.vars x (some ⟨S.ptr n, K.litSize l, K.litArity l, S.ptr n⟩)⟩ ∧
      OwnedBut Z S ⟨h', upd W.vars x (some ⟨S.ptr n, K.litSize l, K.litArity l, S.ptr n⟩)⟩ (upd ts x (some n)) ∧
      S.vals n = S.litVals l ∧ n ≠ S.nil ∧ (∀ a ∈ S.addrs n, W.heap.cells a = none) := by
  obtain ⟨O1, M⟩ := (owned_match L).mp O
  obtain ⟨h', b, n, e, h1, h2, h3, h4⟩ := L.ofLit W.heap l O1.wf hl
  refine ⟨h', n, ?_, (owned_match L).mpr ⟨(O1.grow L h4 h2).name L hx, match_upd (fun z _ => M z) (.some rfl rfl)⟩, h3, ?_, loose_fresh O (O1.grow L h4 h2)⟩
  · simp [newLit, e, put_eq, h1]
  · rintro rfl; rw [L.ptr_nil] at h1; cases h1

theorem destroy_spec (O : OwnedBut Z S W ts) (hx : ts x = some t) :
    ∃ h', h' = W.heap.freeAll (S.addrs t) ∧ W.destroy K x = Res.ok ⟨h', upd W.vars x none⟩ ∧ OwnedBut Z S ⟨h', upd W.vars x none⟩ (upd ts x none) := by
  obtain ⟨O1, M⟩ := (owned_match L).mp O
  obtain ⟨r, h1, h2, h3, _⟩ := O.get L hx
  obtain ⟨e, O2⟩ := TreeOps.assign_spec L (rs := 0) (ra := 0) O1 hx h3
  have O3 := O2.unname L (upd_same ts x (some S.nil))
  rw [upd_twice] at O3
  refine ⟨W.heap.freeAll (S.addrs t), rfl, ?_, (owned_match L).mpr ⟨O3, match_upd (fun z _ => M z) .none⟩⟩
  rw [L.ptr_nil] at e
  simp [destroy, h2, TreeOps.clear, e, put_eq]

theorem clear_spec (O : OwnedBut Z S W ts) (hx : ts x = some t) :
    ∃ h', h' = W.heap.freeAll (S.addrs t) ∧ W.clear K x = Res.ok ⟨h', upd W.vars x (some TreeRec.empty)⟩ ∧
      OwnedBut Z S ⟨h', upd W.vars x (some TreeRec.empty)⟩ (upd ts x (some S.nil)) := by
  obtain ⟨O1, M⟩ := (owned_match L).mp O
  obtain ⟨r, h1, h2, h3, _⟩ := O.get L hx
  obtain ⟨e, O2⟩ := TreeOps.assign_spec L (rs := 0) (ra := 0) O1 hx h3
  refine ⟨W.heap.freeAll (S.addrs t), rfl, ?_, (owned_match L).mpr ⟨O2, match_upd (fun z _ => M z) (Match.some (r := TreeRec.empty) L.ptr_nil.symm L.ptr_nil.symm)⟩⟩
  rw [L.ptr_nil] at e
  simp [World.clear, h2, TreeOps.clear, e, put_eq, TreeRec.empty]

theorem assignCopy_spec (O : OwnedBut Z S W ts) (hx : ts x = some u) (hy : ts y = some t) (hr : W.vars y = some r) :
    ∃ h' n, W.assignCopy K x y = Res.ok ⟨h', upd W.vars x (some ⟨S.ptr n, r.size, r.arity, S.ptr n⟩)⟩ ∧
      OwnedBut Z S ⟨h', upd W.vars x (some ⟨S.ptr n, r.size, r.arity, S.ptr n⟩)⟩ (upd ts x (some n)) ∧ S.vals n = S.vals t ∧
      (∀ a ∈ S.addrs n, W.heap.cells a = none) := by
  obtain ⟨O1, M⟩ := (owned_match L).mp O
  have hr' := ((M y).root r t hr hy).1
  obtain ⟨rx, h1, h2, h3, _⟩ := O.get L hx
  obtain ⟨h', n, e, O2, hv⟩ := copyNodes_spec L O1 hy hr'
  obtain ⟨e2, O3⟩ := TreeOps.assign_spec L (rs := r.size) (ra := r.arity) O2 hx h3
  refine ⟨h'.freeAll (S.addrs u), n, ?_, (owned_match L).mpr ⟨O3, match_upd (fun z _ => M z) (.some rfl rfl)⟩, hv, loose_fresh O O2⟩
  simp [assignCopy, World.get, hr, h1, e, put_eq', e2, setHeap]

theorem assignLit_spec (O : OwnedBut Z S W ts) (hx : ts x = some t) {l : lit} (hl : S.litOk l) :
    ∃ h' n, W.assignLit K x l = Res.ok ⟨h', upd W.vars x (some ⟨S.ptr n, K.litSize l, K.litArity l, S.ptr n⟩)⟩ ∧
      OwnedBut Z S ⟨h', upd W.vars x (some ⟨S.ptr n, K.litSize l, K.litArity l, S.ptr n⟩)⟩ (upd ts x (some n)) ∧
      S.vals n = S.litVals l ∧ n ≠ S.nil ∧ (∀ a ∈ S.addrs n, W.heap.cells a = none) := by
  obtain ⟨O1, M⟩ := (owned_match L).mp O
  obtain ⟨rx, h1', h2', h3', _⟩ := O.get L hx
  obtain ⟨h', b, n, e, h1, h2, h3, h4⟩ := L.ofLit W.heap l O1.wf hl
  obtain ⟨e2, O3⟩ := TreeOps.assign_spec L (rs := K.litSize l) (ra := K.litArity l) (O1.grow L h4 h2) hx h3'
  refine ⟨h'.freeAll (S.addrs t), n, ?_, (owned_match L).mpr ⟨O3, match_upd (fun z _ => M z) (.some rfl rfl)⟩, h3, ?_, loose_fresh O (O1.grow L h4 h2)⟩
  · rw [h1] at e2
    simp [assignLit, World.get, h1', e, put_eq', e2, setHeap, h1]
  · rintro rfl; rw [L.ptr_nil] at h1; cases h1

theorem assignMove_spec (O : OwnedBut Z S W ts) (hx : ts x = some u) (hy : ts y = some t) (hr : W.vars y = some r) :
    ∃ h', h' = W.heap.freeAll (S.addrs u) ∧ W.assignMove K x y =
        Res.ok ⟨h', upd (upd W.vars x (some ⟨r.root, r.size, r.arity, r.root⟩)) y (some TreeRec.empty)⟩ ∧
      OwnedBut Z S ⟨h', upd (upd W.vars x (some ⟨r.root, r.size, r.arity, r.root⟩)) y (some TreeRec.empty)⟩
        (upd (upd ts x (some t)) y (some S.nil)) := by
  obtain ⟨O1, M⟩ := (owned_match L).mp O
  have hr' := ((M y).root r t hr hy).1
  obtain ⟨rx, h1, h2, h3, _⟩ := O.get L hx
  by_cases hne : x = y
  · subst hne
    rw [hx] at hy; cases hy
    rw [hr] at h1; cases h1
    obtain ⟨e, O2⟩ := TreeOps.assign_spec L (rs := 0) (ra := 0) O1 hx h3
    have e' : ∀ p s a, TreeOps.assign K W.heap r p s a = Res.ok (W.heap.freeAll (S.addrs t), ⟨p, s, a, p⟩) := by
      intro p s a
      unfold TreeOps.assign at e ⊢
      cases hd : r.root with
      | none => simp [hd] at e ⊢; exact e
      | some b =>
        simp only [hd] at e ⊢
        cases hq : K.dealloc W.heap.fuel W.heap (some b) with
        | ok v => simp [hq] at e ⊢; exact e
        | ub => simp [hq] at e
        | diverge => simp [hq] at e
    refine ⟨W.heap.freeAll (S.addrs t), rfl, ?_, (owned_match L).mpr ⟨?_, ?_⟩⟩
    · simp [assignMove, h2, e', put_eq', setHeap]
    · have := upd_twice ts x (some t) (some S.nil)
      show Own Z S (W.heap.freeAll (S.addrs t)) (upd (upd ts x (some t)) x (some S.nil)) S.nil
      rw [this]; exact O2
    · exact match_upd (fun z _ => match_upd (fun z _ => M z) (Match.some (r := ⟨r.root, r.size, r.arity, r.root⟩) hr' hr') z) (Match.some (r := TreeRec.empty) L.ptr_nil.symm L.ptr_nil.symm)
  · have O2 := O1.exchange L hy
    obtain ⟨e, O3⟩ := TreeOps.assign_spec L (rs := r.size) (ra := r.arity) O2 (x := x) (t := u) (by simp [upd, hne, hx]) h3
    refine ⟨W.heap.freeAll (S.addrs u), rfl, ?_, (owned_match L).mpr ⟨?_, ?_⟩⟩
    · rw [← hr'] at e
      simp [assignMove, World.get, hr, h1, e, put_eq', setHeap]
    · show Own Z S _ (upd (upd ts x (some t)) y (some S.nil)) S.nil
      rw [upd_comm ts _ _ hne]; exact O3
    · exact match_upd (fun z _ => match_upd (fun z _ => M z) (Match.some (r := ⟨r.root, r.size, r.arity, r.root⟩) hr' hr') z) (Match.some (r := TreeRec.empty) L.ptr_nil.symm L.ptr_nil.symm)

theorem swap_spec (O : OwnedBut Z S W ts) (hx : ts x = some t) (hy : ts y = some u) {rx ry : TreeRec} (hrx : W.vars x = some rx)
    (hry : W.vars y = some ry) :
    W.swap x y = Res.ok ⟨W.heap, upd (upd W.vars x (some ry)) y (some rx)⟩ ∧
      OwnedBut Z S ⟨W.heap, upd (upd W.vars x (some ry)) y (some rx)⟩ (upd (upd ts x (some u)) y (some t)) := by
  obtain ⟨O1, M⟩ := (owned_match L).mp O
  have h1 := (M x).root rx t hrx hx
  have h2 := (M y).root ry u hry hy
  refine ⟨by simp [swap, World.get, hrx, hry, put_eq'], (owned_match L).mpr ⟨?_, ?_⟩⟩
  · by_cases hne : x = y
    · subst hne
      rw [hx] at hy; cases hy
      show Own Z S W.heap (upd (upd ts x (some t)) x (some t)) S.nil
      rw [upd_twice]
      have : upd ts x (some t) = ts := by rw [← hx]; exact upd_self ts x
      rw [this]; exact O1
    · have O2 := O1.exchange L hx
      have O3 := O2.exchange L (x := y) (t := u) (by simp [upd, Ne.symm hne, hy])
      have O4 := O3.exchange L (x := x) (t := S.nil) (by simp [upd, hne])
      have : upd (upd (upd ts x (some S.nil)) y (some t)) x (some u) = upd (upd ts x (some u)) y (some t) := by
        rw [upd_comm ts _ _ hne, upd_twice, upd_comm ts _ _ hne]
      rwa [this] at O4
  · exact match_upd (fun z _ => match_upd (fun z _ => M z) (.some h2.1 h2.2) z) (.some h1.1 h1.2)

/-! ### size and arity -/

theorem size_spec (O : OwnedBut Z S W ts) (hx : ts x = some t) (hr : W.vars x = some r) :
    W.size K x = Res.ok (⟨W.heap, upd W.vars x (some { r with size := sizeAns S r t })⟩, sizeAns S r t) ∧
      OwnedBut Z S ⟨W.heap, upd W.vars x (some { r with size := sizeAns S r t })⟩ ts := by
  obtain ⟨O1, M⟩ := (owned_match L).mp O
  have h1 := (M x).root r t hr hx
  have e := TreeOps.sizeQ_spec L O1.wf (O1.rep x t hx) h1.1
  refine ⟨by simp [World.size, World.get, hr, e, put_eq'], (owned_match L).mpr ⟨O1, ?_⟩⟩
  have := match_upd (fun z (_ : z ≠ x) => M z) (o := some { r with size := sizeAns S r t }) (p := some t) (.some h1.1 h1.2)
  rw [← hx, upd_self] at this
  exact this

theorem updateCounts_spec (O : OwnedBut Z S W ts) (hx : ts x = some t) (hr : W.vars x = some r) :
    W.updateCounts x = Res.ok ⟨W.heap, upd W.vars x (some { r with size := 0, arity := 0 })⟩ ∧
      OwnedBut Z S ⟨W.heap, upd W.vars x (some { r with size := 0, arity := 0 })⟩ ts := by
  obtain ⟨O1, M⟩ := (owned_match L).mp O
  have h1 := (M x).root r t hr hx
  refine ⟨by simp [World.updateCounts, World.get, hr, put_eq'], (owned_match L).mpr ⟨O1, ?_⟩⟩
  have := match_upd (fun z (_ : z ≠ x) => M z) (o := some { r with size := 0, arity := 0 }) (p := some t) (.some h1.1 h1.2)
  rw [← hx, upd_self] at this
  exact this

theorem arity_spec (O : OwnedBut Z S W ts) (hx : ts x = some t) (hr : W.vars x = some r) :
    W.arity K x = Res.ok (⟨W.heap, upd W.vars x (some { r with arity := arityAns S r t })⟩, arityAns S r t) ∧
      OwnedBut Z S ⟨W.heap, upd W.vars x (some { r with arity := arityAns S r t })⟩ ts := by
  obtain ⟨O1, M⟩ := (owned_match L).mp O
  have h1 := (M x).root r t hr hx
  have e := TreeOps.arityQ_spec L O1.wf (O1.rep x t hx) h1.1
  refine ⟨by simp [World.arity, World.get, hr, e, put_eq'], (owned_match L).mpr ⟨O1, ?_⟩⟩
  have := match_upd (fun z (_ : z ≠ x) => M z) (o := some { r with arity := arityAns S r t }) (p := some t) (.some h1.1 h1.2)
  rw [← hx, upd_self] at this
  exact this

/-! ### writing a value -/

theorem rose_write (c : C) (s : T) (v : α) : S.rose (S.plug c (S.revalue s v)) = S.rose (S.plug c s) := by
  rcases L.rose_cases s with rfl | ⟨R, hR⟩
  · rcases L.rose_cases (S.revalue S.nil v) with h | ⟨R, hR⟩
    · rw [h]
    · rw [L.rose_revalue, L.rose_nil] at hR; cases hR
  · obtain ⟨fs, _, h⟩ := L.rose_plug c
    rw [h _ R hR, h _ R (by rw [L.rose_revalue]; exact hR)]

theorem write_spec (O : OwnedBut Z S W ts) (hx : ts x = some t) (A : Points S t pos c s) (v : α) :
    ∃ a n, pos.st.cur = some a ∧ a ∈ S.addrs t ∧ W.heap.cells a = some n ∧ W.write K pos v = Res.ok ⟨W.heap.set a (K.setValue n v), W.vars⟩ ∧
      OwnedBut Z S ⟨W.heap.set a (K.setValue n v), W.vars⟩ (upd ts x (some (S.plug c (S.revalue s v)))) := by
  obtain ⟨A1, A2, A3⟩ := A
  obtain ⟨a, ha⟩ := L.ptr_of_ne A2
  have hm : a ∈ S.addrs t := by
    have h1 : a ∈ S.addrs s := by
      rcases L.rose_cases s with rfl | ⟨R, hR⟩
      · rw [L.ptr_nil] at ha; cases ha
      · simp only [Shape.ptr, hR] at ha
        simp only [Shape.addrs, hR]
        cases R; simp_all
    have := (L.addrs_plug c s).mem_iff (a := a)
    rw [A1] at this
    exact this.mpr (by simp [h1])
  obtain ⟨n, hn⟩ := Option.isSome_iff_exists.mp (L.rep_alive _ _ (O.rep x t hx) a hm)
  have hR : S.rose (S.plug c (S.revalue s v)) = S.rose t := by rw [rose_write L, A1]
  have hP : S.ptr (S.plug c (S.revalue s v)) = S.ptr t := by simp only [Shape.ptr, hR]
  have hA : S.addrs (S.plug c (S.revalue s v)) = S.addrs t := by simp only [Shape.addrs, hR]
  refine ⟨a, n, by rw [A3, ha], hm, hn, by simp [World.write, A3, ha, Heap.modify, hn, setHeap], ?_⟩
  have key : ∀ z u, upd ts x (some (S.plug c (S.revalue s v))) z = some u → ∃ u', ts z = some u' ∧ S.addrs u = S.addrs u' ∧ S.ptr u = S.ptr u' := by
    intro z u hu
    unfold upd at hu
    split at hu
    · cases hu; subst z; exact ⟨t, hx, hA, hP⟩
    · exact ⟨u, hu, rfl, rfl⟩
  have key2 : ∀ z u, ts z = some u → ∃ u', upd ts x (some (S.plug c (S.revalue s v))) z = some u' ∧ S.addrs u' = S.addrs u := by
    intro z u hu
    unfold upd
    split
    · subst z; rw [hx] at hu; cases hu; exact ⟨_, rfl, hA⟩
    · exact ⟨u, hu, rfl⟩
  constructor
  · intro b hb
    have : b ≠ a := by
      rintro rfl
      rw [O.wf b hb] at hn; cases hn
    simp [Heap.set, this, O.wf b hb]
  · intro z
    rw [O.alive z]
    unfold upd
    split
    · subst z; rw [hx]; rfl
    · rfl
  · intro z r u hr hu
    obtain ⟨u', h1, _, h2⟩ := key z u hu
    rw [h2]; exact O.root z r u' hr h1
  · intro z u hu
    unfold upd at hu
    split at hu
    · cases hu
      exact L.revalue W.heap c s a v n (by rw [A1]; exact O.rep x t hx) ha hn
    · refine L.rep_congr W.heap _ u (O.rep z u hu) fun b hb => ?_
      have : b ≠ a := by
        rintro rfl
        exact O.disjoint z x u t hu hx ‹_› b hb hm
      simp [Heap.set, this]
  · intro y z u w hu hw hne b hb
    obtain ⟨u', h1, h2, _⟩ := key y u hu
    obtain ⟨w', h3, h4, _⟩ := key z w hw
    rw [h2] at hb; rw [h4]
    exact O.disjoint y z u' w' h1 h3 hne b hb
  · intro b hb
    have : (W.heap.cells b).isSome := by
      simp only [Heap.set] at hb
      split at hb
      · subst b; simp [hn]
      · exact hb
    rcases O.noLeakBut b this with ⟨z, u, h1, h2⟩ | hz
    · obtain ⟨u', h3, h4⟩ := key2 z u h1
      exact Or.inl ⟨z, u', h3, by rw [h4]; exact h2⟩
    · exact Or.inr hz
  · intro b hb
    have := O.lost b hb
    simp only [Heap.set]
    split
    · rfl
    · exact this
  · intro z u hu b hb
    obtain ⟨u', h1, h2, _⟩ := key z u hu
    rw [h2] at hb
    exact O.apart z u' h1 b hb

end
