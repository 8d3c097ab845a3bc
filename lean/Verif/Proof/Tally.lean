import Verif.Proof.History
/-! What the containers remember of their counts, call by call. -/
open Tree World

section
variable {ν α lit T V C : Type} {K : Kind ν α lit} {S : Shape K T V C} {ts : Nat → Option T} {W W1 : World ν}
  {n s t : T} {c : C} {P : Policy} {h h' : Heap ν} {pos : It} {x y : Nat} {r r' : TreeRec} {src : Src α lit} {rs ra : Nat} {p : Ptr}

/-- The counts a record holds. -/
def TreeRec.known (r : TreeRec) : Known := ⟨r.size, r.arity⟩

/-- What all objects remember. -/
def World.memory (W : World ν) : Nat → Option Known := fun x => (W.vars x).map TreeRec.known

theorem memory_of (f : Nat → Option TreeRec) : (⟨h, f⟩ : World ν).memory = fun x => (f x).map TreeRec.known := rfl

theorem memory_upd (f : Nat → Option TreeRec) (o : Option TreeRec) :
    (⟨h, upd f x o⟩ : World ν).memory = upd (⟨h', f⟩ : World ν).memory x (o.map TreeRec.known) := by
  funext z
  by_cases e : z = x <;> simp [memory, upd, e]

theorem memory_eta : (⟨h, W.vars⟩ : World ν).memory = W.memory := rfl

theorem memory_leave (f : Nat → Option TreeRec) :
    (⟨h, leaveVars src f⟩ : World ν).memory = forget (⟨h', f⟩ : World ν).memory src := by
  cases src with
  | moveOf y => exact memory_upd (h' := h') f _
  | _ => rfl

theorem memory_some (hr : W.vars x = some r) : W.memory x = some r.known := by simp [memory, hr]

theorem saysSize_known : Known.saysSize S r.known t = sizeAns S r t := rfl
theorem saysArity_known : Known.saysArity S r.known t = arityAns S r t := rfl

variable (L : Lawful S)
include L

theorem sizeAns_nil : sizeAns S r S.nil = r.size := by
  unfold sizeAns
  split
  · rw [L.size_nil]; omega
  · rfl
theorem arityAns_nil : arityAns S r S.nil = r.arity := by
  unfold arityAns
  split
  · rw [L.arity_nil]; omega
  · rfl

theorem takeNodes_counts (O : Owned S W ts) (hy : ts y = some t) (hr : W.vars y = some r) {sb ab : Bool}
    (e : takeNodes K sb ab W y = Res.ok (W1, p, rs, ra)) :
    OverCounts S sb ab ts W.memory ⟨rs, ra⟩ W1.memory (.moveOf y) := by
  obtain ⟨O1, M⟩ := (owned_match L).mp O
  have hrt := ((M y).root r t hr hy).1
  have H := O1.rep y t hy
  have w := O1.wf
  have key : ∃ g, GivenUp S r.known t g ∧ ∃ r1, W1 = ⟨W.heap, upd W.vars y (some r1)⟩ ∧
      r1.known = ⟨if sb then g.size else g.saysSize S t, if ab then g.arity else g.saysArity S t⟩ ∧
      rs = (if sb then r.known.saysSize S t else g.saysSize S t) ∧ ra = (if ab then r.known.saysArity S t else g.saysArity S t) := by
    by_cases ht : t = S.nil
    · subst ht
      refine ⟨r.known, ⟨fun _ => rfl, fun h => absurd rfl h⟩, r, ?_⟩
      have e1 : ∀ r', r' = r → TreeOps.sizeQ K W.heap r' = Res.ok (r.size, r) := by
        rintro _ rfl
        rw [TreeOps.sizeQ_spec L w H hrt, sizeAns_nil L]
      have e2 : ∀ r', r' = r → TreeOps.arityQ K W.heap r' = Res.ok (r.arity, r) := by
        rintro _ rfl
        rw [TreeOps.arityQ_spec L w H hrt, arityAns_nil L]
      obtain ⟨r2, e3, _, _, _, h4⟩ := takeRoot L O1 hy hrt
      rw [h4 rfl] at e3
      simp only [saysSize_known, saysArity_known, sizeAns_nil L, arityAns_nil L]
      unfold takeNodes at e
      cases sb <;> cases ab <;>
        simp [World.get, hr, e1, e2, e3, put_eq] at e ⊢ <;> obtain ⟨rfl, _, rfl, rfl⟩ := e <;> simp [TreeRec.known]
    · refine ⟨Known.nothing, ⟨fun h => absurd h ht, fun _ => rfl⟩, ?_⟩
      have hs0 : Known.saysSize S Known.nothing t = S.size t := rfl
      have ha0 : Known.saysArity S Known.nothing t = S.arity t := rfl
      rw [hs0, ha0]
      have e3 : ∀ q : TreeRec, q.root = S.ptr t → TreeOps.replaceNode K W.heap q q.root none 0 0 =
          Res.ok (W.heap, { q with size := 0, arity := 0 }, S.ptr t) := by
        intro q hq
        obtain ⟨a, ha⟩ := L.ptr_of_ne ht
        rw [hq, ha]
        simp [TreeOps.replaceNode, hq, ha, L.detach _ _ _ _ H ha]
      have e1 : ∀ q : TreeRec, q.root = S.ptr t → TreeOps.sizeQ K W.heap q = Res.ok (sizeAns S q t, { q with size := sizeAns S q t }) :=
        fun q hq => TreeOps.sizeQ_spec L w H hq
      have e2 : ∀ q : TreeRec, q.root = S.ptr t → TreeOps.arityQ K W.heap q = Res.ok (arityAns S q t, { q with arity := arityAns S q t }) :=
        fun q hq => TreeOps.arityQ_spec L w H hq
      unfold takeNodes at e
      simp only [World.get, hr, Res.ok_bind] at e
      cases sb <;> cases ab <;> simp only [Bool.false_eq_true, if_true, if_false, Res.pure_eq, Res.ok_bind] at e ⊢
      · rw [e3 r hrt, Res.ok_bind] at e
        dsimp only at e
        rw [e1 _ (by exact hrt), Res.ok_bind] at e
        dsimp only at e
        rw [e2 _ (by exact hrt), Res.ok_bind] at e
        have := Res.ok.inj e
        simp only [Prod.mk.injEq] at this
        obtain ⟨rfl, _, rfl, rfl⟩ := this
        exact ⟨_, rfl, rfl, rfl, rfl⟩
      · rw [e2 r hrt, Res.ok_bind] at e
        dsimp only at e
        rw [e3 _ (by exact hrt), Res.ok_bind] at e
        dsimp only at e
        rw [e1 _ (by exact hrt), Res.ok_bind] at e
        have := Res.ok.inj e
        simp only [Prod.mk.injEq] at this
        obtain ⟨rfl, _, rfl, rfl⟩ := this
        exact ⟨_, rfl, rfl, rfl, rfl⟩
      · rw [e1 r hrt, Res.ok_bind] at e
        dsimp only at e
        rw [e3 _ (by exact hrt), Res.ok_bind] at e
        dsimp only at e
        rw [e2 _ (by exact hrt), Res.ok_bind] at e
        have := Res.ok.inj e
        simp only [Prod.mk.injEq] at this
        obtain ⟨rfl, _, rfl, rfl⟩ := this
        exact ⟨_, rfl, rfl, rfl, rfl⟩
      · rw [e1 r hrt, Res.ok_bind] at e
        dsimp only at e
        rw [e2 _ (by exact hrt), Res.ok_bind] at e
        dsimp only at e
        rw [e3 _ (by exact hrt), Res.ok_bind] at e
        have := Res.ok.inj e
        simp only [Prod.mk.injEq] at this
        obtain ⟨rfl, _, rfl, rfl⟩ := this
        exact ⟨_, rfl, rfl, rfl, rfl⟩
  obtain ⟨g, hg, r1, rfl, h1, rfl, rfl⟩ := key
  refine ⟨t, r.known, g, hy, memory_some hr, hg, rfl, ?_⟩
  rw [memory_upd (h' := W.heap), Option.map_some, h1]

theorem overNode_counts (O : Owned S W ts) (hok : SrcOk S ts src) {sb ab : Bool}
    (e : overNode K sb ab W src = Res.ok (W1, p, rs, ra)) : OverCounts S sb ab ts W.memory ⟨rs, ra⟩ W1.memory src := by
  cases src with
  | value v =>
    simp only [overNode, Res.pure_eq] at e
    have := Res.ok.inj e
    simp only [Prod.mk.injEq] at this
    obtain ⟨rfl, _, rfl, rfl⟩ := this
    exact ⟨rfl, rfl⟩
  | lit l =>
    obtain ⟨h', n, a, e1, h1, D⟩ := lit_done L O (src := .lit l) hok (Or.inl rfl)
    simp only [overNode, e1, Res.ok_bind, Res.pure_eq] at e
    have := Res.ok.inj e
    simp only [Prod.mk.injEq] at this
    obtain ⟨rfl, _, rfl, rfl⟩ := this
    exact ⟨rfl, rfl⟩
  | emplaceLit l =>
    obtain ⟨h', n, a, e1, h1, D⟩ := lit_done L O (src := .lit l) hok (Or.inl rfl)
    simp only [overNode, e1, Res.ok_bind, Res.pure_eq] at e
    have := Res.ok.inj e
    simp only [Prod.mk.injEq] at this
    obtain ⟨rfl, _, rfl, rfl⟩ := this
    exact ⟨rfl, rfl⟩
  | copyOf y =>
    obtain ⟨t, hy⟩ := Option.isSome_iff_exists.mp hok
    obtain ⟨r, hr, hg, hrt, _⟩ := O.get L hy
    obtain ⟨h', n, e1, D, hv⟩ := copy_done L (lit := lit) O hy hr
    have H : S.Rep h' t := D.own.rep y t hy
    have w : h'.WF := D.own.wf
    have q1 := TreeOps.sizeQ_spec L w H hrt
    have q2 := TreeOps.arityQ_spec L (r := { r with size := sizeAns S r t }) w H hrt
    simp only [overNode, hg, e1, Res.ok_bind, World.size, World.arity, World.get, setHeap, hr, q1, put_eq', upd_same, q2, Res.pure_eq] at e
    have := Res.ok.inj e
    simp only [Prod.mk.injEq] at this
    obtain ⟨rfl, _, rfl, rfl⟩ := this
    refine ⟨t, r.known, hy, memory_some hr, rfl, ?_⟩
    rw [upd_twice]
    exact memory_upd (h' := W.heap) W.vars _
  | moveOf y =>
    obtain ⟨t, hy⟩ := Option.isSome_iff_exists.mp hok
    obtain ⟨r, hr, hg, hrt, _⟩ := O.get L hy
    exact takeNodes_counts L O hy hr e

theorem childNode_counts (O : Owned S W ts) (hok : SrcOk S ts src) {front : Bool}
    (e : childNode K front W src = Res.ok (W1, p, rs, ra)) : (⟨rs, ra⟩ : Known) = childCount (K := K) front src ∧
      (W1.memory = W.memory ∨ ∃ y m, src = .moveOf y ∧ ts y ≠ some S.nil ∧ W1.memory = upd W.memory y m) := by
  cases src with
  | value v =>
    simp only [childNode, Res.pure_eq] at e
    have := Res.ok.inj e
    simp only [Prod.mk.injEq] at this
    obtain ⟨rfl, _, rfl, rfl⟩ := this
    exact ⟨rfl, Or.inl rfl⟩
  | lit l =>
    obtain ⟨h', n, a, e1, h1, D⟩ := lit_done L O (src := .lit l) hok (Or.inl rfl)
    cases front <;>
    · simp only [childNode, e1, Res.ok_bind, Res.pure_eq, Bool.false_eq_true, if_true, if_false] at e
      have := Res.ok.inj e
      simp only [Prod.mk.injEq] at this
      obtain ⟨rfl, _, rfl, rfl⟩ := this
      exact ⟨rfl, Or.inl rfl⟩
  | emplaceLit l =>
    obtain ⟨h', n, a, e1, h1, D⟩ := lit_done L O (src := .lit l) hok (Or.inl rfl)
    simp only [childNode, e1, Res.ok_bind, Res.pure_eq] at e
    have := Res.ok.inj e
    simp only [Prod.mk.injEq] at this
    obtain ⟨rfl, _, rfl, rfl⟩ := this
    exact ⟨rfl, Or.inl rfl⟩
  | copyOf y =>
    obtain ⟨t, hy⟩ := Option.isSome_iff_exists.mp hok
    obtain ⟨r, hr, hg, hrt, _⟩ := O.get L hy
    obtain ⟨h', n, e1, D, hv⟩ := copy_done L (lit := lit) O hy hr
    simp only [childNode, hg, e1, Res.ok_bind, Res.pure_eq] at e
    have := Res.ok.inj e
    simp only [Prod.mk.injEq] at this
    obtain ⟨rfl, _, rfl, rfl⟩ := this
    exact ⟨rfl, Or.inl rfl⟩
  | moveOf y =>
    obtain ⟨t, hy⟩ := Option.isSome_iff_exists.mp hok
    obtain ⟨r, hr, hg, hrt, _⟩ := O.get L hy
    obtain ⟨O1, M⟩ := (owned_match L).mp O
    obtain ⟨r1, e1, _, _, h3, h4⟩ := takeRoot L O1 hy hrt
    simp only [childNode, hg, e1, Res.ok_bind, Res.pure_eq] at e
    have := Res.ok.inj e
    simp only [Prod.mk.injEq] at this
    obtain ⟨rfl, _, rfl, rfl⟩ := this
    refine ⟨rfl, ?_⟩
    by_cases ht : t = S.nil
    · left
      rw [h4 ht, put_eq, ← hr, upd_self]
    · exact Or.inr ⟨y, _, rfl, by rw [hy]; simpa using ht, memory_upd (h' := W.heap) W.vars _⟩

/-- The number of children after `insert_child`. -/
theorem kids_added {front : Bool} (hs : s ≠ S.nil) (hf : S.isFull s = false) :
    (n = S.nil → S.kids (if front then S.front n s else S.back n s) = S.kids s) ∧
    (n ≠ S.nil → S.kids (if front then S.front n s else S.back n s) = S.kids s + 1) := by
  refine ⟨fun hn => ?_, fun hn => (added L hs hf hn rfl).2.1⟩
  subst hn
  obtain ⟨R, hR⟩ := (L.rose_cases s).resolve_left hs
  cases front
  · have := L.rose_back s R S.nil hR hf
    simp [Shape.kids, this, hR, L.rose_nil, children]
  · have := L.rose_front s R S.nil hR hf
    simp [Shape.kids, this, hR, L.rose_nil, children]

omit L in
theorem childRec_known : (TreeOps.childRec S r s rs ra).known = r.known.adopted (S.kids s) ⟨rs, ra⟩ := by
  simp only [TreeOps.childRec, TreeRec.known, Known.adopted, wadd, sizeT, Known.mk.injEq, true_and]
  by_cases h : S.kids s = 0
  · rw [if_pos h, h]; omega
  · rw [if_neg h]; omega

omit L in
theorem forget_upd {k : Nat → Option Known} {m : Option Known} : forget (upd k x m) (.moveOf x : Src α lit) = forget k (.moveOf x : Src α lit) := by
  simp only [forget, upd_twice]

omit L in
/-- An empty tree remembers nothing. -/
def Blank (S : Shape K T V C) (ts : Nat → Option T) (k : Nat → Option Known) : Prop :=
  ∀ x m, ts x = some S.nil → k x = some m → m = Known.nothing

omit L in
theorem Blank.upd {k : Nat → Option Known} (B : Blank S ts k) {u : Option T} {o : Option Known}
    (h : ∀ m, u = some S.nil → o = some m → m = Known.nothing) : Blank S (upd ts x u) (upd k x o) := by
  intro z m h1 h2
  by_cases e : z = x
  · subst e
    rw [upd_same] at h1 h2
    exact h m h1 h2
  · rw [upd_other _ _ e] at h1 h2
    exact B z m h1 h2

omit L in
theorem Blank.upd' {k : Nat → Option Known} (B : Blank S ts k) {o : Option Known}
    (h : ∀ m, ts x = some S.nil → o = some m → m = Known.nothing) : Blank S ts (_root_.upd k x o) := by
  have := B.upd (x := x) (u := ts x) h
  rwa [upd_self] at this

theorem nothing_says : Known.saysSize S Known.nothing S.nil = 0 ∧ Known.saysArity S Known.nothing S.nil = 0 := by
  simp [Known.saysSize, Known.saysArity, Known.nothing, L.size_nil, L.arity_nil]

theorem Blank.over {sb ab : Bool} {k k1 : Nat → Option Known} {q : Known} (B : Blank S ts k) (H : OverCounts S sb ab ts k q k1 src) :
    Blank S ts k1 ∧ (SrcEmpty S ts src → q = Known.nothing) := by
  obtain ⟨z1, z2⟩ := nothing_says L
  cases src with
  | value v => exact ⟨H.2 ▸ B, fun h => h.elim⟩
  | lit l => exact ⟨H.2 ▸ B, fun h => h.elim⟩
  | emplaceLit l => exact ⟨H.2 ▸ B, fun h => h.elim⟩
  | copyOf y =>
    obtain ⟨t, m, h1, h2, rfl, rfl⟩ := H
    have key : t = S.nil → (⟨m.saysSize S t, m.saysArity S t⟩ : Known) = Known.nothing := by
      rintro rfl
      rw [B y m h1 h2, z1, z2]; rfl
    refine ⟨B.upd' fun m' hn e => ?_, fun h => ?_⟩
    · cases e
      rw [h1] at hn; cases hn
      exact key rfl
    · have : ts y = some S.nil := h
      rw [h1] at this; cases this
      exact key rfl
  | moveOf y =>
    obtain ⟨t, m, g, h1, h2, h3, rfl, rfl⟩ := H
    have key : t = S.nil → m = Known.nothing ∧ g = Known.nothing := by
      rintro rfl
      have := B y m h1 h2
      exact ⟨this, (h3.1 rfl).trans this⟩
    refine ⟨B.upd' fun m' hn e => ?_, fun h => ?_⟩
    · cases e
      rw [h1] at hn; cases hn
      obtain ⟨rfl, rfl⟩ := key rfl
      rw [z1, z2]
      simp [Known.nothing]
    · have : ts y = some S.nil := h
      rw [h1] at this; cases this
      obtain ⟨rfl, rfl⟩ := key rfl
      simp only [z1, z2, ite_self]; rfl

theorem plug_ne_nil (hc : c ≠ S.top) : S.plug c n ≠ S.nil := by
  intro e
  obtain ⟨b, hb⟩ := L.ptr_plug_mem c hc
  have : S.ptr (S.plug c n) = some b := by rw [L.ptr_plug c n S.nil hc, hb]
  rw [e, L.ptr_nil] at this; cases this

theorem plug_ne_nil' (hn : n ≠ S.nil) : S.plug c n ≠ S.nil := by
  intro e
  have h1 := size_plug L (c := c) (s := n)
  have := size_pos L hn
  rw [e, L.size_nil] at h1; omega

omit L in
theorem Blank.forget {k : Nat → Option Known} (B : Blank S (_root_.upd ts x (some t)) k) (hsrc : src ≠ .moveOf x) :
    Blank S (_root_.upd (afterSrc S ts src) x (some t)) (forget k src) := by
  cases src with
  | moveOf y =>
    have hxy : x ≠ y := by rintro rfl; exact hsrc rfl
    simp only [afterSrc, _root_.forget]
    rw [← upd_comm ts _ _ hxy]
    exact B.upd fun m _ e => (Option.some.inj e).symm
  | _ => exact B

theorem prune_blank {k k' : Known} {l : List Addr} {t' : T} (H : PruneCount S t k l t' k') (h : t = S.nil → k = Known.nothing) :
    t' = S.nil → k' = Known.nothing := by
  induction H with
  | done => exact h
  | all => intro _; rfl
  | step c s a l t' k k' _ hc _ _ ih => exact ih fun e => absurd e (plug_ne_nil L hc)

theorem step_tally (O : Owned S W ts) (op : Op α lit) (hl : Legal S W.heap ts op) :
    ∃ W' o ts', W.step K op = Res.ok (W', o) ∧ Owned S W' ts' ∧ Recount S W.heap ts W.memory W'.memory op ∧
      SaysCounts S ts W.memory o op ∧ (Blank S ts W.memory → Blank S ts' W'.memory) := by
  cases op with
  | newEmpty x =>
    obtain ⟨e, O'⟩ := newEmpty_spec L O hl
    refine ⟨_, .unit, _, by simp [step, e], O', ?_, trivial, fun B => ?_⟩
    · exact memory_upd (h' := W.heap) W.vars _
    · rw [memory_upd (h' := W.heap)]
      exact B.upd fun m _ e => (Option.some.inj e).symm
  | newCopy x y =>
    obtain ⟨t, hy⟩ := Option.isSome_iff_exists.mp hl.2
    obtain ⟨r, hr, _⟩ := O.get L hy
    obtain ⟨h', n, e, O', hv, hfr⟩ := newCopy_spec L O hl.1 hy hr
    refine ⟨_, .unit, _, by simp [step, e], O', ?_, trivial, fun B => ?_⟩
    · show _ = upd _ _ _
      rw [memory_upd (h' := W.heap), memory_some hr]; rfl
    · rw [memory_upd (h' := W.heap)]
      refine B.upd fun m e1 e2 => ?_
      cases e2
      have := (L.vals_inj n t hv).1.mp (Option.some.inj e1)
      subst this
      have := B y _ hy (memory_some hr)
      exact this
  | newMove x y =>
    obtain ⟨t, hy⟩ := Option.isSome_iff_exists.mp hl.2
    obtain ⟨r, hr, _⟩ := O.get L hy
    obtain ⟨e, O'⟩ := newMove_spec L O hl.1 hy hr
    refine ⟨_, .unit, _, by simp [step, e], O', ?_, trivial, fun B => ?_⟩
    · show _ = upd _ _ _
      rw [memory_upd (h' := W.heap), memory_upd (h' := W.heap), memory_some hr]; rfl
    · rw [memory_upd (h' := W.heap), memory_upd (h' := W.heap)]
      refine Blank.upd (Blank.upd B fun m e1 e2 => ?_) fun m _ e => (Option.some.inj e).symm
      cases e1; cases e2
      have := B y _ hy (memory_some hr)
      exact this
  | newLit x l =>
    obtain ⟨h', n, e, O', hv, hne, hfr⟩ := newLit_spec L O hl.1 hl.2
    refine ⟨_, .unit, _, by simp [step, e], O', ?_, trivial, fun B => ?_⟩
    · exact memory_upd (h' := W.heap) W.vars _
    · rw [memory_upd (h' := W.heap)]
      exact B.upd fun m e _ => absurd (Option.some.inj e) hne
  | destroy x =>
    obtain ⟨t, hx⟩ := Option.isSome_iff_exists.mp hl
    obtain ⟨h', _, e, O'⟩ := destroy_spec L O hx
    refine ⟨_, .unit, _, by simp [step, e], O', ?_, trivial, fun B => ?_⟩
    · exact memory_upd (h' := W.heap) W.vars _
    · rw [memory_upd (h' := W.heap)]
      exact B.upd fun m e _ => by cases e
  | clear x =>
    obtain ⟨t, hx⟩ := Option.isSome_iff_exists.mp hl
    obtain ⟨h', _, e, O'⟩ := clear_spec L O hx
    refine ⟨_, .unit, _, by simp [step, e], O', ?_, trivial, fun B => ?_⟩
    · exact memory_upd (h' := W.heap) W.vars _
    · rw [memory_upd (h' := W.heap)]
      exact B.upd fun m _ e => (Option.some.inj e).symm
  | assignCopy x y =>
    obtain ⟨u, hx⟩ := Option.isSome_iff_exists.mp hl.1
    obtain ⟨t, hy⟩ := Option.isSome_iff_exists.mp hl.2
    obtain ⟨r, hr, _⟩ := O.get L hy
    obtain ⟨h', n, e, O', hv, hfr⟩ := assignCopy_spec L O hx hy hr
    refine ⟨_, .unit, _, by simp [step, e], O', ?_, trivial, fun B => ?_⟩
    · show _ = upd _ _ _
      rw [memory_upd (h' := W.heap), memory_some hr]; rfl
    · rw [memory_upd (h' := W.heap)]
      refine B.upd fun m e1 e2 => ?_
      cases e2
      have := (L.vals_inj n t hv).1.mp (Option.some.inj e1)
      subst this
      have := B y _ hy (memory_some hr)
      exact this
  | assignMove x y =>
    obtain ⟨u, hx⟩ := Option.isSome_iff_exists.mp hl.1
    obtain ⟨t, hy⟩ := Option.isSome_iff_exists.mp hl.2
    obtain ⟨r, hr, _⟩ := O.get L hy
    obtain ⟨h', _, e, O'⟩ := assignMove_spec L O hx hy hr
    refine ⟨_, .unit, _, by simp [step, e], O', ?_, trivial, fun B => ?_⟩
    · show _ = upd _ _ _
      rw [memory_upd (h' := W.heap), memory_upd (h' := W.heap), memory_some hr]; rfl
    · rw [memory_upd (h' := W.heap), memory_upd (h' := W.heap)]
      refine Blank.upd (Blank.upd B fun m e1 e2 => ?_) fun m _ e => (Option.some.inj e).symm
      cases e1; cases e2
      have := B y _ hy (memory_some hr)
      exact this
  | assignLit x l =>
    obtain ⟨u, hx⟩ := Option.isSome_iff_exists.mp hl.1
    obtain ⟨h', n, e, O', hv, hne, hfr⟩ := assignLit_spec L O hx hl.2
    refine ⟨_, .unit, _, by simp [step, e], O', ?_, trivial, fun B => ?_⟩
    · exact memory_upd (h' := W.heap) W.vars _
    · rw [memory_upd (h' := W.heap)]
      exact B.upd fun m e _ => absurd (Option.some.inj e) hne
  | swap x y =>
    obtain ⟨u, hx⟩ := Option.isSome_iff_exists.mp hl.1
    obtain ⟨t, hy⟩ := Option.isSome_iff_exists.mp hl.2
    obtain ⟨rx, hrx, _⟩ := O.get L hx
    obtain ⟨ry, hry, _⟩ := O.get L hy
    obtain ⟨e, O'⟩ := swap_spec L O hx hy hrx hry
    refine ⟨_, .unit, _, by simp [step, e], O', ?_, trivial, fun B => ?_⟩
    · show _ = upd _ _ _
      rw [memory_upd (h' := W.heap), memory_upd (h' := W.heap), memory_some hrx, memory_some hry]; rfl
    · rw [memory_upd (h' := W.heap), memory_upd (h' := W.heap)]
      refine Blank.upd (Blank.upd B fun m e1 e2 => ?_) fun m e1 e2 => ?_
      · cases e1; cases e2; exact B y _ hy (memory_some hry)
      · cases e1; cases e2; exact B x _ hx (memory_some hrx)
  | size x =>
    obtain ⟨t, hx⟩ := Option.isSome_iff_exists.mp hl
    obtain ⟨r, hr, _⟩ := O.get L hx
    obtain ⟨e, O'⟩ := size_spec L O hx hr
    refine ⟨_, .num (sizeAns S r t), _, by simp [step, e], O', ⟨t, r.known, hx, memory_some hr, memory_upd (h' := W.heap) W.vars _⟩, ?_, fun B => ?_⟩
    · intro t' m ht hm
      rw [hx] at ht; cases ht
      rw [memory_some hr] at hm; cases hm
      rfl
    · rw [memory_upd (h' := W.heap)]
      refine B.upd' fun m e1 e2 => ?_
      cases e2
      rw [hx] at e1; cases e1
      rw [← B x _ hx (memory_some hr)]
      simp [TreeRec.known, sizeAns_nil L]
  | arity x =>
    obtain ⟨t, hx⟩ := Option.isSome_iff_exists.mp hl
    obtain ⟨r, hr, _⟩ := O.get L hx
    obtain ⟨e, O'⟩ := arity_spec L O hx hr
    refine ⟨_, .num (arityAns S r t), _, by simp [step, e], O', ⟨t, r.known, hx, memory_some hr, memory_upd (h' := W.heap) W.vars _⟩, ?_, fun B => ?_⟩
    · intro t' m ht hm
      rw [hx] at ht; cases ht
      rw [memory_some hr] at hm; cases hm
      rfl
    · rw [memory_upd (h' := W.heap)]
      refine B.upd' fun m e1 e2 => ?_
      cases e2
      rw [hx] at e1; cases e1
      rw [← B x _ hx (memory_some hr)]
      simp [TreeRec.known, arityAns_nil L]
  | updateCounts x =>
    obtain ⟨t, hx⟩ := Option.isSome_iff_exists.mp hl
    obtain ⟨r, hr, _⟩ := O.get L hx
    obtain ⟨e, O'⟩ := updateCounts_spec L O hx hr
    refine ⟨_, .unit, _, by simp [step, e], O', ?_, trivial, fun B => ?_⟩
    · exact memory_upd (h' := W.heap) W.vars _
    · rw [memory_upd (h' := W.heap)]
      exact B.upd' fun m _ e => (Option.some.inj e).symm
  | insertOver sb ab P x pos src =>
    obtain ⟨t, hx, hok, hcase⟩ := hl
    by_cases hsrc : src = .moveOf x
    · subst hsrc
      exact ⟨W, .iter .threw, ts, by simp [step, insertOver], O, Or.inl ⟨rfl, rfl⟩, trivial, id⟩
    · rcases hcase with h | ⟨c, s, A, hn⟩ | ⟨hend, hcase⟩
      · exact absurd h hsrc
      · obtain ⟨W1, n, rs, ra, r1, r', h', it, e1, D, hcnt, hr1, hcopy, e, O', h1, h2, h3, hr1', hr2', _⟩ :=
          insertOver_at L O hx hok hsrc A hn sb ab
        have hoc := overNode_counts L O hok e1
        refine ⟨_, .iter (.ret it), _, by simp [step, e], O', Or.inr ⟨hsrc, t, ⟨rs, ra⟩, W1.memory, r1.known, hx, hoc,
          memory_some hr1, ?_⟩, trivial, fun B => ?_⟩ <;> rw [memory_leave (h' := W1.heap), memory_upd (h' := W1.heap)]
        · by_cases hc : c = S.top
          · subst hc
            exact Or.inl ⟨s, A, by rw [hr1' rfl]; rfl⟩
          · refine Or.inr (Or.inl ⟨c, s, A, hc, ?_⟩)
            rw [hr2' hc]
            show forget (upd _ _ (some (TreeRec.known _))) _ = _
            rw [show (TreeOps.replacedRec S r1 s rs).known = _ from replacedRec_known r1 s rs]
            rfl
        · obtain ⟨B1, hB⟩ := B.over L hoc
          refine Blank.forget (Blank.upd B1 fun m e1 e2 => ?_) hsrc
          by_cases hc : c = S.top
          · subst hc
            rw [L.plug_top] at e1
            rw [hr1' rfl] at e2
            cases e2
            exact hB (D.empty.mpr (Option.some.inj e1))
          · exact absurd (Option.some.inj e1) (plug_ne_nil L hc)
      · by_cases ht : t = S.nil
        · subst ht
          obtain ⟨W1, n, rs, ra, h', e1, D, hcnt, e, O'⟩ := insertOver_empty L (P := P) O hx hok hsrc hend sb ab
          obtain ⟨r, hr, _⟩ := O.get L hx
          obtain ⟨r1, hr1, _⟩ := D.vars x r hr
          have hoc := overNode_counts L O hok e1
          refine ⟨_, .iter (.ret pos), _, by simp [step, e], O', Or.inr ⟨hsrc, S.nil, ⟨rs, ra⟩, W1.memory, r1.known, hx, hoc,
            memory_some hr1, Or.inr (Or.inr (Or.inl ⟨hend, rfl, ?_⟩))⟩, trivial, fun B => ?_⟩ <;>
            rw [memory_leave (h' := W1.heap), memory_upd (h' := W1.heap)]
          · rfl
          · obtain ⟨B1, hB⟩ := B.over L hoc
            refine Blank.forget (Blank.upd B1 fun m e1 e2 => ?_) hsrc
            cases e2
            exact hB (D.empty.mpr (Option.some.inj e1))
        · have hs := hcase.resolve_left ht
          obtain ⟨W1, n, rs, ra, e1, D, e, O'⟩ := insertOver_end L (P := P) O hx ht hok hsrc hend hs sb ab
          obtain ⟨r, hr, _⟩ := O.get L hx
          obtain ⟨r1, hr1, _⟩ := D.vars x r hr
          exact ⟨W1, .iter .threw, ts, by simp [step, e], O', Or.inr ⟨hsrc, t, ⟨rs, ra⟩, W1.memory, r1.known, hx, overNode_counts L O hok e1,
            memory_some hr1, Or.inr (Or.inr (Or.inr ⟨hend, ht, rfl⟩))⟩, trivial, fun B => (B.over L (overNode_counts L O hok e1)).1⟩
  | insertChild front P x pos src =>
    obtain ⟨t, hx, hok, hcase⟩ := hl
    by_cases hsrc : src = .moveOf x
    · subst hsrc
      exact ⟨W, .iter .threw, ts, by simp [step, insertChild], O, ⟨t, hx, Or.inl ⟨Or.inl rfl, rfl⟩⟩, trivial, id⟩
    · have threw : (AtEnd pos ∨ ∃ c s, At S P W.heap t pos c s ∧ S.isFull s = true) →
          ((∀ y, src ≠ .moveOf y) ∨ SrcEmpty S ts src) →
          ∃ W' o ts', W.step K (.insertChild front P x pos src) = Res.ok (W', o) ∧ Owned S W' ts' ∧
            Recount S W.heap ts W.memory W'.memory (.insertChild front P x pos src) ∧
            SaysCounts S ts W.memory o (.insertChild front P x pos src) ∧ (Blank S ts W.memory → Blank S ts' W'.memory) := by
        intro hb hs
        obtain ⟨W1, n, rs, ra, h', e1, D, e, O'⟩ := insertChild_threw L (P := P) O hx hok hsrc hb hs front
        have hmem : W1.memory = W.memory := by
          rcases (childNode_counts L O hok e1).2 with h | ⟨y, m, rfl, h1, h2⟩
          · exact h
          · rcases hs with hs | hs
            · exact absurd rfl (hs y)
            · exact absurd hs h1
        exact ⟨_, .iter .threw, _, by simp [step, e], O', ⟨t, hx, Or.inl ⟨Or.inr hb, hmem⟩⟩, trivial, fun B =>
          show Blank S ts W1.memory from hmem ▸ B⟩
      rcases hcase with h | ⟨c, s, A, hn⟩ | ⟨hend, hcase⟩
      · exact absurd h hsrc
      · cases hf : S.isFull s with
        | false =>
          obtain ⟨W1, n, rs, ra, r1, h', it, e1, D, hcnt, hcnt', hr1, hr, e, O', h1, h2, _⟩ := insertChild_at L O hx hok hsrc A hf front
          have hk := kids_added L (n := n) (front := front) A.node hf
          obtain ⟨hq, hm⟩ := childNode_counts L O hok e1
          have hmem : (⟨h', leaveVars src (upd W1.vars x (some (TreeOps.childRec S r1 (if front then S.front n s else S.back n s) rs ra)))⟩ : World ν).memory =
              forget (upd W.memory x (some (r1.known.adopted (S.kids (if front then S.front n s else S.back n s)) (childCount (K := K) front src)))) src := by
            rw [memory_leave (h' := W1.heap), memory_upd (h' := W1.heap), ← hq, Option.map_some, childRec_known]
            rcases hm with hm | ⟨y, m, rfl, _, hm⟩
            · have : (⟨W1.heap, W1.vars⟩ : World ν).memory = W.memory := hm
              rw [this]
            · have : (⟨W1.heap, W1.vars⟩ : World ν).memory = upd W.memory y m := hm
              have hxy : y ≠ x := by rintro rfl; exact hsrc rfl
              rw [this, upd_comm _ _ _ hxy, forget_upd]
          refine ⟨_, .iter (.ret it), _, by simp [step, e], O', ⟨t, hx, Or.inr ⟨c, s, r1.known, S.kids (if front then S.front n s else S.back n s),
            A, fun h => ?_, memory_some hr, fun h => hk.1 (D.empty.mp h), fun h => hk.2 (fun e => h (D.empty.mpr e)), hmem⟩⟩, trivial, fun B => ?_⟩
          · rcases h with h | h | ⟨c', s', A', hf'⟩
            · exact absurd h hsrc
            · exact absurd h (A.notEnd L)
            · rw [A.full_unique L (O.rep x t hx) A', hf'] at hf; cases hf
          · rw [hmem]
            refine Blank.forget (Blank.upd B fun m e1 _ => absurd (Option.some.inj e1) (plug_ne_nil' L h2.node)) hsrc
        | true => exact threw (Or.inr ⟨c, s, A, hf⟩) (by rcases hn with h | h; · rw [hf] at h; cases h
                                                         exact h)
      · exact threw (Or.inl hend) hcase
  | erase x pos =>
    obtain ⟨t, hx, ⟨c, s, A, hn⟩ | ⟨hend, hroot⟩⟩ := hl
    · obtain ⟨r, hr, _⟩ := O.get L hx
      obtain ⟨r', h', l1, l2, hp1, hp2, e, O', hr1, hr2⟩ := erase_at L O hx hr A hn
      refine ⟨_, _, _, by simp only [step, e, Res.ok_bind, Res.pure_eq]; rfl, O', ⟨t, r.known, hx, memory_some hr, ?_⟩, trivial, fun B => ?_⟩ <;>
        rw [memory_upd (h' := W.heap)]
      · by_cases hc : c = S.top
        · subst hc
          exact Or.inl ⟨s, A, by rw [hr1 rfl]; rfl⟩
        · refine Or.inr (Or.inl ⟨c, s, A, hc, ?_⟩)
          rw [hr2 hc, Option.map_some, show (TreeOps.replacedRec S r s 0).known = _ from replacedRec_known r s 0]
          rfl
      · refine B.upd fun m e1 e2 => ?_
        by_cases hc : c = S.top
        · rw [hr1 hc] at e2; cases e2; rfl
        · exact absurd (Option.some.inj e1) (plug_ne_nil L hc)
    · have e := erase_end L O hx hend hroot
      obtain ⟨r, hr, _⟩ := O.get L hx
      exact ⟨W, _, ts, by simp [step, e]; rfl, O, ⟨t, r.known, hx, memory_some hr, Or.inr (Or.inr ⟨hend, rfl⟩)⟩, trivial, id⟩
  | eraseRange x first last =>
    obtain ⟨t, m, t', hx, hR, hP⟩ := hl
    obtain ⟨l1, l2, hp, hf, hl, hfr, hlr⟩ := hR
    obtain ⟨r, hr, _, hrt, hnt⟩ := O.get L hx
    obtain ⟨O1, M⟩ := (owned_match L).mp O
    have hfuel : m.length < W.heap.fuel := by
      have h1 := L.post_length t
      have h2 := L.size_le O.wf (O.rep x t hx)
      rw [hp] at h1
      simp only [List.length_append] at h1
      simp only [Heap.fuel]; omega
    obtain ⟨h', r', it, e, O', g1, g2, g3, g4, g5, g6⟩ := TreeOps.eraseRange_spec L hP hfuel O1 hx hrt hnt hp hf hl hfr hlr (fun _ => rfl)
    refine ⟨⟨h', upd W.vars x (some r')⟩, .iter (.ret it), upd ts x (some t'), by simp [step, World.eraseRange, World.get, hr, e, put_eq],
      (owned_match L).mpr ⟨O', match_upd (fun z _ => M z) (Match.some g1 g2)⟩,
      ⟨t, r.known, m, t', r'.known, hx, memory_some hr, ⟨l1, l2, hp, hf, hl, hfr, hlr⟩, g6, memory_upd (h' := W.heap) W.vars _⟩, trivial, fun B => ?_⟩
    rw [memory_upd (h' := W.heap)]
    refine B.upd fun m' e1 e2 => ?_
    cases e2
    refine prune_blank L g6 (fun e => ?_) (Option.some.inj e1)
    subst e
    exact B x _ hx (memory_some hr)
  | write x pos v =>
    obtain ⟨t, c, s, hx, A⟩ := hl
    obtain ⟨a, n, _, _, _, e, O'⟩ := write_spec L O hx A v
    refine ⟨_, .unit, _, by simp [step, e], O', ?_, trivial, fun B => ?_⟩
    · exact rfl
    · intro z m h1 h2
      by_cases ez : z = x
      · subst ez
        rw [upd_same] at h1
        have : S.rose (S.plug c (S.revalue s v)) = S.rose S.nil := by rw [Option.some.inj h1]
        rw [rose_write L, A.1, L.rose_nil] at this
        have ht : t = S.nil := by
          rcases L.rose_cases t with h | ⟨R, h⟩
          · exact h
          · rw [h] at this; cases this
        subst ht
        exact B z m hx h2
      · rw [upd_other _ _ ez] at h1
        exact B z m h1 h2

/-- A supported history, with what the objects remember at each moment. -/
theorem history_tally (D : Determined S) (ops : List (Op α lit)) : ∀ {W : World ν} {ts : Nat → Option T},
    Owned S W ts → Supports S W ops →
    ∃ W' as ts', W.run K ops = Res.ok (W', as) ∧ as.length = ops.length ∧ Tally S W ts W.memory (ops.zip as) W' ts' W'.memory ∧ Owned S W' ts' ∧
      (Blank S ts W.memory → Blank S ts' W'.memory) := by
  induction ops with
  | nil => intro W ts O _; exact ⟨W, [], ts, rfl, rfl, .done W ts _ O, O, id⟩
  | cons op ops ih =>
    intro W ts O ⟨⟨ts0, O0, hl⟩, hrest⟩
    have e := OwnedBut.unique D O0 O
    subst e
    obtain ⟨W1, o, ts1, h1, h2, h3, _⟩ := step_spec L O op hl
    obtain ⟨W1', o', ts1', h1', O1', h3', h4', hB⟩ := step_tally L O op hl
    rw [h1] at h1'
    cases h1'
    have e := OwnedBut.unique D O1' h2
    subst e
    obtain ⟨W2, as, ts2, h4, h5, h6, h7, h8⟩ := ih h2 (hrest W1 o h1)
    exact ⟨W2, o :: as, ts2, by simp [World.run, h1, h4], by simp [h5], .step _ _ _ _ _ _ _ _ _ _ _ _ O h1 h3 h3' h4' h6, h7, fun B => h8 (hB B)⟩

end
