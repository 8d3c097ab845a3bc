import Verif.Proof.BinEdit
import Verif.Proof.NaryBuild
import Verif.Model.Lit
/-! Queries on binary nodes; comparisons and conversions. -/
open BTree

set_option linter.unusedSimpArgs false

namespace Binary
variable {α : Type} {h : BHeap α}

/-- What the heap says about a position of the rose tree of present children. -/
theorem rose_focus {t : BTree (Addr × α)} (H : Rep h t) {T : Tree (Addr × α)} (hT : t.toRose = [T])
    {fs : List (Tree.Frame (Addr × α))} {u : Tree (Addr × α)} (hu : Tree.plug fs u = T) :
    (∃ n, h.cells u.addr = some n ∧ n.value = u.label.2) ∧
    first h u.addr = Res.ok (Tree.headAddr u.children) ∧
    last h u.addr = Res.ok (Tree.lastAddr u.children) ∧
    next h u.addr = Res.ok (fs.head?.bind (fun f => Tree.headAddr f.rights)) ∧
    prev h u.addr = Res.ok (fs.head?.bind (fun f => Tree.lastAddr f.lefts)) ∧
    followingSiblings h u.addr = Res.ok (fs.head?.elim 0 (fun f => f.rights.length)) ∧
    children h u.addr = Res.ok u.children.length ∧
    (∀ i, getChild h u.addr i = Res.ok (u.children[i]?.map Tree.addr)) := by
  obtain ⟨bs, p, l, r, h1, rfl, rfl⟩ := plug_toRose hT hu
  obtain ⟨a, v⟩ := p
  rw [← h1] at H
  have hc := H.cell
  simp only at hc
  have base : (∃ n, h.cells a = some n ∧ n.value = v) ∧
    first h a = Res.ok (Tree.headAddr (l.toRose ++ r.toRose)) ∧
    last h a = Res.ok (Tree.lastAddr (l.toRose ++ r.toRose)) ∧
    children h a = Res.ok (l.toRose ++ r.toRose).length ∧
    (∀ i, getChild h a i = Res.ok ((l.toRose ++ r.toRose)[i]?.map Tree.addr)) := by
    refine ⟨⟨_, hc, rfl⟩, ?_, ?_, ?_, ?_⟩
    · rw [first_of hc]; cases l <;> cases r <;> simp [Tree.addr]
    · rw [last_of hc]; cases l <;> cases r <;> simp [Tree.addr, Tree.lastAddr]
    · simp only [children, Heap.read_of hc, Res.ok_bind]; cases l <;> cases r <;> simp
    · intro i
      match i with
      | 0 => simp only [getChild, first_of hc]; cases l <;> cases r <;> simp [Tree.addr]
      | 1 => simp only [getChild, Heap.read_of hc, Res.ok_bind]; cases l <;> cases r <;> simp [Tree.addr]
      | i + 2 => simp only [getChild]; cases l <;> cases r <;> simp [Tree.addr]
  obtain ⟨b1, b2, b3, b4, b5⟩ := base
  refine ⟨b1, b2, b3, ?_, ?_, ?_, b4, b5⟩
  all_goals simp only [Tree.addr_node]
  all_goals cases bs with
    | nil =>
      simp at hc
      simp [next, prev, followingSiblings, isLeftChild, isRightChild, Heap.read_of hc]
    | cons f fs =>
      have hp := H.parent_cell
      have hother : some a ≠ f.other.addr? := by
        intro e
        have h5 := ((rep_plug _ _).mp H).2.2
        exact (List.nodup_append.mp h5).2.2 a (by simp [ctxAddrs, addr?_mem e.symm]) a (by simp) rfl
      obtain ⟨q, b, o⟩ := f
      simp at hc hp hother
      cases b <;> cases o <;>
      simp_all [next, prev, followingSiblings, isLeftChild, isRightChild, Heap.read_of hc, Heap.read_of hp, frameRec,
        last_of hp, Frame.toRose, Tree.addr, Tree.lastAddr] <;> grind

theorem calcSize_deep (t : BTree (Addr × α)) (fuel : Nat) (hf : t.height ≤ fuel) {par : Ptr} (H : Holds h (cells par t))
    {a : Addr} (ha : t.addr? = some a) : calcSize fuel h a = Res.ok t.size := by
  induction t generalizing fuel par a with
  | nil => simp at ha
  | node p l r ihl ihr =>
    cases fuel with
    | zero => simp [height] at hf
    | succ fuel =>
      simp [height] at hf H ha
      subst ha
      obtain ⟨hc, hl, hr⟩ := H
      simp only [calcSize, Heap.read_of hc, Res.ok_bind]
      cases l with
      | nil =>
        cases r with
        | nil => simp
        | node q rl rr =>
          have := ihr fuel (by omega) hr rfl
          simp at this
          simp [this]; omega
      | node q ll lr =>
        have e1 := ihl fuel (by omega) hl rfl
        simp at e1
        cases r with
        | nil => simp [e1]; omega
        | node q rl rr =>
          have := ihr fuel (by omega) hr rfl
          simp at this
          simp [this, e1]; omega

theorem calcSize_spec (t : BTree (Addr × α)) (fuel : Nat) (hf : t.size ≤ fuel) {par : Ptr} (H : Holds h (cells par t))
    {a : Addr} (ha : t.addr? = some a) : calcSize fuel h a = Res.ok t.size :=
  calcSize_deep t fuel (Nat.le_trans (height_le t) hf) H ha

theorem arity_toRose (t : BTree α) : Tree.arityL t.toRose ≤ 2 := by
  induction t with
  | nil => simp [Tree.arityL]
  | node a l r ihl ihr =>
    have : (l.toRose ++ r.toRose).length ≤ 2 := by cases l <;> cases r <;> simp
    have e : Tree.arityL (l.toRose ++ r.toRose) = max (Tree.arityL l.toRose) (Tree.arityL r.toRose) := by
      cases l <;> cases r <;> simp [Tree.arityL]
    simp only [toRose_node, Tree.arityL, Tree.arity]; omega

theorem arity_le_two_of_plug {t : BTree α} {T : Tree α} (hT : t.toRose = [T]) {fs} {u : Tree α} (hu : Tree.plug fs u = T) :
    u.arity ≤ 2 ∧ u.children.length ≤ 2 := by
  obtain ⟨bs, p, l, r, h1, rfl, rfl⟩ := plug_toRose hT hu
  have h1 := arity_toRose (node p l r)
  simp only [toRose_node, Tree.arityL] at h1
  refine ⟨by omega, ?_⟩
  cases l <;> cases r <;> simp

theorem arityL_plug {t : BTree α} {T : Tree α} (hT : t.toRose = [T]) {f fs} {u : Tree α} (hu : Tree.plug (f :: fs) u = T) :
    Tree.arityL (u :: f.rights) ≤ 2 := by
  have h1 := (arity_le_two_of_plug (fs := fs) (u := .node f.label (f.lefts ++ u :: f.rights)) hT hu).1
  have : ∀ l : List (Tree α), Tree.arityL (l ++ u :: f.rights) ≥ Tree.arityL (u :: f.rights) := by
    intro l
    induction l with
    | nil => simp
    | cons t l ih => simp only [List.cons_append, Tree.arityL] at ih ⊢; omega
  have := this f.lefts
  simp only [Tree.arity] at h1
  omega

/-- `calculate_arity` at a node and over a chain of siblings. -/
theorem arity_spec {t : BTree (Addr × α)} (H : Rep h t) {T : Tree (Addr × α)} (hT : t.toRose = [T]) (fuel : Nat) :
    (∀ fs u, Tree.plug fs u = T → 2 * u.size ≤ fuel → calcArity fuel h u.addr = Res.ok u.arity) ∧
    (∀ f fs u acc, Tree.plug (f :: fs) u = T → 2 * Tree.sizeL (u :: f.rights) < fuel → acc ≤ 2 →
      arityLoop fuel h (some u.addr) acc = Res.ok (max acc (Tree.arityL (u :: f.rights)))) := by
  induction fuel with
  | zero =>
    refine ⟨?_, by intros; omega⟩
    intro fs u hu hf
    cases u; simp [Tree.size] at hf
  | succ fuel ih =>
    refine ⟨?_, ?_⟩
    · intro fs u hu hf
      obtain ⟨_, h1, _, _, _, _, _⟩ := rose_focus H hT hu
      obtain ⟨p, cs⟩ := u
      simp only [calcArity, h1, Res.ok_bind, Tree.children_node]
      cases cs with
      | nil => simp [Tree.arity, Tree.arityL]
      | cons c cs =>
        simp only [Tree.headAddr_cons]
        have hu' : Tree.plug (⟨p, [], cs⟩ :: fs) c = T := by simpa using hu
        obtain ⟨_, _, _, _, _, h6, _⟩ := rose_focus H hT hu'
        have hlen := (arity_le_two_of_plug hT hu).2
        simp at hlen
        simp only [h6, Res.ok_bind, List.head?_cons, Option.elim_some]
        have := ih.2 ⟨p, [], cs⟩ fs c (cs.length + 1) hu' (by simp only [Tree.size, Tree.sizeL] at hf ⊢; omega) (by omega)
        rw [this]
        simp [Tree.arity]
    · intro f fs u acc hu hf hacc
      have hle := arityL_plug hT hu
      simp only [arityLoop]
      by_cases h2 : acc = 2
      · subst h2
        have : max 2 (Tree.arityL (u :: f.rights)) = 2 := by omega
        rw [this]; simp
      · obtain ⟨_, _, _, h4, _, _, _⟩ := rose_focus H hT hu
        have hbeq : (acc == 2) = false := by simp [h2]
        have hle' := hle
        simp only [Tree.sizeL] at hf
        have ea := ih.1 (f :: fs) u hu (by omega)
        simp only [hbeq, Bool.false_eq_true, if_false, ea, Res.ok_bind, h4, List.head?_cons, Option.bind_some]
        simp only [Tree.arityL] at hle ⊢
        obtain ⟨p, ls, rs⟩ := f
        cases rs with
        | nil =>
          cases fuel with
          | zero => cases u; simp [Tree.size] at hf
          | succ fuel => simp [arityLoop, Tree.arityL]
        | cons s rs =>
          simp only [Tree.headAddr_cons]
          have hu' : Tree.plug (⟨p, ls ++ [u], rs⟩ :: fs) s = T := by simpa using hu
          have hus : 1 ≤ u.size := by cases u; simp [Tree.size]
          have := ih.2 ⟨p, ls ++ [u], rs⟩ fs s (max acc u.arity) hu' (by simp only [Tree.sizeL] at hf ⊢; omega) (by omega)
          rw [this]
          simp only [Tree.arityL]
          congr 1; omega

theorem calcArity_spec {t : BTree (Addr × α)} (H : Rep h t) {T : Tree (Addr × α)} (hT : t.toRose = [T]) {fs u}
    (hu : Tree.plug fs u = T) (fuel : Nat) (hf : 2 * u.size ≤ fuel) : calcArity fuel h u.addr = Res.ok u.arity :=
  (arity_spec H hT fuel).1 fs u hu hf

/-! ### equality -/

theorem eq_deep (eqv : α → α → Bool) (h2 : BHeap α) (t u : BTree (Addr × α)) (fuel : Nat) (hf : t.height ≤ fuel)
    {par par' : Ptr} (H : Holds h (cells par t)) (K : Holds h2 (cells par' u)) {a b : Addr}
    (ha : t.addr? = some a) (hb : u.addr? = some b) :
    eq eqv fuel h a h2 b = Res.ok (eqBy eqv t.vals u.vals) := by
  induction t generalizing u fuel par par' a b with
  | nil => simp at ha
  | node p l r ihl ihr =>
    cases u with
    | nil => simp at hb
    | node q l' r' =>
      cases fuel with
      | zero => simp [height] at hf
      | succ fuel =>
        simp [height] at hf H K ha hb
        subst ha hb
        obtain ⟨hc, hl, hr⟩ := H
        obtain ⟨hc', hl', hr'⟩ := K
        have il : ∀ a b, l.addr? = some a → l'.addr? = some b → _ := fun a b e e' => ihl l' fuel (by omega) hl hl' e e'
        have ir : ∀ a b, r.addr? = some a → r'.addr? = some b → _ := fun a b e e' => ihr r' fuel (by omega) hr hr' e e'
        clear ihl ihr
        simp only [eq, Heap.read_of hc, Heap.read_of hc', Res.ok_bind, vals_node, eqBy]
        by_cases hv : eqv p.2 q.2 = true
        · cases l <;> cases l' <;> simp [vals, eqBy, hv] <;> cases r <;> cases r' <;>
            simp_all [vals, eqBy] <;> (try (split <;> simp_all))
        · cases l <;> cases l' <;> simp [vals, eqBy, hv] <;> cases r <;> cases r' <;> simp_all [vals, eqBy]

theorem eq_spec (eqv : α → α → Bool) (h2 : BHeap α) (t u : BTree (Addr × α)) (fuel : Nat) (hf : t.size ≤ fuel)
    {par par' : Ptr} (H : Holds h (cells par t)) (K : Holds h2 (cells par' u)) {a b : Addr}
    (ha : t.addr? = some a) (hb : u.addr? = some b) :
    eq eqv fuel h a h2 b = Res.ok (eqBy eqv t.vals u.vals) :=
  eq_deep eqv h2 t u fuel (Nat.le_trans (height_le t) hf) H K ha hb

/-! ### literals -/

/-- The slot with the given index, if it holds a value. -/
def slot (cs : List (Lit α)) (i : Nat) : Option (Lit α) := cs[i]?.filter (fun c => c.label.isSome)

theorem slot_some {cs : List (Lit α)} {i : Nat} {c : Lit α} (hc : slot cs i = some c) : c ∈ cs ∧ c.label.isSome := by
  simp [slot, Option.filter_eq_some_iff] at hc
  exact ⟨List.mem_of_getElem? hc.1, hc.2⟩

theorem toB_none {c : Lit α} (hc : c.label = none) : Lit.toB c = .nil := by
  obtain ⟨v, cs⟩ := c
  simp at hc; subst hc; simp [Lit.toB]

theorem toB_some (v : α) (cs : List (Lit α)) :
    Lit.toB (.node (some v) cs) = .node v ((slot cs 0).elim .nil Lit.toB) ((slot cs 1).elim .nil Lit.toB) := by
  match cs with
  | [] => simp [Lit.toB, slot]
  | [c] => cases hc : c.label <;> simp [Lit.toB, slot, hc, Option.filter, toB_none]
  | c :: d :: cs => cases hc : c.label <;> cases hd : d.label <;> simp [Lit.toB, slot, hc, hd, Option.filter, toB_none]

theorem size_le_of_mem {c : Tree α} {cs : List (Tree α)} (hc : c ∈ cs) : c.size ≤ Tree.sizeL cs := by
  induction cs with
  | nil => simp at hc
  | cons d cs ih =>
    simp at hc
    simp only [Tree.sizeL]
    rcases hc with rfl | hc
    · omega
    · have := ih hc; omega

theorem ofLit'_step (fuel : Nat) (h : BHeap α) (v : α) (cs : List (Lit α)) :
    ofLit' (fuel + 1) h (.node (some v) cs) = buildStep h v (slot cs 0) (slot cs 1) (ofLit' fuel) := by
  rw [ofLit']
  simp only [Tree.label_node, Tree.children_node]
  match cs with
  | [] => simp [buildStep, buildSub, slot]
  | [c] => cases hc : c.label <;> simp [buildStep, buildSub, Res.bind_assoc, hc, slot, Option.filter]
  | c :: d :: cs =>
    cases hc : c.label <;> cases hd : d.label <;> simp [buildStep, buildSub, Res.bind_assoc, hc, hd, slot, Option.filter]

/-- Building from a literal yields the binary tree it stands for. -/
theorem ofLit'_spec (t : Lit α) (fuel : Nat) (hf : t.size ≤ fuel) (hw : h.WF) (hv : t.label.isSome) :
    ∃ h' a' t', ofLit' fuel h t = Res.ok (h', a') ∧ t'.addr? = some a' ∧ Built h h' t' ∧ t'.vals = t.toB := by
  induction fuel generalizing h t with
  | zero => cases t; simp [Tree.size] at hf
  | succ fuel ih =>
    obtain ⟨v, cs⟩ := t
    cases v with
    | none => simp at hv
    | some v =>
      simp only [Tree.size] at hf
      rw [ofLit'_step]
      have sub : ∀ i nx, slot cs i = some nx → ∀ g ks, Grown h g ks →
          ∃ g' a t, ofLit' fuel g nx = Res.ok (g', a) ∧ t.addr? = some a ∧ Built g g' t ∧
            t.vals = (slot cs i).elim .nil Lit.toB := by
        intro i nx e g ks G
        have h1 := slot_some e
        have h2 := size_le_of_mem h1.1
        simp only [e, Option.elim_some]
        exact ih nx (by omega) G.wf h1.2
      obtain ⟨h', l', r', e, B, P1, P2⟩ := buildStep_spec (h := h) (v := v)
        (ol := slot cs 0) (or_ := slot cs 1) (F := ofLit' fuel)
        (Pl := fun t => t.vals = (slot cs 0).elim .nil Lit.toB)
        (Pr := fun t => t.vals = (slot cs 1).elim .nil Lit.toB) hw
        (by intro e; simp [e, vals]) (by intro e; simp [e, vals]) (sub 0) (sub 1)
      refine ⟨h', h.next, _, e, rfl, B, ?_⟩
      rw [vals_node, P1, P2, toB_some]

theorem ofLit_spec (hw : h.WF) (t : Lit α) (hv : t.label.isSome) :
    ∃ h' a' t', ofLit h t = Res.ok (h', a') ∧ t'.addr? = some a' ∧ Rep h' t' ∧ t'.vals = t.toB ∧ Grown h h' t'.addrs := by
  obtain ⟨h', a', t', e, ha', B, hv⟩ := ofLit'_spec t t.size (Nat.le_refl _) hw hv
  exact ⟨h', a', t', e, ha', B.rep, hv, B.grown⟩

theorem atMostTwoL_iff (cs : List (Lit α)) : Lit.atMostTwoL cs ↔ ∀ c ∈ cs, Lit.atMostTwo c := by
  induction cs with
  | nil => simp [Lit.atMostTwoL]
  | cons c cs ih => simp [Lit.atMostTwoL, ih]

theorem subtreeArity_le_two (t : Lit α) (h2 : t.atMostTwo) : t.subtreeArity ≤ 2 := by
  induction t using Tree.ind with
  | h v cs ih =>
    simp only [Lit.atMostTwo, atMostTwoL_iff] at h2
    have hn : Lit.childCount (Tree.node v cs) ≤ 2 := by
      have := List.length_filter_le (fun c : Lit α => (Tree.label c).isSome) cs
      exact Nat.le_trans this h2.1
    have : ∀ n, n ≤ 2 → Lit.subtreeArityL n cs ≤ 2 := by
      intro n hn
      have h3 : ∀ c ∈ cs, Lit.subtreeArity c ≤ 2 := fun c hc => ih c hc (h2.2 c hc)
      clear h2 ih
      rename_i hn0
      clear hn0
      induction cs with
      | nil => simp [Lit.subtreeArityL]
      | cons c cs ih2 =>
        have h4 := h3 c (by simp)
        have h5 := ih2 (fun c hc => h3 c (by simp [hc]))
        simp only [Lit.subtreeArityL]; omega
    simp only [Lit.subtreeArity]
    exact this _ hn

theorem eqLit_step (eqv : α → α → Bool) (fuel : Nat) (h : BHeap α) (a : Addr) (w : α) (cs : List (Lit α))
    (h2 : Lit.atMostTwo (.node (some w) cs)) (n : BNode α) (hc : h.cells a = some n) :
    eqLit eqv (fuel + 1) h a (.node (some w) cs) =
      if !eqv n.value w then pure false
      else if (n.left.isNone != (slot cs 0).isNone) || (n.right.isNone != (slot cs 1).isNone) then pure false
      else (do
        let ok ← match slot cs 0 with
          | some c => do eqLit eqv fuel h (← deref n.left) c
          | none => pure true
        if !ok then pure false
        else (match slot cs 1 with
          | some c => (do eqLit eqv fuel h (← deref n.right) c)
          | none => pure true)) := by
  have ha := subtreeArity_le_two _ h2
  simp only [Lit.atMostTwo] at h2
  rw [eqLit]
  have hna : ¬ (Lit.subtreeArity (Tree.node (some w) cs) > 2) := by omega
  simp only [hna, if_false, Tree.label_node, Heap.read_of hc, Res.ok_bind, Tree.children_node, children, Res.pure_eq]
  obtain ⟨v, par, l, r⟩ := n
  cases hv : eqv v w
  · simp
  · match cs, h2 with
    | [], _ => cases l <;> cases r <;> simp [slot, Lit.childCount]
    | [c], _ => cases l <;> cases r <;> cases hc : c.label <;> simp [slot, Lit.childCount, Option.filter, hc]
    | [c, d], _ =>
      cases l <;> cases r <;> cases hc : c.label <;> cases hd : d.label <;>
        simp [slot, Lit.childCount, Option.filter, hc, hd]

theorem toB_isSome {c : Lit α} (hc : c.label.isSome) : ∃ v l r, c.toB = .node v l r := by
  obtain ⟨v, cs⟩ := c
  cases v with
  | none => simp at hc
  | some v => exact ⟨_, _, _, toB_some v cs⟩

/-- Comparing with a literal of at most two slots per node is comparing with the binary tree it stands for. -/
theorem eqLit_spec (eqv : α → α → Bool) (t : BTree (Addr × α)) (u : Lit α) (fuel : Nat) (hf : t.size ≤ fuel)
    (hu : u.atMostTwo) (hv : u.label.isSome)
    {par : Ptr} (H : Holds h (cells par t)) {a : Addr} (ha : t.addr? = some a) :
    eqLit eqv fuel h a u = Res.ok (eqBy eqv t.vals u.toB) := by
  induction t generalizing u fuel par a with
  | nil => simp at ha
  | node p l r ihl ihr =>
    cases fuel with
    | zero => simp at hf
    | succ fuel =>
      simp at hf H ha
      subst ha
      obtain ⟨hc, hl, hr⟩ := H
      obtain ⟨w, cs⟩ := u
      cases w with
      | none => simp at hv
      | some w =>
      rw [eqLit_step eqv fuel h p.1 w cs hu _ hc]
      simp only [Lit.atMostTwo, atMostTwoL_iff] at hu
      have il : ∀ a c, l.addr? = some a → slot cs 0 = some c → _ := fun a c e e' =>
        ihl c fuel (by omega) (hu.2 c (slot_some e').1) (slot_some e').2 hl e
      have ir : ∀ a c, r.addr? = some a → slot cs 1 = some c → _ := fun a c e e' =>
        ihr c fuel (by omega) (hu.2 c (slot_some e').1) (slot_some e').2 hr e
      have tl := fun c e => toB_isSome (slot_some (cs := cs) (i := 0) (c := c) e).2
      have tr := fun c e => toB_isSome (slot_some (cs := cs) (i := 1) (c := c) e).2
      rw [toB_some, vals_node]
      simp only [eqBy]
      generalize slot cs 0 = o0 at *
      generalize slot cs 1 = o1 at *
      cases hvv : eqv p.2 w
      · simp [hvv]
      · cases o0 with
        | none =>
          cases o1 with
          | none => cases l <;> cases r <;> simp [hvv, vals, eqBy]
          | some d =>
            obtain ⟨dv, dl, dr, ed⟩ := tr d rfl
            cases l <;> cases r <;> simp_all [vals, eqBy]
        | some c =>
          obtain ⟨cv, cl, cr, ec⟩ := tl c rfl
          cases o1 with
          | none =>
            cases l <;> cases r <;> simp_all [vals, eqBy] <;> split <;> simp_all
          | some d =>
            obtain ⟨dv, dl, dr, ed⟩ := tr d rfl
            cases l <;> cases r <;> simp_all [vals, eqBy] <;> split <;> simp_all

end Binary
