import Verif.Spec.Limits
import Verif.Proof.NaryDefect
import Verif.Proof.History
import Verif.Proof.Prune
/-! The calls outside `Legal` break the program. -/
open Tree World

namespace Nary
variable {α : Type} {W : World (NNode α)} {ts : Nat → Option (Option (Tree (Addr × α)))} {x : Nat} {pos : It} {P : Policy}
  {f : Frame (Addr × α)} {fs : List (Frame (Addr × α))} {s : Tree (Addr × α)} {src : Src α (Tree α)} {t : Option (Tree (Addr × α))}

/-- The steps of `insert_over` with an empty source up to `replace_with`. -/
theorem over_prepare (O : Owned (shape α) W ts) (hx : ts x = some t) (hok : SrcOk (shape α) ts src) (hsrc : src ≠ .moveOf x)
    (A : At (shape α) P W.heap t pos (f :: fs) (some s)) (hE : SrcEmpty (shape α) ts src) (sb ab : Bool) :
    ∃ W1 rs ra r st, overNode (kind α) sb ab W src = Res.ok (W1, none, rs, ra) ∧ W1.heap.WF ∧ Rep W1.heap (plug (f :: fs) s) ∧
      W1.vars x = some r ∧ r.root.isSome ∧ r.root ≠ some s.addr ∧ pos.st.cur = some s.addr ∧
      P.update ((kind α).nav W1.heap pos.root) pos.st s.addr none = Res.ok st := by
  have L := lawful α
  obtain ⟨W1, n, rs, ra, e1, D, -, -⟩ := overNode_spec L O hok sb ab
  obtain ⟨r, hr, _, hrt, hnt⟩ := O.get L hx
  obtain ⟨r1, hr1, hroot1, hnav1, _⟩ := D.vars x r hr
  have hx' : afterSrc (shape α) ts src x = some t := by rw [afterSrc_other hsrc]; exact hx
  have hn : n = (shape α).nil := D.empty.mp hE
  have ha : (shape α).ptr (some s) = some s.addr := by rw [shape_ptr]; rfl
  have hcur : pos.st.cur = some s.addr := by rw [A.cur, ha]
  have H1 := D.own.rep x t hx'
  obtain ⟨st, hu, -⟩ := update_spec L A.policy O.wf (O.rep x t hx) A.place ha hcur A.root A.queue H1 D.own.repN
  have hc : (f :: fs : List (Frame (Addr × α))) ≠ (shape α).top := by simp [shape]
  subst hn
  rw [L.ptr_nil] at e1 hu
  have hpl := A.place
  subst hpl
  refine ⟨W1, rs, ra, r1, st, e1, D.own.wf, H1 _ (by rw [shape_plug, fill_some]), hr1, ?_, fun e => ?_, hcur, hu⟩
  · rw [hroot1, hrt, shape_ptr]; rfl
  · rw [hroot1, hrt] at e
    exact hc ((L.root_iff (O.rep x _ hx) ha).mp e)

/-- `insert_over` of an empty tree over a first child writes through a null pointer. -/
theorem insertOver_first (O : Owned (shape α) W ts) (hx : ts x = some t) (hok : SrcOk (shape α) ts src) (hsrc : src ≠ .moveOf x)
    (A : At (shape α) P W.heap t pos (f :: fs) (some s)) (hE : SrcEmpty (shape α) ts src) (hf : f.lefts = []) (sb ab : Bool) :
    W.insertOver (kind α) sb ab P x pos src = Res.ub := by
  obtain ⟨W1, rs, ra, r, st, e1, hwf, H, hr, hs, hne, hcur, hu⟩ := over_prepare O hx hok hsrc A hE sb ab
  obtain ⟨p, ls, rr⟩ := f
  simp only at hf
  subst hf
  have e := replaceWith_first W1.heap.fuel H (by simp [Heap.fuel])
  have hne2 : (some s.addr == r.root) = false := by simpa using fun e => hne e.symm
  have e2 : TreeOps.modifySubtree (kind α) P W1.heap r pos none rs ra = Res.ub := by
    simp only [TreeOps.modifySubtree, hcur, hs, Res.assert_true, Res.ok_bind, hu]
    simp [hne2, TreeOps.replaceNode, hs, kind, e]
  cases src with
  | moveOf y =>
    have hxy : x ≠ y := by rintro rfl; exact hsrc rfl
    simp [World.insertOver, hxy, e1, World.get, hr, e2]
  | _ => simp [World.insertOver, e1, World.get, hr, e2]

/-- `insert_over` of an empty tree over a last child that is not the only one leaves a parent without last child. -/
theorem insertOver_last (O : Owned (shape α) W ts) (hx : ts x = some t) (hok : SrcOk (shape α) ts src) (hsrc : src ≠ .moveOf x)
    (A : At (shape α) P W.heap t pos (f :: fs) (some s)) (hE : SrcEmpty (shape α) ts src) (hl : f.lefts ≠ []) (hr : f.rights = []) (sb ab : Bool) :
    ∃ W' it n, W.insertOver (kind α) sb ab P x pos src = Res.ok (W', .ret it) ∧ W'.heap.cells f.label.1 = some n ∧ n.first.isSome ∧ n.last = none := by
  have L := lawful α
  obtain ⟨W1, rs, ra, r, st, e1, hwf, H, hv, hs, hne, hcur, hu⟩ := over_prepare O hx hok hsrc A hE sb ab
  obtain ⟨p, ls, rr⟩ := f
  simp only at hl hr
  subst hr
  obtain ⟨l, pv, rfl⟩ : ∃ l pv, ls = l ++ [pv] := ⟨ls.dropLast, ls.getLast hl, (List.dropLast_concat_getLast hl).symm⟩
  have hfu : l.length + 1 < W1.heap.fuel := by
    have h1 := size_le hwf H
    have h2 := (addrs_plug (⟨p, l ++ [pv], []⟩ :: fs) s).length_eq
    rw [length_addrs] at h2
    simp only [ctxAddrs, addrsL_append, List.length_append, List.length_cons] at h2
    have h3 := length_le_addrsL l
    simp only [Heap.fuel]; omega
  obtain ⟨h', e, Hs, hnext, ⟨n, hn, hn1, hn2⟩, hrest⟩ := replaceWith_last W1.heap.fuel H hfu
  have hne2 : (some s.addr == r.root) = false := by simpa using fun e => hne e.symm
  have hwf' : h'.WF := by
    intro a ha
    have hna : W1.heap.cells a = none := hwf a (by rw [← hnext]; exact ha)
    rw [hrest a ?_, hna]
    intro hm
    have := L.rep_alive _ (some (plug (⟨p, l ++ [pv], []⟩ :: fs) s)) ((shape_rep _ _).mpr H) a (by rw [shape_addrs]; exact hm)
    rw [hna] at this; cases this
  have hd : dealloc h'.fuel h' (some s.addr) = Res.ok (h'.freeAll s.addrs) := by
    have := L.dealloc h' (some s) hwf' (fun _ h => by cases h; exact Hs)
    rwa [shape_ptr, shape_addrs] at this
  have hps : p.1 ∉ s.addrs := fun hm => by
    have := ((rep_plug _ _).mp H).2.2
    exact (List.nodup_append.mp this).2.2 p.1 (by simp [ctxAddrs]) p.1 hm rfl
  have hcell := (show Rep h' (plug [] s) from Hs).cell
  have key : ∃ r2, TreeOps.modifySubtree (kind α) P W1.heap r pos none rs ra = Res.ok (h'.freeAll s.addrs, r2, .ret ⟨st, pos.root⟩) := by
    simp only [TreeOps.modifySubtree, hcur, hs, Res.assert_true, Res.ok_bind, hu]
    cases hcs : s.children <;>
      simp [hne2, TreeOps.replaceNode, hs, kind, e, Heap.read_of hcell, rec_, hd, hcs]
  obtain ⟨r2, hk⟩ := key
  refine ⟨_, _, n, insertOver_step hsrc e1 hv hk, ?_, hn1, hn2⟩
  show (h'.freeAll s.addrs).cells p.1 = _
  simp [Heap.freeAll, hps, hn]

theorem not_removable {c : List (Frame (Addr × α))} (h1 : c ≠ (shape α).top) (h2 : ¬ (shape α).removable c) :
    ∃ f fs, c = f :: fs ∧ (f.lefts = [] ∨ (f.lefts ≠ [] ∧ f.rights = [])) := by
  cases c with
  | nil => exact absurd rfl h1
  | cons f fs =>
    refine ⟨f, fs, rfl, ?_⟩
    cases hl : f.lefts with
    | nil => exact Or.inl rfl
    | cons a l =>
      refine Or.inr ⟨by simp, ?_⟩
      cases hr : f.rights with
      | nil => rfl
      | cons b r => exact absurd (by simp [shape, hl, hr]) h2

end Nary

section
variable {ν α lit T V C : Type} {K : Kind ν α lit} {S : Shape K T V C} {W : World ν} {ts : Nat → Option T}

/-- A place from which nothing can be removed: erasing and replacing by nothing break the program. -/
def BadPlaces (S : Shape K T V C) : Prop := ∀ {W : World ν} {ts : Nat → Option T} {x : Nat} {t s : T} {c : C} {pos : It}, Owned S W ts →
  ts x = some t → c ≠ S.top → ¬ S.removable c →
  (At S Policy.postOrder W.heap t pos c s → Breaks S W (.erase x pos)) ∧
  (∀ (P : Policy) (src : Src α lit) (sb ab : Bool), SrcOk S ts src → src ≠ .moveOf x → At S P W.heap t pos c s → SrcEmpty S ts src →
    Breaks S W (.insertOver sb ab P x pos src))

theorem step_iter_ub {r : Res (World ν × Out It)} (h : r = Res.ub) : (do let (W, o) ← r; pure (W, Ans.iter o) : Res (World ν × Ans)) = Res.ub := by
  rw [h]; rfl

theorem breaks_of_failing (L : Lawful S) (D : Determined S) (hB : BadPlaces S) (O : Owned S W ts) {op : Op α lit}
    (hS : Sensible S W.heap ts op) (hf : Failing S W.heap ts op) : Breaks S W op := by
  cases op with
  | insertOver sb ab P x pos src =>
    obtain ⟨-, -, hok, -⟩ := hS
    rcases hf with ⟨t, c, s, hx, A, h1, h2, h3, h4⟩ | ⟨t, hx, h1, hend, h2, h3⟩
    · exact (hB O hx h1 h2).2 P src sb ab hok h4 A h3
    · obtain ⟨W', a, e, _, _, h4⟩ := Generic.overLeaks (P := P) L D O hx h1 hok hend h2 h3 sb ab
      exact Or.inr ⟨W', _, by simp [World.step, e]; rfl, h4⟩
  | insertChild front P x pos src =>
    obtain ⟨t, y, u, hx, rfl, hxy, hy, hu, hbad⟩ := hf
    obtain ⟨W', r, a, e, _, _, _, h4⟩ := Generic.childMoveDangles L O hx hy hu (Ne.symm hxy) hbad front
    exact Or.inr ⟨W', _, by simp [World.step, e]; rfl, h4⟩
  | erase x pos =>
    obtain ⟨t, c, s, hx, A, h1, h2⟩ := hf
    exact (hB O hx h1 h2).1 A
  | _ => exact hf.elim

theorem legal_of_sensible {op : Op α lit} {h : Heap ν} (hr : op.isRange = false) (hS : Sensible S h ts op) (hf : ¬ Failing S h ts op) :
    Legal S h ts op := by
  cases op with
  | insertOver sb ab P x pos src =>
    obtain ⟨t, hx, hok, h⟩ := hS
    refine ⟨t, hx, hok, Classical.byContradiction fun hn => hf ?_⟩
    simp only [not_or] at hn
    rcases h with ⟨c, s, A⟩ | hend
    · refine Or.inl ⟨t, c, s, hx, A, fun e => hn.2.1 ⟨c, s, A, Or.inl e⟩, fun e => hn.2.1 ⟨c, s, A, Or.inr (Or.inr e)⟩, ?_, hn.1⟩
      exact Classical.byContradiction fun e => hn.2.1 ⟨c, s, A, Or.inr (Or.inl e)⟩
    · exact Or.inr ⟨t, hx, fun e => hn.2.2 ⟨hend, Or.inl e⟩, hend, fun y e => hn.2.2 ⟨hend, Or.inr (Or.inl ⟨y, e⟩)⟩,
        fun e => hn.2.2 ⟨hend, Or.inr (Or.inr e)⟩⟩
  | insertChild front P x pos src =>
    obtain ⟨t, hx, hok, h⟩ := hS
    refine ⟨t, hx, hok, Classical.byContradiction fun hn => hf ?_⟩
    simp only [not_or] at hn
    have hmv : ∃ y, src = .moveOf y := Classical.byContradiction fun h2 => by
      have h2' : ∀ y, src ≠ .moveOf y := fun y e => h2 ⟨y, e⟩
      rcases h with ⟨c, s, A⟩ | hend
      · exact hn.2.1 ⟨c, s, A, Or.inr (Or.inl h2')⟩
      · exact hn.2.2 ⟨hend, Or.inl h2'⟩
    obtain ⟨y, rfl⟩ := hmv
    obtain ⟨u, hy⟩ := Option.isSome_iff_exists.mp (show (ts y).isSome from hok)
    refine ⟨t, y, u, hx, rfl, fun e => hn.1 (by rw [e]), hy, ?_, ?_⟩
    · rintro rfl
      rcases h with ⟨c, s, A⟩ | hend
      · exact hn.2.1 ⟨c, s, A, Or.inr (Or.inr hy)⟩
      · exact hn.2.2 ⟨hend, Or.inr hy⟩
    · rcases h with ⟨c, s, A⟩ | hend
      · refine Or.inr ⟨c, s, A, ?_⟩
        cases hfl : S.isFull s with
        | true => rfl
        | false => exact absurd ⟨c, s, A, Or.inl hfl⟩ hn.2.1
      · exact Or.inl hend
  | erase x pos =>
    obtain ⟨t, hx, ⟨c, s, A⟩ | h⟩ := hS
    · refine ⟨t, hx, Or.inl ⟨c, s, A, Classical.byContradiction fun hn => hf ?_⟩⟩
      simp only [not_or] at hn
      exact ⟨t, c, s, hx, A, hn.1, hn.2⟩
    · exact ⟨t, hx, Or.inr h⟩
  | eraseRange x first last => cases hr
  | _ => exact hS

theorem breaks_of_illegal (L : Lawful S) (D : Determined S) (hB : BadPlaces S) (O : Owned S W ts) {op : Op α lit} (hr : op.isRange = false)
    (hS : Sensible S W.heap ts op) (hl : ¬ Legal S W.heap ts op) : Breaks S W op :=
  breaks_of_failing L D hB O hS (Classical.byContradiction fun hf => hl (legal_of_sensible hr hS hf))

theorem not_breaks (h : WorksOn S W op) : ¬ Breaks S W op := by
  obtain ⟨W', o, ts', e, O⟩ := h
  rintro (h | ⟨W1, o1, h, h1⟩)
  · rw [e] at h; cases h
  · rw [e] at h; cases h; exact h1 _ O

theorem sensible_of_legal (op : Op α lit) (hself : ∀ sb ab P x pos, op ≠ .insertOver sb ab P x pos (.moveOf x))
    (hself' : ∀ f P x pos, op ≠ .insertChild f P x pos (.moveOf x)) (hl : Legal S W.heap ts op) : Sensible S W.heap ts op := by
  cases op with
  | insertOver sb ab P x pos src =>
    obtain ⟨t, hx, hok, h | ⟨c, s, A, _⟩ | ⟨h, _⟩⟩ := hl
    · subst h; exact absurd rfl (hself _ _ _ _ _)
    · exact ⟨t, hx, hok, Or.inl ⟨c, s, A⟩⟩
    · exact ⟨t, hx, hok, Or.inr h⟩
  | insertChild f P x pos src =>
    obtain ⟨t, hx, hok, h | ⟨c, s, A, _⟩ | ⟨h, _⟩⟩ := hl
    · subst h; exact absurd rfl (hself' _ _ _ _)
    · exact ⟨t, hx, hok, Or.inl ⟨c, s, A⟩⟩
    · exact ⟨t, hx, hok, Or.inr h⟩
  | erase x pos =>
    obtain ⟨t, hx, ⟨c, s, A, _⟩ | h⟩ := hl
    · exact ⟨t, hx, Or.inl ⟨c, s, A⟩⟩
    · exact ⟨t, hx, Or.inr h⟩
  | eraseRange x first last => obtain ⟨t, m, t', hx, hR, _⟩ := hl; exact ⟨t, m, hx, hR⟩
  | _ => exact hl

/-- Given that calls outside `Legal` break the program, the histories that work are the supported ones. -/
theorem works_iff (L : Lawful S) (D : Determined S) (good : Op α lit → Prop)
    (hb : ∀ (W : World ν) (ts : Nat → Option T) (op : Op α lit), good op → Owned S W ts → Sensible S W.heap ts op → ¬ Legal S W.heap ts op → Breaks S W op)
    (ops : List (Op α lit)) : ∀ (W : World ν), (∀ op ∈ ops, good op) → AllSensible S W ops → (Works S W ops ↔ Supports S W ops) := by
  induction ops with
  | nil => intro W _ _; exact Iff.rfl
  | cons op ops ih =>
    intro W hg ⟨⟨ts, O, hS⟩, hrest⟩
    have hstep : WorksOn S W op ↔ Supported S W op := by
      constructor
      · intro hw
        exact ⟨ts, O, Classical.byContradiction fun hl => not_breaks hw (hb W ts op (hg op (by simp)) O hS hl)⟩
      · rintro ⟨us, O', hl⟩
        obtain ⟨W', o, ts', e, O1, -⟩ := step_spec L O' op hl
        exact ⟨W', o, ts', e, O1⟩
    constructor
    · intro ⟨hw, hw'⟩
      refine ⟨hstep.mp hw, fun W' o e => ?_⟩
      obtain ⟨W1, o1, ts', e1, O1⟩ := hw
      rw [e] at e1
      cases e1
      exact (ih W' (fun p hp => hg p (by simp [hp])) (hrest W' o ts' e O1)).mp (hw' W' o e)
    · intro ⟨hw, hw'⟩
      have hw0 := hstep.mpr hw
      refine ⟨hw0, fun W' o e => ?_⟩
      obtain ⟨W1, o1, ts', e1, O1⟩ := hw0
      rw [e] at e1
      cases e1
      exact (ih W' (fun p hp => hg p (by simp [hp])) (hrest W' o ts' e O1)).mpr (hw' W' o e)

end

theorem Nary.badPlaces (α : Type) : BadPlaces (Nary.shape α) := by
  intro W ts x t s c pos O hx h1 h2
  obtain ⟨f, fs, rfl, hc⟩ := Nary.not_removable h1 h2
  constructor
  · intro A
    cases s with
    | none => exact absurd rfl A.node
    | some s =>
      rcases hc with hc | ⟨hc, hc'⟩
      · exact Or.inl (step_iter_ub (Nary.erase_first O hx A hc))
      · obtain ⟨W', it, n, e, h3, h4, h5⟩ := Nary.erase_last O hx A hc hc'
        exact Or.inr ⟨W', _, by simp [World.step, e]; rfl, fun ts' => Nary.not_owned h3 h4 h5⟩
  · intro P src sb ab hok hself A hE
    cases s with
    | none => exact absurd rfl A.node
    | some s =>
      rcases hc with hc | ⟨hc, hc'⟩
      · exact Or.inl (step_iter_ub (Nary.insertOver_first O hx hok hself A hE hc sb ab))
      · obtain ⟨W', it, n, e, h3, h4, h5⟩ := Nary.insertOver_last O hx hok hself A hE hc hc' sb ab
        exact Or.inr ⟨W', _, by simp [World.step, e]; rfl, fun ts' => Nary.not_owned h3 h4 h5⟩

theorem Binary.badPlaces (α : Type) : BadPlaces (Binary.shape α) := by
  intro W ts x t s c pos O hx h1 h2
  exact absurd trivial h2

theorem Binary.range_legal {α : Type} {W : World (BNode α)} {ts : Nat → Option (BTree (Addr × α))} (O : Owned (Binary.shape α) W ts)
    {x : Nat} {first last : It} (hS : Sensible (Binary.shape α) W.heap ts (.eraseRange x first last)) :
    Legal (Binary.shape α) W.heap ts (.eraseRange x first last) := by
  obtain ⟨t, m, hx, hR⟩ := hS
  have hn := (Binary.lawful α).rep_nodup _ _ (O.rep x t hx)
  obtain ⟨l1, l2, hp, _⟩ := id hR
  obtain ⟨t', hP⟩ := prune_exists (Binary.lawful α) (fun _ => trivial) hn hp
  exact ⟨t, m, t', hx, hR, hP⟩
