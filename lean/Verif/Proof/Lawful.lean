import Verif.Spec.World
import Verif.Spec.Nav
import Verif.Proof.Heap
import Verif.Proof.Tree
import Verif.Proof.NaryNav
import Verif.Proof.NaryDealloc
import Verif.Proof.NaryReplace
import Verif.Proof.NaryEdit
import Verif.Proof.NaryChild
import Verif.Proof.NaryBuild
import Verif.Proof.BinRepr
import Verif.Proof.BinOps
import Verif.Proof.BinEdit
import Verif.Proof.BinQuery
/-! What the tree level needs to know about a kind of nodes, and that both kinds provide it. -/
open Tree

structure Lawful {ν α lit T V C : Type} {K : Kind ν α lit} (S : Shape K T V C) : Prop where
  rose_nil : S.rose S.nil = []
  rose_cases : ∀ t, t = S.nil ∨ ∃ R, S.rose t = [R]
  plug_top : ∀ s, S.plug S.top s = s
  rose_plug : ∀ c, ∃ fs, (c = S.top ↔ fs = []) ∧ ∀ s u, S.rose s = [u] → S.rose (S.plug c s) = [Tree.plug fs u]
  rose_remove : ∀ c, c ≠ S.top → ∃ f fs, (∀ s u, S.rose s = [u] → S.rose (S.plug c s) = [Tree.plug (f :: fs) u]) ∧
    S.rose (S.plug c S.nil) = [Tree.plug fs (node f.label (f.lefts ++ f.rights))]
  addrs_plug : ∀ c s, (S.addrs (S.plug c s)).Perm (S.addrs (S.plug c S.nil) ++ S.addrs s)
  ptr_plug : ∀ c s s', c ≠ S.top → S.ptr (S.plug c s) = S.ptr (S.plug c s')
  ptr_plug_mem : ∀ c, c ≠ S.top → ∃ a, S.ptr (S.plug c S.nil) = some a
  find : ∀ t fs u, S.rose t = [Tree.plug fs u] → ∃ c s, S.plug c s = t ∧ S.rose s = [u]
  rose_single : ∀ a v, S.rose (S.single a v) = [node a []]
  rose_front : ∀ s u n, S.rose s = [u] → S.isFull s = false → S.rose (S.front n s) = [node u.label (S.rose n ++ u.children)]
  rose_back : ∀ s u n, S.rose s = [u] → S.isFull s = false → S.rose (S.back n s) = [node u.label (u.children ++ S.rose n)]
  front_nil : ∀ s, S.front S.nil s = s
  back_nil : ∀ s, S.back S.nil s = s
  rep_nil : ∀ (h : Heap ν), S.Rep h S.nil
  rep_congr : ∀ (h h' : Heap ν) t, S.Rep h t → (∀ a ∈ S.addrs t, h'.cells a = h.cells a) → S.Rep h' t
  rep_alive : ∀ (h : Heap ν) t, S.Rep h t → ∀ a ∈ S.addrs t, (h.cells a).isSome
  rep_nodup : ∀ (h : Heap ν) t, S.Rep h t → (S.addrs t).Nodup
  leaf : ∀ (h : Heap ν) v, h.WF → S.Rep (h.alloc (K.leaf v)).1 (S.single h.next v)
  ofLit : ∀ (h : Heap ν) l, h.WF → S.litOk l → ∃ h' a t, K.ofLit h l = Res.ok (h', a) ∧ S.ptr t = some a ∧ S.Rep h' t ∧
    S.vals t = S.litVals l ∧ Grown h h' (S.addrs t)
  copy : ∀ (h : Heap ν) t a, h.WF → S.Rep h t → S.ptr t = some a → ∃ h' b t', K.copy h.fuel h a = Res.ok (h', b) ∧
    S.ptr t' = some b ∧ S.Rep h' t' ∧ S.vals t' = S.vals t ∧ Grown h h' (S.addrs t')
  dealloc : ∀ (h : Heap ν) t, h.WF → S.Rep h t → K.dealloc h.fuel h (S.ptr t) = Res.ok (h.freeAll (S.addrs t))
  detach : ∀ (h : Heap ν) t a fuel, S.Rep h t → S.ptr t = some a → K.replaceWith fuel h a none = Res.ok h
  replace : ∀ (h : Heap ν) c s r a, h.WF → S.Rep h (S.plug c s) → S.ptr s = some a → c ≠ S.top → S.Rep h r →
    (∀ b ∈ S.addrs r, b ∉ S.addrs (S.plug c s)) → (r ≠ S.nil ∨ S.removable c) →
    ∃ h', K.replaceWith h.fuel h a (S.ptr r) = Res.ok h' ∧ S.Rep h' (S.plug c r) ∧ S.Rep h' s ∧ h'.next = h.next ∧
      (∀ b, b ∉ S.addrs (S.plug c s) → b ∉ S.addrs r → h'.cells b = h.cells b)
  prepend : ∀ (h : Heap ν) c s n a, h.WF → S.Rep h (S.plug c s) → S.ptr s = some a → S.isFull s = false → S.Rep h n →
    (∀ b ∈ S.addrs n, b ∉ S.addrs (S.plug c s)) →
    ∃ h', K.prepend h.fuel h a (S.ptr n) = Res.ok h' ∧ S.Rep h' (S.plug c (S.front n s)) ∧ h'.next = h.next ∧
      (∀ b, b ∉ S.addrs (S.plug c s) → b ∉ S.addrs n → h'.cells b = h.cells b)
  append : ∀ (h : Heap ν) c s n a, h.WF → S.Rep h (S.plug c s) → S.ptr s = some a → S.isFull s = false → S.Rep h n →
    (∀ b ∈ S.addrs n, b ∉ S.addrs (S.plug c s)) →
    ∃ h', K.append h.fuel h a (S.ptr n) = Res.ok h' ∧ S.Rep h' (S.plug c (S.back n s)) ∧ h'.next = h.next ∧
      (∀ b, b ∉ S.addrs (S.plug c s) → b ∉ S.addrs n → h'.cells b = h.cells b)
  full : ∀ (h : Heap ν) c s a, S.Rep h (S.plug c s) → S.ptr s = some a → K.full h a = Res.ok (S.isFull s)
  following : ∀ (h : Heap ν) t R fs u, S.Rep h t → S.rose t = [R] → Tree.plug fs u = R →
    K.following h u.label = Res.ok (fs.head?.elim 0 (fun f => f.rights.length))
  nav : ∀ (h : Heap ν) t R, S.Rep h t → S.rose t = [R] → NavSpec (K.nav h (S.ptr t)) R
  nav_root : ∀ (h : Heap ν) r, (K.nav h r).root = r
  vals_inj : ∀ t u, S.vals t = S.vals u → (t = S.nil ↔ u = S.nil) ∧ S.size t = S.size u ∧ S.arity t = S.arity u
  litSize : ∀ l t, S.litOk l → S.litFits l → S.vals t = S.litVals l → S.size t = K.litSize l ∧ S.arity t = K.litArity l
  nav_first : ∀ (h : Heap ν) r a, (K.nav h r).first a = K.first h a
  calcSize : ∀ (h : Heap ν) t a, h.WF → S.Rep h t → S.ptr t = some a → K.calcSize h.fuel h a = Res.ok (S.size t)
  calcArity : ∀ (h : Heap ν) t a, h.WF → S.Rep h t → S.ptr t = some a → K.calcArity h.fuel h a = Res.ok (S.arity t)
  rose_revalue : ∀ s v, S.rose (S.revalue s v) = S.rose s
  revalue : ∀ (h : Heap ν) c s a v n, S.Rep h (S.plug c s) → S.ptr s = some a → h.cells a = some n →
    S.Rep (h.set a (K.setValue n v)) (S.plug c (S.revalue s v))

/-! ### nary -/

namespace Tree
variable {β γ : Type}
theorem arityL_eq_foldr (ts : List (Tree β)) : arityL ts = (ts.map arity).foldr max 0 := by
  induction ts with
  | nil => simp [arityL]
  | cons t ts ih => simp [arityL, ih]
theorem arityL_append (a b : List (Tree β)) : arityL (a ++ b) = max (arityL a) (arityL b) := by
  induction a with
  | nil => simp
  | cons t ts ih => simp [ih, Nat.max_assoc]
theorem arity_map (f : β → γ) (t : Tree β) : (t.map f).arity = t.arity := by
  induction t using Tree.ind with
  | h a cs ih =>
    simp only [map, mapL_eq, arity, List.length_map, arityL_eq_foldr, List.map_map]
    congr 2
    apply List.map_congr_left
    intro c hc; simpa using ih c hc
end Tree

theorem list_length_le_of_lt {l : List Nat} {n : Nat} (hn : l.Nodup) (h : ∀ a ∈ l, a < n) : l.length ≤ n := by
  induction n generalizing l with
  | zero =>
    cases l with
    | nil => simp
    | cons a l => exact absurd (h a (by simp)) (by omega)
  | succ n ih =>
    have h1 := ih (l := l.erase n) (hn.erase n) (by
      intro a ha
      have := (hn.mem_erase_iff).mp ha
      have := h a this.2
      omega)
    by_cases hm : n ∈ l
    · rw [List.length_erase_of_mem hm] at h1; omega
    · rw [List.erase_of_not_mem hm] at h1; omega

namespace Nary
variable {α : Type}

theorem fill_some (fs : List (Frame (Addr × α))) (u : Tree (Addr × α)) : fill fs (some u) = some (plug fs u) := by
  cases fs <;> simp [fill]

theorem shape_ptr (o : Option (Tree (Addr × α))) : (shape α).ptr o = o.map addr := by
  cases o <;> simp [Shape.ptr, shape, addrTree_label]
theorem shape_addrs (o : Option (Tree (Addr × α))) : (shape α).addrs o = o.elim [] Tree.addrs := by
  cases o <;> simp [Shape.addrs, shape, addrTree_pre, preL]
theorem shape_size (o : Option (Tree (Addr × α))) : (shape α).size o = o.elim 0 Tree.size := by
  cases o <;> simp [Shape.size, shape, sizeL, addrTree_size]
theorem shape_arity (o : Option (Tree (Addr × α))) : (shape α).arity o = o.elim 0 Tree.arity := by
  cases o <;> simp [Shape.arity, shape, arityL, addrTree, arity_map]
theorem shape_rep (h : NHeap α) (t : Tree (Addr × α)) : (shape α).Rep h (some t) ↔ Rep h t := by
  simp [shape]

theorem size_le {h : NHeap α} (hw : h.WF) {t : Tree (Addr × α)} (H : Rep h t) : t.size ≤ h.next := by
  rw [← length_addrs]
  refine list_length_le_of_lt H.2 fun a ha => ?_
  exact H.1.lt_next hw (by rw [keys_cells]; exact ha)

theorem addrs_fill (fs : List (Frame (Addr × α))) (o : Option (Tree (Addr × α))) :
    ((fill fs o).elim [] Tree.addrs).Perm (ctxAddrs fs ++ o.elim [] Tree.addrs) := by
  cases o with
  | some u => rw [fill_some]; exact addrs_plug fs u
  | none =>
    cases fs with
    | nil => simp [fill, ctxAddrs]
    | cons f fs =>
      simp only [fill, Option.elim_some]
      refine (addrs_plug fs _).trans ?_
      simp only [ctxAddrs, addrs_node, addrsL_append, Option.toList_none, addrsL_nil, List.append_nil, Option.elim_none]
      refine List.perm_append_comm.trans ?_
      simp

theorem length_le_addrsL (ts : List (Tree (Addr × α))) : ts.length ≤ (addrsL ts).length := by
  induction ts with
  | nil => simp
  | cons t ts ih =>
    have := t.size_pos
    have := length_addrs t
    simp; omega

theorem label_plug_eq {β : Type} (fs : List (Frame β)) (x y : Tree β) (h : x.label = y.label) :
    (plug fs x).label = (plug fs y).label := by
  induction fs generalizing x y with
  | nil => exact h
  | cons f fs ih => exact ih _ _ rfl

theorem shape_plug (c : List (Frame (Addr × α))) (s : Option (Tree (Addr × α))) : (shape α).plug c s = fill c s := rfl

theorem full_sizes (l : Tree α) : (Lit.full l).subtreeSize = l.size ∧ (Lit.full l).subtreeArity = l.arity := by
  induction l using Tree.ind with
  | h v cs ih =>
    have h1 : ∀ cs : List (Tree α), (∀ c ∈ cs, (Lit.full c).subtreeSize = c.size ∧ (Lit.full c).subtreeArity = c.arity) →
        ∀ n, Lit.subtreeSizeL (mapL some cs) = sizeL cs ∧
          Lit.subtreeArityL n (mapL some cs) = (if cs = [] then 0 else max n (arityL cs)) := by
      intro cs ih n
      induction cs with
      | nil => simp [Lit.subtreeSizeL, Lit.subtreeArityL]
      | cons c cs ih2 =>
        obtain ⟨h3, h4⟩ := ih c (by simp)
        obtain ⟨h5, h6⟩ := ih2 (fun c hc => ih c (by simp [hc]))
        simp only [Lit.full] at h3 h4
        simp only [mapL_cons, Lit.subtreeSizeL, Lit.subtreeArityL, h3, h4, h5, h6, sizeL_cons, arityL_cons]
        refine ⟨trivial, ?_⟩
        cases cs <;> simp <;> omega
    obtain ⟨h2, h3⟩ := h1 cs ih (Lit.childCount (Lit.full (node v cs)))
    have h4 : Lit.childCount (Lit.full (node v cs)) = cs.length := by
      simp [Lit.childCount, Lit.full, mapL_eq, List.filter_map]
    simp only [Lit.full, map_node, Lit.subtreeSize, Lit.subtreeArity, Option.isSome_some, if_true, h2, size_node, arity_node] at h3 h4 ⊢
    rw [h3, h4]
    refine ⟨trivial, ?_⟩
    cases cs <;> simp

theorem lawful (α : Type) : Lawful (shape α) where
  rose_nil := rfl
  rose_cases := by
    intro t
    cases t with
    | none => exact Or.inl rfl
    | some u => exact Or.inr ⟨_, rfl⟩
  plug_top _ := rfl
  rose_plug := by
    intro c
    refine ⟨c.map (Frame.map Prod.fst), ?_, ?_⟩
    · show c = [] ↔ _
      simp
    · intro s u hu
      cases s with
      | none => simp [shape] at hu
      | some s =>
        rw [shape_plug, fill_some]
        simp [shape, addrTree, plug_map] at hu ⊢
        rw [hu]
  rose_remove := by
    intro c hc
    cases c with
    | nil => exact absurd rfl hc
    | cons f fs =>
      refine ⟨f.map Prod.fst, fs.map (Frame.map Prod.fst), ?_, ?_⟩
      · intro s u hu
        cases s with
        | none => simp [shape] at hu
        | some s =>
          rw [shape_plug, fill_some]
          simp only [shape, addrTree, plug_map, Option.map_some, Option.toList_some, List.cons.injEq, and_true, List.map_cons] at hu ⊢
          rw [hu]
      · simp [shape, fill, addrTree, plug_map, map, mapL_eq, Frame.map]
  addrs_plug := by
    intro c s
    simp only [shape_addrs, shape_plug]
    refine (addrs_fill c s).trans ?_
    refine List.Perm.append_right _ ?_
    have := addrs_fill c (none : Option (Tree (Addr × α)))
    simpa [shape] using this.symm
  ptr_plug := by
    intro c s s' hc
    simp only [shape_ptr, shape_plug]
    cases c with
    | nil => exact absurd rfl hc
    | cons f fs =>
      simp only [fill, Option.map_some, Option.some.injEq]
      rw [← addrTree_label, ← addrTree_label, addrTree, addrTree, plug_map, plug_map]
      exact label_plug_eq _ _ _ (by simp)
  ptr_plug_mem := by
    intro c hc
    cases c with
    | nil => exact absurd rfl hc
    | cons f fs => exact ⟨_, by simp only [shape_ptr, shape_plug, fill, Option.map_some]; rfl⟩
  find := by
    intro t fs u ht
    cases t with
    | none => simp [shape] at ht
    | some t =>
      simp [shape] at ht
      obtain ⟨fs', u', h1, h2, h3⟩ := plug_eq_map Prod.fst (t := t) ht.symm
      refine ⟨fs', some u', ?_, ?_⟩
      · rw [shape_plug, fill_some, h1]
      · simp [shape, addrTree, h3]
  rose_single := by intro a v; simp [shape, addrTree, map, mapL]
  rose_front := by
    intro s u n hs _
    cases s with
    | none => simp [shape] at hs
    | some s =>
      cases s with | node p cs =>
      cases n <;> simp [shape, addrTree, map, mapL_eq] at hs ⊢ <;> simp [← hs]
  rose_back := by
    intro s u n hs _
    cases s with
    | none => simp [shape] at hs
    | some s =>
      cases s with | node p cs =>
      cases n <;> simp [shape, addrTree, map, mapL_eq] at hs ⊢ <;> simp [← hs]
  front_nil := by
    intro s
    cases s with
    | none => rfl
    | some s => cases s; simp [shape]
  back_nil := by
    intro s
    cases s with
    | none => rfl
    | some s => cases s; simp [shape]
  rep_nil := by intro h t ht; cases ht
  rep_congr := by
    intro h h' t H he
    rintro u rfl
    rw [shape_addrs] at he
    have := H u rfl
    refine ⟨this.1.congr ?_, this.2⟩
    rw [keys_cells]; exact he
  rep_alive := by
    intro h t H a ha
    cases t with
    | none => simp [shape_addrs] at ha
    | some u =>
      rw [shape_addrs] at ha
      exact (H u rfl).1.isSome (by rw [keys_cells]; exact ha)
  rep_nodup := by
    intro h t H
    rw [shape_addrs]
    cases t with
    | none => simp
    | some u => exact (H u rfl).2
  leaf := by
    intro h v hw
    rintro t ht
    cases ht
    simp [Rep, cells, Heap.alloc, kind, leaf]
  ofLit := by
    intro h l hw _
    obtain ⟨h', t', e, h1, h2, h3⟩ := ofLit_spec hw l
    exact ⟨h', _, some t', e, by rw [shape_ptr]; rfl, (shape_rep _ _).mpr h1, by simp [shape, h2], by rw [shape_addrs]; exact h3⟩
  copy := by
    intro h t a hw H ha
    rw [shape_ptr] at ha
    cases t with
    | none => cases ha
    | some t =>
      simp at ha; subst ha
      have H := (shape_rep _ _).mp H
      have := size_le hw H
      obtain ⟨h', t', e, h1, h2, h3⟩ := copy_root hw t H h.fuel (by simp [Heap.fuel]; omega)
      exact ⟨h', _, some t', e, by rw [shape_ptr]; rfl, (shape_rep _ _).mpr h1, by simp [shape, h2], by rw [shape_addrs]; exact h3⟩
  dealloc := by
    intro h t hw H
    rw [shape_ptr, shape_addrs]
    cases t with
    | none => simp [kind, Heap.fuel, dealloc]
    | some t =>
      have H := (shape_rep _ _).mp H
      have := size_le hw H
      exact dealloc_spec H (by simp [Heap.fuel]; omega)
  detach := by
    intro h t a fuel H ha
    rw [shape_ptr] at ha
    cases t with
    | none => cases ha
    | some t =>
      simp at ha; subst ha
      have H := (shape_rep _ _).mp H
      have hc := (show Rep h (plug [] t) from H).cell
      simp [kind, replaceWith, Heap.read_of hc, rec_, fpar]
  replace := by
    intro h c s r a hw H ha hc R hd hr
    rw [shape_ptr] at ha
    cases c with
    | nil => exact absurd rfl hc
    | cons f fs =>
      cases s with
      | none => cases ha
      | some s =>
        simp at ha; subst ha
        rw [shape_plug, fill_some] at H hd
        simp only [shape_plug, fill_some, shape_addrs, Option.elim_some] at hd ⊢
        have H := (shape_rep _ _).mp H
        cases r with
        | some r =>
          obtain ⟨h', e, h1, h2, h3, h4⟩ := replaceWith_some h.fuel H ((shape_rep _ _).mp R) hd
          exact ⟨h', by rw [shape_ptr]; exact e, by rw [fill_some]; exact (shape_rep _ _).mpr h1, (shape_rep _ _).mpr h2, h3, h4⟩
        | none =>
          have hrm := hr.resolve_left (fun hn => hn rfl)
          obtain ⟨p, lefts, rights⟩ := f
          simp [shape] at hrm
          obtain ⟨l, pv, rfl⟩ : ∃ l pv, lefts = l ++ [pv] := ⟨_, _, (List.dropLast_concat_getLast hrm.1).symm⟩
          cases rights with
          | nil => simp at hrm
          | cons nx rr =>
            have hlen : l.length + 1 < h.fuel := by
              have h1 := size_le hw H
              have h2 := (addrs_plug (⟨p, l ++ [pv], nx :: rr⟩ :: fs) s).length_eq
              rw [length_addrs] at h2
              simp only [ctxAddrs, addrsL_append, List.length_append, List.length_cons] at h2
              have h3 := length_le_addrsL l
              simp only [Heap.fuel]; omega
            obtain ⟨h', e, h1, h2, h3, h4⟩ := replaceWith_none h.fuel H hlen
            refine ⟨h', by rw [shape_ptr]; exact e, ?_, (shape_rep _ _).mpr h2, h3, fun b hb _ => h4 b hb⟩
            simpa [fill] using (shape_rep _ _).mpr h1
  prepend := by
    intro h c s n a hw H ha _ N hd
    rw [shape_ptr] at ha
    cases s with
    | none => cases ha
    | some s =>
      simp at ha; subst ha
      cases n with
      | none =>
        refine ⟨h, by rw [shape_ptr]; rfl, ?_, rfl, fun _ _ _ => rfl⟩
        obtain ⟨p, cs⟩ := s
        simpa [shape] using H
      | some n =>
        rw [shape_plug, fill_some] at H hd
        simp only [shape_plug, fill_some, shape_addrs, Option.elim_some] at hd ⊢
        have H := (shape_rep _ _).mp H
        obtain ⟨p, cs⟩ := s
        have hlen : cs.length < h.fuel := by
          have h1 := size_le hw H
          have h2 := (addrs_plug c (node p cs)).length_eq
          rw [length_addrs] at h2
          simp only [addrs_node, List.length_append, List.length_cons] at h2
          have h3 := length_le_addrsL cs
          simp only [Heap.fuel]; omega
        obtain ⟨h', e, h1, h2, h3⟩ := prepend_spec H ((shape_rep _ _).mp N) hd
        refine ⟨h', by rw [shape_ptr]; exact e, ?_, h2, h3⟩
        have : (shape α).front (some n) (some (node p cs)) = some (node p (n :: cs)) := by
          simp [shape]
        rw [this, fill_some]
        exact (shape_rep _ _).mpr h1
  append := by
    intro h c s n a hw H ha _ N hd
    rw [shape_ptr] at ha
    cases s with
    | none => cases ha
    | some s =>
      simp at ha; subst ha
      cases n with
      | none =>
        refine ⟨h, by rw [shape_ptr]; rfl, ?_, rfl, fun _ _ _ => rfl⟩
        obtain ⟨p, cs⟩ := s
        simpa [shape] using H
      | some n =>
        rw [shape_plug, fill_some] at H hd
        simp only [shape_plug, fill_some, shape_addrs, Option.elim_some] at hd ⊢
        have H := (shape_rep _ _).mp H
        obtain ⟨p, cs⟩ := s
        have hlen : cs.length < h.fuel := by
          have h1 := size_le hw H
          have h2 := (addrs_plug c (node p cs)).length_eq
          rw [length_addrs] at h2
          simp only [addrs_node, List.length_append, List.length_cons] at h2
          have h3 := length_le_addrsL cs
          simp only [Heap.fuel]; omega
        obtain ⟨h', e, h1, h2, h3⟩ := append_spec (fuel := h.fuel) H ((shape_rep _ _).mp N) hd hlen
        refine ⟨h', by rw [shape_ptr]; exact e, ?_, h2, h3⟩
        have : (shape α).back (some n) (some (node p cs)) = some (node p (cs ++ [n])) := by
          simp [shape]
        rw [this, fill_some]
        exact (shape_rep _ _).mpr h1
  full := by intro h c s a _ _; rfl
  following := by
    intro h t R fs u H hR hu
    cases t with
    | none => simp [shape] at hR
    | some t =>
      simp [shape] at hR
      obtain ⟨fs', u', h1, h2, h3⟩ := plug_eq_map Prod.fst (t := t) (hu.trans hR.symm)
      have H := (shape_rep _ _).mp H
      rw [← h1] at H
      have := following_spec H
      subst h2 h3
      simp only [kind, label_map]
      refine Eq.trans this ?_
      cases fs' <;> simp [ffol, Frame.map]
  nav := by
    intro h t R H hR
    cases t with
    | none => simp [shape] at hR
    | some t =>
      simp [shape] at hR
      subst hR
      rw [shape_ptr]
      exact nav_spec (gs := []) ((shape_rep _ _).mp H)
  nav_first := by intro h r a; rfl
  nav_root := by intro h r; rfl
  vals_inj := by
    intro t u htu
    have hs : t.elim 0 Tree.size = u.elim 0 Tree.size := by
      have := congrArg (fun o => Option.elim o 0 Tree.size) htu
      cases t <;> cases u <;> simpa [shape, Tree.vals, size_map] using this
    have ha : t.elim 0 Tree.arity = u.elim 0 Tree.arity := by
      have := congrArg (fun o => Option.elim o 0 Tree.arity) htu
      cases t <;> cases u <;> simpa [shape, Tree.vals, arity_map] using this
    refine ⟨?_, by rw [shape_size, shape_size, hs], by rw [shape_arity, shape_arity, ha]⟩
    cases t <;> cases u <;> simp_all [shape]
  litSize := by
    intro l t _ _ hv
    obtain ⟨h1, h2⟩ := full_sizes l
    cases t with
    | none => simp [shape] at hv
    | some t =>
      have hv' : t.vals = l := by simpa [shape] using hv
      rw [shape_size, shape_arity]
      subst hv'
      simp only [Option.elim_some, kind]
      rw [h1, h2]
      simp [Tree.vals, size_map, arity_map]
  calcSize := by
    intro h t a hw H ha
    rw [shape_ptr] at ha
    cases t with
    | none => cases ha
    | some t =>
      simp at ha; subst ha
      have H := (shape_rep _ _).mp H
      have := size_le hw H
      rw [shape_size]
      exact calcSize_spec H (by simp [Heap.fuel]; omega)
  calcArity := by
    intro h t a hw H ha
    rw [shape_ptr] at ha
    cases t with
    | none => cases ha
    | some t =>
      simp at ha; subst ha
      have H := (shape_rep _ _).mp H
      have := size_le hw H
      rw [shape_arity]
      exact calcArity_spec H (by simp [Heap.fuel]; omega)
  rose_revalue := by
    intro s v
    cases s with
    | none => rfl
    | some s => cases s; simp [shape, addrTree, addr]
  revalue := by
    intro h c s a v n H ha hn
    cases s with
    | none => cases ha
    | some s =>
      rw [shape_ptr] at ha
      simp at ha; subst ha
      simp only [shape, Option.map_some, fill_some] at H ⊢
      have H := (shape_rep _ _).mp H
      refine (shape_rep _ _).mpr ?_
      have hc := H.cell
      obtain ⟨h1, h2, h3⟩ := (rep_plug _ _).mp H
      rw [hn] at hc; cases hc
      rw [addrs_eq] at h3
      have hnd := List.nodup_append.mp h3
      refine (rep_plug _ _).mpr ⟨?_, ?_, by rw [addrs_eq]; exact h3⟩
      · refine (holds_set ?_).mpr h1
        rw [keys_ctxCells]
        exact fun hm => hnd.2.2 _ hm s.addr (by simp) rfl
      · rw [focusCells_eq, holds_cons] at h2 ⊢
        refine ⟨by simp [Heap.set, rec_, kind, addr], (holds_set ?_).mpr h2.2⟩
        rw [keys_below]
        exact (List.nodup_cons.mp hnd.2.1).1

end Nary
