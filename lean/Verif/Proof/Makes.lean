import Verif.Proof.StarWorld
/-! Growing a new tree beside an existing one whose nodes are copied. -/
open Tree

set_option linter.unusedSimpArgs false

/-- A node of a tree being made: the node it copies and its own address. -/
abbrev Lab (α : Type) := (Addr × α) × Addr

namespace Tree
variable {α : Type}
/-- The addresses of a tree being made. -/
def gens (P : Tree (Lab α)) : List Addr := P.pre.map Prod.snd
def gensL (Ps : List (Tree (Lab α))) : List Addr := (preL Ps).map Prod.snd
/-- The nodes that have been copied. -/
def refs (P : Tree (Lab α)) : Tree (Addr × α) := P.map Prod.fst
/-- What a node of the made tree is. -/
def rel (x : Lab α) : Addr × α := (x.2, x.1.2)

@[simp] theorem gens_node (a : Lab α) (cs) : (node a cs).gens = a.2 :: gensL cs := by simp [gens, gensL]
@[simp] theorem gensL_nil : gensL ([] : List (Tree (Lab α))) = [] := rfl
@[simp] theorem gensL_cons (t : Tree (Lab α)) (ts) : gensL (t :: ts) = gens t ++ gensL ts := by simp [gens, gensL]
@[simp] theorem gensL_append (ts us : List (Tree (Lab α))) : gensL (ts ++ us) = gensL ts ++ gensL us := by simp [gensL]
theorem addrs_rel (P : Tree (Lab α)) : (P.map rel).addrs = P.gens := by
  simp [addrs, pre_map, gens, rel, Function.comp_def]
theorem addr_rel (P : Tree (Lab α)) : (P.map rel).addr = P.label.2 := by simp [addr, rel]
theorem gen_mem (P : Tree (Lab α)) : P.label.2 ∈ P.gens := List.mem_map_of_mem (label_mem_pre P)

theorem gens_plug (fs : List (Frame (Lab α))) (P : Tree (Lab α)) :
    (plug fs P).gens = (preBefore fs).map Prod.snd ++ P.gens ++ (preAfter fs).map Prod.snd := by
  simp [gens, pre_plug]
end Tree

/-- What the navigator without a root says about the nodes of a tree. -/
structure RawNav {α : Type} (nav : Nav) (T : Tree (Addr × α)) : Prop where
  parent : ∀ f fs s, plug (f :: fs) s = T → nav.parent s.addr = Res.ok (some f.label.1)
  next : ∀ f fs s, plug (f :: fs) s = T → nav.next s.addr = Res.ok (headAddr f.rights)
  first : ∀ fs s, plug fs s = T → nav.first s.addr = Res.ok (headAddr s.children)

/-- `base h`: the tree `T` is in the heap. `made h P`: the tree `P` of copies of nodes of `T` is in the heap. -/
structure Makes {ν α lit : Type} (K : Kind ν α lit) (value : ν → α) (B : Pattern.Builder ν) (T : Tree (Addr × α))
    (base : Heap ν → Prop) (made : Heap ν → Tree (Lab α) → Prop) : Prop where
  nodup : T.addrs.Nodup
  base_frame : ∀ {h h'}, base h → (∀ a ∈ T.addrs, h'.cells a = h.cells a) → base h'
  made_frame : ∀ {h h' P}, made h P → (∀ a ∈ P.gens, h'.cells a = h.cells a) → made h' P
  gens : ∀ {h P}, made h P → P.gens.Nodup
  read : ∀ {h gs s}, base h → plug gs s = T → ∃ n, h.cells s.addr = some n ∧ value n = s.label.2
  raw : ∀ {h}, base h → RawNav (K.nav h none) T
  mraw : ∀ {h P}, made h P → RawNav (K.nav h none) (P.map rel)
  leaf : ∀ {h gs s g}, plug gs s = T → h.cells g = some (K.leaf s.label.2) → made h (node (s.label, g) [])
  attach : ∀ {h fs a g cs Q gs l t r}, h.WF → base h → made h (plug fs (node (a, g) cs)) → made h Q →
    (∀ x ∈ Q.gens, x ∉ (plug fs (node (a, g) cs)).gens) → plug gs (node a (l ++ t :: r)) = T → t.label = Q.label.1 →
    (∀ c ∈ cs, c.label.1 ∈ l.map label) →
    ∃ h', B.attach h g Q.label.2 Q.label.1.1 = Res.ok h' ∧ made h' (plug fs (node (a, g) (cs ++ [Q]))) ∧ h'.next = h.next ∧
      ∀ x, x ∉ (plug fs (node (a, g) cs)).gens → x ∉ Q.gens → h'.cells x = h.cells x

theorem RawNav.of {α : Type} {nav : Nav} {T : Tree (Addr × α)} {nav' : Ptr → Nav} {vl : Addr → Res α} (S : Starable nav' vl T)
    (hp : nav.parent = (nav' none).parent) (hn : ∀ x, x ≠ T.addr → nav.next x = (nav' (some T.addr)).next x)
    (hf : nav.first = (nav' (some T.addr)).first) : RawNav nav T := by
  have S' := S.searchable
  refine ⟨fun f fs s h => by rw [hp]; exact S.parent f fs s h, fun f fs s h => ?_, fun fs s h => ?_⟩
  · rw [hn, S'.next [] T (f :: fs) s rfl h]; · rfl
    have := Tree.frame_ne (g := Prod.fst) S.nodup h
    intro e
    rcases List.eq_nil_or_concat (f :: fs) with h0 | ⟨l, b, h0⟩
    · cases h0
    · rw [h0] at this h
      rw [List.concat_eq_append, plug_append] at h
      apply this b (by simp)
      rw [← h] at e
      exact e.symm
  · rw [hf, S'.first [] T fs s rfl h]

namespace Nary
variable {α : Type}

theorem rawNav {h : NHeap α} {T : Tree (Addr × α)} (H : Rep h T) : RawNav ((Nary.kind α).nav h none) T :=
  .of (Nary.starable H) rfl (fun x hx => by
    show (Nary.nav h none).next x = (Nary.nav h (some T.addr)).next x
    simp [nav, hx]) rfl

theorem makes {T : Tree (Addr × α)} (hT : T.addrs.Nodup) :
    Makes (Nary.kind α) NNode.value (Nary.builder α) T (fun h => Rep h T) (fun h P => Rep h (P.map rel)) := by
  refine ⟨hT, ?_, ?_, ?_, ?_, fun H => rawNav H, fun H => rawNav H, ?_, ?_⟩
  · exact fun H he => ⟨H.1.congr (by rw [keys_cells]; exact he), H.2⟩
  · exact fun H he => ⟨H.1.congr (by rw [keys_cells, addrs_rel]; exact he), H.2⟩
  · intro h P H
    have := H.2
    rwa [addrs_rel] at this
  · rintro h gs s H rfl
    exact ⟨_, H.cell, rfl⟩
  · intro h gs s g hs hc
    refine ⟨?_, by simp [addrs_node]⟩
    simp only [map_node, mapL_nil, cells, headAddr, lastAddr, rel]
    simpa [Nary.kind, leaf] using hc
  · intro h fs a g cs Q gs l t r hw HT HP HQ hd hs ht hl
    rw [plug_map] at HP
    simp only [map_node, mapL_eq] at HP
    have he : ∀ x, x ∈ (plug (fs.map (Frame.map rel)) (node (rel (a, g)) (cs.map (Tree.map rel)))).addrs ↔ x ∈ (plug fs (node (a, g) cs)).gens := by
      intro x
      rw [← addrs_rel, plug_map, map_node, mapL_eq]
    obtain ⟨h', e, H', hn, hk⟩ := append_spec (fuel := h.fuel) HP HQ (by
      intro x hx; rw [he]; rw [addrs_rel] at hx; exact hd x hx) (by
      have h1 := size_le hw HP
      have h2 : (cs.map (Tree.map rel)).length ≤ (plug (fs.map (Frame.map rel)) (node (rel (a, g)) (cs.map (Tree.map rel)))).size := by
        rw [← length_pre, pre_plug]
        have := Simple.length_le_sizeL (cs.map (Tree.map rel))
        have h3 := length_pre (node (rel (a, g)) (cs.map (Tree.map rel)))
        simp only [size_node] at h3
        simp only [List.length_append]; omega
      simp only [Heap.fuel]; omega)
    refine ⟨h', ?_, ?_, hn, ?_⟩
    · rw [addr_rel] at e; exact e
    · rw [plug_map, map_node, mapL_eq]; simpa using H'
    · intro x hx hq
      refine hk x ?_ ?_
      · rw [he]; exact hx
      · rw [addrs_rel]; exact hq
end Nary

namespace BTree
variable {β γ : Type}

theorem Part.refl (t : BTree β) : Part t t := by
  induction t with
  | nil => exact .nil _
  | node a l r h1 h2 => exact .node a h1 h2

/-- A place of a part is a place of the tree. -/
theorem part_plug {bs : List (Frame β)} : ∀ {a : β} {l r b : BTree β}, Part (plug bs (node a l r)) b →
    ∃ bs' l' r', b = BTree.plug bs' (node a l' r') ∧ Part l l' ∧ Part r r' ∧
      ∀ l2 r2, Part l2 l' → Part r2 r' → Part (BTree.plug bs (node a l2 r2)) b := by
  induction bs with
  | nil =>
    intro a l r b h
    cases h with
    | node a h1 h2 => exact ⟨[], _, _, rfl, h1, h2, fun l2 r2 k1 k2 => .node a k1 k2⟩
  | cons f bs ih =>
    intro a l r b h
    obtain ⟨q, side, o⟩ := f
    cases side with
    | true =>
      simp only [BTree.plug, Frame.fill, if_true] at h
      obtain ⟨bs', l', r', rfl, h1, h2, h3⟩ := ih h
      cases h1 with
      | node a k1 k2 =>
        rename_i l0 r0
        refine ⟨⟨q, true, r'⟩ :: bs', l0, r0, rfl, k1, k2, fun l2 r2 j1 j2 => ?_⟩
        have := h3 (node a l2 r2) o (.node a j1 j2) h2
        simpa [BTree.plug, Frame.fill] using this
    | false =>
      simp only [BTree.plug, Frame.fill, Bool.false_eq_true, if_false] at h
      obtain ⟨bs', l', r', rfl, h1, h2, h3⟩ := ih h
      cases h2 with
      | node a k1 k2 =>
        rename_i l0 r0
        refine ⟨⟨q, false, l'⟩ :: bs', l0, r0, rfl, k1, k2, fun l2 r2 j1 j2 => ?_⟩
        have := h3 o (node a l2 r2) h1 (.node a j1 j2)
        simpa [BTree.plug, Frame.fill] using this

theorem plug_map_eq (g : β → γ) (bs : List (Frame β)) (t : BTree β) :
    ∃ bs' : List (Frame γ), (∀ t, (BTree.plug bs t).map g = BTree.plug bs' (t.map g)) ∧
      (bs'.map Frame.toRose) = (bs.map Frame.toRose).map (Tree.Frame.map g) := by
  induction bs generalizing t with
  | nil => exact ⟨[], fun t => rfl, rfl⟩
  | cons f bs ih =>
    obtain ⟨q, side, o⟩ := f
    obtain ⟨bs', h1, h2⟩ := ih t
    refine ⟨⟨g q, side, o.map g⟩ :: bs', ?_, ?_⟩
    · intro t
      cases side <;> simp [BTree.plug, Frame.fill, h1, BTree.map]
    · simp only [List.map_cons, h2]
      cases side <;> simp [Frame.toRose, Tree.Frame.map, toRose_map]

theorem mem_plug (fs : List (Frame β)) (a : β) (l r : BTree β) : a ∈ (plug fs (node a l r)).pre := by
  suffices h : ∀ s : BTree β, a ∈ s.pre → a ∈ (plug fs s).pre from h _ (by simp [pre])
  induction fs with
  | nil => exact fun s h => h
  | cons f fs ih =>
    intro s h
    refine ih _ ?_
    obtain ⟨q, side, o⟩ := f
    cases side <;> simp [Frame.fill, pre, h]

theorem plug_cases {fs : List (Frame β)} {s : BTree β} {b : β} {l r : BTree β} (h : plug fs s = node b l r) :
    (fs = [] ∧ s = node b l r) ∨ (∃ fs', fs = fs' ++ [⟨b, true, r⟩] ∧ plug fs' s = l) ∨ (∃ fs', fs = fs' ++ [⟨b, false, l⟩] ∧ plug fs' s = r) := by
  rcases List.eq_nil_or_concat fs with rfl | ⟨fs', f, rfl⟩
  · exact .inl ⟨rfl, h⟩
  · rw [List.concat_eq_append, plug_append] at h
    obtain ⟨q, side, o⟩ := f
    cases side with
    | true =>
      simp only [plug, Frame.fill, if_true, node.injEq] at h
      obtain ⟨rfl, rfl, rfl⟩ := h
      exact .inr (.inl ⟨fs', by simp, rfl⟩)
    | false =>
      simp only [plug, Frame.fill, Bool.false_eq_true, if_false, node.injEq] at h
      obtain ⟨rfl, rfl, rfl⟩ := h
      exact .inr (.inr ⟨fs', by simp, rfl⟩)

/-- A node of a binary tree is found at one place only. -/
theorem place_unique {g : β → γ} : ∀ {T : BTree β}, (T.pre.map g).Nodup → ∀ {fs gs a l r a' l' r'}, plug fs (node a l r) = T →
    plug gs (node a' l' r') = T → g a = g a' → fs = gs ∧ a = a' ∧ l = l' ∧ r = r' := by
  intro T
  induction T with
  | nil =>
    intro _ fs gs a l r a' l' r' h
    have := mem_plug fs a l r
    rw [h] at this; simp [pre] at this
  | node b L R ihl ihr =>
    intro hn fs gs a l r a' l' r' hs hv e
    simp only [pre, List.map_cons, List.map_append, List.nodup_cons, List.nodup_append, List.mem_append] at hn
    obtain ⟨n1, n2, n3, n4⟩ := hn
    have hm : ∀ {fs : List (Frame β)} {a l r X}, plug fs (node a l r) = X → g a ∈ X.pre.map g := by
      rintro fs a l r X rfl
      exact List.mem_map_of_mem (mem_plug ..)
    rcases plug_cases hs with ⟨rfl, h1⟩ | ⟨fs', rfl, h1⟩ | ⟨fs', rfl, h1⟩ <;> rcases plug_cases hv with ⟨rfl, h2⟩ | ⟨gs', rfl, h2⟩ | ⟨gs', rfl, h2⟩
    · cases h1; cases h2; simp
    · cases h1; exact absurd (.inl (e ▸ hm h2)) n1
    · cases h1; exact absurd (.inr (e ▸ hm h2)) n1
    · cases h2; exact absurd (.inl (e ▸ hm h1)) n1
    · obtain ⟨rfl, rfl, rfl, rfl⟩ := ihl n2 h1 h2 e; simp
    · exact absurd e (n4 _ (hm h1) _ (hm h2))
    · cases h2; exact absurd (.inr (e ▸ hm h1)) n1
    · exact absurd e.symm (n4 _ (hm h2) _ (hm h1))
    · obtain ⟨rfl, rfl, rfl, rfl⟩ := ihr n3 h1 h2 e; simp
end BTree
