import Verif.Proof.Trim
import Verif.Proof.Pattern
/-! The iterators of a search with `star`: what they go over. -/
open Tree

set_option linter.unusedSimpArgs false

namespace Tree
variable {β : Type}

theorem plug_cases {fs : List (Frame β)} {s : Tree β} {b : β} {cs : List (Tree β)} (h : plug fs s = node b cs) :
    (fs = [] ∧ s = node b cs) ∨ ∃ fs' l c r, fs = fs' ++ [⟨b, l, r⟩] ∧ cs = l ++ c :: r ∧ plug fs' s = c := by
  rcases List.eq_nil_or_concat fs with rfl | ⟨fs', f, rfl⟩
  · exact .inl ⟨rfl, h⟩
  · rw [List.concat_eq_append, plug_append] at h
    simp only [plug_cons, plug_nil, node.injEq] at h
    obtain ⟨rfl, rfl⟩ := h
    exact .inr ⟨fs', f.lefts, _, f.rights, by simp, rfl, rfl⟩

/-- A node of a tree is found at one place only. -/
theorem sub_unique {γ : Type} {g : β → γ} : ∀ {T : Tree β}, (T.pre.map g).Nodup → ∀ {fs gs s v}, plug fs s = T → plug gs v = T →
    g s.label = g v.label → fs = gs ∧ s = v := by
  intro T
  induction T using ind with
  | h b cs ih =>
    intro hn fs gs s v hs hv e
    simp only [pre_node, List.map_cons, List.nodup_cons] at hn
    have hmem : ∀ {fs' s' c l r}, cs = l ++ c :: r → plug fs' s' = c → g s'.label ∈ (preL cs).map g := by
      rintro fs' s' c l r rfl rfl
      simp only [preL_append, preL_cons, List.map_append, List.mem_append]
      exact .inr (.inl (List.mem_map_of_mem (mem_pre_plug _ _)))
    rcases plug_cases hs with ⟨rfl, rfl⟩ | ⟨fs', l, c, r, rfl, hc, hs'⟩ <;> rcases plug_cases hv with ⟨rfl, rfl⟩ | ⟨gs', l', c', r', rfl, hc', hv'⟩
    · exact ⟨rfl, rfl⟩
    · exact absurd (e ▸ hmem hc' hv') hn.1
    · exact absurd (e ▸ hmem hc hs') hn.1
    · have key : l = l' ∧ c = c' ∧ r = r' := by
        have hcm : g s.label ∈ c.pre.map g := by rw [← hs']; exact List.mem_map_of_mem (mem_pre_plug _ _)
        have hcm' : g s.label ∈ c'.pre.map g := by rw [e, ← hv']; exact List.mem_map_of_mem (mem_pre_plug _ _)
        have hn2 := hn.2
        rw [hc] at hn2 hc'
        rcases List.append_eq_append_iff.mp hc' with ⟨x, rfl, e2⟩ | ⟨x, rfl, e2⟩
        · cases x with
          | nil => simp at e2; simp [e2]
          | cons y x =>
            simp at e2
            obtain ⟨rfl, rfl⟩ := e2
            simp only [preL_append, preL_cons, List.map_append, List.nodup_append, List.mem_append] at hn2
            exact absurd rfl (hn2.2.1.2.2 _ hcm _ (.inr (.inl hcm')))
        · cases x with
          | nil => simp at e2; simp [e2]
          | cons y x =>
            simp at e2
            obtain ⟨rfl, rfl⟩ := e2
            simp only [preL_append, preL_cons, List.map_append, List.nodup_append, List.mem_append] at hn2
            exact absurd rfl (hn2.2.2 _ (.inr (.inl hcm')) _ (.inl hcm))
      obtain ⟨rfl, rfl, rfl⟩ := key
      have hnc : (c.pre.map g).Nodup := by
        have hn2 := hn.2
        rw [hc] at hn2
        simp only [preL_append, preL_cons, List.map_append, List.nodup_append] at hn2
        exact hn2.2.1.1
      obtain ⟨rfl, rfl⟩ := ih c (by rw [hc]; simp) hnc hs' hv' e
      exact ⟨rfl, rfl⟩

/-- A node above another one is another node. -/
theorem frame_ne {γ : Type} {g : β → γ} {T : Tree β} (hn : (T.pre.map g).Nodup) {fs : List (Frame β)} {s : Tree β} (h : plug fs s = T) :
    ∀ f ∈ fs, g f.label ≠ g s.label := by
  intro f hf e
  obtain ⟨l, r, rfl⟩ := List.append_of_mem hf
  have h2 : plug r (node f.label (f.lefts ++ plug l s :: f.rights)) = T := by
    rw [← h, plug_append]; rfl
  have := (sub_unique hn h h2 e.symm).1
  have := congrArg List.length this
  simp at this
  omega

/-! ### going into accepted nodes -/
namespace Opens
variable {f : β → Bool} {us vs ws : List (Tree β)}

theorem trans (h : Opens f us vs) (h' : Opens f vs ws) : Opens f us ws := by
  induction h with
  | refl => exact h'
  | skip _ ih => exact .skip (ih h')
  | into h _ ih => exact .into h (ih h')

theorem drop (l : List (Tree β)) (h : Opens f us vs) : Opens f (l ++ us) vs := by
  induction l with
  | nil => exact h
  | cons t l ih => exact .skip ih

theorem sizeL_le (h : Opens f us vs) : sizeL vs ≤ sizeL us := by
  induction h with
  | refl => omega
  | skip _ ih => simp; omega
  | @into t us vs h _ ih => obtain ⟨a, cs⟩ := t; simp at ih ⊢; omega

theorem of_false (h : Opens (fun _ => false) us vs) : ∃ l, us = l ++ vs := by
  induction h with
  | refl us => exact ⟨[], rfl⟩
  | @skip t _ _ _ ih => obtain ⟨l, rfl⟩ := ih; exact ⟨t :: l, rfl⟩
  | into h => simp at h

theorem false_iff : Opens (fun _ => false) us vs ↔ ∃ l, us = l ++ vs :=
  ⟨of_false, fun ⟨l, h⟩ => h ▸ drop l (.refl vs)⟩

/-- What can be reached from the sequence, after looking at its first subtree. -/
theorem cases_cons {t v : Tree β} {r : List (Tree β)} (h : Opens f (t :: us) (v :: r)) :
    (v = t ∧ r = us) ∨ Opens f ((if f t.label then t.children else []) ++ us) (v :: r) := by
  cases h with
  | refl => exact .inl ⟨rfl, rfl⟩
  | skip h => exact .inr (drop _ h)
  | into hf h => right; simpa [hf] using h

theorem step (t : Tree β) : Opens f (t :: us) ((if f t.label then t.children else []) ++ us) := by
  by_cases h : f t.label = true
  · simp only [h, if_true]; exact .into h (.refl _)
  · simp only [h, if_false]; exact .skip (.refl _)
end Opens

/-! ### the frontier -/
theorem frontier_node (f : β → Bool) (a cs) : frontier f (node a cs) = if f a then frontierL f cs else [node a cs] := by
  simp [frontier]
theorem frontierL_nil (f : β → Bool) : frontierL f [] = [] := by simp [frontierL]
theorem frontierL_cons (f : β → Bool) (t ts) : frontierL f (t :: ts) = frontier f t ++ frontierL f ts := by simp [frontierL]

theorem leaves_trim (f : β → Bool) (t : Tree β) :
    (trim f t).leaves.filter (fun b => !f b) = (frontier f t).map label := by
  induction t using ind with
  | h a cs ih =>
    rw [trim_node, frontier_node]
    rcases Bool.eq_false_or_eq_true (f a) with h | h
    · simp only [h, if_true]
      cases cs with
      | nil => simp [h, frontierL_nil]
      | cons c cs =>
        rw [leaves_node_ne _ _ (by simp)]
        generalize c :: cs = l at ih
        induction l with
        | nil => simp [frontierL_nil]
        | cons c l ih2 =>
          simp only [List.map_cons, leavesL_cons, List.filter_append, frontierL_cons, List.map_append]
          rw [ih c (by simp), ih2 (fun d hd => ih d (by simp [hd]))]
    · simp [h]

theorem sub_trans {fs gs : List (Frame β)} {s u T : Tree β} (h1 : plug fs s = u) (h2 : plug gs u = T) : plug (fs ++ gs) s = T := by
  rw [plug_append, h1, h2]

theorem frontier_sub (f : β → Bool) (t : Tree β) : ∀ v ∈ frontier f t, ∃ gs, plug gs v = t := by
  induction t using ind with
  | h a cs ih =>
    rw [frontier_node]
    rcases Bool.eq_false_or_eq_true (f a) with h | h
    · simp only [h, if_true]
      intro v hv
      have : ∃ c ∈ cs, v ∈ frontier f c := by
        clear ih
        induction cs with
        | nil => simp [frontierL_nil] at hv
        | cons c cs ih2 =>
          simp only [frontierL_cons, List.mem_append] at hv
          rcases hv with hv | hv
          · exact ⟨c, by simp, hv⟩
          · obtain ⟨d, h1, h2⟩ := ih2 hv; exact ⟨d, by simp [h1], h2⟩
      obtain ⟨c, hc, hv⟩ := this
      obtain ⟨gs, hg⟩ := ih c hc v hv
      obtain ⟨l, r, rfl⟩ := List.append_of_mem hc
      exact ⟨gs ++ [⟨a, l, r⟩], by simp [plug_append, hg]⟩
    · simp [h]
      exact ⟨[], rfl⟩

theorem leavesAfter_map {γ : Type} (g : β → γ) (ks : List (Frame β)) :
    leavesAfter (ks.map (Frame.map g)) = (leavesAfter ks).map g := by
  have h1 : ∀ t : Tree β, (t.map g).leaves = t.leaves.map g := by
    intro t
    induction t using ind with
    | h a cs ih =>
      cases cs with
      | nil => simp
      | cons c cs =>
        rw [map_node, leaves_node_ne _ _ (by simp), leaves_node_ne _ _ (by simp)]
        generalize c :: cs = l at ih
        induction l with
        | nil => simp
        | cons c l ih2 => simp [ih c (by simp), ih2 (fun d hd => ih d (by simp [hd]))]
  have h2 : ∀ l : List (Tree β), leavesL (l.map (Tree.map g)) = (leavesL l).map g := by
    intro l
    induction l with
    | nil => simp
    | cons t l ih => simp [h1, ih]
  induction ks with
  | nil => simp [leavesAfter]
  | cons f ks ih => simp [leavesAfter, ih, Frame.map, h2]
end Tree

/-- What a search with `star` needs to know about the navigators of a tree and the values of its nodes. -/
structure Starable {α : Type} (nav : Ptr → Nav) (val : Addr → Res α) (T : Tree (Addr × α)) : Prop where
  nodup : T.addrs.Nodup
  val : ∀ fs s, plug fs s = T → val s.addr = Res.ok s.label.2
  navs : ∀ gs u, plug gs u = T → NavSpec (nav (some u.addr)) u.addrTree
  parent : ∀ f fs s, plug (f :: fs) s = T → (nav none).parent s.addr = Res.ok (some f.label.1)

theorem Starable.searchable {α : Type} {nav : Ptr → Nav} {val : Addr → Res α} {T : Tree (Addr × α)} (S : Starable nav val T) :
    Searchable nav val T := by
  refine ⟨S.nodup, S.val, ?_, ?_, S.parent⟩
  · rintro gs u fs s hu rfl
    have := (S.navs gs _ hu).first (fs.map (Frame.map Prod.fst)) s.addrTree (by rw [addrTree, addrTree, plug_map])
    have e : (label ∘ Tree.map Prod.fst : Tree (Addr × α) → Addr) = addr := funext fun t => label_map ..
    simpa [addrTree, headAddr, Tree.addr, label_map, e] using this
  · rintro gs u fs s hu rfl
    have := (S.navs gs _ hu).next (fs.map (Frame.map Prod.fst)) s.addrTree (by rw [addrTree, addrTree, plug_map])
    have e : (label ∘ Tree.map Prod.fst : Tree (Addr × α) → Addr) = addr := funext fun t => label_map ..
    cases fs <;> simpa [addrTree, headAddr, Tree.addr, label_map, e, Frame.map] using this

namespace Search
open Pat
variable {α : Type} {nav : Ptr → Nav} {vl : Addr → Res α} {T : Tree (Addr × α)} {fuel : Nat}

/-- A `star` with the given `subtree_cut` goes below the node. -/
def accOf (cut : Ptr) (test : α → Bool) (l : Addr × α) : Bool := if some l.1 == cut then false else test l.2

theorem accOf_none (test : α → Bool) (l : Addr × α) : accOf none test l = test l.2 := by simp [accOf]
theorem accOf_le {cut : Ptr} {test : α → Bool} {l : Addr × α} (h : accOf cut test l = true) : test l.2 = true := by
  unfold accOf at h
  split at h
  · cases h
  · exact h

theorem below_spec (S : Starable nav vl T) {gs u} (hu : plug gs u = T) (cut : Ptr) (test : α → Bool) :
    ∀ f fs s, plug (f :: fs) s = u → below nav vl cut test s.addr = Res.ok (accOf cut test f.label) := by
  intro f fs s h
  have h1 : plug (f :: (fs ++ gs)) s = T := by rw [← List.cons_append]; exact sub_trans h hu
  have h2 := S.parent _ _ _ h1
  have h3 := S.val (fs ++ gs) (node f.label (f.lefts ++ s :: f.rights)) (by simpa using h1)
  have e : (node f.label (f.lefts ++ s :: f.rights)).addr = f.label.1 := rfl
  rw [e, label_node] at h3
  simp only [below, h2, Res.ok_bind, deref_some, h3, accOf]
  by_cases hc : some f.label.1 = cut <;> simp [hc]

/-- The navigator of a `star` is right in the part of the tree it goes over. -/
theorem nav_trim (S : Starable nav vl T) (hf : T.size ≤ fuel) {gs u} (hu : plug gs u = T) (cut : Ptr) (test : α → Bool) :
    NavSpec (PredNav.forward (nav (some u.addr)) (below nav vl cut test) fuel) (trim (accOf cut test) u).addrTree := by
  have h := Simple.size_le_plug gs u
  rw [hu] at h
  exact PredNav.trim_spec (S.navs gs u hu) (below_spec S hu cut test) (by omega)

/-- The iterator is about to go over the subtrees: next is the first, and when a `star` does not go below it, the others. -/
inductive SOver (c : Marks) (T : Tree (Addr × α)) : SIt α → List (Tree (Addr × α)) → Prop
  | at_ {gs s} (root) : plug gs s = T → SOver c T ⟨.fixed, root, some s.addr, []⟩ [s]
  | end_ (root) : SOver c T ⟨.fixed, root, none, []⟩ []
  | sib {gs fs a l r} : plug gs (plug fs (node a (l ++ r))) = T →
      SOver c T ⟨.siblings, some (plug fs (node a (l ++ r))).addr, headAddr r, []⟩ r
  | pre {i test gs u fs s} : plug gs u = T → plug fs s = u → fs ≠ [] → (∀ f ∈ fs, accOf (c i) test f.label = true) →
      SOver c T ⟨.pre i test, some u.addr, some s.addr, []⟩ (s :: fs.flatMap Frame.rights)
  | preEnd {i test gs u} : plug gs u = T → SOver c T ⟨.pre i test, some u.addr, none, []⟩ []
  | leaf {test gs u ks a us} : plug gs u = T → plug ks (node a []) = trim (fun l => test l.2) u →
      (a :: leavesAfter ks).filter (fun l => !test l.2) = us.map label → (∀ v ∈ us, ∃ gs, plug gs v = T) → test a.2 = false →
      SOver c T ⟨.leaves test, some u.addr, some a.1, stk a.1 (ks.map (Frame.map Prod.fst))⟩ us
  | leafEnd {test gs u} (aux) : plug gs u = T → SOver c T ⟨.leaves test, some u.addr, none, aux⟩ []

/-- What the iterator goes into. -/
def through (w : Walk α) (l : Addr × α) : Bool :=
  match w with
  | .pre _ test => test l.2
  | _ => false

/-- The same with the given `subtree_cut`s. -/
def enters (c : Marks) (w : Walk α) (l : Addr × α) : Bool :=
  match w with
  | .pre i test => accOf (c i) test l
  | _ => false

theorem through_of_enters {c : Marks} {w : Walk α} {l} (h : enters c w l = true) : through w l = true := by
  cases w <;> simp_all [enters, through]
  exact accOf_le h

theorem SOver.congr {c c' : Marks} {it : SIt α} {us} (H : SOver c T it us) (h : ∀ i test, it.walk = .pre i test → c' i = c i) :
    SOver c' T it us := by
  cases H with
  | at_ root h1 => exact .at_ root h1
  | end_ root => exact .end_ root
  | sib h1 => exact .sib h1
  | @pre i test gs u fs s h1 h2 h3 h4 => exact .pre h1 h2 h3 (by rw [h i test rfl]; exact h4)
  | preEnd h1 => exact .preEnd h1
  | leaf h1 h2 h3 h4 h5 => exact .leaf h1 h2 h3 h4 h5
  | leafEnd aux h1 => exact .leafEnd aux h1

theorem SOver.nil {c : Marks} {it : SIt α} (H : SOver c T it []) : it.cur = none := by
  cases H with
  | @leaf test gs u ks a _ h1 h2 h3 h4 h5 => simp [h5] at h3
  | _ => rfl

theorem sizeL_rights {β : Type} (fs : List (Frame β)) (s : Tree β) : sizeL (s :: fs.flatMap Frame.rights) + fs.length ≤ (plug fs s).size := by
  induction fs generalizing s with
  | nil => simp
  | cons f fs ih =>
    have := ih (node f.label (f.lefts ++ s :: f.rights))
    simp at this ⊢
    omega

theorem sizeL_sub {β : Type} {t : Tree β} {us : List (Tree β)} (h : us <:+: t.children ∨ us = [t]) : sizeL us ≤ t.size := by
  rcases h with ⟨a, b, h⟩ | rfl
  · obtain ⟨x, cs⟩ := t
    simp at h
    simp [← h]; omega
  · simp

theorem SOver.mem {c : Marks} {it : SIt α} {us} (H : SOver c T it us) : ∀ v ∈ us, ∃ gs, plug gs v = T := by
  cases H with
  | @at_ gs s root h1 => simp; exact ⟨gs, h1⟩
  | end_ root => simp
  | @sib gs fs a l r h1 =>
    intro v hv
    obtain ⟨x, y, rfl⟩ := List.append_of_mem hv
    refine ⟨⟨a, l ++ x, y⟩ :: (fs ++ gs), ?_⟩
    rw [plug_cons, plug_append]
    simpa using h1
  | @pre i test gs u fs s h1 h2 h3 h4 =>
    have hT := sub_trans h2 h1
    intro v hv
    simp only [List.mem_cons, List.mem_flatMap] at hv
    rcases hv with rfl | ⟨f, hf, hv⟩
    · exact ⟨_, hT⟩
    · obtain ⟨x, y, rfl⟩ := List.append_of_mem hf
      obtain ⟨l, r, e⟩ := List.append_of_mem hv
      have : plug (y ++ gs) (node f.label (f.lefts ++ plug x s :: f.rights)) = T := by rw [← hT]; simp [plug_append]
      rw [e] at this
      exact ⟨⟨f.label, f.lefts ++ plug x s :: l, r⟩ :: (y ++ gs), by simpa using this⟩
  | preEnd h1 => simp
  | leaf h1 h2 h3 h4 h5 => exact h4
  | leafEnd aux h1 => simp

theorem filter_length_le {β : Type} {p : β → Bool} {l l' : List β} (h : l.filter p = l') : l'.length ≤ l.length := by
  rw [← h]; exact List.length_filter_le ..

/-- Going over the subtrees takes a bounded number of steps. -/
def weight (w : Walk α) (us : List (Tree (Addr × α))) : Nat :=
  match w with
  | .pre _ _ => sizeL us
  | _ => us.length

theorem weight_le (w : Walk α) (us : List (Tree (Addr × α))) : us.length ≤ weight w us := by
  cases w <;> simp [weight]
  exact Simple.length_le_sizeL us

theorem SOver.weight_le {c : Marks} {it : SIt α} {us} (H : SOver c T it us) : weight it.walk us ≤ T.size := by
  have hpos := size_pos T
  cases H with
  | at_ root h1 => simp [weight]; omega
  | end_ root => simp [weight]
  | @sib gs fs a l r h =>
    rw [← plug_append] at h
    have := Simple.size_le_plug (fs ++ gs) (Tree.node a (l ++ us))
    rw [h] at this
    have h2 := Simple.length_le_sizeL us
    simp only [size_node, sizeL_append] at this
    simp only [weight]
    omega
  | @pre i test gs u fs s h1 h2 h3 h4 =>
    have h5 := sizeL_rights (fs ++ gs) s
    have hT := sub_trans h2 h1
    have h6 := sizeL_rights fs s
    have h7 := Simple.size_le_plug gs u
    rw [h2] at h6
    rw [h1] at h7
    simp only [weight]
    omega
  | preEnd h1 => simp [weight]
  | @leaf test gs u ks a us h1 h2 h3 h4 h5 =>
    have h6 := filter_length_le h3
    have h7 := Simple.size_le_plug gs u
    rw [h1] at h7
    have h8 := size_trim (fun l : Addr × α => test l.2) u
    have h9 := (leaves_sublist_pre (trim (fun l : Addr × α => test l.2) u)).length_le
    rw [length_pre, ← h2, leaves_plug] at h9
    rw [← h2] at h8
    simp at h6 h9
    simp only [weight]
    omega
  | leafEnd aux h1 => simp [weight]

theorem flatMap_head {β : Type} (fs : List (Frame β)) : (preAfter fs).head? = (fs.flatMap Frame.rights).head?.map label := by
  induction fs with
  | nil => simp [preAfter]
  | cons f fs ih =>
    cases hr : f.rights with
    | nil => simp [preAfter, hr, ih]
    | cons r rs => cases r; simp [preAfter, hr]

theorem preAfter_map {β γ : Type} (g : β → γ) (fs : List (Frame β)) : preAfter (fs.map (Frame.map g)) = (preAfter fs).map g := by
  induction fs with
  | nil => simp [preAfter]
  | cons f fs ih =>
    have : ∀ l : List (Tree β), preL (l.map (Tree.map g)) = (preL l).map g := by
      intro l
      induction l with
      | nil => simp
      | cons t l ih => simp [ih, pre_map]
    simp [preAfter, ih, Frame.map, this]

/-- The position of the first of the subtrees on the right. -/
theorem rights_pos {β : Type} {fs : List (Frame β)} {s u v : Tree β} {r} (h : plug fs s = u) (hr : fs.flatMap Frame.rights = v :: r) :
    ∃ fs', plug fs' v = u ∧ fs' ≠ [] ∧ fs'.flatMap Frame.rights = r ∧ ∀ f ∈ fs', ∃ g ∈ fs, f.label = g.label := by
  induction fs generalizing s with
  | nil => simp at hr
  | cons f fs ih =>
    cases hf : f.rights with
    | nil =>
      simp [hf] at hr
      obtain ⟨fs', h1, h2, h3, h4⟩ := ih (s := node f.label (f.lefts ++ s :: f.rights)) (by simpa using h) hr
      exact ⟨fs', h1, h2, h3, fun g hg => by obtain ⟨g', h5, h6⟩ := h4 g hg; exact ⟨g', by simp [h5], h6⟩⟩
    | cons x xs =>
      simp [hf] at hr
      obtain ⟨rfl, rfl⟩ := hr
      refine ⟨⟨f.label, f.lefts ++ [s], xs⟩ :: fs, by rw [← h]; simp [hf], by simp, by simp, ?_⟩
      intro g hg
      simp at hg
      rcases hg with rfl | hg
      · exact ⟨f, by simp, rfl⟩
      · exact ⟨g, by simp [hg], rfl⟩

/-- `++` of pre_order in the part of the tree a `star` goes over. -/
theorem preInc_trim (S : Starable nav vl T) (hf : T.size ≤ fuel) {gs u fs s} (hu : plug gs u = T) (hs : plug fs s = u) (cut : Ptr)
    (test : α → Bool) (hacc : ∀ f ∈ fs, accOf cut test f.label = true) :
    Policy.preInc (PredNav.nav (nav (some u.addr)) (below nav vl cut test) fuel) fuel s.addr =
      Res.ok (headAddr ((if accOf cut test s.label then s.children else []) ++ fs.flatMap Frame.rights)) := by
  have N := nav_trim S hf hu cut test
  have hp : plug (((fs.map (Frame.trim (accOf cut test)))).map (Frame.map Prod.fst)) (trim (accOf cut test) s).addrTree =
      (trim (accOf cut test) u).addrTree := by
    rw [addrTree, addrTree, ← plug_map, ← trim_plug _ _ _ hacc, hs]
  have hlen : fs.length < fuel := by
    have h1 := sizeL_rights fs s
    have h2 := Simple.size_le_plug gs u
    rw [hu] at h2; rw [hs] at h1
    have := size_pos s
    simp at h1; omega
  have key := preInc_spec N fuel _ _ hp (by simpa using hlen)
  have e1 : (trim (accOf cut test) s).addrTree.label = s.addr := by simp [addrTree, Tree.addr]
  rw [e1] at key
  have e2 : Policy.preInc (PredNav.nav (nav (some u.addr)) (below nav vl cut test) fuel) fuel s.addr =
      Policy.preInc (PredNav.forward (nav (some u.addr)) (below nav vl cut test) fuel) fuel s.addr := rfl
  rw [e2, key]
  congr 1
  rw [preAfter_map, List.head?_append, List.head?_map, flatMap_head, addrTree, children_map, children_trim]
  have e3 : ((fs.map (Frame.trim (accOf cut test))).flatMap Frame.rights).head?.map label = (fs.flatMap Frame.rights).head?.map label := by
    have : (fs.map (Frame.trim (accOf cut test))).flatMap Frame.rights = (fs.flatMap Frame.rights).map (trim (accOf cut test)) := by
      induction fs with
      | nil => simp
      | cons f fs ih => simp [Frame.trim, List.flatMap_map, List.map_flatMap]
    rw [this]
    cases (fs.flatMap Frame.rights) <;> simp
  rw [e3, headAddr, List.head?_append]
  obtain ⟨a, cs⟩ := s
  simp only [label_node, children_node]
  rcases Bool.eq_false_or_eq_true (accOf cut test a) with h | h
  · simp only [h, if_true]
    cases cs with
    | nil => simp; cases (fs.flatMap Frame.rights).head? <;> simp [Tree.addr]
    | cons c cs => rw [List.map_cons, List.map_cons]; cases c; simp [trim_node, Tree.addr]
  · simp only [h, Bool.false_eq_true, if_false]
    simp
    cases (fs.flatMap Frame.rights).head? <;> simp [Tree.addr]

/-! ### leaves -/

theorem leaves_trim_pos {acc : Addr × α → Bool} {u : Tree (Addr × α)} {ks : List (Frame Addr)} {b : Addr}
    (h : plug ks (Tree.node b []) = (trim acc u).addrTree) :
    ∃ ks' b', plug ks' (Tree.node b' []) = trim acc u ∧ ks = ks'.map (Frame.map Prod.fst) ∧ b = b'.1 := by
  obtain ⟨ks', s', h1, rfl, h2⟩ := plug_eq_map _ h
  obtain ⟨b', cs⟩ := s'
  simp [mapL_eq] at h2
  exact ⟨ks', b', by rw [← h1, h2.2], rfl, h2.1.symm⟩

/-- A node of the part a `star` goes over has the value of the node of the tree. -/
theorem val_trim (S : Starable nav vl T) {gs u} (hu : plug gs u = T) {acc : Addr × α → Bool} {ks a}
    (h : plug ks (Tree.node a []) = trim acc u) : vl a.1 = Res.ok a.2 := by
  obtain ⟨fs, s, h1, _, h3, _⟩ := plug_eq_trim acc h
  have := S.val _ _ (sub_trans h1 hu)
  have e : a = s.label := by rw [← label_trim acc s, h3]; rfl
  rw [e]; exact this

theorem leavesDescend_forward (nv : Nav) (p : Addr → Res Bool) : ∀ n a st, Policy.leavesDescend (PredNav.nav nv p fuel) n a st =
    Policy.leavesDescend (PredNav.forward nv p fuel) n a st := by
  intro n
  induction n with
  | zero => intros; rfl
  | succ n ih => intro a st; simp only [Policy.leavesDescend, ih]; rfl

/-- Moving a filtered iterator over leaves to the next leaf the filter lets through. -/
theorem leaf_move (S : Starable nav vl T) (hf : T.size ≤ fuel) {gs u} (hu : plug gs u = T) (test : α → Bool) :
    ∀ (n : Nat) (ks : List (Frame (Addr × α))) (a : Addr × α), plug ks (Tree.node a []) = trim (fun l => test l.2) u →
      (leavesAfter ks).length < n →
    ∃ r, FilterIter.moveLoop Policy.leaves (PredNav.nav (nav (some u.addr)) (below nav vl none test) fuel) fuel (notIn vl test) .inc n
        ⟨some a.1, stk a.1 (ks.map (Frame.map Prod.fst))⟩ = Res.ok r ∧
      ((r.cur = none ∧ (leavesAfter ks).filter (fun l => !test l.2) = []) ∨
       (∃ ks' b, plug ks' (Tree.node b []) = trim (fun l => test l.2) u ∧ r = ⟨some b.1, stk b.1 (ks'.map (Frame.map Prod.fst))⟩ ∧
          test b.2 = false ∧ (leavesAfter ks).filter (fun l => !test l.2) = (b :: leavesAfter ks').filter (fun l => !test l.2))) := by
  have N := nav_trim S hf hu none test
  have ea : accOf (none : Ptr) test = fun l : Addr × α => test l.2 := funext (accOf_none test)
  rw [ea] at N
  have hszu := Simple.size_le_plug gs u
  rw [hu] at hszu
  have hsz : (trim (fun l : Addr × α => test l.2) u).addrTree.size ≤ fuel := by
    rw [addrTree_size]
    have := size_trim (fun l : Addr × α => test l.2) u
    omega
  intro n
  induction n with
  | zero => intro ks a _ h; omega
  | succ n ih =>
    intro ks a h hn
    have hp : plug (ks.map (Frame.map Prod.fst)) (Tree.node a.1 []) = (trim (fun l : Addr × α => test l.2) u).addrTree := by
      rw [addrTree, ← h, plug_map]; simp
    have e : ∀ st, Iter.move Policy.leaves (PredNav.nav (nav (some u.addr)) (below nav vl none test) fuel) fuel .inc ⟨some a.1, st⟩ =
        Policy.leavesInc (PredNav.forward (nav (some u.addr)) (below nav vl none test) fuel) fuel st := by
      intro st
      cases st with
      | nil => rfl
      | cons x st => simp only [Iter.move, Iter.inc, Policy.leaves, Policy.leavesInc, leavesDescend_forward]; rfl
    rw [FilterIter.moveLoop, e]
    rcases leavesInc_spec N hsz hp with ⟨h1, h2⟩ | ⟨ks', b, h1, h2, h3⟩
    · simp only [label_node] at h1
      rw [h1]
      refine ⟨⟨none, []⟩, rfl, .inl ⟨rfl, ?_⟩⟩
      rw [leavesAfter_map] at h2
      simp at h2
      simp [h2]
    · simp only [label_node] at h2
      obtain ⟨ks2, b2, k1, rfl, rfl⟩ := leaves_trim_pos h1
      rw [leavesAfter_map, leavesAfter_map] at h3
      have h4 : leavesAfter ks = b2 :: leavesAfter ks2 := by
        have hnd : ((trim (fun l : Addr × α => test l.2) u).leaves.map Prod.fst).Nodup := by
          have h5 := N.nodup
          rw [addrTree_pre] at h5
          exact ((leaves_sublist_pre _).map Prod.fst).nodup h5
        cases hk : leavesAfter ks with
        | nil => simp [hk] at h3
        | cons c l =>
          rw [hk] at h3
          simp at h3
          have m1 : c ∈ (trim (fun l : Addr × α => test l.2) u).leaves := by rw [← h, leaves_plug, hk]; simp
          have m2 : b2 ∈ (trim (fun l : Addr × α => test l.2) u).leaves := by rw [← k1, leaves_plug]; simp
          have hi : ∀ {l : List (Addr × α)}, (l.map Prod.fst).Nodup → ∀ x ∈ l, ∀ y ∈ l, x.1 = y.1 → x = y := by
            intro l hl
            induction l with
            | nil => simp
            | cons z l ih =>
              simp only [List.map_cons, List.nodup_cons, List.mem_map, not_exists, not_and] at hl
              intro x hx y hy e
              simp only [List.mem_cons] at hx hy
              rcases hx with rfl | hx <;> rcases hy with rfl | hy
              · rfl
              · exact absurd e.symm (hl.1 y hy)
              · exact absurd e (hl.1 x hx)
              · exact ih hl.2 x hx y hy e
          have hc := hi hnd c m1 b2 m2 h3.1
          have hl : ∀ {l l' : List (Addr × α)}, (∀ x ∈ l, x ∈ (trim (fun l : Addr × α => test l.2) u).leaves) →
              (∀ x ∈ l', x ∈ (trim (fun l : Addr × α => test l.2) u).leaves) → l.map Prod.fst = l'.map Prod.fst → l = l' := by
            intro l
            induction l with
            | nil => intro l' _ _ h; cases l' <;> simp_all
            | cons x l ih =>
              intro l' h1 h2 h3
              cases l' with
              | nil => simp at h3
              | cons y l' =>
                simp only [List.map_cons, List.cons.injEq] at h3
                simp only [List.mem_cons, forall_eq_or_imp] at h1 h2
                rw [hi hnd x h1.1 y h2.1 h3.1, ih h1.2 h2.2 h3.2]
          have hl2 := hl (l := l) (l' := leavesAfter ks2)
            (by intro x hx; rw [← h, leaves_plug, hk]; simp [hx]) (by intro x hx; rw [← k1, leaves_plug]; simp [hx]) h3.2
          rw [hc, hl2]
      have hv := val_trim S hu k1
      rw [h2]
      simp only [Res.ok_bind, notIn, hv]
      cases ht : test b2.2 with
      | false => exact ⟨_, rfl, .inr ⟨ks2, b2, k1, rfl, ht, by rw [h4]⟩⟩
      | true =>
        obtain ⟨r, q1, q2⟩ := ih ks2 b2 k1 (by rw [h4] at hn; simp at hn; omega)
        refine ⟨r, by simpa [notIn] using q1, ?_⟩
        rw [h4]
        have e5 : (b2 :: leavesAfter ks2).filter (fun l => !test l.2) = (leavesAfter ks2).filter (fun l => !test l.2) := by
          simp [ht]
        rw [e5]
        exact q2

theorem leavesAfter_length (S : Starable nav vl T) {gs u} (hu : plug gs u = T) {acc : Addr × α → Bool} {ks a}
    (h : plug ks (Tree.node a []) = trim acc u) : (leavesAfter ks).length < T.size := by
  have hszu := Simple.size_le_plug gs u
  rw [hu] at hszu
  have h1 := size_trim acc u
  have h2 := (leaves_sublist_pre (trim acc u)).length_le
  rw [length_pre, ← h, leaves_plug] at h2
  rw [← h] at h1
  simp at h2
  omega

/-- Turn labels back into subtrees. -/
theorem SOver.leaf_of (c : Marks) {test : α → Bool} {gs u us aux} (hu : plug gs u = T) (hus : ∀ v ∈ us, ∃ gs, plug gs v = T)
    {r : ItState} {L : List (Addr × α)} (hL : L.filter (fun l => !test l.2) = us.map label)
    (h : (r.cur = none ∧ r.aux = aux ∧ L.filter (fun l => !test l.2) = []) ∨
       (∃ ks' b, plug ks' (Tree.node b []) = trim (fun l => test l.2) u ∧ r = ⟨some b.1, stk b.1 (ks'.map (Frame.map Prod.fst))⟩ ∧
          test b.2 = false ∧ L.filter (fun l => !test l.2) = (b :: leavesAfter ks').filter (fun l => !test l.2))) :
    SOver c T ⟨.leaves test, some u.addr, r.cur, r.aux⟩ us := by
  rcases h with ⟨h1, _, h2⟩ | ⟨ks, b, h1, rfl, h2, h3⟩
  · rw [h2] at hL
    have : us = [] := List.map_eq_nil_iff.mp hL.symm
    subst this
    rw [h1]
    exact .leafEnd _ hu
  · exact .leaf hu h1 (h3 ▸ hL) hus h2

theorem leaf_first (S : Starable nav vl T) (hf : T.size ≤ fuel) {gs u} (hu : plug gs u = T) (test : α → Bool) (ht : test u.label.2 = true)
    (c : Marks) :
    ∃ r r', Policy.leaves.goFirst (PredNav.nav (nav (some u.addr)) (below nav vl none test) fuel) fuel [] = Res.ok r ∧
      FilterIter.wrap Policy.leaves (PredNav.nav (nav (some u.addr)) (below nav vl none test) fuel) fuel (notIn vl test) r = Res.ok r' ∧
      SOver c T ⟨.leaves test, some u.addr, r'.cur, r'.aux⟩ (frontierL (fun l => test l.2) u.children) := by
  have N := nav_trim S hf hu none test
  have ea : accOf (none : Ptr) test = fun l : Addr × α => test l.2 := funext (accOf_none test)
  rw [ea] at N
  have hszu := Simple.size_le_plug gs u
  rw [hu] at hszu
  have hsz : (trim (fun l : Addr × α => test l.2) u).addrTree.size ≤ fuel := by
    rw [addrTree_size]
    have := size_trim (fun l : Addr × α => test l.2) u
    omega
  obtain ⟨ks, b, h1, h2, h3⟩ := leavesDescend_spec N fuel [] (trim (fun l : Addr × α => test l.2) u).addrTree rfl hsz
  obtain ⟨ks, b, k1, rfl, rfl⟩ := leaves_trim_pos h1
  have hfr : frontierL (fun l : Addr × α => test l.2) u.children = frontier (fun l => test l.2) u := by
    obtain ⟨a, cs⟩ := u
    simp at ht
    rw [frontier_node]; simp [ht]
  have hmem : ∀ v ∈ frontierL (fun l : Addr × α => test l.2) u.children, ∃ gs, plug gs v = T := by
    intro v hv
    rw [hfr] at hv
    obtain ⟨fs, h⟩ := frontier_sub _ _ v hv
    exact ⟨_, sub_trans h hu⟩
  have hleaves : (trim (fun l : Addr × α => test l.2) u).leaves = b :: leavesAfter ks := by
    have hb : leavesBefore ks = [] := by
      have e1 : (trim (fun l : Addr × α => test l.2) u).addrTree.leaves = b.1 :: leavesAfter (ks.map (Frame.map Prod.fst)) := by
        simpa [leavesAfter] using h3
      rw [← h1, leaves_plug] at e1
      have e2 := congrArg List.length e1
      simp at e2
      have e3 : (leavesBefore (ks.map (Frame.map Prod.fst))).length = (leavesBefore ks).length := by
        have := congrArg (fun t => t.leaves.length) (plug_map Prod.fst ks (Tree.node b []))
        simp only [leaves_plug] at this
        have e4 : (leavesAfter (ks.map (Frame.map Prod.fst))).length = (leavesAfter ks).length := by simp [leavesAfter_map]
        have e5 : ∀ t : Tree (Addr × α), (t.map Prod.fst).leaves.length = t.leaves.length := by
          intro t
          induction t using ind with
          | h a cs ih =>
            cases cs with
            | nil => simp
            | cons c cs =>
              rw [map_node, leaves_node_ne _ _ (by simp), leaves_node_ne _ _ (by simp)]
              generalize c :: cs = l at ih
              induction l with
              | nil => simp
              | cons c l ih2 => simp [ih c (by simp), ih2 (fun d hd => ih d (by simp [hd]))]
        rw [e5, leaves_plug] at this
        simp at this
        omega
      have e4 : (leavesBefore (ks.map (Frame.map Prod.fst))).length = 0 := by rw [e2]; rfl
      exact List.length_eq_zero_iff.mp (by omega)
    rw [← k1, leaves_plug, hb]; simp
  have hF : (b :: leavesAfter ks).filter (fun l => !test l.2) = (frontierL (fun l : Addr × α => test l.2) u.children).map label := by
    rw [← hleaves, leaves_trim, hfr]
  have hgo : Policy.leaves.goFirst (PredNav.nav (nav (some u.addr)) (below nav vl none test) fuel) fuel [] =
      Res.ok ⟨some b.1, stk b.1 (ks.map (Frame.map Prod.fst))⟩ := by
    have hr : (PredNav.nav (nav (some u.addr)) (below nav vl none test) fuel).root = some u.addr := by
      have := N.root
      simpa [PredNav.forward, PredNav.nav, addrTree, Tree.addr] using this
    have e1 : (trim (fun l : Addr × α => test l.2) u).addrTree.label = u.addr := by simp [addrTree, Tree.addr]
    rw [e1] at h2
    simp only [Policy.leaves, hr, deref_some, Res.ok_bind, leavesDescend_forward]
    exact h2
  have hv := val_trim S hu k1
  cases htb : test b.2 with
  | false =>
    refine ⟨_, ⟨some b.1, stk b.1 (ks.map (Frame.map Prod.fst))⟩, hgo, by simp [FilterIter.wrap, notIn, hv, htb], ?_⟩
    exact SOver.leaf_of c (aux := []) hu hmem hF (.inr ⟨ks, b, k1, rfl, htb, rfl⟩)
  | true =>
    have hl := leavesAfter_length S hu k1
    obtain ⟨r, q1, q2⟩ := leaf_move S hf hu test fuel ks b k1 (by omega)
    refine ⟨_, r, hgo, by simp [FilterIter.wrap, notIn, hv, htb, FilterIter.move]; exact q1, ?_⟩
    refine SOver.leaf_of c (aux := r.aux) hu hmem (L := leavesAfter ks) ?_ ?_
    · rw [← hF]; simp [List.filter_cons, htb]
    · rcases q2 with ⟨q2, q3⟩ | q2
      · exact .inl ⟨q2, rfl, q3⟩
      · exact .inr q2

/-! ### the operations of the search on its iterators -/

theorem SOver.pre_of (c : Marks) {i : Nat} {test : α → Bool} {gs u} (hu : plug gs u = T) (us : List (Tree (Addr × α)))
    (h : ∀ s r, us = s :: r → ∃ fs, plug fs s = u ∧ fs ≠ [] ∧ fs.flatMap Frame.rights = r ∧ ∀ f ∈ fs, accOf (c i) test f.label = true) :
    SOver c T ⟨.pre i test, some u.addr, headAddr us, []⟩ us := by
  cases us with
  | nil => exact .preEnd hu
  | cons s r =>
    obtain ⟨fs, h1, h2, rfl, h3⟩ := h s r rfl
    exact .pre hu h1 h2 h3

/-- Where a `star` goes after a node. -/
theorem pre_step {c : Marks} {i : Nat} {test : α → Bool} {gs u fs} {s : Tree (Addr × α)} (hu : plug gs u = T) (hs : plug fs s = u)
    (hacc : ∀ f ∈ fs, accOf (c i) test f.label = true) :
    SOver c T ⟨.pre i test, some u.addr, headAddr ((if accOf (c i) test s.label then s.children else []) ++ fs.flatMap Frame.rights), []⟩
      ((if accOf (c i) test s.label then s.children else []) ++ fs.flatMap Frame.rights) := by
  refine SOver.pre_of c hu _ ?_
  intro v r e
  rcases Bool.eq_false_or_eq_true (accOf (c i) test s.label) with h | h
  · rw [if_pos h] at e
    cases hc : s.children with
    | cons x xs =>
      rw [hc] at e
      simp at e
      obtain ⟨rfl, rfl⟩ := e
      refine ⟨⟨s.label, [], xs⟩ :: fs, ?_, by simp, by simp, ?_⟩
      · obtain ⟨a, cs⟩ := s
        simp at hc
        subst hc
        simpa using hs
      · intro f hf
        simp at hf
        rcases hf with rfl | hf
        · exact h
        · exact hacc f hf
    | nil =>
      rw [hc] at e
      obtain ⟨fs', h1, h2, h3, h4⟩ := rights_pos hs (by simpa using e)
      exact ⟨fs', h1, h2, h3, fun f hf => by obtain ⟨g, h5, h6⟩ := h4 f hf; rw [h6]; exact hacc g h5⟩
  · rw [h] at e
    obtain ⟨fs', h1, h2, h3, h4⟩ := rights_pos hs (by simpa using e)
    exact ⟨fs', h1, h2, h3, fun f hf => by obtain ⟨g, h5, h6⟩ := h4 f hf; rw [h6]; exact hacc g h5⟩

theorem SOver.cons (S : Starable nav vl T) (hf : T.size ≤ fuel) {m : Memo} {it : SIt α} {s r} (H : SOver m.cuts T it (s :: r)) :
    it.cur = some s.addr ∧ vl s.addr = Res.ok s.label.2 ∧ (∃ gs, plug gs s = T) ∧
      (∃ it', next nav vl fuel m it s.addr = Res.ok it' ∧ it'.walk = it.walk ∧ it'.root = it.root ∧
        SOver m.cuts T it' ((if enters m.cuts it.walk s.label then s.children else []) ++ r)) ∧
      (∃ it', childIt nav it s.addr = Res.ok it' ∧ it'.walk = .siblings ∧ ∀ c, SOver c T it' s.children) := by
  have SS := S.searchable
  have hchild : ∀ gs, plug gs s = T → ∀ root w cur aux, (∀ x, w ≠ Walk.siblings → childIt nav ⟨w, root, cur, aux⟩ s.addr = x → x =
      Res.ok (⟨.siblings, some s.addr, headAddr s.children, []⟩ : SIt α)) ∧
      ∀ c, SOver c T (⟨.siblings, some s.addr, headAddr s.children, []⟩ : SIt α) s.children := by
    intro gs h root w cur aux
    refine ⟨?_, ?_⟩
    · rintro x hw rfl
      cases w <;> simp_all [childIt, SS.first gs s [] s h rfl]
    · intro c
      obtain ⟨a, cs⟩ := s
      exact SOver.sib (gs := gs) (fs := []) (l := []) h
  cases H with
  | @at_ gs s root h =>
    refine ⟨rfl, SS.val _ _ h, ⟨_, h⟩, ⟨_, rfl, rfl, rfl, .end_ root⟩, ?_⟩
    obtain ⟨h1, h2⟩ := hchild gs h root .fixed (some s.addr) []
    exact ⟨_, h1 _ (by simp) rfl, rfl, h2⟩
  | @sib gs fs a l r h =>
    have h1 : plug (⟨a, l, r⟩ :: fs ++ gs) s = T := by rw [List.cons_append]; simp only [plug]; rw [plug_append]; exact h
    refine ⟨rfl, SS.val _ _ h1, ⟨_, h1⟩, ⟨⟨.siblings, some (plug fs (Tree.node a (l ++ s :: r))).addr, headAddr r, []⟩, ?_, rfl, rfl, ?_⟩, ?_⟩
    · simp only [next]
      rw [SS.next gs _ (⟨a, l, r⟩ :: fs) s h rfl]
      rfl
    · have : l ++ s :: r = (l ++ [s]) ++ r := by simp
      rw [this] at h ⊢
      exact SOver.sib h
    · refine ⟨⟨.siblings, some a.1, headAddr s.children, []⟩, ?_, rfl, fun c => ?_⟩
      · simp only [childIt]
        rw [SS.parent ⟨a, l, r⟩ (fs ++ gs) s h1]
        simp only [Res.ok_bind, Res.pure_eq]
        have h2 : plug (fs ++ gs) (Tree.node a (l ++ s :: r)) = T := by rw [plug_append]; exact h
        have := SS.first (fs ++ gs) _ [⟨a, l, r⟩] s h2 rfl
        have e : (Tree.node a (l ++ s :: r)).addr = a.1 := rfl
        rw [e] at this
        rw [this]; rfl
      · obtain ⟨b, cs⟩ := s
        have := SOver.sib (c := c) (T := T) (gs := fs ++ gs) (fs := [⟨a, l, r⟩]) (a := b) (l := []) (r := cs) (by
          rw [plug_append]; exact h)
        exact this
  | @pre i test gs u fs s h1 h2 h3 h4 =>
    have hT := sub_trans h2 h1
    refine ⟨rfl, SS.val _ _ hT, ⟨_, hT⟩, ?_, ?_⟩
    · refine ⟨⟨.pre i test, some u.addr, headAddr ((if accOf (m.cuts i) test s.label then s.children else []) ++ fs.flatMap Frame.rights), []⟩, ?_, rfl, rfl, pre_step h1 h2 h4⟩
      simp only [next, navOf]
      rw [preInc_trim S hf h1 h2 _ _ h4]
      rfl
    · obtain ⟨h5, h6⟩ := hchild _ hT (some u.addr) (.pre i test) (some s.addr) []
      exact ⟨_, h5 _ (by simp) rfl, rfl, h6⟩
  | @leaf test gs u ks a us h1 h2 h3 h4 h5 =>
    simp [h5] at h3
    obtain ⟨h3, h3'⟩ := h3
    obtain ⟨gs', hs⟩ := h4 s (by simp)
    have ea : s.addr = a.1 := by rw [h3]; rfl
    refine ⟨by rw [ea], SS.val _ _ hs, ⟨_, hs⟩, ?_, ?_⟩
    · have hl := leavesAfter_length S h1 h2
      obtain ⟨st, q1, q2⟩ := leaf_move S hf h1 test fuel ks a h2 (by omega)
      refine ⟨⟨.leaves test, some u.addr, st.cur, st.aux⟩, ?_, rfl, rfl, ?_⟩
      · simp only [next, navOf, FilterIter.move, ea]
        rw [q1]; rfl
      · simp only [enters]
        refine SOver.leaf_of _ (aux := st.aux) h1 (L := leavesAfter ks) (fun v hv => h4 v (by simp at hv; simp [hv])) (by simpa using h3') ?_
        rcases q2 with ⟨q2, q3⟩ | q2
        · exact .inl ⟨q2, rfl, q3⟩
        · exact .inr q2
    · rw [ea]
      obtain ⟨h5, h6⟩ := hchild _ hs (some u.addr) (.leaves test) (some a.1) (stk a.1 (ks.map (Frame.map Prod.fst)))
      rw [ea] at h5 h6
      exact ⟨_, h5 _ (by simp) rfl, rfl, h6⟩

/-- The iterator of a `star` that takes a node. -/
theorem target_spec (S : Starable nav vl T) (hf : T.size ≤ fuel) {gs s} (h : plug gs s = T) (i : Nat) (q : Quantifier) (test : α → Bool)
    (ht : test s.label.2 = true) (m : Memo) :
    ∃ it, targetIt nav vl fuel i q test m s.addr = Res.ok it ∧
      (q = .possessive → it.walk = .leaves test ∧ ∀ c, SOver c T it (frontierL (fun l => test l.2) s.children)) ∧
      (q ≠ .possessive → it.walk = .pre i test ∧ SOver m.cuts T it (if accOf (m.cuts i) test s.label then s.children else [])) := by
  by_cases hq : q = .possessive
  · obtain ⟨r, r', h1, h2, _⟩ := leaf_first S hf h test ht (fun _ => none)
    refine ⟨⟨.leaves test, some s.addr, r'.cur, r'.aux⟩, ?_, fun _ => ⟨rfl, fun c => ?_⟩, fun h => absurd hq h⟩
    · simp only [targetIt, hq, if_true, navOf]
      rw [h1]; simp only [Res.ok_bind]; rw [h2]; rfl
    · obtain ⟨r2, r2', h3, h4, h5⟩ := leaf_first S hf h test ht c
      cases h1.symm.trans h3
      cases h2.symm.trans h4
      exact h5
  · have h1 := pre_step (c := m.cuts) (i := i) (test := test) (fs := []) h rfl (by simp)
    refine ⟨_, ?_, fun h => absurd h hq, fun _ => ⟨rfl, by simpa using h1⟩⟩
    simp only [targetIt, hq, if_false, navOf]
    have := preInc_trim S hf h (fs := []) rfl (m.cuts i) test (by simp)
    simp only [List.flatMap_nil, List.append_nil] at this
    rw [this]
    simp

/-- The place where a `star` looks again for a matcher that took the node `s`: what comes after going into `s`. -/
theorem ramification_spec (S : Starable nav vl T) (hf : T.size < fuel) {gs u} (hu : plug gs u = T) (test : α → Bool) (i : Nat) (c : Marks)
    (hc : c i = none) {fs s} (hs : plug fs s = u) (hacc : ∀ f ∈ fs, test f.label.2 = true) :
    ∃ p us, ramification fuel (PredNav.nav (nav (some u.addr)) (below nav vl none test) fuel) s.addr = Res.ok p ∧
      SOver c T ⟨.pre i test, some u.addr, p, []⟩ us ∧ sizeL us < sizeL (s :: fs.flatMap Frame.rights) ∧
      (Opens (fun l => test l.2) (s :: fs.flatMap Frame.rights) us ∨ us = []) := by
  have ea : accOf (none : Ptr) test = fun l : Addr × α => test l.2 := funext (accOf_none test)
  have N := nav_trim (fuel := fuel) S (Nat.le_of_lt hf) hu none test
  rw [ea] at N
  have key : ∀ (n : Nat) (fs : List (Frame (Addr × α))) (s : Tree (Addr × α)) (found : Bool), plug fs s = u →
      (∀ f ∈ fs, test f.label.2 = true) → s.size ≤ n → (found = true → fs ≠ []) →
      ∃ p b, keepCallingT (PredNav.nav (nav (some u.addr)) (below nav vl none test) fuel).first
          (fun (_ : Bool) _ child => do pure (!(← (PredNav.nav (nav (some u.addr)) (below nav vl none test) fuel).isLast child), true))
          (fun found _ child => pure (some child, found)) n found s.addr = Res.ok (p, b) ∧
        (b = true → ∃ us, SOver c T ⟨.pre i test, some u.addr, p, []⟩ us ∧ (found = true ∨ sizeL us < sizeL (s :: fs.flatMap Frame.rights)) ∧
          sizeL us ≤ sizeL (s :: fs.flatMap Frame.rights) ∧
          Opens (fun l => test l.2) (s :: fs.flatMap Frame.rights) us) := by
    intro n
    induction n with
    | zero => intro fs s _ _ _ h; have := size_pos s; omega
    | succ n ih =>
      intro fs s found h1 h2 h3 h4
      have hp : plug ((fs.map (Frame.trim (fun l => test l.2))).map (Frame.map Prod.fst)) (trim (fun l => test l.2) s).addrTree =
          (trim (fun l : Addr × α => test l.2) u).addrTree := by
        rw [addrTree, addrTree, ← plug_map, ← trim_plug _ _ _ h2, h1]
      have e1 : ∀ v : Tree (Addr × α), (trim (fun l => test l.2) v).addrTree.label = v.addr := by intro v; simp [addrTree, Tree.addr]
      have hfirst := N.first _ _ hp
      rw [e1, addrTree, children_map, children_trim] at hfirst
      have hfirst' : (PredNav.nav (nav (some u.addr)) (below nav vl none test) fuel).first s.addr =
          Res.ok (if test s.label.2 then headAddr s.children else none) := by
        refine Eq.trans hfirst ?_
        rcases Bool.eq_false_or_eq_true (test s.label.2) with h | h
        · simp only [h, if_true]
          cases s.children <;> simp [headAddr, Tree.addr]
        · simp [h]
      rw [keepCallingT, hfirst']
      obtain ⟨a, cs⟩ := s
      simp only [label_node, children_node]
      have stop : (if test a.2 then headAddr cs else none) = none → ∃ p b,
          (pure (some (Tree.node a cs).addr, found) : Res (Ptr × Bool)) = Res.ok (p, b) ∧
          (b = true → ∃ us, SOver c T ⟨.pre i test, some u.addr, p, []⟩ us ∧
            (found = true ∨ sizeL us < sizeL (Tree.node a cs :: fs.flatMap Frame.rights)) ∧
            sizeL us ≤ sizeL (Tree.node a cs :: fs.flatMap Frame.rights) ∧
            Opens (fun l => test l.2) (Tree.node a cs :: fs.flatMap Frame.rights) us) := by
        intro _
        refine ⟨_, _, rfl, ?_⟩
        rintro rfl
        exact ⟨_, SOver.pre hu h1 (h4 rfl) (by rw [hc, ea]; exact h2), .inl rfl, Nat.le_refl _, .refl _⟩
      rcases Bool.eq_false_or_eq_true (test a.2) with h | h
      · cases cs with
        | nil => simpa [h, headAddr] using stop
        | cons x xs =>
          have hx : plug (⟨a, [], xs⟩ :: fs) x = u := by simpa using h1
          have hacc' : ∀ f ∈ (⟨a, [], xs⟩ :: fs : List (Frame (Addr × α))), test f.label.2 = true := by
            intro f hf; simp at hf; rcases hf with rfl | hf
            · exact h
            · exact h2 f hf
          have hpx : plug (((⟨a, [], xs⟩ :: fs).map (Frame.trim (fun l => test l.2))).map (Frame.map Prod.fst)) (trim (fun l => test l.2) x).addrTree =
              (trim (fun l : Addr × α => test l.2) u).addrTree := by
            rw [addrTree, addrTree, ← plug_map, ← trim_plug _ _ _ hacc', hx]
          have hlast : (PredNav.nav (nav (some u.addr)) (below nav vl none test) fuel).isLast x.addr = Res.ok xs.isEmpty := by
            have := N.isLast _ _ hpx
            rw [e1] at this
            refine Eq.trans this ?_
            cases xs <;> simp [Frame.map, Frame.trim]
          have hO : Opens (fun l : Addr × α => test l.2) (Tree.node a (x :: xs) :: fs.flatMap Frame.rights) (x :: (xs ++ fs.flatMap Frame.rights)) :=
            Opens.into h (Opens.refl _)
          have eh : headAddr (x :: xs) = some x.addr := rfl
          simp only [h, if_true, eh, Res.ok_bind, hlast]
          cases xs with
          | cons y ys =>
            refine ⟨some x.addr, true, by simp, fun _ => ⟨_, SOver.pre hu hx (by simp) (by rw [hc, ea]; exact hacc'), .inr ?_, ?_, ?_⟩⟩
            · simp; omega
            · simp; omega
            · simpa using hO
          | nil =>
            obtain ⟨p, b, q1, q2⟩ := ih (⟨a, [], []⟩ :: fs) x true hx hacc' (by simp at h3; omega) (by simp)
            refine ⟨p, b, by simpa using q1, fun hb => ?_⟩
            obtain ⟨us, q3, q4, q5, q6⟩ := q2 hb
            refine ⟨us, q3, .inr ?_, ?_, hO.trans (by simpa using q6)⟩
            · simp at q5 ⊢; omega
            · simp at q5 ⊢; omega
      · simpa [h] using stop
  obtain ⟨p, b, h1, h2⟩ := key fuel fs s false hs hacc (by
    have h5 := Simple.size_le_plug gs u
    have h6 := Simple.size_le_plug fs s
    rw [hu] at h5; rw [hs] at h6; omega) (by simp)
  simp only [ramification]
  rw [h1]
  simp only [Res.ok_bind]
  cases b with
  | false => exact ⟨none, [], rfl, .preEnd hu, by have := size_pos s; simp; omega, .inr rfl⟩
  | true =>
    obtain ⟨us, h3, h4, _, h5⟩ := h2 rfl
    exact ⟨p, us, rfl, h3, by simpa using h4, .inl h5⟩
end Search
