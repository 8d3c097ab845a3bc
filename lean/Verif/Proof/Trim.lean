import Verif.Proof.PredNav
import Verif.Proof.PreOrder
import Verif.Proof.Leaves
import Verif.Proof.NaryRepr
/-! The part of a tree below a node that is reached through accepted nodes, and the navigator restricted to it. -/
open Tree

namespace Tree
variable {β : Type}

mutual
/-- What is left of a tree when nothing below the nodes that are not accepted is kept. -/
def trim (acc : β → Bool) : Tree β → Tree β
  | node a cs => node a (if acc a then trimL acc cs else [])
def trimL (acc : β → Bool) : List (Tree β) → List (Tree β)
  | [] => []
  | t :: ts => trim acc t :: trimL acc ts
end

theorem trimL_eq (acc : β → Bool) (ts : List (Tree β)) : trimL acc ts = ts.map (trim acc) := by
  induction ts with
  | nil => simp [trimL]
  | cons t ts ih => simp [trimL, ih]

theorem trim_node (acc : β → Bool) (a : β) (cs) : trim acc (node a cs) = node a (if acc a then cs.map (trim acc) else []) := by
  simp [trim, trimL_eq]

@[simp] theorem label_trim (acc : β → Bool) (t : Tree β) : (trim acc t).label = t.label := by cases t; simp [trim_node]

theorem children_trim (acc : β → Bool) (t : Tree β) :
    (trim acc t).children = if acc t.label then t.children.map (trim acc) else [] := by
  obtain ⟨a, cs⟩ := t
  rw [trim_node]; rfl

def Frame.trim (acc : β → Bool) (f : Frame β) : Frame β := ⟨f.label, f.lefts.map (Tree.trim acc), f.rights.map (Tree.trim acc)⟩

theorem trim_plug (acc : β → Bool) (fs : List (Frame β)) (s : Tree β) (h : ∀ f ∈ fs, acc f.label = true) :
    trim acc (plug fs s) = plug (fs.map (Frame.trim acc)) (trim acc s) := by
  induction fs generalizing s with
  | nil => rfl
  | cons f fs ih =>
    simp at h
    simp [ih _ h.2, trim_node, h.1, Frame.trim]

theorem plug_eq_trim (acc : β → Bool) {fs : List (Frame β)} {s t : Tree β} (h : plug fs s = trim acc t) :
    ∃ fs' s', plug fs' s' = t ∧ fs'.map (Frame.trim acc) = fs ∧ trim acc s' = s ∧ ∀ f ∈ fs', acc f.label = true := by
  induction fs generalizing s with
  | nil => exact ⟨[], t, rfl, rfl, h.symm, by simp⟩
  | cons f fs ih =>
    obtain ⟨fs', s', h1, h2, h3, h4⟩ := ih (s := node f.label (f.lefts ++ s :: f.rights)) (by simpa using h)
    obtain ⟨b, cs⟩ := s'
    rw [trim_node] at h3
    simp only [node.injEq] at h3
    obtain ⟨rfl, h3⟩ := h3
    by_cases hb : acc f.label = true
    · simp only [hb, if_true] at h3
      rw [List.map_eq_append_iff] at h3
      obtain ⟨l, x, rfl, h5, h6⟩ := h3
      rw [List.map_eq_cons_iff] at h6
      obtain ⟨c, r, rfl, h7, h8⟩ := h6
      refine ⟨⟨f.label, l, r⟩ :: fs', c, by simpa using h1, ?_, h7, by simp [hb]; exact h4⟩
      simp [h2, Frame.trim, h5, h8]
    · simp [hb] at h3

theorem size_trim (acc : β → Bool) (t : Tree β) : (trim acc t).size ≤ t.size := by
  induction t using ind with
  | h a cs ih =>
    rw [trim_node]
    by_cases h : acc a = true
    · simp only [h, if_true, size_node]
      clear h
      induction cs with
      | nil => simp
      | cons c cs ih2 =>
        have h1 := ih c (by simp)
        have h2 := ih2 (fun d hd => ih d (by simp [hd]))
        simp; omega
    · simp [h]

theorem pre_trim (acc : β → Bool) (t : Tree β) : (trim acc t).pre.Sublist t.pre := by
  induction t using ind with
  | h a cs ih =>
    rw [trim_node]
    by_cases h : acc a = true
    · simp only [h, if_true, pre_node]
      refine List.Sublist.cons_cons _ ?_
      clear h
      induction cs with
      | nil => simp
      | cons c cs ih2 =>
        have h1 := ih c (by simp)
        have h2 := ih2 (fun d hd => ih d (by simp [hd]))
        simpa using h1.append h2
    · simp [h]

end Tree

namespace PredNav
variable {α : Type} {nv : Nav} {u : Tree (Addr × α)} {p : Addr → Res Bool} {acc : Addr × α → Bool} {fuel : Nat}

/-- The navigator with some fields replaced which neither `++` of pre_order and leaves nor the search for a ramification uses. -/
def forward (nv : Nav) (p : Addr → Res Bool) (fuel : Nat) : Nav :=
  { nav nv p fuel with
    prev := nv.prev
    last := fun a => do
      match ← first nv p fuel a with
      | none => pure none
      | some _ => nv.last a }

theorem addr_map_label (l : List (Tree (Addr × α))) : (l.head?.map addr) = (l.map addrTree).head?.map label := by
  cases l <;> simp [addrTree, Tree.addr]

theorem nextLoop_none (H : NavSpec nv u.addrTree) (hp : ∀ f fs s, plug (f :: fs) s = u → p s.addr = Res.ok (acc f.label))
    {b : Addr × α} {fs : List (Frame (Addr × α))} (hb : acc b = false)
    (rs : List (Tree (Addr × α))) : ∀ (ls : List (Tree (Addr × α))) (n : Nat), plug fs (node b (ls ++ rs)) = u → rs.length < n →
    nextLoop nv p n (headAddr rs) = Res.ok none := by
  induction rs with
  | nil => intro ls n _ hn; obtain ⟨n, rfl⟩ : ∃ m, n = m + 1 := ⟨n - 1, by simp at hn; omega⟩; simp [nextLoop, headAddr]
  | cons r rs ih =>
    intro ls n h hn
    obtain ⟨n, rfl⟩ : ∃ m, n = m + 1 := ⟨n - 1, by simp at hn; omega⟩
    have hpos : plug (⟨b, ls, rs⟩ :: fs) r = u := by simpa using h
    have := H.next ((⟨b, ls, rs⟩ :: fs).map (Frame.map Prod.fst)) r.addrTree (by rw [addrTree, ← plug_map, hpos]; rfl)
    have e := ih (ls ++ [r]) n (by simpa using h) (by simp at hn; omega)
    have hd : (List.map (Tree.map Prod.fst) rs).head?.map label = headAddr rs := by cases rs <;> simp [headAddr, Tree.addr]
    simp [Frame.map, hd, addrTree] at this
    simp [headAddr, nextLoop, hp _ _ _ hpos, hb]
    have this : nv.next r.addr = Res.ok (headAddr rs) := by
      rw [Tree.addr, this]; cases rs <;> simp [headAddr, Tree.addr]
    rw [this]; exact e

theorem length_rights {β : Type} {fs : List (Frame β)} {f : Frame β} {s t : Tree β} (h : plug (f :: fs) s = t) : f.rights.length < t.size := by
  induction fs generalizing s f with
  | nil =>
    subst h
    have : ∀ l : List (Tree β), l.length ≤ sizeL l := by
      intro l
      induction l with
      | nil => simp
      | cons t l ih => have := size_pos t; simp; omega
    have := this f.rights
    have := size_pos s
    simp; omega
  | cons g fs ih =>
    have h1 := ih (s := node f.label (f.lefts ++ s :: f.rights)) (f := g) (by simpa using h)
    have h2 : (node f.label (f.lefts ++ s :: f.rights)).size ≤ t.size := by
      have := congrArg (fun t => t.pre.length) h
      simp only [plug_cons, pre_plug, length_pre, List.length_append] at this
      have h3 := size_pos s
      simp [preBefore, preAfter] at this
      simp; omega
    have : ∀ l : List (Tree β), l.length ≤ sizeL l := by
      intro l
      induction l with
      | nil => simp
      | cons t l ih => have := size_pos t; simp; omega
    have := this f.rights
    simp at h2
    omega

theorem trim_spec (H : NavSpec nv u.addrTree) (hp : ∀ f fs s, plug (f :: fs) s = u → p s.addr = Res.ok (acc f.label))
    (hf : u.size ≤ fuel) : NavSpec (forward nv p fuel) (trim acc u).addrTree := by
  have key : ∀ fs s, plug fs s = (trim acc u).addrTree → ∃ fs' s', plug fs' s' = u ∧
      fs = fs'.map (Frame.map Prod.fst ∘ Frame.trim acc) ∧ s = (trim acc s').addrTree ∧ (∀ f ∈ fs', acc f.label = true) ∧
      plug (fs'.map (Frame.map Prod.fst)) s'.addrTree = u.addrTree := by
    intro fs s h
    obtain ⟨gs, v, h1, rfl, rfl⟩ := plug_eq_map _ h
    obtain ⟨fs', s', h2, rfl, rfl, h3⟩ := plug_eq_trim acc h1
    exact ⟨fs', s', h2, by simp, rfl, h3, by rw [addrTree, ← plug_map, h2]; rfl⟩
  have hlab : ∀ s : Tree (Addr × α), (trim acc s).addrTree.label = s.addr := by intro s; simp [addrTree, Tree.addr]
  have hlab' : ∀ s : Tree (Addr × α), s.addrTree.label = s.addr := by intro s; simp [addrTree, Tree.addr]
  have hhead : ∀ l : List (Tree (Addr × α)), ((l.map (Tree.trim acc)).map (Tree.map Prod.fst)).head?.map label = headAddr l := by
    intro l; cases l <;> simp [headAddr, Tree.addr]
  have hhead' : ∀ l : List (Tree (Addr × α)), (l.map (Tree.map Prod.fst)).head?.map label = headAddr l := by
    intro l; cases l <;> simp [headAddr, Tree.addr]
  have hfirst : ∀ fs' s', plug fs' s' = u → first nv p fuel s'.addr = Res.ok (if acc s'.label then headAddr s'.children else none) := by
    intro fs' s' h
    have h1 := H.first (fs'.map (Frame.map Prod.fst)) s'.addrTree (by rw [addrTree, ← plug_map, h]; rfl)
    rw [hlab', addrTree, children_map, hhead'] at h1
    obtain ⟨b, cs⟩ := s'
    simp only [first, h1, Res.ok_bind, children_node, label_node]
    cases cs with
    | nil => rcases Bool.eq_false_or_eq_true (acc b) with hb | hb <;> simp [headAddr, hb]
    | cons c cs =>
      have hpos : plug (⟨b, [], cs⟩ :: fs') c = u := by simpa using h
      have e : headAddr (c :: cs) = some c.addr := rfl
      simp only [e, hp _ _ _ hpos, Res.ok_bind]
      cases hb : acc b with
      | true => simp
      | false =>
        simp only [Bool.false_eq_true, if_false]
        have h2 := H.next ((⟨b, [], cs⟩ :: fs').map (Frame.map Prod.fst)) c.addrTree (by rw [addrTree, ← plug_map, hpos]; rfl)
        simp only [List.map_cons, List.head?_cons, Option.bind_some, Frame.map, hlab', hhead'] at h2
        have hlen := length_rights hpos
        simp only [PredNav.next, h2, Res.ok_bind]
        exact nextLoop_none H hp (b := b) (fs := fs') hb cs [c] fuel (by simpa using h) (by simp at hlen; omega)
  constructor
  · rw [addrTree_pre]
    have := H.nodup
    rw [addrTree_pre] at this
    exact ((pre_trim acc u).map Prod.fst).nodup this
  · have := H.root
    simpa [forward, nav, addrTree] using this
  · intro fs s h
    obtain ⟨fs', s', h1, rfl, rfl, h2, h3⟩ := key fs s h
    have := H.parent _ _ h3
    rw [hlab] 
    rw [hlab'] at this
    simp only [forward, nav]
    rw [this]
    cases fs' <;> simp [Frame.map, Frame.trim]
  · intro fs s h
    obtain ⟨fs', s', h1, rfl, rfl, h2, h3⟩ := key fs s h
    have := H.prev _ _ h3
    rw [hlab] 
    rw [hlab'] at this
    simp only [forward]
    rw [this]
    cases fs' with
    | nil => simp
    | cons f fs' =>
      simp [Frame.map, Frame.trim, List.getLast?_map]
      cases f.lefts.getLast? <;> simp
  · intro fs s h
    obtain ⟨fs', s', h1, rfl, rfl, h2, h3⟩ := key fs s h
    have := H.next _ _ h3
    rw [hlab] 
    rw [hlab'] at this
    obtain ⟨n, rfl⟩ : ∃ n, fuel = n + 1 := ⟨fuel - 1, by have := size_pos u; omega⟩
    simp only [forward, nav, PredNav.next, this, Res.ok_bind]
    cases fs' with
    | nil => simp [nextLoop]
    | cons f fs' =>
      simp only [List.map_cons, List.head?_cons, Option.bind_some, Frame.map, Function.comp, Frame.trim, hhead, hhead']
      cases hr : f.rights with
      | nil => simp [headAddr, nextLoop]
      | cons r rs =>
        have hpos : plug (⟨f.label, f.lefts ++ [s'], rs⟩ :: fs') r = u := by rw [← h1]; simp [hr]
        have e : headAddr (r :: rs) = some r.addr := rfl
        simp [e, nextLoop, hp _ _ _ hpos, h2 f (by simp)]
  · intro fs s h
    obtain ⟨fs', s', h1, rfl, rfl, h2, h3⟩ := key fs s h
    rw [hlab]
    simp only [forward, nav, hfirst fs' s' h1, addrTree, children_map, children_trim]
    cases hacc : acc s'.label with
    | true => simp only [if_true, hhead]
    | false => simp
  · intro fs s h
    obtain ⟨fs', s', h1, rfl, rfl, h2, h3⟩ := key fs s h
    have := H.last _ _ h3
    rw [hlab]
    rw [hlab'] at this
    simp only [forward, nav, hfirst fs' s' h1, Res.ok_bind, addrTree, children_map, children_trim]
    rw [this]
    cases hacc : acc s'.label with
    | true =>
      simp only [if_true, addrTree, children_map]
      rcases List.eq_nil_or_concat s'.children with hc | ⟨l, c, hc⟩
      · simp [hc, headAddr]
      · cases l <;> simp [hc, headAddr, List.getLast?_cons]
    | false => simp
  · intro fs s h
    obtain ⟨fs', s', h1, rfl, rfl, h2, h3⟩ := key fs s h
    have := H.isFirst _ _ h3
    rw [hlab]
    rw [hlab'] at this
    simp only [forward, nav]
    rw [this]
    cases fs' <;> simp [Frame.map, Frame.trim]
  · intro fs s h
    obtain ⟨fs', s', h1, rfl, rfl, h2, h3⟩ := key fs s h
    have := H.isLast _ _ h3
    rw [hlab]
    rw [hlab'] at this
    simp only [forward, nav]
    rw [this]
    cases fs' <;> simp [Frame.map, Frame.trim]

end PredNav
