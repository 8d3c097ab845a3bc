import Verif.Proof.GrowRun
/-! The result of a reluctant `star` with one argument. -/
open Tree

set_option linter.unusedSimpArgs false

namespace Tree.Kept
variable {β : Type} {f : β → Bool} {n d : Nat}

theorem drops : ∀ {l us cs : List (Tree β)} {vs : List (Tree β × Tree β)}, Kept .reluctant f n d us cs vs →
    Kept .reluctant f n d (l ++ us) cs vs := by
  intro l
  induction l with
  | nil => exact fun h => h
  | cons u l ih => exact fun h => .drop (by simp) (by simp) (ih h)

theorem none (l : List (Tree β)) : Kept .reluctant f n d l [] [] := by
  have := drops (f := f) (n := n) (d := d) (l := l) .nil
  simpa using this
end Tree.Kept

namespace Generate
variable {ν α lit : Type}
variable {K : Kind ν α lit} {value : ν → α} {B : Pattern.Builder ν} {T s : Tree (Addr × α)} {base : Heap ν → Prop}
  {made : Heap ν → Tree (Lab α) → Prop} {gs0 : List (Frame (Addr × α))} {test : α → Bool} {h0 : Heap ν}

/-- What is built so far for the subtree `t`: the result of the argument, or the nodes on the way to it. -/
def Chain (test : α → Bool) (t c : Tree (Addr × α)) (vs : List (Tree (Addr × α) × Tree (Addr × α))) : Prop :=
  vs = [(t, c)] ∨ (test t.label.2 = true ∧ vs ≠ [] ∧ c.label = t.label ∧ ∀ n d, Kept .reluctant (fun b => test b.2) n d t.children c.children vs)

theorem Chain.kept {t c : Tree (Addr × α)} {vs} (h : Chain test t c vs) (l r : List (Tree (Addr × α))) (n d : Nat) :
    Kept .reluctant (fun b => test b.2) n d (l ++ t :: r) [c] vs := by
  refine Kept.drops ?_
  rcases h with rfl | ⟨h1, h2, h3, h4⟩
  · exact .stop (by simp) (by simp) (.none r)
  · obtain ⟨b, ds⟩ := c
    simp only [label_node, children_node] at h3 h4
    subst h3
    have := Kept.pass (us := r) (cs := []) (vs := []) h1 (fun _ => h2) (by simp) (h4 n (d + 1)) (.none (d := d) r)
    simpa using this

theorem climb_spec (M : Makes K value B T base made) (hs0 : plug gs0 s = T) (hT0 : ∀ x ∈ T.addrs, x < h0.next) {r : Addr} :
    ∀ (gs : List (Frame (Addr × α))) (e : Frame (Addr × α)) (n : Nat) (h : Heap ν) (cloned : List (Addr × Addr)) (t : Tree (Addr × α))
      (P : Tree (Lab α)) (vs : List (Tree (Addr × α) × Tree (Addr × α))),
      base h → made h (node (s.label, r) []) → made h P → P.label.1 = t.label → Grown h0 h (r :: P.gens) → r ∉ P.gens →
      plug (gs ++ [e]) t = s → (∀ d ∈ gs, test d.label.2 = true ∧ find cloned d.label.1 = none) → find cloned s.addr = some r → gs.length < n →
      Chain test t P.refs vs →
      ∃ h' cl P', climb K value B n h cloned t.addr P.label.2 = Res.ok (h', cl) ∧ made h' P' ∧ P'.label = (s.label, r) ∧ Grown h0 h' P'.gens ∧
        ∀ n d, Kept .reluctant (fun b => test b.2) n d s.children P'.refs.children vs := by
  have hn : s.addrs.Nodup := Grow.nodup_sub M.nodup hs0
  intro gs
  induction gs with
  | nil =>
    intro e n h cloned t P vs hb hr hP hl hG hrP hp _ hf hlt hch
    cases n with
    | zero => cases hlt
    | succ n =>
    have hpar := (M.raw hb).parent e gs0 t (by have := sub_trans hp hs0; simpa using this)
    have hse : e.label = s.label := by
      rw [← hp]; rfl
    have hsn : s = node e.label (e.lefts ++ t :: e.rights) := by rw [← hp]; rfl
    have hd : ∀ x ∈ P.gens, x ∉ (plug [] (node (s.label, r) [])).gens := by
      intro x hx hm
      simp [plug] at hm
      exact hrP (hm ▸ hx)
    obtain ⟨h', e1, H', hn', hk'⟩ := M.attach (fs := []) (a := s.label) (g := r) (cs := []) (Q := P) (gs := gs0) (l := e.lefts) (t := t) (r := e.rights)
      hG.wf hb hr hP hd (by rw [← hse, ← hsn]; exact hs0) hl.symm (by simp)
    rw [hl] at e1
    refine ⟨h', cloned, node (s.label, r) [P], ?_, H', rfl, ?_, ?_⟩
    · have : e.label.1 = s.addr := by rw [hse]; rfl
      simp only [climb, hpar, Res.ok_bind, this, hf]
      have e1 : B.attach h r P.label.2 t.addr = Res.ok h' := e1
      simp only [e1, Res.ok_bind, Res.pure_eq]
    · refine (hG.modify hn' ?_).congr (fun x => by simp)
      intro x hx
      refine hk' x ?_ ?_
      · simp [plug]; intro e; simp [e] at hx
      · intro hm; simp [hm] at hx
    · have : s.children = e.lefts ++ t :: e.rights := by rw [hsn]; rfl
      rw [this]
      simpa [refs] using hch.kept e.lefts e.rights
  | cons f gs ih =>
    intro e n h cloned t P vs hb hr hP hl hG hrP hp hacc hf hlt hch
    cases n with
    | zero => cases hlt
    | succ n =>
    have hpT : plug (f :: (gs ++ [e] ++ gs0)) t = T := by have := sub_trans hp hs0; simpa using this
    have hpar := (M.raw hb).parent f _ t hpT
    have hup : plug (gs ++ [e]) (node f.label (f.lefts ++ t :: f.rights)) = s := hp
    have hupT : plug (gs ++ [e] ++ gs0) (node f.label (f.lefts ++ t :: f.rights)) = T := sub_trans hup hs0
    obtain ⟨hft, hfn⟩ := hacc f (by simp)
    obtain ⟨nd, hnd, hv⟩ := M.read hb hupT
    simp only [label_node] at hv
    have hGa := grown_alloc hG.wf (K.leaf (value nd))
    have hTlt : ∀ x ∈ T.addrs, x < h.next := fun x hx => by have := hT0 x hx; have := hG.le; grind
    have hPlt : ∀ x ∈ r :: P.gens, x < h.next := fun x hx => (hG.fresh x hx).2
    have hb1 := M.base_frame hb (fun x hx => hGa.same x (hTlt x hx))
    have hr1 := M.made_frame hr (fun x hx => hGa.same x (hPlt x (by simp at hx; simp [hx])))
    have hP1 := M.made_frame hP (fun x hx => hGa.same x (hPlt x (by simp [hx])))
    have hcell : (h.alloc (K.leaf (value nd))).1.cells h.next = some (K.leaf f.label.2) := by simp [Heap.alloc, hv]
    have hleaf := M.leaf (g := h.next) hupT hcell
    simp only [label_node] at hleaf
    have hd : ∀ x ∈ P.gens, x ∉ (plug [] (node (f.label, h.next) [])).gens := by
      intro x hx hm
      simp [plug] at hm
      have := hPlt x (by simp [hx]); grind
    obtain ⟨h', e1, H', hn', hk'⟩ := M.attach (fs := []) (a := f.label) (g := h.next) (cs := []) (Q := P) (gs := gs ++ [e] ++ gs0) (l := f.lefts)
      (t := t) (r := f.rights) hGa.wf hb1 hleaf hP1 hd hupT hl.symm (by simp)
    rw [hl] at e1
    have e1 : B.attach (h.alloc (K.leaf (value nd))).1 h.next P.label.2 t.addr = Res.ok h' := e1
    have hk1 : ∀ x, x ≠ h.next → x ∉ P.gens → h'.cells x = (h.alloc (K.leaf (value nd))).1.cells x := by
      intro x hx hm
      exact hk' x (by simp [plug, hx]) hm
    have hap := Grow.apart hn hp
    obtain ⟨h2, cl, P', e2, H2, hl2, hG2, hK2⟩ := ih e n h' ((t.addr, P.label.2) :: cloned) (node f.label (f.lefts ++ t :: f.rights))
      (node (f.label, h.next) [P]) vs
      (M.base_frame hb1 (fun x hx => hk1 x (by have := hTlt x hx; grind) (fun hm => by
        have := hT0 x hx; have := hG.fresh x (by simp [hm]); grind)))
      (M.made_frame hr1 (fun x hx => by
        simp at hx; subst hx
        exact hk1 _ (by have := hPlt x (by simp); grind) hrP))
      H' rfl
      (by
        refine ((hG.trans hGa).modify hn' ?_).congr ?_
        · intro x hx
          simp only [List.mem_append, List.mem_cons, not_or] at hx
          exact hk1 x hx.2.1 hx.1.2
        · intro x; simp; grind)
      (by
        simp only [gens_node, gensL_cons, gensL_nil, List.append_nil, List.mem_cons, not_or]
        exact ⟨by have := hPlt r (by simp); grind, hrP⟩)
      hup
      (by
        intro d hd
        obtain ⟨h3, h4⟩ := hacc d (by simp [hd])
        refine ⟨h3, ?_⟩
        have hne := (hap d (by simp [hd])).1
        have : (d.label.1 == t.addr) = false := by simpa using hne
        simp only [find] at h4 ⊢
        simp [List.lookup_cons, this, h4])
      (by
        have hne : s.addr ≠ t.addr := by
          intro e'
          have hh := (sub_unique (g := Prod.fst) hn hp (show plug [] s = s from rfl) e'.symm).1
          cases hh
        have : (s.addr == t.addr) = false := by simpa using hne
        simp only [find] at hf ⊢
        simp [List.lookup_cons, this, hf])
      (by simp at hlt; omega)
      (.inr ⟨hft, by
        rcases hch with rfl | ⟨-, h5, -⟩
        · simp
        · exact h5, rfl, by
        simpa [refs] using hch.kept f.lefts f.rights⟩)
    refine ⟨h2, cl, P', ?_, H2, hl2, hG2, hK2⟩
    have ha : (node f.label (f.lefts ++ t :: f.rights)).addr = f.label.1 := rfl
    rw [ha] at e2 hnd
    simp only [climb, hpar, Res.ok_bind, hfn, clone, Heap.read_of hnd]
    have hal : h.alloc (K.leaf (value nd)) = ((h.alloc (K.leaf (value nd))).1, h.next) := rfl
    rw [hal]
    simp only [Res.pure_eq, Res.ok_bind, e1]
    exact e2
end Generate
