import Verif.Spec.Levels
import Verif.Proof.Update
import Verif.Proof.Returned
import Verif.Proof.LawfulBin
/-! The queue of a breadth_first iterator at level `d` only depends on the levels `0 … d + 1` of the tree. -/
open Tree

namespace Tree
variable {β : Type}

theorem label_top (n : Nat) (t : Tree β) : (top n t).label = t.label := by
  cases n <;> cases t <;> rfl
theorem children_top_succ (n : Nat) (t : Tree β) : (top (n + 1) t).children = t.children.map (top n) := by
  cases t; rfl

/-- `top` of a context: the parent of the hole is at level `fs.length - 1`. -/
def topF (n : Nat) : List (Frame β) → List (Frame β)
  | [] => []
  | f :: fs => ⟨f.label, f.lefts.map (top (n - (fs.length + 1))), f.rights.map (top (n - (fs.length + 1)))⟩ :: topF n fs

theorem top_plug (n : Nat) (fs : List (Frame β)) (x : Tree β) (h : fs.length ≤ n) :
    top n (plug fs x) = plug (topF n fs) (top (n - fs.length) x) := by
  induction fs generalizing x with
  | nil => rfl
  | cons f fs ih =>
    simp only [List.length_cons] at h
    rw [plug_cons, ih _ (by omega)]
    simp only [topF, plug_cons, List.length_cons]
    congr 1
    have : n - fs.length = n - (fs.length + 1) + 1 := by omega
    rw [this, top]
    simp

/-- A change below level `n` does not show in the levels `0 … n`. -/
theorem top_plug_eq (n : Nat) (fs : List (Frame β)) (x y : Tree β) (h : n ≤ fs.length) (hl : x.label = y.label) :
    top n (plug fs x) = top n (plug fs y) := by
  induction fs generalizing x y n with
  | nil =>
    obtain rfl : n = 0 := by simpa using h
    cases x; cases y; simp at hl; simp [plug, top, hl]
  | cons f fs ih =>
    rw [plug_cons, plug_cons]
    by_cases hn : n ≤ fs.length
    · exact ih n _ _ hn rfl
    · have hn' : n = fs.length + 1 := by simp at h; omega
      rw [top_plug _ _ _ (by omega), top_plug _ _ _ (by omega)]
      have : n - fs.length = 1 := by omega
      rw [this]
      congr 1
      cases x; cases y; simp at hl; simp [top, hl]

theorem length_topF (n : Nat) (fs : List (Frame β)) : (topF n fs).length = fs.length := by
  induction fs with
  | nil => rfl
  | cons f fs ih => simp [topF, ih]

/-- Places of the upper levels are places of the tree. -/
theorem untop {n : Nat} {F : List (Frame β)} {X t : Tree β} (h : plug F X = top n t) (hl : F.length ≤ n) :
    ∃ fs x, plug fs x = t ∧ topF n fs = F ∧ top (n - F.length) x = X ∧ fs.length = F.length := by
  induction F generalizing X with
  | nil => exact ⟨[], t, rfl, rfl, h.symm, rfl⟩
  | cons f F ih =>
    simp only [List.length_cons] at hl
    obtain ⟨fs, y, h1, h2, h3, h4⟩ := ih h (by omega)
    have e : n - F.length = n - (F.length + 1) + 1 := by omega
    have hc := congrArg children h3
    have hlab := congrArg label h3
    rw [e, children_top_succ] at hc
    rw [label_top] at hlab
    simp only [children_node, label_node] at hc hlab
    obtain ⟨l, l', hl1, hl2, hl3⟩ := List.map_eq_append_iff.mp hc
    obtain ⟨x, r, rfl, hx, hr⟩ := List.map_eq_cons_iff.mp hl3
    refine ⟨⟨y.label, l, r⟩ :: fs, x, ?_, ?_, ?_, by simp [h4]⟩
    · rw [plug_cons]; simp only; rw [← hl1, node_eta, h1]
    · simp only [topF, h4, hl2, hr, h2, hlab]
    · simpa using hx

theorem row_map_top (k m : Nat) (ts : List (Tree β)) : row k (ts.map (top (k + m))) = (row k ts).map (top m) := by
  induction k generalizing ts with
  | zero => simp
  | succ k ih =>
    rw [row_succ, row_succ, ← ih]
    congr 1
    rw [List.flatMap_map, List.map_flatMap]
    congr 1
    funext t
    rw [show k + 1 + m = k + m + 1 by omega, children_top_succ]

theorem rowAfter_topF (n k : Nat) (fs : List (Frame β)) (h : fs.length + k ≤ n) :
    rowAfter k (topF n fs) = (rowAfter k fs).map (top (n - (fs.length + k))) := by
  induction fs generalizing k with
  | nil => rfl
  | cons f fs ih =>
    simp only [List.length_cons] at h
    simp only [topF, rowAfter_cons, List.map_append, List.length_cons]
    rw [ih _ (by omega), ← row_map_top]
    congr 2
    · congr 3; omega
    · congr 1; omega

theorem rowBefore_topF (n k : Nat) (fs : List (Frame β)) (h : fs.length + k ≤ n) :
    rowBefore k (topF n fs) = (rowBefore k fs).map (top (n - (fs.length + k))) := by
  induction fs generalizing k with
  | nil => rfl
  | cons f fs ih =>
    simp only [List.length_cons] at h
    simp only [topF, rowBefore_cons, List.map_append, List.length_cons]
    rw [ih _ (by omega), ← row_map_top]
    congr 2
    · congr 1; omega
    · congr 3; omega

end Tree

theorem fcs_map_top (n : Nat) (ts : List (Tree Addr)) : fcs (ts.map (top (n + 1))) = fcs ts := by
  simp only [fcs, List.filterMap_map]
  congr 1
  funext t
  simp only [Function.comp, children_top_succ, List.head?_map, Option.map_map]
  cases t.children.head? <;> simp [label_top]

theorem queue_topF (fs : List (Frame Addr)) (x : Tree Addr) :
    queue (topF (fs.length + 1) fs) (top 1 x) = queue fs x := by
  have hb : rowBefore 0 (topF (fs.length + 1) fs) = (rowBefore 0 fs).map (top 1) := by
    rw [rowBefore_topF _ _ _ (by omega)]; congr 2; omega
  unfold queue
  rw [hb]
  have hx : (rowBefore 0 fs).map (top 1) ++ [top 1 x] = (rowBefore 0 fs ++ [x]).map (top (0 + 1)) := by simp
  rw [hx, fcs_map_top]
  congr 1
  cases fs with
  | nil => rfl
  | cons f fs =>
    simp only [topF, List.length_cons, List.head?_map, Option.map_map]
    rw [rowAfter_topF _ _ _ (by omega), show fs.length + 1 + 1 - (fs.length + 0) = 1 + 1 by omega, fcs_map_top]
    congr 2
    cases f.rights.head? <;> simp [label_top]

/-- Trees that agree in the levels `0 … d + 1` have the same queue at a node of level `d`. -/
theorem queue_same {fs : List (Frame Addr)} {x t' : Tree Addr} (h : top (fs.length + 1) (plug fs x) = top (fs.length + 1) t') :
    ∃ gs y, plug gs y = t' ∧ y.label = x.label ∧ queue gs y = queue fs x := by
  rw [top_plug _ _ _ (by omega)] at h
  obtain ⟨gs, y, h1, h2, h3, h4⟩ := untop h (by rw [length_topF]; omega)
  rw [length_topF] at h3 h4
  have e : fs.length + 1 - fs.length = 1 := by omega
  rw [e] at h3
  refine ⟨gs, y, h1, ?_, ?_⟩
  · rw [← label_top 1 y, h3, label_top]
  · rw [← queue_topF gs y, ← queue_topF fs x, h4, h2, h3]

section
variable {ν α lit T V C : Type} {K : Kind ν α lit} {S : Shape K T V C} {W W' : World ν} {ts ts' : Nat → Option T}
  {x : Nat} {t t' : T} {a : Addr}

namespace Generic

/-- A breadth_first iterator survives every change below the level after its own. -/
theorem bfs_survives (L : Lawful S) (O : Owned S W ts) (hx : ts x = some t) (O' : Owned S W' ts') (hx' : ts' x = some t')
    {fs : List (Frame Addr)} {u R' : Tree Addr} {it : It} (hR : S.rose t = [plug fs u]) (hR' : S.rose t' = [R'])
    (hsame : top (fs.length + 1) (plug fs u) = top (fs.length + 1) R') (hcur : it.st.cur = some u.label)
    (hroot : it.root = S.ptr t)
    (hmake : Policy.breadthFirst.make (K.nav W.heap it.root) W.heap.fuel it.st.cur = Res.ok it.st) :
    ∃ k, R'.bfs[k]? = some u.label ∧
      CursorFrom Policy.breadthFirst (K.nav W'.heap it.root) W'.heap.fuel R'.bfs k it.st := by
  have hq := L.bfs_make O.wf (O.rep x t hx) hR
  rw [hcur, hroot, hq] at hmake
  simp only [Res.ok.injEq] at hmake
  obtain ⟨gs, y, rfl, h2, h3⟩ := queue_same hsame
  have hm := L.bfs_make O'.wf (O'.rep x t' hx') hR'
  rw [h2, h3, hmake] at hm
  have hptr : S.ptr t = S.ptr t' := by
    have := congrArg label hsame
    rw [label_top, label_top] at this
    simp [Shape.ptr, hR, hR', this]
  have N := L.nav _ _ _ (O'.rep x t' hx') hR'
  have ho : ordered Policy.breadthFirst Tree.bfs := Or.inr (Or.inr ⟨rfl, rfl⟩)
  have hmem : u.label ∈ (plug gs y).pre := by
    rw [← h2]; exact (bfs_perm _).mem_iff.mp (by rw [bfs_at rfl]; simp)
  rw [hroot, hptr]
  exact (ordered_at ho N (L.fuel_ok O'.wf (O'.rep x t' hx') hR')).from (ordered_mem ho hmem) hm

end Generic
end

/-- `level c` is the level of the place `c`. -/
structure Levelled {ν α lit T V C : Type} {K : Kind ν α lit} (S : Shape K T V C) (level : C → Nat) : Prop where
  place : ∀ c, ∃ fs, fs.length = level c ∧ ∀ s u, S.rose s = [u] → S.rose (S.plug c s) = [plug fs u]
  remove : ∀ c, c ≠ S.top → ∃ f fs, fs.length + 1 = level c ∧
    (∀ s u, S.rose s = [u] → S.rose (S.plug c s) = [plug (f :: fs) u]) ∧
    S.rose (S.plug c S.nil) = [plug fs (node f.label (f.lefts ++ f.rights))]
  top : level S.top = 0

theorem Nary.levelled (α : Type) : Levelled (Nary.shape α) List.length where
  top := rfl
  place := by
    intro c
    refine ⟨c.map (Frame.map Prod.fst), by simp, ?_⟩
    intro s u hu
    cases s with
    | none => simp [shape] at hu
    | some s =>
      rw [shape_plug, fill_some]
      simp [shape, addrTree, plug_map] at hu ⊢
      rw [hu]
  remove := by
    intro c hc
    cases c with
    | nil => exact absurd rfl hc
    | cons f fs =>
      refine ⟨f.map Prod.fst, fs.map (Frame.map Prod.fst), by simp, ?_, ?_⟩
      · intro s u hu
        cases s with
        | none => simp [shape] at hu
        | some s =>
          rw [shape_plug, fill_some]
          simp only [shape, addrTree, plug_map, Option.map_some, Option.toList_some, List.cons.injEq, and_true, List.map_cons] at hu ⊢
          rw [hu]
      · simp [shape, fill, addrTree, plug_map, map, mapL_eq, Frame.map]

theorem Binary.levelled (α : Type) : Levelled (Binary.shape α) List.length where
  top := rfl
  place := by
    intro c
    refine ⟨(c.map (BTree.Frame.map Prod.fst)).map BTree.Frame.toRose, by simp, ?_⟩
    intro s u hu
    simp only [shape, BTree.addrTree, BTree.plug_map] at hu ⊢
    exact toRose_plug _ _ _ hu
  remove := by
    intro c hc
    cases c with
    | nil => exact absurd rfl hc
    | cons f fs =>
      refine ⟨(f.map Prod.fst).toRose, (fs.map (BTree.Frame.map Prod.fst)).map BTree.Frame.toRose, by simp, ?_, ?_⟩
      · intro s u hu
        simp only [shape, BTree.addrTree, BTree.plug_map] at hu ⊢
        exact toRose_plug _ _ _ hu
      · simp only [shape, BTree.addrTree, BTree.plug_map, BTree.plug, List.map_cons]
        refine toRose_plug _ _ _ ?_
        obtain ⟨p, b, o⟩ := f
        cases b <;> simp [BTree.Frame.fill, BTree.Frame.toRose, BTree.toRose, BTree.Frame.map]

section
variable {ν α lit T V C : Type} {K : Kind ν α lit} {S : Shape K T V C} {W W' : World ν} {ts ts' : Nat → Option T}
  {x : Nat} {t t' s s' s2 : T} {c c2 : C} {level : C → Nat} {it : It}

namespace Generic

theorem bfs_at_level (L : Lawful S) (V : Levelled S level) (O : Owned S W ts) (hx : ts x = some t)
    (B : At S Policy.breadthFirst W.heap t it c2 s2) (O' : Owned S W' ts') (hx' : ts' x = some t') {R R' : Tree Addr}
    (hR : S.rose t = [R]) (hR' : S.rose t' = [R']) (hsame : top (level c2 + 1) R = top (level c2 + 1) R') :
    ∃ a k, it.st.cur = some a ∧ R'.bfs[k]? = some a ∧
      CursorFrom Policy.breadthFirst (K.nav W'.heap it.root) W'.heap.fuel R'.bfs k it.st := by
  obtain ⟨u, hu⟩ := (L.rose_cases s2).resolve_left B.node
  obtain ⟨fs, hl, hfs⟩ := V.place c2
  have hR2 : S.rose t = [plug fs u] := by rw [← B.place]; exact hfs s2 u hu
  have hc : it.st.cur = some u.label := by rw [B.cur]; simp [Shape.ptr, hu]
  rw [hR2] at hR
  simp only [List.cons.injEq, and_true] at hR
  subst hR
  rw [← hl] at hsame
  obtain ⟨k, h1, h2⟩ := bfs_survives L O hx O' hx' hR2 hR' hsame hc B.root (B.queue rfl)
  exact ⟨_, k, hc, h1, h2⟩

/-- What is put at a place two or more levels below does not show. -/
theorem top_replace (L : Lawful S) (V : Levelled S level) {n : Nat} (hs : s ≠ S.nil) (hn : n < level c) :
    ∃ R R', S.rose (S.plug c s) = [R] ∧ S.rose (S.plug c s') = [R'] ∧ top n R = top n R' := by
  have hc : c ≠ S.top := by rintro rfl; rw [V.top] at hn; omega
  obtain ⟨f, fs, h1, h2, h3⟩ := V.remove c hc
  obtain ⟨u, hu⟩ := (L.rose_cases s).resolve_left hs
  rcases L.rose_cases s' with rfl | ⟨v, hv⟩
  · exact ⟨_, _, h2 s u hu, h3, by rw [plug_cons]; exact top_plug_eq _ _ _ _ (by omega) rfl⟩
  · exact ⟨_, _, h2 s u hu, h2 s' v hv, by rw [plug_cons, plug_cons]; exact top_plug_eq _ _ _ _ (by omega) rfl⟩

theorem top_child (L : Lawful S) (V : Levelled S level) {n : Nat} (hs : s ≠ S.nil) (hfull : S.isFull s = false) (front : Bool)
    (m : T) (hn : n ≤ level c) :
    ∃ R R', S.rose (S.plug c s) = [R] ∧ S.rose (S.plug c (if front then S.front m s else S.back m s)) = [R'] ∧
      top n R = top n R' := by
  obtain ⟨u, hu⟩ := (L.rose_cases s).resolve_left hs
  obtain ⟨fs, hl, hfs⟩ := V.place c
  cases front
  · exact ⟨_, _, hfs s u hu, hfs _ _ (L.rose_back s u m hu hfull), top_plug_eq _ _ _ _ (by omega) rfl⟩
  · exact ⟨_, _, hfs s u hu, hfs _ _ (L.rose_front s u m hu hfull), top_plug_eq _ _ _ _ (by omega) rfl⟩

end Generic
end
