import Verif.Proof.Compare
import Verif.Proof.Edits
import Verif.Model.Access
import Verif.Spec.Access
import Verif.Proof.Frame
/-! Reading and writing through iterators. -/
open Tree World

theorem Nary.nav_setValue {α : Type} {h : NHeap α} {a : Addr} {n : NNode α} (hn : h.cells a = some n) (v : α) (r : Ptr) :
    Nary.nav (h.set a ((Nary.kind α).setValue n v)) r = Nary.nav h r := by
  have key : ∀ {β : Type} (f : NNode α → Res β) (b : Addr), (∀ m v, f ((Nary.kind α).setValue m v) = f m) →
      ((h.set a ((Nary.kind α).setValue n v)).read b >>= f) = (h.read b >>= f) := by
    intro β f b hf
    by_cases hb : b = a
    · subst hb; simp [Heap.read, Heap.set, hn, hf]
    · simp [Heap.read, Heap.set, hb]
  simp only [Nary.nav, Nav.mk.injEq, true_and, and_true]
  refine ⟨?_, ?_, ?_, ?_, ?_, ?_, ?_⟩ <;> funext b
  · split <;> first | rfl | exact key _ b (fun _ _ => rfl)
  · split <;> first | rfl | exact key _ b (fun _ _ => rfl)
  · split <;> first | rfl | exact key _ b (fun _ _ => rfl)
  · exact key _ b (fun _ _ => rfl)
  · exact key _ b (fun _ _ => rfl)
  · split
    · rfl
    · rw [key _ b (fun _ _ => rfl)]
      congr 1; funext m
      congr 1; funext p
      exact key _ p (fun _ _ => rfl)
  · split
    · rfl
    · rw [key _ b (fun _ _ => rfl)]
      congr 1; funext m
      congr 1; funext p
      exact key _ p (fun _ _ => rfl)

theorem Binary.nav_setValue {α : Type} {h : BHeap α} {a : Addr} {n : BNode α} (hn : h.cells a = some n) (v : α) (r : Ptr) :
    Binary.nav (h.set a ((Binary.kind α).setValue n v)) r = Binary.nav h r := by
  have key : ∀ {β : Type} (f : BNode α → Res β) (b : Addr), (∀ m v, f ((Binary.kind α).setValue m v) = f m) →
      ((h.set a ((Binary.kind α).setValue n v)).read b >>= f) = (h.read b >>= f) := by
    intro β f b hf
    by_cases hb : b = a
    · subst hb; simp [Heap.read, Heap.set, hn, hf]
    · simp [Heap.read, Heap.set, hb]
  have kl : Binary.isLeftChild (h.set a ((Binary.kind α).setValue n v)) = Binary.isLeftChild h := by
    funext b
    unfold Binary.isLeftChild
    rw [key _ b (fun _ _ => rfl)]
    congr 1; funext m
    split
    · exact key _ _ (fun _ _ => rfl)
    · rfl
  have kr : Binary.isRightChild (h.set a ((Binary.kind α).setValue n v)) = Binary.isRightChild h := by
    funext b
    unfold Binary.isRightChild
    rw [key _ b (fun _ _ => rfl)]
    congr 1; funext m
    split
    · exact key _ _ (fun _ _ => rfl)
    · rfl
  have kf : Binary.first (h.set a ((Binary.kind α).setValue n v)) = Binary.first h := by
    funext b; exact key _ b (fun _ _ => rfl)
  have ka : Binary.last (h.set a ((Binary.kind α).setValue n v)) = Binary.last h := by
    funext b; exact key _ b (fun _ _ => rfl)
  have up : ∀ {β : Type} (g : Addr → Res β) (g' : Addr → Res β), (∀ p, g p = g' p) → ∀ b,
      ((h.set a ((Binary.kind α).setValue n v)).read b >>= fun m => _root_.deref m.parent >>= g) = (h.read b >>= fun m => _root_.deref m.parent >>= g') := by
    intro β g g' hg b
    rw [key _ b (fun _ _ => rfl)]
    congr 1; funext m
    congr 1; funext p
    exact hg p
  simp only [Binary.nav, Nav.mk.injEq, true_and]
  refine ⟨?_, ?_, ?_, ?_, ?_, ?_, ?_, ?_, ?_, ?_, ?_⟩ <;> funext b
  · split <;> first | rfl | exact key _ b (fun _ _ => rfl)
  · split
    · rfl
    · unfold Binary.prev
      rw [kr]
      congr 1; funext m
      split
      · exact up _ _ (fun p => key _ p (fun _ _ => rfl)) b
      · rfl
  · split
    · rfl
    · unfold Binary.next
      rw [kl]
      congr 1; funext m
      split
      · exact up _ _ (fun p => key _ p (fun _ _ => rfl)) b
      · rfl
  · rw [kf]
  · rw [ka]
  · split
    · rfl
    · exact up _ _ (fun p => by rw [kf]) b
  · split
    · rfl
    · exact up _ _ (fun p => by rw [ka]) b
  · exact key _ b (fun _ _ => rfl)
  · exact key _ b (fun _ _ => rfl)
  · split
    · rfl
    · exact up _ _ (fun p => key _ p (fun _ _ => rfl)) b
  · split
    · rfl
    · exact up _ _ (fun p => key _ p (fun _ _ => rfl)) b

section
variable {ν α lit T V C : Type} {K : Kind ν α lit} {Z : Addr → Prop} {S : Shape K T V C} {ts : Nat → Option T} {W : World ν} {x : Nat} {t u : T}

/-- Other contents in the nodes of one tree. -/
theorem OwnedBut.sameRose (L : Lawful S) (O : OwnedBut Z S W ts) (hx : ts x = some t) {h' : Heap ν} (hR : S.rose u = S.rose t) (hrep : S.Rep h' u)
    (hn : h'.next = W.heap.next) (ha : ∀ b, (h'.cells b).isSome = (W.heap.cells b).isSome)
    (hk : ∀ b, b ∉ S.addrs t → h'.cells b = W.heap.cells b) : OwnedBut Z S ⟨h', W.vars⟩ (upd ts x (some u)) := by
  have hP : S.ptr u = S.ptr t := by simp only [Shape.ptr, hR]
  have hA : S.addrs u = S.addrs t := by simp only [Shape.addrs, hR]
  have key : ∀ z w, upd ts x (some u) z = some w → ∃ w', ts z = some w' ∧ S.addrs w = S.addrs w' ∧ S.ptr w = S.ptr w' := by
    intro z w hw
    unfold upd at hw
    split at hw
    · cases hw; subst z; exact ⟨t, hx, hA, hP⟩
    · exact ⟨w, hw, rfl, rfl⟩
  constructor
  · intro b hb
    have h1 := ha b
    rw [O.wf b (by rw [← hn]; exact hb)] at h1
    simpa using h1
  · intro z
    rw [O.alive z]
    unfold upd
    split
    · subst z; rw [hx]; rfl
    · rfl
  · intro z r w hr hw
    obtain ⟨w', h1, _, h2⟩ := key z w hw
    rw [h2]; exact O.root z r w' hr h1
  · intro z w hw
    unfold upd at hw
    split at hw
    · cases hw; exact hrep
    · exact L.rep_congr W.heap _ w (O.rep z w hw) fun b hb => hk b (O.disjoint z x w t hw hx ‹_› b hb)
  · intro y z w w' hw hw' hne b hb
    obtain ⟨v, h1, h2, _⟩ := key y w hw
    obtain ⟨v', h3, h4, _⟩ := key z w' hw'
    rw [h2] at hb; rw [h4]
    exact O.disjoint y z v v' h1 h3 hne b hb
  · intro b hb
    rcases O.noLeakBut b (by rw [← ha b]; exact hb) with ⟨z, w, h1, h2⟩ | h1
    · by_cases hz : z = x
      · subst hz; rw [hx] at h1; cases h1
        exact Or.inl ⟨z, u, upd_same .., by rw [hA]; exact h2⟩
      · exact Or.inl ⟨z, w, by rw [upd_other _ _ hz]; exact h1, h2⟩
    · exact Or.inr h1
  · intro b hb
    rw [ha b]; exact O.lost b hb
  · intro z w hw b hb
    obtain ⟨w', h1, h2, _⟩ := key z w hw
    rw [h2] at hb
    exact O.apart z w' h1 b hb

variable (K) in
/-- Write `f` of the value in each node of a list. -/
def rewrite (value : ν → α) (f : α → α) : List Addr → Heap ν → Heap ν
  | [], h => h
  | a :: l, h => match h.cells a with
    | some n => rewrite value f l (h.set a (K.setValue n (f (value n))))
    | none => rewrite value f l h

theorem rewrite_next (value : ν → α) (f : α → α) : ∀ (l : List Addr) (h : Heap ν), (rewrite K value f l h).next = h.next
  | [], h => rfl
  | a :: l, h => by
    unfold rewrite
    split
    · rw [rewrite_next value f l]; rfl
    · rw [rewrite_next value f l]

theorem rewrite_cells (value : ν → α) (f : α → α) : ∀ (l : List Addr) (h : Heap ν) (b : Addr), l.Nodup →
    (rewrite K value f l h).cells b = if b ∈ l then (h.cells b).map (fun n => K.setValue n (f (value n))) else h.cells b
  | [], h, b, _ => by simp [rewrite]
  | a :: l, h, b, hn => by
    have h1 := List.nodup_cons.mp hn
    unfold rewrite
    by_cases hb : b = a
    · subst hb
      split
      · rw [rewrite_cells value f l _ _ h1.2]
        simp [h1.1, Heap.set, *]
      · rw [rewrite_cells value f l _ _ h1.2]
        simp [h1.1, *]
    · split
      · rw [rewrite_cells value f l _ _ h1.2]
        simp [hb, Heap.set]
      · rw [rewrite_cells value f l _ _ h1.2]
        simp [hb]

theorem transformFrom_spec (value : ν → α) (f : α → α) {P : Policy} {root : Ptr}
    (hnav : ∀ (h : Heap ν) a n v r, h.cells a = some n → K.nav (h.set a (K.setValue n v)) r = K.nav h r) :
    ∀ (n : Nat) (W : World ν) (s : ItState) (l : List Addr), Iter.forwardFrom P (K.nav W.heap root) W.heap.fuel n s = Res.ok l →
      (∀ a ∈ l, (W.heap.cells a).isSome) → transformFrom K value P f root n W s = Res.ok ⟨rewrite K value f l W.heap, W.vars⟩ := by
  intro n
  induction n with
  | zero => intro W s l h; cases h
  | succ n ih =>
    intro W s l h hl
    obtain ⟨cur, aux⟩ := s
    cases cur with
    | none =>
      simp only [Iter.forwardFrom, Res.pure_eq] at h
      cases h
      simp only [transformFrom, rewrite]; rfl
    | some a =>
      simp only [Iter.forwardFrom, Res.bind_eq_ok] at h
      obtain ⟨s', h1, l', h2, h3⟩ := h
      cases h3
      obtain ⟨nd, hnd⟩ := Option.isSome_iff_exists.mp (hl a (by simp))
      have e : W.write K ⟨⟨some a, aux⟩, root⟩ (f (value nd)) = Res.ok ⟨W.heap.set a (K.setValue nd (f (value nd))), W.vars⟩ := by
        simp [World.write, Heap.modify, hnd, setHeap]
      have hN := hnav W.heap a nd (f (value nd)) root hnd
      have hF : (W.heap.set a (K.setValue nd (f (value nd)))).fuel = W.heap.fuel := rfl
      simp only [transformFrom, World.deref, Heap.read_of hnd, Res.ok_bind, Res.pure_eq, e, hN, hF, h1, rewrite, hnd]
      refine ih ⟨W.heap.set a (K.setValue nd (f (value nd))), W.vars⟩ s' l' (by rw [hN]; exact h2) ?_
      intro b hb
      have := hl b (by simp [hb])
      simp only [Heap.set]
      split
      · rfl
      · exact this

theorem transform_spec (L : Lawful S) (value : ν → α) (f : α → α) {P : Policy} {l : List Addr}
    (hnav : ∀ (h : Heap ν) a n v r, h.cells a = some n → K.nav (h.set a (K.setValue n v)) r = K.nav h r)
    (O : OwnedBut Z S W ts) (hx : ts x = some t) (hl : Iter.forward P (K.nav W.heap (S.ptr t)) W.heap.fuel = Res.ok l)
    (hn : l.Nodup) (hm : ∀ a ∈ l, a ∈ S.addrs t) (hR : S.rose u = S.rose t)
    (hrep : ∀ h', (∀ b, h'.cells b = if b ∈ l then (W.heap.cells b).map (fun n => K.setValue n (f (value n))) else W.heap.cells b) → S.Rep h' u) :
    ∃ W', W.transform K value P f x = Res.ok W' ∧ OwnedBut Z S W' (upd ts x (some u)) ∧ W'.vars = W.vars ∧
      ∀ b, b ∉ l → W'.heap.cells b = W.heap.cells b := by
  obtain ⟨r, hr, hg, _, h2⟩ := O.get L hx
  simp only [Iter.forward, Res.bind_eq_ok] at hl
  obtain ⟨s, h3, h4⟩ := hl
  have hc := fun b => rewrite_cells (K := K) value f l W.heap b hn
  refine ⟨⟨rewrite K value f l W.heap, W.vars⟩, ?_, ?_, rfl, fun b hb => by simp [hc, hb]⟩
  · simp only [World.transform, hg, Res.ok_bind, h2, h3]
    exact transformFrom_spec value f hnav _ _ _ _ h4 fun a ha => L.rep_alive _ _ (O.rep x t hx) a (hm a ha)
  · refine O.sameRose L hx hR (hrep _ hc) (rewrite_next _ _ _ _) (fun b => ?_) (fun b hb => ?_)
    · rw [hc]; split <;> simp
    · rw [hc, if_neg (fun h => hb (hm b h))]
end

/-! ### The nodes hold the mapped tree -/

section
variable {α : Type} (l : List Addr) (f : α → α)

theorem onValueAt_fst (p : Addr × α) : (onValueAt l f p).1 = p.1 := rfl

namespace Nary
/-- The record with its value rewritten. -/
def touch (p : Addr × NNode α) : Addr × NNode α := (p.1, if p.1 ∈ l then { p.2 with value := f p.2.value } else p.2)

theorem headAddr_onValueAt (ts : List (Tree (Addr × α))) : headAddr (mapL (onValueAt l f) ts) = headAddr ts := by
  cases ts with
  | nil => rfl
  | cons t ts => cases t; rfl
theorem addr_onValueAt (t : Tree (Addr × α)) : (t.map (onValueAt l f)).addr = t.addr := by cases t; rfl
theorem lastAddr_onValueAt (ts : List (Tree (Addr × α))) : lastAddr (mapL (onValueAt l f) ts) = lastAddr ts := by
  simp only [lastAddr, mapL_eq, List.getLast?_map, Option.map_map]
  congr 1; funext t; exact addr_onValueAt l f t

mutual
theorem cells_onValueAt (par prev nx : Ptr) (fol : Nat) : (t : Tree (Addr × α)) →
    cells par prev nx fol (t.map (onValueAt l f)) = (cells par prev nx fol t).map (touch l f)
  | .node (a, v) cs => by
    simp only [Tree.map, onValueAt, cells, headAddr_onValueAt, lastAddr_onValueAt, List.map_cons]
    rw [cellsL_onValueAt]
    congr 1
    simp only [touch]
    split <;> rfl
theorem cellsL_onValueAt (par prev nx : Ptr) (k : Nat) : (ts : List (Tree (Addr × α))) →
    cellsL par prev nx k (mapL (onValueAt l f) ts) = (cellsL par prev nx k ts).map (touch l f)
  | [] => by simp [mapL, cellsL]
  | t :: ts => by
    simp only [mapL, cellsL, List.map_append, cells_onValueAt, cellsL_onValueAt, headAddr_onValueAt, addr_onValueAt, mapL_eq,
      List.length_map]
    rw [← mapL_eq, cellsL_onValueAt, headAddr_onValueAt]
end

theorem addrTree_onValueAt (t : Tree (Addr × α)) : (t.map (onValueAt l f)).addrTree = t.addrTree := by
  induction t using Tree.ind with
  | h p cs ih =>
    simp only [addrTree, Tree.map, mapL_eq, List.map_map] at *
    exact congrArg _ (List.map_congr_left fun c hc => ih c hc)

theorem rep_onValueAt {h h' : NHeap α} {t : Tree (Addr × α)} (H : Rep h t)
    (hc : ∀ b, h'.cells b = if b ∈ l then (h.cells b).map (fun n => (Nary.kind α).setValue n (f n.value)) else h.cells b) :
    Rep h' (t.map (onValueAt l f)) := by
  refine ⟨?_, ?_⟩
  · intro p hp
    rw [cells_onValueAt] at hp
    obtain ⟨q, hq, rfl⟩ := List.mem_map.mp hp
    have := H.1 q hq
    simp only [touch, hc, this]
    split <;> rfl
  · have h1 : (t.map (onValueAt l f)).addrs = t.addrs := by rw [← addrTree_pre, addrTree_onValueAt, addrTree_pre]
    rw [h1]; exact H.2
end Nary

namespace Binary
/-- The record with its value rewritten. -/
def touch (p : Addr × BNode α) : Addr × BNode α := (p.1, if p.1 ∈ l then { p.2 with value := f p.2.value } else p.2)

theorem addr_onValueAt (t : BTree (Addr × α)) : (t.map (onValueAt l f)).addr? = t.addr? := by cases t <;> rfl

theorem cells_onValueAt (par : Ptr) (t : BTree (Addr × α)) : cells par (t.map (onValueAt l f)) = (cells par t).map (touch l f) := by
  induction t generalizing par with
  | nil => rfl
  | node p b c hb hcc =>
    obtain ⟨a, v⟩ := p
    simp only [BTree.map, cells, List.map_cons, List.map_append]
    rw [show onValueAt l f (a, v) = (a, if a ∈ l then f v else v) from rfl]
    simp only [cells, hb, hcc, addr_onValueAt, touch]
    congr 1
    split <;> rfl

theorem addrTree_onValueAt (t : BTree (Addr × α)) : (t.map (onValueAt l f)).addrTree = t.addrTree := by
  induction t with
  | nil => rfl
  | node p b c hb hc => simp only [BTree.addrTree, BTree.map] at *; rw [hb, hc]; rfl

theorem rep_onValueAt {h h' : BHeap α} {t : BTree (Addr × α)} (H : Rep h t)
    (hc : ∀ b, h'.cells b = if b ∈ l then (h.cells b).map (fun n => (Binary.kind α).setValue n (f n.value)) else h.cells b) :
    Rep h' (t.map (onValueAt l f)) := by
  refine ⟨?_, ?_⟩
  · intro p hp
    rw [cells_onValueAt] at hp
    obtain ⟨q, hq, rfl⟩ := List.mem_map.mp hp
    have := H.1 q hq
    simp only [touch, hc, this]
    split <;> rfl
  · have h1 : (t.map (onValueAt l f)).addrs = t.addrs := by
      have e : ∀ u : BTree (Addr × α), u.addrs = u.addrTree.pre := by
        intro u; simp [BTree.addrs, BTree.addrTree, BTree.pre_map]
      rw [e, addrTree_onValueAt, ← e]
    rw [h1]; exact H.2
end Binary
end
