import Verif.Proof.FaultSteps
import Verif.Proof.Frame
import Verif.Spec.Allocs
/-! How many nodes a call requests. -/
open Tree World

section
variable {ν β γ : Type}

/-- If `R` ends, its result is as `Q` says. -/
def Res.Gives (R : Res β) (Q : β → Prop) : Prop := ∀ b, R = .ok b → Q b

theorem Res.Gives.bind {R : Res β} {f : β → Res γ} {P : β → Prop} {Q : γ → Prop} (hR : R.Gives P) (hf : ∀ b, P b → (f b).Gives Q) :
    (R >>= f).Gives Q := by
  intro c e
  obtain ⟨b, e1, e2⟩ := Res.bind_eq_ok.mp e
  exact hf b (hR b e1) c e2

theorem Res.Gives.any {R : Res β} {f : β → Res γ} {Q : γ → Prop} (hf : ∀ b, (f b).Gives Q) : (R >>= f).Gives Q :=
  Res.Gives.bind (P := fun _ => True) (fun _ _ => trivial) fun b _ => hf b

theorem Res.Gives.ret {b : β} {Q : β → Prop} (h : Q b) : (pure b : Res β).Gives Q := by
  rintro _ ⟨⟩; exact h

theorem Res.Gives.div {Q : β → Prop} : (Res.diverge : Res β).Gives Q := by rintro _ ⟨⟩
theorem Res.Gives.bad {Q : β → Prop} : (Res.ub : Res β).Gives Q := by rintro _ ⟨⟩

/-- `n` nodes were requested so far. -/
abbrev AtNext (n : Nat) (h : Heap ν) : Prop := h.next = n

theorem modify_next {n : Nat} {h : Heap ν} {a : Addr} {f : ν → ν} (hn : AtNext n h) : (h.modify a f).Gives (AtNext n) := by
  intro h' e
  simp only [Heap.modify] at e
  split at e
  · cases e; exact hn
  · cases e

theorem free_next {n : Nat} {h : Heap ν} {a : Addr} (hn : AtNext n h) : (h.free a).Gives (AtNext n) := by
  intro h' e
  simp only [Heap.free] at e
  split at e
  · cases e; exact hn
  · cases e
end

/-- What is not a constructor requests no node. -/
structure Quiet {ν α lit : Type} (K : Kind ν α lit) : Prop where
  dealloc : ∀ fuel h p, (K.dealloc fuel h p).Gives (AtNext h.next)
  replaceWith : ∀ fuel h a p, (K.replaceWith fuel h a p).Gives (AtNext h.next)
  prepend : ∀ fuel h a p, (K.prepend fuel h a p).Gives (AtNext h.next)
  append : ∀ fuel h a p, (K.append fuel h a p).Gives (AtNext h.next)

/-- Follows the code to its end. -/
macro "follow" : tactic => `(tactic| repeat (first
  | exact Res.Gives.ret (by assumption) | exact Res.Gives.div | exact Res.Gives.bad | exact modify_next (by assumption) | exact free_next (by assumption)
  | refine Res.Gives.bind (modify_next (by assumption)) (fun _ _ => ?_)
  | refine Res.Gives.bind (Res.Gives.ret (Q := AtNext _) (by assumption)) (fun _ _ => ?_)
  | refine Res.Gives.any (fun _ => ?_)
  | split
  | dsimp only))

namespace Nary
variable {α : Type} {n : Nat}
open Res.Gives

theorem dealloc_next : ∀ (fuel : Nat) (h : NHeap α) (p : Ptr), AtNext n h → (dealloc fuel h p).Gives (AtNext n)
  | 0, _, _, _ => div
  | _ + 1, h, none, hn => ret hn
  | fuel + 1, h, some a, hn => by
    rw [dealloc]
    exact any fun _ => bind (dealloc_next fuel _ _ hn) fun _ hn => bind (dealloc_next fuel _ _ hn) fun _ hn => free_next hn

theorem unlink_next (this : Addr) : ∀ (fuel : Nat) (h : NHeap α) (p back : Ptr), AtNext n h → (unlinkLoop this fuel h p back).Gives (fun r => AtNext n r.1)
  | 0, _, _, _, _ => div
  | _ + 1, h, none, _, hn => ret hn
  | fuel + 1, h, some a, _, hn => by
    rw [unlinkLoop]
    split
    · exact ret hn
    · exact bind (modify_next hn) fun _ hn => any fun _ => unlink_next this fuel _ _ _ hn

theorem bump_next : ∀ (fuel : Nat) (h : NHeap α) (p : Ptr), AtNext n h → (bumpLoop fuel h p).Gives (AtNext n)
  | 0, _, _, _ => div
  | _ + 1, h, none, hn => ret hn
  | fuel + 1, h, some a, hn => by
    rw [bumpLoop]
    exact bind (modify_next hn) fun _ hn => any fun _ => bump_next fuel _ _ hn

theorem relink_next {h : NHeap α} {this p : Addr} {target node : Ptr} (hn : AtNext n h) : (relink h this p target node).Gives (AtNext n) := by
  unfold relink
  follow

theorem replace_next {fuel : Nat} {h : NHeap α} {this : Addr} {node : Ptr} (hn : AtNext n h) : (replaceWith fuel h this node).Gives (AtNext n) := by
  suffices key : ∀ m : NNode α, (match m.parent with
      | none => pure h
      | some p =>
        match node with
        | some y => (do
          let h ← h.modify y (fun k => { k with parent := m.parent, following := m.following, prev := m.prev, next := m.next })
          let h ← match m.prev with
            | some pv => h.modify pv (fun m => { m with next := some y })
            | none => h.modify p (fun m => { m with first := some y })
          relink h this p (some y) node)
        | none => (do
          let np ← h.read p
          let (h, back) ← unlinkLoop this fuel h np.first none
          let n ← h.read this
          let b ← deref back
          let h ← h.modify b (fun m => { m with next := n.next })
          relink h this p n.next none) : Res (NHeap α)).Gives (AtNext n) by
    unfold replaceWith
    cases node <;> exact any fun _ => (by first | exact key _ | exact any fun _ => any fun _ => key _)
  intro m
  split
  · exact ret hn
  · split
    · refine bind (modify_next hn) fun _ hn => ?_
      dsimp only
      split <;> exact bind (modify_next hn) fun _ hn => relink_next hn
    · refine any fun _ => bind (unlink_next _ _ _ _ _ hn) fun r hn => ?_
      obtain ⟨h, back⟩ := r
      exact any fun _ => any fun _ => bind (modify_next hn) fun _ hn => relink_next hn

theorem prepend_next {h : NHeap α} {this : Addr} {node : Ptr} (hn : AtNext n h) : (prepend h this node).Gives (AtNext n) := by
  unfold prepend
  follow

theorem append_next {fuel : Nat} {h : NHeap α} {this : Addr} {node : Ptr} (hn : AtNext n h) : (append fuel h this node).Gives (AtNext n) := by
  unfold append
  split
  · exact ret hn
  · refine any fun _ => any fun _ => any fun _ => ?_
    dsimp only
    split
    · refine bind (bump_next _ _ _ hn) fun _ hn => ?_
      follow
    · follow

theorem quiet (α : Type) : Quiet (Nary.kind α) where
  dealloc _ _ _ := dealloc_next _ _ _ rfl
  replaceWith _ _ _ _ := replace_next rfl
  prepend _ _ _ _ := prepend_next rfl
  append _ _ _ _ := append_next rfl
end Nary

namespace Binary
variable {α : Type} {n : Nat}
open Res.Gives

theorem dealloc_next : ∀ (fuel : Nat) (h : BHeap α) (p : Ptr), AtNext n h → (dealloc fuel h p).Gives (AtNext n)
  | 0, _, _, _ => div
  | _ + 1, h, none, hn => ret hn
  | fuel + 1, h, some a, hn => by
    rw [dealloc]
    exact any fun _ => bind (dealloc_next fuel _ _ hn) fun _ hn => bind (dealloc_next fuel _ _ hn) fun _ hn => free_next hn

theorem replace_next {h : BHeap α} {this : Addr} {node : Ptr} (hn : AtNext n h) : (replaceWith h this node).Gives (AtNext n) := by
  unfold replaceWith
  follow

theorem prepend_next {h : BHeap α} {this : Addr} {node : Ptr} (hn : AtNext n h) : (prepend h this node).Gives (AtNext n) := by
  unfold prepend
  follow

theorem append_next {h : BHeap α} {this : Addr} {node : Ptr} (hn : AtNext n h) : (append h this node).Gives (AtNext n) := by
  unfold append
  follow

theorem quiet (α : Type) : Quiet (Binary.kind α) where
  dealloc _ _ _ := dealloc_next _ _ _ rfl
  replaceWith _ _ _ _ := replace_next rfl
  prepend _ _ _ _ := prepend_next rfl
  append _ _ _ _ := append_next rfl
end Binary

section
variable {ν α lit T V C : Type} {K : Kind ν α lit} {Z : Addr → Prop} {S : Shape K T V C} {ts : Nat → Option T} {W W1 : World ν}
  {t : T} {x y : Nat} {r : TreeRec} {src : Src α lit} {M : Makers K} {h : Heap ν} {n : Nat}
open Res.Gives

variable (Q : Quiet K)
include Q

theorem assign_next {p : Ptr} {s a : Nat} (hn : AtNext n h) : (TreeOps.assign K h r p s a).Gives (fun o => AtNext n o.1) := by
  unfold TreeOps.assign
  dsimp only
  split
  · exact bind (Q.dealloc _ _ _) fun h' hn' => ret (hn'.trans hn)
  · exact ret hn

theorem replaceNode_next {p q : Ptr} {s a : Nat} (hn : AtNext n h) : (TreeOps.replaceNode K h r p q s a).Gives (fun o => AtNext n o.1) := by
  unfold TreeOps.replaceNode
  split
  · exact ret hn
  · refine any fun _ => bind (Q.replaceWith _ _ _ _) fun h' hn' => ?_
    split
    · exact ret (hn'.trans hn)
    · refine any fun o => ?_
      split <;> exact ret (hn'.trans hn)

theorem modifySubtree_next {P : Policy} {pos : It} {p : Ptr} {s a : Nat} (hn : AtNext n h) :
    (TreeOps.modifySubtree K P h r pos p s a).Gives (fun o => AtNext n o.1) := by
  unfold TreeOps.modifySubtree
  split
  · refine any fun _ => any fun _ => ?_
    split
    · exact bind (assign_next Q hn) fun o ho => ret ho
    · exact bind (replaceNode_next Q hn) fun o ho => bind (Q.dealloc _ _ _) fun h' hn' => ret (hn'.trans ho)
  · split
    · exact bind (assign_next Q hn) fun o ho => ret ho
    · exact ret hn

theorem addChild_next {front : Bool} {P : Policy} {pos : It} {p : Ptr} {s a : Nat} (hn : AtNext n h) :
    (TreeOps.addChild K front P h r pos p s a).Gives (fun o => AtNext n o.1) := by
  unfold TreeOps.addChild
  split
  · exact bind (Q.dealloc _ _ _) fun h' hn' => ret (hn'.trans hn)
  · refine any fun _ => ?_
    split
    · exact bind (Q.dealloc _ _ _) fun h' hn' => ret (hn'.trans hn)
    · dsimp only
      split
      · refine bind (Q.prepend _ _ _ _) fun h' hn' => any fun o => ?_
        split
        · exact any fun _ => any fun _ => any fun _ => ret (hn'.trans hn)
        · exact any fun _ => any fun _ => ret (hn'.trans hn)
      · refine bind (Q.append _ _ _ _) fun h' hn' => any fun o => ?_
        split
        · exact any fun _ => any fun _ => any fun _ => ret (hn'.trans hn)
        · exact any fun _ => any fun _ => ret (hn'.trans hn)

theorem eraseSubtree_next {pos : It} (hn : AtNext n h) : (TreeOps.eraseSubtree K h r pos).Gives (fun o => AtNext n o.1) := by
  unfold TreeOps.eraseSubtree
  split
  · refine any fun _ => any fun _ => ?_
    split
    · exact bind (assign_next Q hn) fun o ho => ret ho
    · exact bind (replaceNode_next Q hn) fun o ho => bind (Q.dealloc _ _ _) fun h' hn' => ret (hn'.trans ho)
  · split <;> exact ret hn

theorem erase_next {pos : It} (hn : AtNext n h) : (TreeOps.erase K h r pos).Gives (fun o => AtNext n o.1) := by
  unfold TreeOps.erase
  refine any fun _ => bind (eraseSubtree_next Q hn) fun o ho => ?_
  obtain ⟨h', r', o⟩ := o
  dsimp only
  split
  · exact ret ho
  · split <;> exact ret ho

theorem eraseRange_next (last : It) : ∀ (f : Nat) (h : Heap ν) (r : TreeRec) (first : It), AtNext n h →
    (TreeOps.eraseRange K f h r first last).Gives (fun o => AtNext n o.1) := by
  intro f
  induction f with
  | zero => intros; exact div
  | succ f ih =>
    intro h r first hn
    rw [TreeOps.eraseRange]
    split
    · split <;> exact ret hn
    · refine any fun _ => bind (eraseSubtree_next Q hn) fun o ho => ?_
      obtain ⟨h', r', o⟩ := o
      dsimp only
      split
      · exact ret ho
      · exact ih _ _ _ ho

omit Q in
theorem size_next : (W.size K x).Gives (fun o => AtNext W.heap.next o.1.heap) :=
  any fun _ => any fun _ => ret rfl

omit Q in
theorem arity_next : (W.arity K x).Gives (fun o => AtNext W.heap.next o.1.heap) :=
  any fun _ => any fun _ => ret rfl

theorem takeNodes_next {sb ab : Bool} : (takeNodes K sb ab W y).Gives (fun o => AtNext W.heap.next o.1.heap) := by
  unfold takeNodes
  cases sb <;> cases ab <;> refine any fun r => ?_ <;> simp only [Bool.false_eq_true, if_true, if_false, Res.pure_eq, Res.ok_bind]
  · exact bind (replaceNode_next Q rfl) fun o ho => any fun _ => any fun _ => ret ho
  · exact any fun _ => bind (replaceNode_next Q rfl) fun o ho => any fun _ => ret ho
  · exact any fun _ => bind (replaceNode_next Q rfl) fun o ho => any fun _ => ret ho
  · exact any fun _ => any fun _ => bind (replaceNode_next Q rfl) fun o ho => ret ho

variable (L : Lawful S) (Fm : Faithful M)

section
omit Q
include L Fm

theorem copyNodes_next (O : OwnedBut Z S W ts) (hy : ts y = some t) (hr : r.root = S.ptr t) :
    (copyNodes K W r).Gives (fun o => AtNext (W.heap.next + S.size t) o.1.heap) := by
  obtain ⟨O1, _⟩ := (owned_match L).mp O
  unfold copyNodes
  rw [hr]
  cases hp : S.ptr t with
  | none =>
    have := L.ptr_none_iff.mp hp
    subst this
    exact ret (by simp [AtNext, L.size_nil])
  | some a =>
    obtain ⟨h', b, t', e, h1, h2, h3, h4⟩ := L.copy W.heap t a O1.wf (O1.rep y t hy) hp
    obtain ⟨A, -⟩ := Fm.copy _ _ _ _ _ O1.wf e
    have hc := grown_count h4 (L.rep_nodup _ _ h2) A
    rw [L.length_addrs, (L.vals_inj t' t h3).2.1] at hc
    dsimp only
    rw [e]
    refine ret ?_
    have := A.le
    show h'.next = _
    grind

theorem ofLit_next (hw : h.WF) {l : lit} (hl : S.litOk l) : ∃ u, S.vals u = S.litVals l ∧
    (K.ofLit h l).Gives (fun o => AtNext (h.next + S.size u) o.1) := by
  obtain ⟨h', b, u, e, h1, h2, h3, h4⟩ := L.ofLit h l hw hl
  obtain ⟨A, -⟩ := Fm.ofLit _ _ _ _ hw e
  have hc := grown_count h4 (L.rep_nodup _ _ h2) A
  rw [L.length_addrs] at hc
  refine ⟨u, h3, ?_⟩
  rw [e]
  refine ret ?_
  have := A.le
  show h'.next = _
  grind
end

include L Fm

theorem overNode_next (O : OwnedBut Z S W ts) (hok : SrcOk S ts src) (sb ab : Bool) : ∃ m, SrcMakes S ts src m ∧
    (overNode K sb ab W src).Gives (fun o => AtNext (W.heap.next + m) o.1.heap) := by
  obtain ⟨O1, _⟩ := (owned_match L).mp O
  cases src with
  | value v => exact ⟨1, rfl, ret rfl⟩
  | lit l =>
    obtain ⟨u, h1, h2⟩ := ofLit_next L Fm O1.wf (l := l) hok
    exact ⟨_, ⟨u, h1, rfl⟩, bind h2 fun o ho => ret ho⟩
  | emplaceLit l =>
    obtain ⟨u, h1, h2⟩ := ofLit_next L Fm O1.wf (l := l) hok
    exact ⟨_, ⟨u, h1, rfl⟩, bind h2 fun o ho => ret ho⟩
  | copyOf y =>
    obtain ⟨t, hy⟩ := Option.isSome_iff_exists.mp hok
    obtain ⟨r, hr, hg, hrt, _⟩ := O.get L hy
    refine ⟨_, ⟨t, hy, rfl⟩, ?_⟩
    simp only [overNode, hg, Res.ok_bind]
    exact bind (copyNodes_next L Fm O hy hrt) fun o ho => bind size_next fun o1 h1 => bind arity_next fun o2 h2 => ret (h2.trans (h1.trans ho))
  | moveOf y => exact ⟨0, rfl, takeNodes_next Q⟩

theorem childNode_next (O : OwnedBut Z S W ts) (hok : SrcOk S ts src) (front : Bool) : ∃ m, SrcMakes S ts src m ∧
    (childNode K front W src).Gives (fun o => AtNext (W.heap.next + m) o.1.heap) := by
  obtain ⟨O1, _⟩ := (owned_match L).mp O
  cases src with
  | value v => exact ⟨1, rfl, ret rfl⟩
  | lit l =>
    obtain ⟨u, h1, h2⟩ := ofLit_next L Fm O1.wf (l := l) hok
    refine ⟨_, ⟨u, h1, rfl⟩, bind h2 fun o ho => ?_⟩
    dsimp only
    split <;> exact ret ho
  | emplaceLit l =>
    obtain ⟨u, h1, h2⟩ := ofLit_next L Fm O1.wf (l := l) hok
    exact ⟨_, ⟨u, h1, rfl⟩, bind h2 fun o ho => ret ho⟩
  | copyOf y =>
    obtain ⟨t, hy⟩ := Option.isSome_iff_exists.mp hok
    obtain ⟨r, hr, hg, hrt, _⟩ := O.get L hy
    refine ⟨_, ⟨t, hy, rfl⟩, ?_⟩
    simp only [childNode, hg, Res.ok_bind]
    exact bind (copyNodes_next L Fm O hy hrt) fun o ho => ret ho
  | moveOf y => exact ⟨0, rfl, any fun _ => bind (replaceNode_next Q rfl) fun o ho => ret ho⟩

/-- Every supported call requests the nodes it has to make. -/
theorem step_next (O : OwnedBut Z S W ts) (op : Op α lit) (hl : Legal S W.heap ts op) : ∃ m, Op.Makes S ts op m ∧
    (W.step K op).Gives (fun o => AtNext (W.heap.next + m) o.1.heap) := by
  obtain ⟨O1, _⟩ := (owned_match L).mp O
  cases op with
  | newEmpty x => exact ⟨0, rfl, bind (P := fun o => AtNext W.heap.next o.heap) (ret rfl) fun _ ho => ret ho⟩
  | newMove x y => exact ⟨0, rfl, bind (P := fun o => AtNext W.heap.next o.heap) (any fun _ => ret rfl) fun _ ho => ret ho⟩
  | destroy x =>
    exact ⟨0, rfl, bind (P := fun o => AtNext W.heap.next o.heap) (any fun _ => bind (assign_next Q rfl) fun _ ho => ret ho) fun _ ho => ret ho⟩
  | clear x =>
    exact ⟨0, rfl, bind (P := fun o => AtNext W.heap.next o.heap) (any fun _ => bind (assign_next Q rfl) fun _ ho => ret ho) fun _ ho => ret ho⟩
  | assignMove x y =>
    exact ⟨0, rfl, bind (P := fun o => AtNext W.heap.next o.heap) (any fun _ => any fun _ => bind (assign_next Q rfl) fun _ ho => ret ho)
      fun _ ho => ret ho⟩
  | swap x y => exact ⟨0, rfl, bind (P := fun o => AtNext W.heap.next o.heap) (any fun _ => any fun _ => ret rfl) fun _ ho => ret ho⟩
  | size x => exact ⟨0, rfl, bind size_next fun _ ho => ret ho⟩
  | arity x => exact ⟨0, rfl, bind arity_next fun _ ho => ret ho⟩
  | updateCounts x => exact ⟨0, rfl, bind (P := fun o => AtNext W.heap.next o.heap) (any fun _ => ret rfl) fun _ ho => ret ho⟩
  | erase x pos => exact ⟨0, rfl, bind (P := fun o => AtNext W.heap.next o.1.heap) (any fun _ => bind (erase_next Q rfl) fun _ ho => ret ho) fun _ ho => ret ho⟩
  | eraseRange x first last =>
    exact ⟨0, rfl, bind (P := fun o => AtNext W.heap.next o.1.heap) (any fun _ => bind (eraseRange_next Q last _ _ _ _ rfl) fun _ ho => ret ho)
      fun _ ho => ret ho⟩
  | write x pos v =>
    refine ⟨0, rfl, bind (P := fun o => AtNext W.heap.next o.heap) ?_ fun _ ho => ret ho⟩
    unfold World.write
    split
    · exact bad
    · exact bind (modify_next rfl) fun _ ho => ret ho
  | newCopy x y =>
    obtain ⟨t, hy⟩ := Option.isSome_iff_exists.mp hl.2
    obtain ⟨r, hr, hg, hrt, _⟩ := O.get L hy
    refine ⟨_, ⟨t, hy, rfl⟩, bind (P := fun o => AtNext (W.heap.next + S.size t) o.heap) ?_ fun _ ho => ret ho⟩
    simp only [newCopy, hg, Res.ok_bind]
    exact bind (copyNodes_next L Fm O hy hrt) fun o ho => ret ho
  | assignCopy x y =>
    obtain ⟨t, hy⟩ := Option.isSome_iff_exists.mp hl.2
    obtain ⟨r, hr, hg, hrt, _⟩ := O.get L hy
    refine ⟨_, ⟨t, hy, rfl⟩, bind (P := fun o => AtNext (W.heap.next + S.size t) o.heap) ?_ fun _ ho => ret ho⟩
    simp only [assignCopy, hg, Res.ok_bind]
    exact bind (copyNodes_next L Fm O hy hrt) fun o ho => any fun _ => bind (assign_next Q ho) fun _ ho => ret ho
  | newLit x l =>
    obtain ⟨u, h1, h2⟩ := ofLit_next L Fm O1.wf hl.2
    exact ⟨_, ⟨u, h1, rfl⟩, bind (P := fun o => AtNext (W.heap.next + S.size u) o.heap) (bind h2 fun _ ho => ret ho) fun _ ho => ret ho⟩
  | assignLit x l =>
    obtain ⟨u, h1, h2⟩ := ofLit_next L Fm O1.wf hl.2
    exact ⟨_, ⟨u, h1, rfl⟩, bind (P := fun o => AtNext (W.heap.next + S.size u) o.heap)
      (bind h2 fun _ ho => any fun _ => bind (assign_next Q ho) fun _ ho => ret ho) fun _ ho => ret ho⟩
  | insertOver sb ab P x pos src =>
    obtain ⟨t, hx, hok, _⟩ := hl
    obtain ⟨m, h1, h2⟩ := overNode_next Q L Fm O hok sb ab
    refine ⟨m, h1, bind (P := fun o => AtNext (W.heap.next + m) o.1.heap) ?_ fun _ ho => ret ho⟩
    unfold insertOver
    split
    · cases show m = 0 from h1
      split
      · exact ret rfl
      · refine bind h2 fun _ ho => any fun _ => bind (modifySubtree_next Q ho) fun o ho => ?_
        obtain ⟨h', r', o⟩ := o
        dsimp only
        split <;> exact ret ho
    · exact bind h2 fun _ ho => any fun _ => bind (modifySubtree_next Q ho) fun o ho => ret ho
  | insertChild front P x pos src =>
    obtain ⟨t, hx, hok, _⟩ := hl
    obtain ⟨m, h1, h2⟩ := childNode_next Q L Fm O hok front
    refine ⟨m, h1, bind (P := fun o => AtNext (W.heap.next + m) o.1.heap) ?_ fun _ ho => ret ho⟩
    unfold insertChild
    split
    · cases show m = 0 from h1
      split
      · exact ret rfl
      · refine bind h2 fun _ ho => any fun _ => bind (addChild_next Q ho) fun o ho => ?_
        obtain ⟨h', r', o⟩ := o
        dsimp only
        split <;> exact ret ho
    · exact bind h2 fun _ ho => any fun _ => bind (addChild_next Q ho) fun o ho => ret ho
end

section
variable {ν α lit T V C : Type} {K : Kind ν α lit} {S : Shape K T V C} {ts : Nat → Option T} {W : World ν} {M : Makers K}

/-- The blocks that are not given back are the nodes of the trees. -/
theorem released_nodes (L : Lawful S) (O : Owned S W ts) {xs : List Nat} (hn : xs.Nodup) (hx : ∀ x, (ts x).isSome → x ∈ xs) :
    W.released + nodesIn S ts xs = W.requested := by
  let held := (List.range W.heap.next).filter fun a => !(W.heap.cells a).isNone
  let nodes : List Addr := xs.flatMap fun x => ((ts x).map S.addrs).getD []
  have hperm : held.Perm nodes := by
    refine (List.perm_ext_iff_of_nodup (List.nodup_range.filter _) ?_).mpr fun a => ?_
    · refine List.pairwise_flatMap.mpr ⟨fun x _ => ?_, ?_⟩
      · cases e : ts x with
        | none => simp
        | some t => exact L.rep_nodup _ _ (O.rep x t e)
      · refine hn.imp fun {x y} hxy => ?_
        cases ex : ts x with
        | none => simp
        | some t =>
          cases ey : ts y with
          | none => simp
          | some u =>
            rintro a ha _ hb rfl
            exact O.disjoint x y t u ex ey hxy a (by simpa using ha) (by simpa using hb)
    · simp only [held, nodes, List.mem_filter, List.mem_range, List.mem_flatMap]
      constructor
      · rintro ⟨h1, h2⟩
        obtain ⟨x, t, e, ha⟩ := O.noLeak a (by simpa [Option.isSome_iff_ne_none] using h2)
        exact ⟨x, hx x (by simp [e]), by simpa [e] using ha⟩
      · rintro ⟨x, -, ha⟩
        cases e : ts x with
        | none => simp [e] at ha
        | some t =>
          simp [e] at ha
          have h1 := L.rep_alive _ _ (O.rep x t e) a ha
          refine ⟨?_, by simpa [Option.isSome_iff_ne_none] using h1⟩
          refine Nat.lt_of_not_le fun h2 => ?_
          rw [O.wf a h2] at h1; cases h1
  have hlen : nodes.length = nodesIn S ts xs := by
    simp only [nodes, nodesIn, List.length_flatMap]
    congr 1
    refine List.map_congr_left fun x _ => ?_
    cases ts x with
    | none => rfl
    | some t => exact L.length_addrs
  have hsplit : W.released + held.length = W.heap.next := by
    have := (List.filter_append_perm (fun a => (W.heap.cells a).isNone) (List.range W.heap.next)).length_eq
    simp only [List.length_append, List.length_range] at this
    exact this
  rw [World.requested, ← hsplit, hperm.length_eq, hlen]

theorem demands_next (Q : Quiet K) (L : Lawful S) (D : Determined S) (Fm : Faithful M) : ∀ (l : List (Op α lit)) (W : World ν) (ts : Nat → Option T), Owned S W ts →
    Supports S W l → ∃ W' as k, W.run K l = .ok (W', as) ∧ Demands S W l k ∧ W'.requested = W.requested + k := by
  intro l
  induction l with
  | nil => intro W ts O _; exact ⟨W, [], 0, rfl, .done W, rfl⟩
  | cons op l ih =>
    intro W ts O ⟨⟨ts0, O0, hl⟩, hrest⟩
    have e := OwnedBut.unique D O0 O
    subst e
    obtain ⟨W1, o, ts1, h1, O1, _⟩ := step_spec L O op hl
    obtain ⟨m, h2, h3⟩ := step_next Q L Fm O op hl
    obtain ⟨W2, as, k, h4, h5, h6⟩ := ih W1 ts1 O1 (hrest W1 o h1)
    refine ⟨W2, o :: as, m + k, by simp [World.run, h1, h4], .call _ _ _ _ _ _ _ _ O h2 h1 h5, ?_⟩
    have : W1.requested = W.requested + m := h3 _ h1
    omega
end

/-- What a call has to make is one number. -/
theorem makes_unique {ν α lit T V C : Type} {K : Kind ν α lit} {S : Shape K T V C} {ts : Nat → Option T} (L : Lawful S) {op : Op α lit} {m m' : Nat}
    (h3 : op.Makes S ts m) (hm : op.Makes S ts m') : m = m' := by
  have src : ∀ src : Src α lit, SrcMakes S ts src m → SrcMakes S ts src m' → m = m' := by
    intro src a b
    cases src with
    | value v => exact a.trans b.symm
    | moveOf y => exact a.trans b.symm
    | lit v =>
      obtain ⟨n, e1, rfl⟩ := a
      obtain ⟨n', e2, rfl⟩ := b
      exact (L.vals_inj n n' (e1.trans e2.symm)).2.1
    | emplaceLit v =>
      obtain ⟨n, e1, rfl⟩ := a
      obtain ⟨n', e2, rfl⟩ := b
      exact (L.vals_inj n n' (e1.trans e2.symm)).2.1
    | copyOf y =>
      obtain ⟨n, e1, rfl⟩ := a
      obtain ⟨n', e2, rfl⟩ := b
      rw [e1] at e2; cases e2; rfl
  cases op with
  | newCopy x y => exact src (.copyOf y) h3 hm
  | assignCopy x y => exact src (.copyOf y) h3 hm
  | newLit x l => exact src (.lit l) h3 hm
  | assignLit x l => exact src (.lit l) h3 hm
  | insertOver _ _ _ _ _ s => exact src s h3 hm
  | insertChild _ _ _ _ s => exact src s h3 hm
  | _ => exact Eq.trans h3 (Eq.symm hm)
