import Verif.Spec.Compare
import Verif.Proof.Lawful
/-! Facts about structural equality. -/
open Tree

namespace Tree
variable {β γ δ : Type} {eqv : β → γ → Bool}

theorem eqBy_sizes :
    (∀ (t : Tree β) (u : Tree γ), t.eqBy eqv u = true → t.size = u.size ∧ t.arity = u.arity) ∧
    (∀ (ts : List (Tree β)) (us : List (Tree γ)), eqByL eqv ts us = true →
      ts.length = us.length ∧ sizeL ts = sizeL us ∧ arityL ts = arityL us) := by
  apply Tree.eqBy.mutual_induct
    (motive_1 := fun t u => t.eqBy eqv u = true → t.size = u.size ∧ t.arity = u.arity)
    (motive_2 := fun ts us => eqByL eqv ts us = true →
      ts.length = us.length ∧ sizeL ts = sizeL us ∧ arityL ts = arityL us)
  · intro a cs b ds ih h
    simp only [eqBy, Bool.and_eq_true] at h
    have := ih h.2
    simp [size, arity, this]
  · intro _; simp
  · intro t ts u us h1 h2 h
    simp only [eqByL, Bool.and_eq_true] at h
    have := h1 h.1
    have := h2 h.2
    simp_all [sizeL, arityL]
  · intro t ts h; simp [eqByL] at h
  · intro t ts h; simp [eqByL] at h

theorem eqBy_eq [DecidableEq β] :
    (∀ (t u : Tree β), t.eqBy (fun a b => decide (a = b)) u = true ↔ t = u) ∧
    (∀ (ts us : List (Tree β)), eqByL (fun a b => decide (a = b)) ts us = true ↔ ts = us) := by
  apply Tree.eqBy.mutual_induct (β := β) (γ := β)
    (motive_1 := fun t u => t.eqBy (fun a b => decide (a = b)) u = true ↔ t = u)
    (motive_2 := fun ts us => eqByL (fun a b => decide (a = b)) ts us = true ↔ ts = us)
  · intro a cs b ds ih
    simp [eqBy, ih]
  · simp [eqByL]
  · intro t ts u us h1 h2
    simp [eqByL, h1, h2]
  · intro t ts; simp [eqByL]
  · intro t ts; simp [eqByL]

theorem eqBy_refl {eqv : β → β → Bool} (h : ∀ a, eqv a a = true) (t : Tree β) : t.eqBy eqv t = true := by
  induction t using Tree.ind with
  | h a cs ih =>
    simp only [eqBy, h, Bool.true_and]
    induction cs with
    | nil => simp [eqByL]
    | cons c cs ih' =>
      simp only [eqByL, ih c (by simp), Bool.true_and]
      exact ih' fun d hd => ih d (by simp [hd])

theorem eqBy_symm {eqv' : γ → β → Bool} (h : ∀ a b, eqv a b = eqv' b a) :
    (∀ (t : Tree β) (u : Tree γ), t.eqBy eqv u = u.eqBy eqv' t) ∧
    (∀ (ts : List (Tree β)) (us : List (Tree γ)), eqByL eqv ts us = eqByL eqv' us ts) := by
  apply Tree.eqBy.mutual_induct
    (motive_1 := fun t u => t.eqBy eqv u = u.eqBy eqv' t)
    (motive_2 := fun ts us => eqByL eqv ts us = eqByL eqv' us ts)
  · intro a cs b ds ih; simp [eqBy, ih, h]
  · simp [eqByL]
  · intro t ts u us h1 h2; simp [eqByL, h1, h2]
  · intro t ts; simp [eqByL]
  · intro t ts; simp [eqByL]

theorem eqBy_trans {e1 : β → γ → Bool} {e2 : γ → δ → Bool} {e3 : β → δ → Bool}
    (h : ∀ a b c, e1 a b = true → e2 b c = true → e3 a c = true) :
    (∀ (t : Tree β) (u : Tree γ), t.eqBy e1 u = true → ∀ w : Tree δ, u.eqBy e2 w = true → t.eqBy e3 w = true) ∧
    (∀ (ts : List (Tree β)) (us : List (Tree γ)), eqByL e1 ts us = true → ∀ ws : List (Tree δ), eqByL e2 us ws = true →
      eqByL e3 ts ws = true) := by
  apply Tree.eqBy.mutual_induct
    (motive_1 := fun t u => t.eqBy e1 u = true → ∀ w : Tree δ, u.eqBy e2 w = true → t.eqBy e3 w = true)
    (motive_2 := fun ts us => eqByL e1 ts us = true → ∀ ws : List (Tree δ), eqByL e2 us ws = true → eqByL e3 ts ws = true)
  · intro a cs b ds ih h1 w h2
    obtain ⟨c, es⟩ := w
    simp only [eqBy, Bool.and_eq_true] at *
    exact ⟨h _ _ _ h1.1 h2.1, ih h1.2 es h2.2⟩
  · intro _ ws hw
    cases ws <;> simp_all [eqByL]
  · intro t ts u us h1 h2 hh ws hw
    cases ws with
    | nil => simp [eqByL] at hw
    | cons w ws =>
      simp only [eqByL, Bool.and_eq_true] at *
      exact ⟨h1 hh.1 w hw.1, h2 hh.2 ws hw.2⟩
  · intro t ts hh; simp [eqByL] at hh
  · intro t ts hh; simp [eqByL] at hh

end Tree

namespace BTree
variable {β γ δ : Type} {eqv : β → γ → Bool}

theorem eqBy_rose (t : BTree β) (u : BTree γ) (h : t.eqBy eqv u = true) : eqByL eqv t.toRose u.toRose = true := by
  induction t generalizing u with
  | nil => cases u <;> simp_all [BTree.eqBy, toRose, eqByL]
  | node a l r ihl ihr =>
    cases u with
    | nil => simp [BTree.eqBy] at h
    | node b l' r' =>
      simp only [BTree.eqBy, Bool.and_eq_true] at h
      have h1 := ihl l' h.2.1
      have h2 := ihr r' h.2.2
      simp only [toRose, eqByL, Tree.eqBy, h.1, Bool.true_and, Bool.and_true]
      generalize l.toRose = x at *; generalize l'.toRose = y at *
      generalize r.toRose = z at *; generalize r'.toRose = w at *
      clear h ihl ihr
      induction x generalizing y with
      | nil => cases y <;> simp_all [eqByL]
      | cons p x ih =>
        cases y with
        | nil => simp [eqByL] at h1
        | cons q y =>
          simp only [eqByL, Bool.and_eq_true, List.cons_append] at *
          exact ⟨h1.1, ih y h1.2⟩

theorem eqBy_eq [DecidableEq β] (t u : BTree β) : t.eqBy (fun a b => decide (a = b)) u = true ↔ t = u := by
  induction t generalizing u with
  | nil => cases u <;> simp [BTree.eqBy]
  | node a l r ihl ihr => cases u <;> simp [BTree.eqBy, ihl, ihr]

theorem eqBy_refl {eqv : β → β → Bool} (h : ∀ a, eqv a a = true) (t : BTree β) : t.eqBy eqv t = true := by
  induction t with
  | nil => simp [BTree.eqBy]
  | node a l r ihl ihr => simp [BTree.eqBy, ihl, ihr, h]

theorem eqBy_symm {eqv' : γ → β → Bool} (h : ∀ a b, eqv a b = eqv' b a) (t : BTree β) (u : BTree γ) :
    t.eqBy eqv u = u.eqBy eqv' t := by
  induction t generalizing u with
  | nil => cases u <;> simp [BTree.eqBy]
  | node a l r ihl ihr =>
    cases u with
    | nil => simp [BTree.eqBy]
    | node b l' r' => simp [BTree.eqBy, ihl l', ihr r', h a b]

theorem eqBy_trans {e1 : β → γ → Bool} {e2 : γ → δ → Bool} {e3 : β → δ → Bool}
    (h : ∀ a b c, e1 a b = true → e2 b c = true → e3 a c = true) (t : BTree β) (u : BTree γ) (w : BTree δ)
    (h1 : t.eqBy e1 u = true) (h2 : u.eqBy e2 w = true) : t.eqBy e3 w = true := by
  induction t generalizing u w with
  | nil => cases u <;> cases w <;> simp_all [BTree.eqBy]
  | node a l r ihl ihr =>
    cases u with
    | nil => simp [BTree.eqBy] at h1
    | node b l' r' =>
      cases w with
      | nil => simp [BTree.eqBy] at h2
      | node c l2 r2 =>
        simp only [BTree.eqBy, Bool.and_eq_true] at *
        exact ⟨h _ _ _ h1.1 h2.1, ihl _ _ h1.2.1 h2.2.1, ihr _ _ h1.2.2 h2.2.2⟩

end BTree

namespace Nary
variable {β γ δ : Type}

theorem same_eq [DecidableEq β] (t u : Option (Tree β)) : same (fun a b => decide (a = b)) t u = true ↔ t = u := by
  cases t <;> cases u <;> simp [same, Tree.eqBy_eq.1]
theorem same_refl {eqv : β → β → Bool} (h : ∀ a, eqv a a = true) (t : Option (Tree β)) : same eqv t t = true := by
  cases t <;> simp [same, Tree.eqBy_refl h]
theorem same_symm {eqv : β → γ → Bool} {eqv' : γ → β → Bool} (h : ∀ a b, eqv a b = eqv' b a) (t : Option (Tree β)) (u : Option (Tree γ)) :
    same eqv t u = same eqv' u t := by
  cases t <;> cases u <;> simp [same, (Tree.eqBy_symm h).1]
theorem same_trans {e1 : β → γ → Bool} {e2 : γ → δ → Bool} {e3 : β → δ → Bool}
    (h : ∀ a b c, e1 a b = true → e2 b c = true → e3 a c = true) (t : Option (Tree β)) (u : Option (Tree γ)) (w : Option (Tree δ))
    (h1 : same e1 t u = true) (h2 : same e2 u w = true) : same e3 t w = true := by
  cases t <;> cases u <;> cases w <;> simp_all [same]
  exact (Tree.eqBy_trans h).1 _ _ h1 _ h2

end Nary
