import Verif.Proof.LawfulBin
/-! A heap and a root determine the tree. -/
open Tree

namespace Nary
variable {α : Type} {h : NHeap α}

theorem holds_inj : ∀ (t u : Tree (Addr × α)) (p1 q1 n1 : Ptr) (k1 : Nat) (p2 q2 n2 : Ptr) (k2 : Nat),
    Holds h (cells p1 q1 n1 k1 t) → Holds h (cells p2 q2 n2 k2 u) → t.addr = u.addr → t = u := by
  intro t
  induction t using Tree.ind with
  | h p cs ih =>
    intro u p1 q1 n1 k1 p2 q2 n2 k2 H1 H2 e
    cases u with
    | node q ds =>
      obtain ⟨a, v⟩ := p
      obtain ⟨b, w⟩ := q
      simp only [addr_node] at e
      subst e
      simp only [cells] at H1 H2
      have e1 := H1 (a, ⟨v, p1, k1, q1, n1, headAddr cs, lastAddr cs⟩) (by simp)
      have e2 := H2 (a, ⟨w, p2, k2, q2, n2, headAddr ds, lastAddr ds⟩) (by simp)
      simp only at e1 e2
      rw [e1] at e2
      simp only [Option.some.injEq, NNode.mk.injEq] at e2
      obtain ⟨rfl, _, _, _, _, hh, _⟩ := e2
      have K1 : Holds h (cellsL (some a) none none 0 cs) := fun x hx => H1 x (by simp [hx])
      have K2 : Holds h (cellsL (some a) none none 0 ds) := fun x hx => H2 x (by simp [hx])
      have key : ∀ (cs ds : List (Tree (Addr × α))) (r1 r2 : Ptr),
          (∀ c ∈ cs, ∀ (u : Tree (Addr × α)) (p1 q1 n1 : Ptr) (k1 : Nat) (p2 q2 n2 : Ptr) (k2 : Nat),
            Holds h (cells p1 q1 n1 k1 c) → Holds h (cells p2 q2 n2 k2 u) → c.addr = u.addr → c = u) →
          Holds h (cellsL (some a) r1 none 0 cs) → Holds h (cellsL (some a) r2 none 0 ds) → headAddr cs = headAddr ds → cs = ds := by
        intro cs
        induction cs with
        | nil =>
          intro ds _ _ _ _ _ hd
          cases ds with
          | nil => rfl
          | cons d ds => simp at hd
        | cons c cs ihl =>
          intro ds r1 r2 ih K1 K2 hd
          cases ds with
          | nil => simp at hd
          | cons d ds =>
            simp at hd
            simp only [cellsL_cons] at K1 K2
            have A1 : Holds h (cells (some a) r1 ((headAddr cs).or none) (cs.length + 0) c) := fun x hx => K1 x (List.mem_append_left _ hx)
            have A2 : Holds h (cells (some a) r2 ((headAddr ds).or none) (ds.length + 0) d) := fun x hx => K2 x (List.mem_append_left _ hx)
            have hcd := ih c (by simp) d _ _ _ _ _ _ _ _ A1 A2 hd
            subst hcd
            have B1 := A1 (c.addr, rec_ (some a) r1 ((headAddr cs).or none) (cs.length + 0) c) (by rw [cells_eq]; simp)
            have B2 := A2 (c.addr, rec_ (some a) r2 ((headAddr ds).or none) (ds.length + 0) c) (by rw [cells_eq]; simp)
            simp only at B1 B2
            rw [B1] at B2
            simp only [rec_, Option.some.injEq, NNode.mk.injEq] at B2
            have hnx : headAddr cs = headAddr ds := by simpa using B2.2.2.2.2.1
            have := ihl ds (some c.addr) (some c.addr) (fun c hc => ih c (by simp [hc])) (fun x hx => K1 x (List.mem_append_right _ hx))
              (fun x hx => K2 x (List.mem_append_right _ hx)) hnx
            rw [this]
      rw [key cs ds none none ih K1 K2 hh]

theorem rep_inj {t u : Option (Tree (Addr × α))} (H1 : (shape α).Rep h t) (H2 : (shape α).Rep h u)
    (e : (shape α).ptr t = (shape α).ptr u) : t = u := by
  rw [shape_ptr, shape_ptr] at e
  cases t with
  | none =>
    cases u with
    | none => rfl
    | some u => simp at e
  | some t =>
    cases u with
    | none => simp at e
    | some u =>
      rw [holds_inj t u _ _ _ _ _ _ _ _ (H1 t rfl).1 (H2 u rfl).1 (by simpa using e)]

end Nary

namespace Binary
variable {α : Type} {h : BHeap α}

theorem holds_inj : ∀ (t u : BTree (Addr × α)) (p q : Ptr), Holds h (cells p t) → Holds h (cells q u) → t.addr? = u.addr? → t = u := by
  intro t
  induction t with
  | nil =>
    intro u p q _ _ e
    cases u with
    | nil => rfl
    | node b l r => simp at e
  | node b l r ihl ihr =>
    intro u p q H1 H2 e
    cases u with
    | nil => simp at e
    | node b' l' r' =>
      obtain ⟨a, v⟩ := b
      obtain ⟨a', v'⟩ := b'
      simp at e
      subst e
      simp only [cells] at H1 H2
      have e1 := H1 (a, ⟨v, p, l.addr?, r.addr?⟩) (by simp)
      have e2 := H2 (a, ⟨v', q, l'.addr?, r'.addr?⟩) (by simp)
      simp only at e1 e2
      rw [e1] at e2
      simp only [Option.some.injEq, BNode.mk.injEq] at e2
      obtain ⟨rfl, _, hl, hr⟩ := e2
      rw [ihl l' (some a) (some a) (fun x hx => H1 x (by simp [hx])) (fun x hx => H2 x (by simp [hx])) hl,
        ihr r' (some a) (some a) (fun x hx => H1 x (by simp [hx])) (fun x hx => H2 x (by simp [hx])) hr]

end Binary

section
variable {ν α lit T V C : Type} {K : Kind ν α lit}

/-- The nodes reachable from a root determine the tree. -/
def Determined (S : Shape K T V C) : Prop := ∀ (h : Heap ν) t u, S.Rep h t → S.Rep h u → S.ptr t = S.ptr u → t = u

theorem Nary.determined (α : Type) : Determined (Nary.shape α) := fun _ _ _ H1 H2 e => Nary.rep_inj H1 H2 e
theorem Binary.determined (α : Type) : Determined (Binary.shape α) := fun _ t u H1 H2 e =>
  Binary.holds_inj t u _ _ H1.1 H2.1 (by rwa [Binary.shape_ptr, Binary.shape_ptr] at e)

variable {S : Shape K T V C} {Z Z' : Addr → Prop}
/-- A program state is one family of trees only. -/
theorem OwnedBut.unique (D : Determined S) {W : World ν} {ts us : Nat → Option T} (O : OwnedBut Z S W ts) (O' : OwnedBut Z' S W us) : ts = us := by
  funext x
  have h1 := O.alive x
  have h2 := O'.alive x
  cases hv : W.vars x with
  | none =>
    rw [hv] at h1 h2
    cases ht : ts x with
    | some t => rw [ht] at h1; cases h1
    | none =>
      cases hu : us x with
      | some t => rw [hu] at h2; cases h2
      | none => rfl
  | some r =>
    rw [hv] at h1 h2
    obtain ⟨t, ht⟩ := Option.isSome_iff_exists.mp h1.symm
    obtain ⟨u, hu⟩ := Option.isSome_iff_exists.mp h2.symm
    rw [ht, hu]
    have e1 := (O.root x r t hv ht).1
    have e2 := (O'.root x r u hv hu).1
    rw [D W.heap t u (O.rep x t ht) (O'.rep x u hu) (e1.symm.trans e2)]
end
