import Verif.Spec.BNav
import Verif.Proof.Tree
import Verif.Proof.Cursor
/-! in_order over a binary navigator. -/
open BTree Policy

namespace BTree
variable {β : Type}

@[simp] theorem label?_node (a : β) (l r) : (node a l r).label? = some a := rfl
@[simp] theorem label?_nil : (nil : BTree β).label? = none := rfl
@[simp] theorem inorder_node (a : β) (l r) : (node a l r).inorder = l.inorder ++ a :: r.inorder := rfl
@[simp] theorem inorder_nil : (nil : BTree β).inorder = [] := rfl
@[simp] theorem size_node (a : β) (l r) : (node a l r).size = l.size + r.size + 1 := rfl
@[simp] theorem size_nil : (nil : BTree β).size = 0 := rfl
@[simp] theorem plug_nil (t : BTree β) : plug [] t = t := rfl
@[simp] theorem plug_cons (f : Frame β) (fs t) : plug (f :: fs) t = plug fs (f.fill t) := rfl
theorem plug_append (fs gs : List (Frame β)) (t) : plug (fs ++ gs) t = plug gs (plug fs t) := by
  induction fs generalizing t <;> simp_all

theorem inorder_perm_pre (t : BTree β) : t.inorder.Perm t.pre := by
  induction t with
  | nil => simp [pre]
  | node a l r ihl ihr =>
    simp [pre]
    refine List.Perm.trans List.perm_middle ?_
    exact List.Perm.cons _ (List.Perm.append ihl ihr)

@[simp] theorem length_inorder (t : BTree β) : t.inorder.length = t.size := by
  induction t <;> simp_all; omega

def inBefore : List (Frame β) → List β
  | [] => []
  | f :: fs => if f.holeLeft then inBefore fs else inBefore fs ++ (f.other.inorder ++ [f.label])
def inAfter : List (Frame β) → List β
  | [] => []
  | f :: fs => if f.holeLeft then f.label :: (f.other.inorder ++ inAfter fs) else inAfter fs

theorem inorder_plug (fs : List (Frame β)) (s : BTree β) :
    (plug fs s).inorder = inBefore fs ++ s.inorder ++ inAfter fs := by
  induction fs generalizing s with
  | nil => simp [inBefore, inAfter]
  | cons f fs ih =>
    cases f with
    | mk a b o => cases b <;> simp [ih, inBefore, inAfter, Frame.fill]

theorem size_plug (fs : List (Frame β)) (s : BTree β) : fs.length + s.size ≤ (plug fs s).size := by
  induction fs generalizing s with
  | nil => simp
  | cons f fs ih =>
    have := ih (f.fill s)
    have h2 : s.size + 1 ≤ (f.fill s).size := by cases f with | mk a b o => cases b <;> simp [Frame.fill] <;> omega
    simp; omega

theorem exists_plug_of_mem {t : BTree β} {a : β} (h : a ∈ t.inorder) : ∃ fs l r, plug fs (node a l r) = t := by
  induction t with
  | nil => simp at h
  | node b l r ihl ihr =>
    simp at h
    rcases h with h | rfl | h
    · obtain ⟨fs, l', r', e⟩ := ihl h
      exact ⟨fs ++ [⟨b, true, r⟩], l', r', by simp [plug_append, e, Frame.fill]⟩
    · exact ⟨[], l, r, rfl⟩
    · obtain ⟨fs, l', r', e⟩ := ihr h
      exact ⟨fs ++ [⟨b, false, l⟩], l', r', by simp [plug_append, e, Frame.fill]⟩

end BTree

variable {nav : Nav} {t : BTree Addr} {fuel : Nat}

theorem inorder_nodup (H : BNavSpec nav t) : t.inorder.Nodup := (inorder_perm_pre t).nodup_iff.mpr H.nodup

theorem keepCalling_left (H : BNavSpec nav t) :
    ∀ (n : Nat) (fs : List (BTree.Frame Addr)) (a : Addr) (l r : BTree Addr), plug fs (.node a l r) = t →
      (BTree.node a l r).size ≤ n →
      ∃ b, keepCalling nav.left n a = Res.ok b ∧ (BTree.node a l r).inorder.head? = some b := by
  intro n
  induction n with
  | zero => intro fs a l r _ hs; simp at hs
  | succ n ih =>
    intro fs a l r h hs
    simp only [keepCalling, H.left fs a l r h, Res.ok_bind]
    cases l with
    | nil => exact ⟨a, by simp⟩
    | node b l' r' =>
      have hp : plug (⟨a, true, r⟩ :: fs) (.node b l' r') = t := by simpa [Frame.fill] using h
      obtain ⟨c, h1, h2⟩ := ih _ b l' r' hp (by simp at hs ⊢; omega)
      refine ⟨c, by simpa using h1, ?_⟩
      rw [inorder_node, List.head?_append, h2]; rfl

theorem keepCalling_right (H : BNavSpec nav t) :
    ∀ (n : Nat) (fs : List (BTree.Frame Addr)) (a : Addr) (l r : BTree Addr), plug fs (.node a l r) = t →
      (BTree.node a l r).size ≤ n →
      ∃ b, keepCalling nav.right n a = Res.ok b ∧ (BTree.node a l r).inorder.getLast? = some b := by
  intro n
  induction n with
  | zero => intro fs a l r _ hs; simp at hs
  | succ n ih =>
    intro fs a l r h hs
    simp only [keepCalling, H.right fs a l r h, Res.ok_bind]
    cases r with
    | nil => exact ⟨a, by simp⟩
    | node b l' r' =>
      have hp : plug (⟨a, false, l⟩ :: fs) (.node b l' r') = t := by simpa [Frame.fill] using h
      obtain ⟨c, h1, h2⟩ := ih _ b l' r' hp (by simp at hs ⊢; omega)
      refine ⟨c, by simpa using h1, ?_⟩
      rw [inorder_node, List.getLast?_append, List.getLast?_cons, h2]; rfl

theorem inClimb (H : BNavSpec nav t) :
    ∀ (n : Nat) (fs : List (BTree.Frame Addr)) (a : Addr) (l r : BTree Addr), plug fs (.node a l r) = t →
      fs.length < n →
      ∃ res found, keepCallingT nav.parent (fun s child _ => do pure (← nav.isLeft child, s))
        (fun _ _ parent => pure (some parent, true)) n false a = Res.ok (res, found) ∧
        (if found then res else none) = (inAfter fs).head? := by
  intro n
  induction n with
  | zero => intro fs a l r _ hs; omega
  | succ n ih =>
    intro fs a l r h hs
    simp only [keepCallingT, H.parent fs a l r h, H.isLeft fs a l r h, Res.ok_bind]
    cases fs with
    | nil => exact ⟨_, _, rfl, by simp [inAfter]⟩
    | cons f fs =>
      cases f with
      | mk b side o =>
        cases side with
        | true => exact ⟨some b, true, by simp, by simp [inAfter]⟩
        | false =>
          have hp : plug fs (.node b o (.node a l r)) = t := by simpa [Frame.fill] using h
          obtain ⟨res, found, h1, h2⟩ := ih fs b _ _ hp (by simp at hs; omega)
          exact ⟨res, found, by simpa using h1, by simpa [inAfter] using h2⟩

theorem inClimbDec (H : BNavSpec nav t) :
    ∀ (n : Nat) (fs : List (BTree.Frame Addr)) (a : Addr) (l r : BTree Addr), plug fs (.node a l r) = t →
      fs.length < n →
      ∃ rt, t.label? = some rt ∧
      keepCallingT nav.parent (fun (_ : Unit) child _ => do pure (← nav.isRight child, ()))
        (fun _ _ parent => pure (some parent, ())) n () a = Res.ok (some ((inBefore fs).getLast?.getD rt), ()) := by
  intro n
  induction n with
  | zero => intro fs a l r _ hs; omega
  | succ n ih =>
    intro fs a l r h hs
    simp only [keepCallingT, H.parent fs a l r h, H.isRight fs a l r h, Res.ok_bind]
    cases fs with
    | nil => simp at h; exact ⟨a, by simp [← h], by simp [inBefore]⟩
    | cons f fs =>
      cases f with
      | mk b side o =>
        cases side with
        | false =>
          have hp : plug fs (.node b o (.node a l r)) = t := by simpa [Frame.fill] using h
          obtain ⟨rt, h0, _⟩ := ih fs b _ _ hp (by simp at hs; omega)
          exact ⟨rt, h0, by simp [inBefore, List.getLast?_append]⟩
        | true =>
          have hp : plug fs (.node b (.node a l r) o) = t := by simpa [Frame.fill] using h
          obtain ⟨rt, h0, h1⟩ := ih fs b _ _ hp (by simp at hs; omega)
          exact ⟨rt, h0, by simpa [inBefore] using h1⟩

theorem in_split (H : BNavSpec nav t) {l1 l2 : List Addr} {a : Addr} (h : t.inorder = l1 ++ a :: l2) :
    ∃ fs l r, plug fs (.node a l r) = t ∧ inBefore fs ++ l.inorder = l1 ∧ r.inorder ++ inAfter fs = l2 := by
  obtain ⟨fs, l, r, hp⟩ := BTree.exists_plug_of_mem (t := t) (a := a) (by rw [h]; simp)
  have hn := inorder_nodup H
  have h0 : t.inorder = (inBefore fs ++ l.inorder) ++ a :: (r.inorder ++ inAfter fs) := by
    rw [← hp, inorder_plug]; simp
  rw [h0] at hn h
  exact ⟨fs, l, r, hp, Tree.split_unique hn h⟩

theorem inInc_list (H : BNavSpec nav t) (hf : t.size ≤ fuel) {l1 l2 : List Addr} {a : Addr}
    (h : t.inorder = l1 ++ a :: l2) : inInc nav fuel a = Res.ok l2.head? := by
  obtain ⟨fs, l, r, hp, _, rfl⟩ := in_split H h
  have hsz := size_plug fs (.node a l r)
  rw [hp] at hsz
  simp only [inInc, H.right _ _ _ _ hp, Res.ok_bind]
  cases r with
  | nil =>
    obtain ⟨res, found, h1, h2⟩ := inClimb H fuel fs a l .nil hp (by simp at hsz; omega)
    simp only [label?_nil, h1, Res.ok_bind, inorder_nil, List.nil_append, ← h2]
    cases found <;> simp
  | node b l' r' =>
    have hp' : plug (⟨a, false, l⟩ :: fs) (.node b l' r') = t := by simpa [Frame.fill] using hp
    obtain ⟨c, h1, h2⟩ := keepCalling_left H fuel _ b l' r' hp' (by simp at hsz ⊢; omega)
    simp only [label?_node, h1, Res.ok_bind, Res.pure_eq, List.head?_append, h2]
    rfl

/-- `--` in in-order; on the first element it lands on the root. -/
theorem inDec_list (H : BNavSpec nav t) (hf : t.size ≤ fuel) {l1 l2 : List Addr} {a : Addr}
    (h : t.inorder = l1 ++ a :: l2) :
    ∃ rt, t.label? = some rt ∧ inDec nav fuel a = Res.ok (some (l1.getLast?.getD rt)) := by
  obtain ⟨fs, l, r, hp, rfl, _⟩ := in_split H h
  have hsz := size_plug fs (.node a l r)
  rw [hp] at hsz
  simp only [inDec, H.left _ _ _ _ hp, Res.ok_bind]
  obtain ⟨rt, h0, h1⟩ := inClimbDec H fuel fs a l r hp (by simp at hsz; omega)
  refine ⟨rt, h0, ?_⟩
  cases l with
  | nil => simp only [label?_nil, h1, Res.ok_bind, inorder_nil, List.append_nil]; rfl
  | node b l' r' =>
    have hp' : plug (⟨a, true, r⟩ :: fs) (.node b l' r') = t := by simpa [Frame.fill] using hp
    obtain ⟨c, h1, h2⟩ := keepCalling_right H fuel _ b l' r' hp' (by simp at hsz ⊢; omega)
    simp only [label?_node, h1, Res.ok_bind, Res.pure_eq, List.getLast?_append, h2]
    rfl

theorem inOrder_inv (H : BNavSpec nav t) (hne : t ≠ .nil) (hf : t.size ≤ fuel) :
    CursorInv inOrder nav fuel t.inorder (fun i s => s.cur = t.inorder[i]?) := by
  cases t with
  | nil => simp at hne
  | node a l r =>
    refine stateless_cursorInv ⟨a, H.root⟩ (fun _ _ _ h => inInc_list H hf h)
      (fun l1 _ _ h hne => ?_) ?_ ?_
    · obtain ⟨rt, _, h2⟩ := inDec_list H hf h
      rw [h2]
      cases hl : l1.getLast? with
      | none => simp_all
      | some b => simp
    · obtain ⟨c, h1, h2⟩ := keepCalling_left H fuel [] a l r rfl hf
      simp [H.root, h1]
      simpa using h2.symm
    · obtain ⟨c, h1, h2⟩ := keepCalling_right H fuel [] a l r rfl hf
      simp [H.root, h1]
      simpa using h2.symm
