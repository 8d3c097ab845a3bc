import Verif.Proof.Cost
/-! The rounds of the loops inside of `++` and `--` of in_order. -/
open BTree Policy Iter

namespace BTree
/-- Left and right exchanged. -/
def flip {β : Type} : BTree β → BTree β
  | nil => nil
  | node a l r => node a r.flip l.flip

variable {β : Type}
theorem flip_flip (t : BTree β) : t.flip.flip = t := by induction t <;> simp_all [flip]
theorem flip_label? (t : BTree β) : t.flip.label? = t.label? := by cases t <;> rfl
theorem flip_size (t : BTree β) : t.flip.size = t.size := by induction t <;> simp_all [flip]; omega
theorem flip_height (t : BTree β) : t.flip.height = t.height := by induction t <;> simp_all [flip, height]; omega
theorem flip_inorder (t : BTree β) : t.flip.inorder = t.inorder.reverse := by induction t <;> simp_all [flip]

def Frame.flip (f : Frame β) : Frame β := ⟨f.label, !f.holeLeft, f.other.flip⟩

theorem flip_plug : ∀ (fs : List (Frame β)) (s : BTree β), (plug fs s).flip = plug (fs.map Frame.flip) s.flip
  | [], s => rfl
  | f :: fs, s => by
    have := flip_plug fs (f.fill s)
    cases f with
    | mk a b o => cases b <;> simpa [Frame.fill, BTree.flip, Frame.flip] using this

/-- The number of nodes from a node down its left children. -/
def chainL : BTree β → Nat
  | nil => 0
  | node _ l _ => l.chainL + 1

theorem chainL_le (t : BTree β) : t.chainL ≤ t.height := by induction t <;> simp_all [chainL, height]; omega

/-- The number of nodes from a hole up to and with the first left child (or the root). -/
def up : List (Frame β) → Nat
  | [] => 1
  | f :: fs => if f.holeLeft then 1 else up fs + 1

theorem up_le : ∀ fs : List (Frame β), up fs ≤ fs.length + 1
  | [] => by simp [up]
  | f :: fs => by have := up_le fs; simp only [up, List.length_cons]; split <;> omega

theorem height_plug : ∀ (fs : List (Frame β)) (s : BTree β), fs.length + s.height ≤ (plug fs s).height
  | [], s => by simp
  | f :: fs, s => by
    have := height_plug fs (f.fill s)
    have h2 : s.height + 1 ≤ (f.fill s).height := by cases f with | mk a b o => cases b <;> simp [Frame.fill, height] <;> omega
    simp; omega

theorem pre_flip_perm (t : BTree β) : t.flip.pre.Perm t.pre := by
  refine (inorder_perm_pre _).symm.trans ?_
  rw [flip_inorder]
  exact (List.reverse_perm _).trans (inorder_perm_pre t)

/-- The nodes in in-order, each with the rounds `++` makes there; `c`: as `up`. -/
def inRounds (c : Nat) : BTree Addr → List (Addr × Nat)
  | nil => []
  | node a l r => l.inRounds 1 ++ (a, match r with | nil => c | node _ _ _ => r.chainL) :: r.inRounds (c + 1)

theorem inRounds_fst (t : BTree Addr) : ∀ c, (t.inRounds c).map Prod.fst = t.inorder := by
  induction t <;> intro c <;> simp_all [inRounds]

theorem inRounds_sum (t : BTree Addr) : ∀ c, t ≠ nil → ((t.inRounds c).map Prod.snd).sum + t.chainL + 1 = c + 2 * t.size := by
  induction t with
  | nil => simp
  | node a l r ihl ihr =>
    intro c _
    simp only [inRounds, List.map_append, List.map_cons, List.sum_append, List.sum_cons, chainL, size_node]
    have h1 := ihl 1
    have h2 := ihr (c + 1)
    cases l <;> cases r <;> simp [inRounds, chainL] at h1 h2 ⊢ <;> omega

/-- What the entries of `inRounds` say. -/
def inAt (fs : List (Frame Addr)) (r : BTree Addr) : Nat := match r with | nil => up fs | node _ _ _ => r.chainL

theorem inRounds_mem {t : BTree Addr} : ∀ (s : BTree Addr) (fs : List (Frame Addr)), plug fs s = t → ∀ a k, (a, k) ∈ s.inRounds (up fs) →
    ∃ fs' l r, plug fs' (node a l r) = t ∧ k = inAt fs' r := by
  intro s
  induction s with
  | nil => simp [inRounds]
  | node b l r ihl ihr =>
    intro fs h a k hm
    simp only [inRounds, List.mem_append, List.mem_cons, Prod.mk.injEq] at hm
    rcases hm with hm | ⟨rfl, rfl⟩ | hm
    · exact ihl (⟨b, true, r⟩ :: fs) (by simpa [Frame.fill] using h) a k (by simpa [up] using hm)
    · exact ⟨fs, l, r, h, by cases r <;> rfl⟩
    · exact ihr (⟨b, false, l⟩ :: fs) (by simpa [Frame.fill] using h) a k (by simpa [up] using hm)

theorem inRounds_le {t : BTree Addr} {a : Addr} {k : Nat} (h : (a, k) ∈ t.inRounds 1) : k ≤ t.height := by
  obtain ⟨fs, l, r, hp, rfl⟩ := inRounds_mem t [] rfl a k h
  have hp : plug fs (node a l r) = t := hp
  have h1 := height_plug fs (node a l r)
  rw [hp] at h1
  have h2 := up_le fs
  have h3 := chainL_le r
  simp only [height] at h1
  simp only [inAt]
  split
  · omega
  · omega
end BTree

/-- The navigator that takes left for right. -/
def Nav.flip (nav : Nav) : Nav := { nav with left := nav.right, right := nav.left, isLeft := nav.isRight, isRight := nav.isLeft }

variable {nav : Nav} {t : BTree Addr}

theorem BNavSpec.flip (H : BNavSpec nav t) : BNavSpec nav.flip t.flip := by
  have key : ∀ fs a l r, plug fs (.node a l r) = t.flip → plug (fs.map BTree.Frame.flip) (.node a r.flip l.flip) = t := by
    intro fs a l r h
    have := congrArg BTree.flip h
    rwa [flip_plug, BTree.flip_flip] at this
  refine ⟨(pre_flip_perm t).nodup_iff.mpr H.nodup, by rw [flip_label?]; exact H.root, ?_, ?_, ?_, ?_, ?_⟩
  · intro fs a l r h
    have := H.parent _ _ _ _ (key fs a l r h)
    cases fs <;> simpa [Nav.flip, BTree.Frame.flip] using this
  · intro fs a l r h
    have := H.right _ _ _ _ (key fs a l r h)
    rwa [flip_label?] at this
  · intro fs a l r h
    have := H.left _ _ _ _ (key fs a l r h)
    rwa [flip_label?] at this
  · intro fs a l r h
    have := H.isRight _ _ _ _ (key fs a l r h)
    cases fs <;> simpa [Nav.flip, BTree.Frame.flip] using this
  · intro fs a l r h
    have := H.isLeft _ _ _ _ (key fs a l r h)
    cases fs <;> simpa [Nav.flip, BTree.Frame.flip] using this

theorem left_takes (H : BNavSpec nav t) : ∀ (l : BTree Addr) (fs : List (BTree.Frame Addr)) (a : Addr) (r : BTree Addr),
    plug fs (.node a l r) = t → ∃ b, Takes (fun n => keepCalling nav.left n a) (l.chainL + 1) b := by
  intro l
  induction l with
  | nil =>
    intro fs a r h
    refine ⟨a, fun n hn => ?_, fun n hn => ?_⟩
    · obtain rfl : n = 0 := by simp [chainL] at hn; omega
      rfl
    · obtain ⟨m, rfl⟩ : ∃ m, n = m + 1 := ⟨n - 1, by omega⟩
      simp [keepCalling, H.left fs a _ r h]
  | node b l' r' ih _ =>
    intro fs a r h
    obtain ⟨c, hc⟩ := ih (⟨a, true, r⟩ :: fs) b r' (by simpa [BTree.Frame.fill] using h)
    have e : ∀ n, keepCalling nav.left (n + 1) a = keepCalling nav.left n b := by
      intro n; simp [keepCalling, H.left fs a _ r h]
    refine ⟨c, fun n hn => ?_, fun n hn => ?_⟩
    · cases n with
      | zero => rfl
      | succ m => exact (e m).trans (hc.1 m (by simp [chainL] at hn; omega))
    · obtain ⟨m, rfl⟩ : ∃ m, n = m + 1 := ⟨n - 1, by omega⟩
      exact (e m).trans (hc.2 m (by simp [chainL] at hn; omega))

theorem up_takes {σ : Type} (H : BNavSpec nav t) (s : σ) (g : σ → σ) : ∀ (fs : List (BTree.Frame Addr)) (a : Addr) (l r : BTree Addr),
    plug fs (.node a l r) = t → ∃ b, Takes (fun n => keepCallingT nav.parent (fun s child _ => do pure (← nav.isLeft child, s))
      (fun s _ parent => pure (some parent, g s)) n s a) (up fs) b := by
  intro fs
  induction fs with
  | nil =>
    intro a l r h
    refine ⟨(some a, s), fun n hn => ?_, fun n hn => ?_⟩
    · obtain rfl : n = 0 := by simp [up] at hn; omega
      rfl
    · obtain ⟨m, rfl⟩ : ∃ m, n = m + 1 := ⟨n - 1, by simp [up] at hn; omega⟩
      simp [keepCallingT, H.parent _ a l r h]
  | cons f fs ih =>
    intro a l r h
    cases f with
    | mk b side o =>
      have e : ∀ n, keepCallingT nav.parent (fun s child _ => do pure (← nav.isLeft child, s))
          (fun s _ parent => pure (some parent, g s)) (n + 1) s a =
          if side then Res.ok (some b, g s) else keepCallingT nav.parent (fun s child _ => do pure (← nav.isLeft child, s))
          (fun s _ parent => pure (some parent, g s)) n s b := by
        intro n
        simp [keepCallingT, H.parent _ a l r h, H.isLeft _ a l r h]
      cases side with
      | true =>
        refine ⟨(some b, g s), fun n hn => ?_, fun n hn => ?_⟩
        · obtain rfl : n = 0 := by simp [up] at hn; omega
          rfl
        · obtain ⟨m, rfl⟩ : ∃ m, n = m + 1 := ⟨n - 1, by simp [up] at hn; omega⟩
          simpa using e m
      | false =>
        obtain ⟨c, hc⟩ := ih b o (.node a l r) (by simpa [BTree.Frame.fill] using h)
        simp only [Bool.false_eq_true, if_false] at e
        refine ⟨c, fun n hn => ?_, fun n hn => ?_⟩
        · cases n with
          | zero => rfl
          | succ m => exact (e m).trans (hc.1 m (by simp [up] at hn; omega))
        · simp only [up, Bool.false_eq_true, if_false] at hn
          obtain ⟨m, rfl⟩ : ∃ m, n = m + 1 := ⟨n - 1, by omega⟩
          exact (e m).trans (hc.2 m (by omega))

theorem Takes.bind {β γ : Type} {f : Nat → Res β} {k : Nat} {b : β} (h : Takes f k b) {g : β → Res γ} {c : γ} (hg : g b = Res.ok c) :
    Takes (fun n => do g (← f n)) k c :=
  ⟨fun n hn => by simp [h.1 n hn], fun n hn => by simp [h.2 n hn, hg]⟩

theorem inInc_takes (H : BNavSpec nav t) (fs : List (BTree.Frame Addr)) (a : Addr) (l r : BTree Addr) (h : plug fs (.node a l r) = t) :
    Takes (fun n => inInc nav n a) (inAt fs r) (r.inorder ++ inAfter fs).head? := by
  suffices ∃ b, Takes (fun n => inInc nav n a) (inAt fs r) b by
    obtain ⟨b, hb⟩ := this
    refine hb.to (inInc_list H (Nat.le_refl _) (l1 := inBefore fs ++ l.inorder) ?_)
    rw [← h, inorder_plug]; simp
  cases r with
  | nil =>
    obtain ⟨b, hb⟩ := up_takes H false (fun _ => true) fs a l .nil h
    refine ⟨if b.2 then b.1 else none, (hb.bind (g := fun p => if p.2 then pure p.1 else pure none) (by cases b.2 <;> rfl)).congr fun n => ?_⟩
    simp only [inInc, H.right _ _ _ _ h, label?_nil, Res.ok_bind]
  | node b l' r' =>
    obtain ⟨c, hc⟩ := left_takes H l' (⟨a, false, l⟩ :: fs) b r' (by simpa [BTree.Frame.fill] using h)
    refine ⟨some c, (hc.map some).congr fun n => ?_⟩
    simp only [inInc, H.right _ _ _ _ h, label?_node, Res.ok_bind]

/-- The rounds of `--` are those of `++` on the flipped tree. -/
theorem inDec_takes (H : BNavSpec nav t) (fs : List (BTree.Frame Addr)) (a : Addr) (l r : BTree Addr) (h : plug fs (.node a l r) = t.flip) :
    ∃ b, Takes (fun n => inDec nav n a) (inAt fs r) b := by
  have H' := H.flip
  have hr : nav.left a = Res.ok r.label? := H'.right _ _ _ _ h
  cases r with
  | nil =>
    obtain ⟨b, hb⟩ := up_takes H' () (fun _ => ()) fs a l .nil h
    refine ⟨b.1, (hb.map Prod.fst).congr fun n => ?_⟩
    simp only [inDec, hr, label?_nil, Res.ok_bind]
    rfl
  | node b l' r' =>
    obtain ⟨c, hc⟩ := left_takes H' l' (⟨a, false, l⟩ :: fs) b r' (by simpa [BTree.Frame.fill] using h)
    refine ⟨some c, (hc.map some).congr fun n => ?_⟩
    simp only [inDec, hr, label?_node, Res.ok_bind]
    rfl

theorem in_at (H : BNavSpec nav t) {l1 l2 : List (Addr × Nat)} {a : Addr} {k : Nat} (e : t.inRounds 1 = l1 ++ (a, k) :: l2) :
    Takes (fun n => inInc nav n a) k (l2.head?.map Prod.fst) := by
  obtain ⟨fs, l, r, hp, rfl⟩ := inRounds_mem t [] rfl a k (by rw [show up [] = 1 from rfl, e]; simp)
  have hp : plug fs (.node a l r) = t := hp
  have hb : t.inorder = (inBefore fs ++ l.inorder) ++ a :: (r.inorder ++ inAfter fs) := by
    rw [← hp, inorder_plug]; simp
  have h2 := (split_fst e (inRounds_fst t 1) (inorder_nodup H) hb).2
  have := inInc_takes H fs a l r hp
  rw [← h2] at this
  simpa using this

theorem inOrder_forward (H : BNavSpec nav t) (hne : t ≠ .nil) : ForwardTakes inOrder nav t.size (2 * t.size) t.height := by
  have hloop := loop_along (step := Iter.inc inOrder nav) (stop := none) (most := t.height) (t.inRounds 1) none rfl (by simp)
    (fun p hp => inRounds_le (a := p.1) hp) (by
    intro l1 a k l2 e
    have := (in_at H e).map (fun r => (⟨r, []⟩ : ItState))
    simpa [Iter.inc, inOrder, stateless] using this) (t.inRounds 1) [] rfl
  have hsum := inRounds_sum t 1 hne
  have hlen : (t.inRounds 1).length = t.size := by
    rw [← List.length_map (f := Prod.fst), inRounds_fst, length_inorder]
  have hle := chainL_le t
  have hg : ∃ b, Takes (fun n => Iter.begin_ inOrder nav n) t.chainL ⟨some b, []⟩ ∧ t.inorder.head? = some b := by
    cases t with
    | nil => simp at hne
    | node a l r =>
      obtain ⟨b, hb⟩ := left_takes H l [] a r rfl
      refine ⟨b, (hb.map (fun a => (⟨some a, []⟩ : ItState))).congr fun n => ?_, ?_⟩
      · simp only [Iter.begin_, Iter.end_, Iter.inc, inOrder, stateless, H.root, label?_node, deref, Res.pure_eq, Res.ok_bind]
        cases keepCalling nav.left n a <;> rfl
      · obtain ⟨c, h1, h2⟩ := keepCalling_left H (BTree.node a l r).size [] a l r rfl (Nat.le_refl _)
        have h3 : Takes (fun n => keepCalling nav.left n a) (l.chainL + 1) c := hb.to h1
        have := (hb.2 (l.chainL + 1) (Nat.le_refl _)).symm.trans (h3.2 _ (Nat.le_refl _))
        simp at this
        rw [h2, this]
  obtain ⟨b, hg, hv⟩ := hg
  have hv : ((t.inRounds 1).head?.map Prod.fst).or none = some b := by
    rw [Option.or_none, ← List.head?_map, inRounds_fst, hv]
  rw [hv, hlen] at hloop
  exact ⟨_, _, _, hg, hle, hloop, by omega⟩

theorem inOrder_backward (H : BNavSpec nav t) (hne : t ≠ .nil) :
    ∃ total, total ≤ 2 * t.size ∧ BackwardTakes inOrder nav t.size total t.height := by
  have H' := H.flip
  have hfst := inRounds_fst t.flip 1
  have hne' : t.flip ≠ .nil := by cases t <;> simp_all [BTree.flip]
  have hlen : (t.flip.inRounds 1).length = t.size := by
    rw [← List.length_map (f := Prod.fst), hfst, length_inorder, flip_size]
  have hpos : 0 < t.size := by cases t <;> simp_all
  obtain ⟨L, ⟨z, kz⟩, hL⟩ : ∃ L p, t.flip.inRounds 1 = L ++ [p] := by
    rcases List.eq_nil_or_concat (t.flip.inRounds 1) with h | ⟨L, p, h⟩
    · rw [h] at hlen; simp at hlen; omega
    · exact ⟨L, p, by rw [h, List.concat_eq_append]⟩
  have hnd := inorder_nodup H'
  rw [← hfst, hL, List.map_append] at hnd
  have hz : z ∉ L.map Prod.fst := fun hm => (List.nodup_append.mp hnd).2.2 z hm z (by simp) rfl
  have hloop := loop_along (step := Iter.dec inOrder nav) (stop := some z) (most := t.height) L (some z) rfl
    (by
      intro p hp e
      simp only [Option.some.injEq] at e
      exact hz (e ▸ List.mem_map_of_mem hp))
    (fun p hp => by rw [← flip_height t]; exact inRounds_le (a := p.1) (by rw [hL]; simp; left; exact hp)) (by
    intro l1 a k l2 e
    have e' : t.flip.inRounds 1 = l1 ++ (a, k) :: (l2 ++ [(z, kz)]) := by rw [hL, e]; simp
    obtain ⟨fs, l, r, hp, rfl⟩ := inRounds_mem t.flip [] rfl a k (by rw [show up [] = 1 from rfl, e']; simp)
    obtain ⟨b, hb⟩ := inDec_takes H fs a l r hp
    have hord : t.inorder = (l2 ++ [(z, kz)]).reverse.map Prod.fst ++ a :: l1.reverse.map Prod.fst := by
      have := congrArg List.reverse hfst
      rw [flip_inorder, List.reverse_reverse, e'] at this
      rw [← this]; simp
    obtain ⟨rt, _, hd⟩ := inDec_list H (fuel := t.size) (Nat.le_refl _) hord
    have := (hb.to hd).map (fun r => (⟨r, []⟩ : ItState))
    have e2 : some (((l2 ++ [(z, kz)]).reverse.map Prod.fst).getLast?.getD rt) = (l2.head?.map Prod.fst).or (some z) := by
      rw [getLast?_eq_head?, ← List.map_reverse, List.reverse_reverse]; cases l2 <;> simp
    rw [e2] at this
    simpa [Iter.dec, inOrder, stateless] using this) L [] rfl
  have hsum := inRounds_sum t.flip 1 hne'
  rw [hL, flip_size] at hsum
  rw [hL] at hlen
  simp only [List.map_append, List.sum_append, List.length_append, List.length_singleton] at hsum hlen
  have hg : ∃ b, Takes (fun n => Iter.dec inOrder nav n ⟨none, []⟩) t.flip.chainL ⟨some b, []⟩ ∧ t.inorder.getLast? = some b := by
    cases t with
    | nil => simp at hne
    | node a l r =>
      obtain ⟨b, hb⟩ := left_takes H' r.flip [] a l.flip rfl
      have hb : Takes (fun n => keepCalling nav.right n a) (r.flip.chainL + 1) b := hb
      refine ⟨b, (hb.map (fun a => (⟨some a, []⟩ : ItState))).congr fun n => ?_, ?_⟩
      · simp only [Iter.dec, inOrder, stateless, H.root, label?_node, deref, Res.pure_eq, Res.ok_bind]
        cases keepCalling nav.right n a <;> rfl
      · obtain ⟨c, h1, h2⟩ := keepCalling_right H (BTree.node a l r).size [] a l r rfl (Nat.le_refl _)
        have h3 : Takes (fun n => keepCalling nav.right n a) (r.flip.chainL + 1) c := hb.to h1
        have := (hb.2 (r.flip.chainL + 1) (Nat.le_refl _)).symm.trans (h3.2 _ (Nat.le_refl _))
        simp at this
        rw [h2, this]
  obtain ⟨c, hg, hv⟩ := hg
  have hstart : (L.head?.map Prod.fst).or (some z) = some c := by
    rw [← hv, getLast?_eq_head?, ← flip_inorder, ← hfst, hL]; cases L <;> simp
  rw [hstart] at hloop
  obtain ⟨b, k, _, hbeg, _, _, _⟩ := inOrder_forward H hne
  have hbz : b.cur = some z := by
    have hQ := (inOrder_inv H hne (Nat.le_add_right t.size k)).goFirst (s := ⟨none, []⟩) (by simp)
    obtain ⟨s', h1, h2⟩ := hQ
    have h3 : Iter.begin_ inOrder nav (t.size + k) = Res.ok b := hbeg.2 _ (by omega)
    cases t with
    | nil => simp at hne
    | node a l r =>
      have h4 : Iter.begin_ inOrder nav ((BTree.node a l r).size + k) = inOrder.goFirst nav ((BTree.node a l r).size + k) [] := by
        simp only [Iter.begin_, Iter.end_, Iter.inc, inOrder, stateless, H.root, label?_node, Res.pure_eq, Res.ok_bind]
      have h5 : b = s' := by
        have := h3.symm.trans (h4.trans h1)
        simpa using this
      rw [h5, h2, ← List.head?_eq_getElem?]
      have := congrArg List.reverse hfst
      rw [flip_inorder, List.reverse_reverse, hL] at this
      rw [← this]; simp
  refine ⟨t.flip.chainL + (L.map Prod.snd).sum, by omega, b, ⟨none, []⟩, k, hbeg,
    ⟨fun n hn => absurd hn (Nat.not_lt_zero n), fun _ _ => rfl⟩, ?_⟩
  rw [hbz, ← hlen]
  refine Loop.step (s := ⟨none, []⟩) (by simp) hg ?_ hloop
  rw [← flip_height]; exact chainL_le _
