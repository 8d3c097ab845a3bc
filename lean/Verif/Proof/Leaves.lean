import Verif.Proof.PrePost
/-! leaves, siblings and fixed policies. -/
open Tree Policy Iter

namespace Tree
variable {β : Type}

def leavesAfter : List (Frame β) → List β
  | [] => []
  | f :: fs => leavesL f.rights ++ leavesAfter fs
def leavesBefore : List (Frame β) → List β
  | [] => []
  | f :: fs => leavesBefore fs ++ leavesL f.lefts

theorem leaves_node_ne (a : β) (cs : List (Tree β)) (h : cs ≠ []) : (node a cs).leaves = leavesL cs := by
  cases cs with
  | nil => simp at h
  | cons c cs => simp

theorem leaves_ne_nil (t : Tree β) : t.leaves ≠ [] := by
  induction t using ind with
  | h a cs ih =>
    cases cs with
    | nil => simp
    | cons c cs => have := ih c (by simp); simp [this]

theorem leaves_plug (fs : List (Frame β)) (s : Tree β) :
    (plug fs s).leaves = leavesBefore fs ++ s.leaves ++ leavesAfter fs := by
  induction fs generalizing s with
  | nil => simp [leavesBefore, leavesAfter]
  | cons f fs ih =>
    rw [plug_cons, ih, leaves_node_ne _ _ (by simp)]
    simp [leavesBefore, leavesAfter]

theorem leaves_sublist_pre (t : Tree β) : t.leaves.Sublist t.pre := by
  induction t using ind with
  | h a cs ih =>
    cases cs with
    | nil => simp
    | cons c cs =>
      rw [leaves_node_ne _ _ (by simp), pre_node]
      refine List.Sublist.trans ?_ (List.sublist_cons_self _ _)
      generalize c :: cs = l at ih
      induction l with
      | nil => simp
      | cons d l ih2 =>
        simp
        exact List.Sublist.append (ih d (by simp)) (ih2 (fun c hc => ih c (by simp [hc])))

theorem leaves_head_post (t : Tree β) : t.leaves.head? = t.post.head? := by
  induction t using ind with
  | h a cs ih =>
    cases cs with
    | nil => simp
    | cons c cs =>
      have h1 := ih c (by simp)
      have h2 := leaves_ne_nil c
      have h3 : c.post ≠ [] := by rw [post_eq]; simp
      simp only [leaves_cons, post_node, postL_cons, List.append_assoc, List.head?_append, h1]
      rw [List.head?_eq_some_head h3]; rfl

theorem leaves_mirror (t : Tree β) : t.mirror.leaves = t.leaves.reverse := by
  induction t using ind with
  | h a cs ih =>
    cases cs with
    | nil => simp
    | cons c cs =>
      rw [mirror_node, leaves_node_ne _ _ (by simp), leaves_node_ne _ _ (by simp)]
      generalize c :: cs = l at ih
      induction l with
      | nil => simp
      | cons d l ih2 =>
        have h1 := ih d (by simp)
        have h2 := ih2 (fun c hc => ih c (by simp [hc]))
        simp [h1, h2]

theorem exists_leaf {t : Tree β} {a : β} (h : a ∈ t.leaves) :
    ∃ fs, plug fs (node a []) = t := by
  induction t using ind with
  | h b cs ih =>
    cases cs with
    | nil => simp at h; exact ⟨[], by simp [h]⟩
    | cons c cs =>
      rw [leaves_node_ne _ _ (by simp)] at h
      have : ∃ d ∈ c :: cs, a ∈ d.leaves := by
        generalize c :: cs = l at h
        clear ih
        induction l with
        | nil => simp at h
        | cons d l ih2 =>
          simp at h
          rcases h with h | h
          · exact ⟨d, by simp, h⟩
          · obtain ⟨e, h1, h2⟩ := ih2 h; exact ⟨e, by simp [h1], h2⟩
      obtain ⟨d, hd, ha⟩ := this
      obtain ⟨fs, h1⟩ := ih d hd ha
      obtain ⟨l, r, he⟩ := List.append_of_mem hd
      exact ⟨fs ++ [⟨b, l, r⟩], by simp [plug_append, h1, he]⟩

end Tree

variable {nav : Nav} {t : Tree Addr} {fuel : Nat}

/-- The path nodes, from `a` (the hole's occupant) upwards, that have a next sibling. -/
def stk : Addr → List (Frame Addr) → List Addr
  | _, [] => []
  | a, f :: fs => (if f.rights.isEmpty then [] else [a]) ++ stk f.label fs
def stkTail : List (Frame Addr) → List Addr
  | [] => []
  | f :: fs => stk f.label fs

theorem leavesDescend_spec (H : NavSpec nav t) :
    ∀ (n : Nat) (fs : List (Frame Addr)) (s : Tree Addr), plug fs s = t → s.size ≤ n →
    ∃ gs a, plug gs (node a []) = t ∧ leavesDescend nav n s.label (stkTail fs) = Res.ok ⟨some a, stk a gs⟩ ∧
      s.leaves ++ leavesAfter fs = a :: leavesAfter gs := by
  intro n
  induction n with
  | zero => intro fs s _ hs; have := size_pos s; omega
  | succ n ih =>
    intro fs s h hs
    have hst : (if (fs.head?.bind (fun f => f.rights.head?.map label) : Option Addr).isSome = true then s.label :: stkTail fs else stkTail fs)
        = stk s.label fs := by
      cases fs with
      | nil => rfl
      | cons f fs => cases hr : f.rights <;> simp [stk, stkTail, hr]
    simp only [leavesDescend, H.next _ s h, H.first _ s h, Res.ok_bind, hst]
    cases s with
    | node a cs =>
      cases cs with
      | nil => exact ⟨fs, a, h, by simp, by simp⟩
      | cons c cs =>
        have hp : plug (⟨a, [], cs⟩ :: fs) c = t := by simpa using h
        obtain ⟨gs, b, h1, h2, h3⟩ := ih _ c hp (by simp at hs; omega)
        refine ⟨gs, b, h1, by simpa [stkTail] using h2, ?_⟩
        simpa [leavesAfter] using h3

theorem stk_spec : ∀ (gs : List (Frame Addr)) (s : Tree Addr),
    (stk s.label gs = [] ∧ leavesAfter gs = []) ∨
    (∃ f fs c r rs, plug (f :: fs) c = plug gs s ∧ f.rights = r :: rs ∧
      stk s.label gs = c.label :: stk f.label fs ∧ leavesAfter gs = leavesAfter (f :: fs)) := by
  intro gs
  induction gs with
  | nil => intro s; left; simp [stk, leavesAfter]
  | cons g gs ih =>
    intro s
    cases hr : g.rights with
    | nil =>
      rcases ih (node g.label (g.lefts ++ s :: g.rights)) with ⟨h1, h2⟩ | ⟨f, fs, c, r, rs, h1, h2, h3, h4⟩
      · left; simp at h1; simp [stk, leavesAfter, hr, h1, h2]
      · right
        refine ⟨f, fs, c, r, rs, by simpa using h1, h2, ?_, ?_⟩
        · simp at h3; simp [stk, hr, h3]
        · simp [leavesAfter, hr] at h4 ⊢; exact h4
    | cons r rs =>
      right
      exact ⟨g, gs, s, r, rs, rfl, hr, by simp [stk, hr], rfl⟩

theorem leavesInc_spec (H : NavSpec nav t) (hf : t.size ≤ fuel) {gs : List (Frame Addr)} {s : Tree Addr}
    (h : plug gs s = t) :
    (leavesInc nav fuel (stk s.label gs) = Res.ok ⟨none, []⟩ ∧ leavesAfter gs = []) ∨
    (∃ ks b, plug ks (node b []) = t ∧ leavesInc nav fuel (stk s.label gs) = Res.ok ⟨some b, stk b ks⟩ ∧
      leavesAfter gs = b :: leavesAfter ks) := by
  rcases stk_spec gs s with ⟨h1, h2⟩ | ⟨f, fs, c, r, rs, h1, h2, h3, h4⟩
  · left; simp [h1, h2, leavesInc]
  · right
    rw [h] at h1
    have hp : plug (⟨f.label, f.lefts ++ [c], rs⟩ :: fs) r = t := by rw [← h1]; simp [h2]
    have hsz := sub_size_le hp
    obtain ⟨ks, b, k1, k2, k3⟩ := leavesDescend_spec H fuel _ r hp (by omega)
    refine ⟨ks, b, k1, ?_, ?_⟩
    · rw [h3]
      simp only [leavesInc, H.next _ c h1, List.head?_cons, Option.bind_some, h2, Option.map_some, Res.ok_bind, deref_some]
      exact k2
    · rw [h4, ← k3]; simp [leavesAfter, h2]

theorem leaves_forwardFrom (H : NavSpec nav t) (hf : t.size ≤ fuel) :
    ∀ (n : Nat) (gs : List (Frame Addr)) (a : Addr), plug gs (node a []) = t → (leavesAfter gs).length + 1 < n →
    forwardFrom leaves nav fuel n ⟨some a, stk a gs⟩ = Res.ok (a :: leavesAfter gs) := by
  intro n
  induction n with
  | zero => intro gs a _ hn; omega
  | succ n ih =>
    intro gs a h hn
    simp only [forwardFrom, Iter.inc, Policy.leaves]
    rcases leavesInc_spec H hf h with ⟨h1, h2⟩ | ⟨ks, b, k1, k2, k3⟩
    · simp only [label_node] at h1
      have : ∃ m, n = m + 1 := ⟨n - 1, by omega⟩
      obtain ⟨m, rfl⟩ := this
      rw [h1, h2]; simp [forwardFrom]
    · simp only [label_node] at k2
      rw [k2]
      simp only [Res.ok_bind]
      have := ih ks b k1 (by rw [k3] at hn; simp at hn; omega)
      simp only [Policy.leaves] at this
      rw [this, k3]; rfl

theorem leaves_length_le (t : Tree Addr) : t.leaves.length ≤ t.size := by
  have := (leaves_sublist_pre t).length_le; simpa using this

theorem leaves_forward (H : NavSpec nav t) (hf : t.size < fuel) :
    forward leaves nav fuel = Res.ok t.leaves := by
  obtain ⟨gs, a, h1, h2, h3⟩ := leavesDescend_spec H fuel [] t rfl (by omega)
  have hb : begin_ leaves nav fuel = Res.ok ⟨some a, stk a gs⟩ := by
    simp only [stkTail] at h2
    simp [begin_, end_, Policy.leaves, Iter.inc, H.root, h2]
  have h3' : t.leaves = a :: leavesAfter gs := by simpa [leavesAfter] using h3
  have hl := leaves_length_le t
  rw [h3'] at hl
  simp only [forward, hb, Res.ok_bind]
  rw [leaves_forwardFrom H (by omega) fuel gs a h1 (by simp at hl; omega), ← h3']

/-- Walking forward `i` times from `begin()`. -/
theorem leaves_walk (H : NavSpec nav t) (hf : t.size ≤ fuel) (i : Nat) (hi : i ≤ t.leaves.length) :
    ∃ b s, begin_ leaves nav fuel = Res.ok b ∧ moves leaves nav fuel (List.replicate i .inc) b = Res.ok s ∧
      s.cur = t.leaves[i]? := by
  obtain ⟨gs, a, h1, h2, h3⟩ := leavesDescend_spec H fuel [] t rfl hf
  have hb : begin_ leaves nav fuel = Res.ok ⟨some a, stk a gs⟩ := by
    simp only [stkTail] at h2
    simp [begin_, end_, Policy.leaves, Iter.inc, H.root, h2]
  have h3' : t.leaves = a :: leavesAfter gs := by simpa [leavesAfter] using h3
  refine ⟨⟨some a, stk a gs⟩, ?_⟩
  suffices hgen : ∀ (i : Nat) (gs : List (Frame Addr)) (a : Addr), plug gs (node a []) = t → i ≤ (leavesAfter gs).length + 1 →
      ∃ s, moves leaves nav fuel (List.replicate i .inc) ⟨some a, stk a gs⟩ = Res.ok s ∧ s.cur = (a :: leavesAfter gs)[i]? by
    obtain ⟨s, hs1, hs2⟩ := hgen i gs a h1 (by rw [h3'] at hi; simpa using hi)
    exact ⟨s, hb, hs1, by rw [hs2, h3']⟩
  intro i
  induction i with
  | zero => intro gs a _ _; exact ⟨_, rfl, by simp⟩
  | succ i ih =>
    intro gs a h hi
    simp only [List.replicate_succ, moves, move, Iter.inc, Policy.leaves]
    rcases leavesInc_spec H hf h with ⟨h1, h2⟩ | ⟨ks, b, k1, k2, k3⟩
    · simp only [label_node] at h1
      rw [h1]
      rw [h2] at hi
      have : i = 0 := by simp at hi; omega
      subst this
      exact ⟨_, rfl, by simp [h2]⟩
    · simp only [label_node] at k2
      rw [k2, k3]
      simp only [Res.ok_bind]
      obtain ⟨s, hs1, hs2⟩ := ih ks b k1 (by rw [k3] at hi; simp at hi; omega)
      exact ⟨s, by simpa [Policy.leaves] using hs1, by rw [hs2]; simp⟩

/-! ### backwards -/

theorem leavesClimb (H : NavSpec nav t) :
    ∀ (n : Nat) (fs : List (Frame Addr)) (s : Tree Addr), plug fs s = t → fs.length < n →
    (∃ gs r, plug gs r = t ∧ leavesAfter fs = r.leaves ++ leavesAfter gs ∧
      climb nav n (fun c => do pure (!(← nav.isLast c))) (fun c => nav.next c) s.label = Res.ok (some r.label)) ∨
    (climb nav n (fun c => do pure (!(← nav.isLast c))) (fun c => nav.next c) s.label = Res.ok (some t.label) ∧
      leavesAfter fs = []) := by
  intro n
  induction n with
  | zero => intro fs s _ hn; omega
  | succ n ih =>
    intro fs s h hn
    cases fs with
    | nil =>
      right
      simp at h
      subst h
      have hp := H.parent [] s rfl
      simp [climb, keepCallingT, hp, leavesAfter]
    | cons f fs =>
      cases hr : f.rights with
      | cons r rs =>
        left
        refine ⟨⟨f.label, f.lefts ++ [s], rs⟩ :: fs, r, by rw [← h]; simp [hr], by simp [leavesAfter, hr], ?_⟩
        simp [climb, keepCallingT, H.parent _ s h, H.isLast _ s h, H.next _ s h, hr]
      | nil =>
        have hp : plug fs (node f.label (f.lefts ++ s :: f.rights)) = t := by simpa using h
        have hstep : climb nav (n + 1) (fun c => do pure (!(← nav.isLast c))) (fun c => nav.next c) s.label
            = climb nav n (fun c => do pure (!(← nav.isLast c))) (fun c => nav.next c) f.label := by
          simp [climb, keepCallingT, H.parent _ s h, H.isLast _ s h, hr]
        rw [hstep]
        rcases ih fs _ hp (by simp at hn; omega) with ⟨gs, r, h1, h2, h3⟩ | ⟨h1, h2⟩
        · left; exact ⟨gs, r, h1, by simpa [leavesAfter, hr] using h2, h3⟩
        · right; exact ⟨h1, by simpa [leavesAfter, hr] using h2⟩

/-- `--` of leaves: the previous leaf; from the first leaf it wraps around to the last one. -/
theorem leavesDec_list (H : NavSpec nav t) (hf : t.size ≤ fuel) {l1 l2 : List Addr} {a : Addr} (st : List Addr)
    (h : t.leaves = l1 ++ a :: l2) :
    ∃ s, leavesDec nav fuel a st = Res.ok s ∧
      s.cur = (if l1 = [] then t.leaves.getLast? else l1.getLast?) := by
  have H' := H.mirror
  have hm : t.mirror.leaves = l2.reverse ++ a :: l1.reverse := by rw [leaves_mirror, h]; simp
  obtain ⟨fs, hp⟩ := exists_leaf (t := t.mirror) (a := a) (by rw [hm]; simp)
  have hn : t.mirror.leaves.Nodup := (leaves_sublist_pre _).nodup H'.nodup
  have h0 : t.mirror.leaves = leavesBefore fs ++ a :: leavesAfter fs := by
    rw [← hp, leaves_plug]; simp
  rw [h0] at hn hm
  obtain ⟨_, ha⟩ := split_unique hn hm
  have hsz := sub_size_le hp
  rw [size_mirror] at hsz
  simp at hsz
  have hdec : leavesDec nav fuel a st = (do
      match ← climb nav.mirror fuel (fun c => do pure (!(← nav.mirror.isLast c))) (fun c => nav.mirror.next c) a with
      | none => pure ⟨none, st⟩
      | some nd => do pure ⟨some (← keepCalling nav.mirror.first fuel nd), nd :: st⟩) := rfl
  rw [hdec]
  rcases leavesClimb H' fuel fs _ hp (by omega) with ⟨gs, r, k1, k2, k3⟩ | ⟨k1, k2⟩
  · simp only [label_node] at k3
    rw [k3]
    have hszr := sub_size_le k1
    rw [size_mirror] at hszr
    obtain ⟨b, q1, q2⟩ := keepCalling_first H' fuel gs r k1 (by omega)
    simp only [Res.ok_bind, q1, Res.pure_eq]
    refine ⟨_, rfl, ?_⟩
    rw [← leaves_head_post] at q2
    have hl1 : l1 ≠ [] := by
      intro e
      rw [e] at ha
      simp [k2] at ha
      exact leaves_ne_nil r ha.1
    rw [if_neg hl1]
    have : l1.getLast? = l1.reverse.head? := by simp
    rw [this, ← ha, k2, List.head?_append, q2]; rfl
  · simp only [label_node] at k1
    rw [k1]
    have hl1 : l1 = [] := by rw [k2] at ha; simpa using ha.symm
    obtain ⟨b, q1, q2⟩ := keepCalling_first H' fuel [] t.mirror rfl (by rw [size_mirror]; exact hf)
    simp only [Res.ok_bind, q1, Res.pure_eq]
    refine ⟨_, rfl, ?_⟩
    rw [if_pos hl1]
    rw [← leaves_head_post, leaves_mirror] at q2
    simpa using q2.symm

theorem backwardFrom_of {P : Policy} {L : List Addr} (hr : ∃ r, nav.root = some r)
    (hdec : ∀ i s a, 0 < i → L[i]? = some a → ∃ s', P.dec nav fuel a s = Res.ok s' ∧ s'.cur = L[i - 1]?)
    (hlast : ∀ s, ∃ s', P.goLast nav fuel s = Res.ok s' ∧ s'.cur = L.getLast?) (hn : L.Nodup) :
    ∀ (n i : Nat) (s : ItState), i ≤ L.length → s.cur = L[i]? → i < n →
      backwardFrom P nav fuel L[0]? n s = Res.ok (L.take i).reverse := by
  obtain ⟨r, hr⟩ := hr
  intro n
  induction n with
  | zero => intro i s hi _ hn; omega
  | succ n ih =>
    intro i s hi hc hin
    by_cases h0 : i = 0
    · subst h0
      simp [backwardFrom, hc]
    · have hne : ¬ (L[i]? = L[0]?) := by
        intro he
        by_cases hlt : i < L.length
        · exact h0 ((List.getElem?_inj hlt hn).mp he)
        · have h00 : 0 < L.length := by omega
          rw [List.getElem?_eq_none (by omega), List.getElem?_eq_getElem h00] at he
          simp at he
      have hd : ∃ s', Iter.dec P nav fuel s = Res.ok s' ∧ s'.cur = L[i - 1]? := by
        by_cases hlt : i < L.length
        · have he : L[i]? = some L[i] := by simp [hlt]
          obtain ⟨s', h1, h2⟩ := hdec i s.aux L[i] (by omega) he
          exact ⟨s', by simp [Iter.dec, hc, hlt, h1], h2⟩
        · have : i = L.length := by omega
          subst this
          obtain ⟨s', h1, h2⟩ := hlast s.aux
          exact ⟨s', by simp [Iter.dec, hc, hr, h1], by rw [h2, List.getLast?_eq_getElem?]⟩
      obtain ⟨s', h1, h2⟩ := hd
      have hlt : i - 1 < L.length := by omega
      have hrec := ih (i - 1) s' (by omega) h2 (by omega)
      simp only [backwardFrom, hc, h1, Res.ok_bind, h2, List.getElem?_eq_getElem hlt, deref_some, hrec]
      have : (L.take i).reverse = L[i-1] :: (L.take (i-1)).reverse := by
        have : i = (i - 1) + 1 := by omega
        conv => lhs; rw [this]
        rw [List.take_succ_eq_append_getElem hlt]
        simp
      rw [this]
      simp [hne]

theorem leaves_backward (H : NavSpec nav t) (hf : t.size < fuel) :
    backward leaves nav fuel = Res.ok t.leaves.reverse := by
  obtain ⟨gs, a, h1, h2, h3⟩ := leavesDescend_spec H fuel [] t rfl (by omega)
  have hb : begin_ leaves nav fuel = Res.ok ⟨some a, stk a gs⟩ := by
    simp only [stkTail] at h2
    simp [begin_, end_, Policy.leaves, Iter.inc, H.root, h2]
  have h3' : t.leaves = a :: leavesAfter gs := by simpa [leavesAfter] using h3
  have hl := leaves_length_le t
  have hn : t.leaves.Nodup := (leaves_sublist_pre _).nodup H.nodup
  have key := backwardFrom_of (P := leaves) (nav := nav) (fuel := fuel) (L := t.leaves) ⟨_, H.root⟩
    (by
      intro i st b hi hb
      obtain ⟨s, q1, q2⟩ := leavesDec_list H (fuel := fuel) (by omega) st (list_split hb)
      refine ⟨s, q1, ?_⟩
      obtain ⟨hlt, _⟩ := List.getElem?_eq_some_iff.mp hb
      have hne : t.leaves.take i ≠ [] := by
        intro h
        have := congrArg List.length h
        simp only [List.length_take, List.length_nil] at this
        omega
      rw [q2, if_neg hne]
      simp [List.getLast?_take]
      have : i - 1 < t.leaves.length := by omega
      simp [this]
      omega)
    (by
      intro st
      obtain ⟨b, q1, q2⟩ := keepCalling_first H.mirror fuel [] t.mirror rfl (by rw [size_mirror]; omega)
      have q1' : keepCalling nav.last fuel t.label = Res.ok b := by simpa [Nav.mirror] using q1
      rw [← leaves_head_post, leaves_mirror] at q2
      exact ⟨⟨some b, []⟩, by simp [Policy.leaves, H.root, q1'], by simpa using q2.symm⟩)
    hn fuel t.leaves.length ⟨none, []⟩ (Nat.le_refl _) (by simp) (by omega)
  have hfst : t.leaves[0]? = some a := by rw [h3']; rfl
  rw [hfst] at key
  simp only [backward, hb, Res.ok_bind, end_]
  have : leaves.make nav fuel none = Res.ok ⟨none, []⟩ := rfl
  rw [this]
  simpa using key

/-! ### siblings -/

theorem siblings_inv (H : NavSpec nav t) :
    CursorInv siblings nav fuel (t.children.map label) (fun i s => s.cur = (t.children.map label)[i]?) := by
  have hsplit : ∀ l1 a l2, t.children.map label = l1 ++ a :: l2 →
      ∃ ls c rs, plug [⟨t.label, ls, rs⟩] c = t ∧ c.label = a ∧ ls.map label = l1 ∧ rs.map label = l2 := by
    intro l1 a l2 h
    rw [List.map_eq_append_iff] at h
    obtain ⟨ls, x, h1, h2, h3⟩ := h
    rw [List.map_eq_cons_iff] at h3
    obtain ⟨c, rs, h4, h5, h6⟩ := h3
    refine ⟨ls, c, rs, ?_, h5, h2, h6⟩
    simp only [plug_cons, plug_nil]
    rw [← h4, ← h1, node_eta]
  refine stateless_cursorInv ⟨_, H.root⟩ ?_ ?_ ?_ ?_
  · intro l1 a l2 h
    obtain ⟨ls, c, rs, hp, rfl, _, rfl⟩ := hsplit l1 a l2 h
    rw [H.next _ c hp]; simp
  · intro l1 a l2 h _
    obtain ⟨ls, c, rs, hp, rfl, rfl, _⟩ := hsplit l1 a l2 h
    rw [H.prev _ c hp]; simp
  · simp [H.root, H.first [] t rfl]
  · simp [H.root, H.last [] t rfl]
