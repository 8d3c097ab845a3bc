import Verif.Proof.NaryBuild
import Verif.Proof.BinQuery
import Verif.Model.Depth
/-! With less depth than `ladder` (nary nodes) or `height` (binary nodes) the recursions do not finish. -/

namespace Nary
open Tree
variable {α : Type} {h : NHeap α}

theorem dealloc_shallow : ∀ (fuel : Nat) (ts : List (Tree (Addr × α))) (h : NHeap α) (par prev : Ptr) (k : Nat),
    Holds h (cellsL par prev none k ts) → (addrsL ts).Nodup → fuel ≤ ladder ts →
      dealloc fuel h (headAddr ts) = Res.diverge := by
  intro fuel
  induction fuel with
  | zero => intros; rfl
  | succ fuel ih =>
    intro ts h par prev k H hn hf
    cases ts with
    | nil => simp at hf
    | cons t ts =>
      simp only [cellsL_cons, holds_append, holds_cells_node] at H
      obtain ⟨⟨hc, hb⟩, hr⟩ := H
      simp only [addrsL_cons, List.nodup_append] at hn
      obtain ⟨hn1, hn2, hn3⟩ := hn
      rw [addrs_eq, List.nodup_cons] at hn1
      simp only [ladder_cons] at hf
      simp only [headAddr_cons, dealloc, Heap.read_of hc, Res.ok_bind, rec_]
      by_cases hd : ladder t.children < fuel
      · rw [dealloc_chain fuel t.children h _ _ _ hb hn1.2 hd]
        simp only [Res.ok_bind, Option.or_none]
        have hr' : Holds (h.freeAll (addrsL t.children)) (cellsL par (some t.addr) none k ts) := by
          refine holds_freeAll ?_ hr
          intro x hx hx2
          rw [keys_cellsL] at hx
          exact hn3 x (by rw [addrs_eq]; simp [hx2]) x hx rfl
        rw [ih ts _ _ _ _ hr' hn2 (by omega)]
        rfl
      · rw [ih t.children h _ _ _ hb hn1.2 (by omega)]
        rfl

theorem copy_shallow (t : Tree (Addr × α)) (ts : List (Tree (Addr × α))) (fuel : Nat) (hf : fuel < ladder (t :: ts))
    {par prev par' prev' : Ptr} (hw : h.WF)
    (hs : Holds h (cellsL par prev none 0 (t :: ts))) (hps : ∀ p, par' = some p → p ∉ addrsL (t :: ts))
    (hp : ∀ p, par' = some p → p < h.next ∧ (h.cells p).isSome) :
    copy fuel h t.addr par' prev' = Res.diverge := by
  induction fuel generalizing h t ts par prev par' prev' with
  | zero => rfl
  | succ fuel ih =>
    obtain ⟨⟨b, v⟩, cs⟩ := t
    have hc : h.cells b = some ⟨v, par, ts.length, prev, headAddr ts, headAddr cs, lastAddr cs⟩ := by
      simp [cells_eq, rec_] at hs
      exact hs.1
    have hcs : Holds h (cellsL (some b) none none 0 cs) := by
      simp [cells_eq, rec_, below] at hs
      exact hs.2.1
    have hts : Holds h (cellsL par (some b) none 0 ts) := by
      simp [cells_eq, rec_, below] at hs
      exact hs.2.2
    have hlt : ∀ a ∈ addrsL (node (b, v) cs :: ts), a < h.next := fun a ha =>
      hs.lt_next hw (a := a) (by rw [keys_cellsL]; exact ha)
    simp only [addrsL_cons, addrs_node, List.mem_append, List.mem_cons] at hlt hps
    simp only [ladder_cons, children_node] at hf
    rw [addr_node, copy_step fuel h b par' prev' _ hc]
    have hp' : ∀ p, par' = some p → p < h.next := fun p e => (hp p e).1
    have S0 := stage_alloc hw v ts.length prev' hp'
    have gp : ∀ p, par' = some p → p < (h.alloc ⟨v, par', ts.length, prev', none, none, none⟩).1.next ∧
        ((h.alloc ⟨v, par', ts.length, prev', none, none, none⟩).1.cells p).isSome := by
      intro p e
      have := hp p e
      refine ⟨Nat.lt_trans this.1 S0.lt, ?_⟩
      rw [S0.par p e]; simp [this.2]
    have K : ∀ t2 us, ts = t2 :: us → Holds (h.alloc ⟨v, par', ts.length, prev', none, none, none⟩).1 (cellsL par (some b) none 0 (t2 :: us)) := by
      rintro t2 us rfl
      refine hts.congr ?_
      rw [keys_cellsL]; intro a ha
      exact S0.same a (hlt a (Or.inr ha)) (fun e => hps a e (Or.inr ha))
    have e0 : buildStep h v par' ts.length prev' (headAddr ts) (headAddr cs) (fun g x nx => copy fuel g nx par' (some x))
        (fun g x c => copy fuel g c (some x) none) = (do
      let g ← buildSub (h.alloc ⟨v, par', ts.length, prev', none, none, none⟩).1 h.next (headAddr ts) (fun g nx => copy fuel g nx par' (some h.next))
        (fun a m => { m with next := some a })
      let g ← buildSub g h.next (headAddr cs) (fun g c => copy fuel g c (some h.next) none) (fun a m => { m with first := some a })
      let g ← manageParentLast g h.next
      pure (g, h.next)) := rfl
    rw [e0]
    by_cases hd : ladder ts ≤ fuel
    · obtain ⟨g1, us, e1, S1, P1⟩ := stage_next (on := headAddr ts) (F := fun g nx => copy fuel g nx par' (some h.next))
        (P := fun l => valsL l = valsL ts) hp' S0 (by cases ts <;> simp)
        (by
          intro nx e
          cases ts with
          | nil => simp at e
          | cons t2 us =>
            simp only [headAddr_cons, Option.some.injEq] at e
            subst e
            exact copy_deep t2 us fuel hd S0.wf (K t2 us rfl) (fun p e hm => hps p e (Or.inr hm)) gp)
      rw [e1, Res.ok_bind]
      cases cs with
      | nil => simp at hf; omega
      | cons c cs =>
        have : copy fuel g1 c.addr (some h.next) none = Res.diverge := by
          refine ih c cs (by omega) S1.wf (hcs.congr ?_) ?_ ?_
          · rw [keys_cellsL]; intro a ha
            exact S1.same a (hlt a (Or.inl (Or.inr ha))) (fun e => hps a e (Or.inl (Or.inr ha)))
          · intro p e hm
            simp only [Option.some.injEq] at e
            subst e
            have := hlt _ (Or.inl (Or.inr hm)); exact absurd this (Nat.lt_irrefl _)
          · intro p e
            simp only [Option.some.injEq] at e
            subst e
            exact ⟨S1.lt, by rw [S1.cell]; rfl⟩
        simp [buildSub, this]
    · cases ts with
      | nil => simp at hd
      | cons t2 us =>
        have : copy fuel (h.alloc ⟨v, par', (t2 :: us).length, prev', none, none, none⟩).1 t2.addr par' (some h.next) = Res.diverge :=
          ih t2 us (by omega) S0.wf (K t2 us rfl) (fun p e hm => hps p e (Or.inr hm)) gp
        simp only [headAddr_cons, buildSub, this]
        rfl

theorem eq_shallow (eqv : α → α → Bool) (h2 : NHeap α) (fuel : Nat) (t u : Tree (Addr × α)) (ts us : List (Tree (Addr × α)))
    (hf : fuel < ladder (t :: ts)) {par prev par' prev' : Ptr}
    (H : Holds h (cellsL par prev none 0 (t :: ts))) (K : Holds h2 (cellsL par' prev' none 0 (u :: us)))
    (he : eqByL eqv (valsL (t :: ts)) (valsL (u :: us)) = true) :
    eq eqv fuel h t.addr h2 u.addr = Res.diverge := by
  induction fuel generalizing t u ts us par prev par' prev' with
  | zero => rfl
  | succ fuel ih =>
    obtain ⟨⟨b, v⟩, cs⟩ := t
    obtain ⟨⟨b', v'⟩, cs'⟩ := u
    simp only [ladder_cons, children_node] at hf
    simp only [cellsL_cons, holds_append] at H K
    have c1 := children_spec H.1
    have c2 := children_spec K.1
    have H1 := H.1
    have K1 := K.1
    rw [cells_eq, holds_cons] at H1 K1
    simp only [addr_node, children_node] at c1 c2 H1 K1
    simp only [valsL_cons, vals_node, eqByL, eqBy, Bool.and_eq_true] at he
    obtain ⟨⟨hv, hcv⟩, htv⟩ := he
    have hcl : cs.length = cs'.length := by
      cases Nat.decEq cs.length cs'.length with
      | isTrue e => exact e
      | isFalse e => rw [eqByL_length _ (by simpa [valsL] using e)] at hcv; cases hcv
    have htl : ts.length = us.length := by
      cases Nat.decEq ts.length us.length with
      | isTrue e => exact e
      | isFalse e => rw [eqByL_length _ (by simpa [valsL] using e)] at htv; cases htv
    simp only [addr_node, eq, c1, c2, Res.ok_bind, Heap.read_of H1.1, Heap.read_of K1.1, rec_, label_node, children_node]
    simp only [hcl, hv, bne_self_eq_false, Bool.false_eq_true, if_false, Bool.not_true, Option.or_none]
    by_cases hd : ladder cs ≤ fuel
    · have hn : eq eqv fuel h (headAddr ts).get! h2 (headAddr us).get! = Res.diverge ∧ ∃ t2 u2 ts2 us2, ts = t2 :: ts2 ∧ us = u2 :: us2 := by
        cases ts with
        | nil => simp at hf; omega
        | cons t2 ts =>
          cases us with
          | nil => simp at htl
          | cons u2 us => exact ⟨ih t2 u2 ts us (by omega) H.2 K.2 htv, _, _, _, _, rfl, rfl⟩
      obtain ⟨hn, t2, u2, ts2, us2, rfl, rfl⟩ := hn
      simp only [headAddr_cons, Option.get!_some] at hn
      cases cs with
      | nil =>
        simp [hn]
      | cons c cs =>
        cases cs' with
        | nil => simp at hcl
        | cons c' cs' =>
          have := eq_deep eqv h2 fuel c c' cs cs' hd (by simpa using hcl) H1.2 K1.2
          rw [hcv] at this
          simp [this, hn]
    · cases cs with
      | nil => simp at hd
      | cons c cs =>
        cases cs' with
        | nil => simp at hcl
        | cons c' cs' =>
          have := ih c c' cs cs' (by omega) H1.2 K1.2 hcv
          simp [this]

end Nary

namespace Binary
open BTree
variable {α : Type} {h : BHeap α}

theorem dealloc_shallow (t : BTree (Addr × α)) (fuel : Nat) (hf : fuel ≤ t.height) {par : Ptr}
    (H : Holds h (cells par t)) (hn : t.addrs.Nodup) : dealloc fuel h t.addr? = Res.diverge := by
  induction t generalizing h fuel par with
  | nil =>
    simp [height] at hf; subst hf; rfl
  | node p l r ihl ihr =>
    cases fuel with
    | zero => rfl
    | succ fuel =>
      simp [height] at hf H hn
      obtain ⟨hc, hl, hr⟩ := H
      have d := List.nodup_append.mp hn.2
      have hr' : Holds (h.freeAll l.addrs) (cells (some p.1) r) :=
        holds_freeAll (by rw [keys_cells]; intro x hx hl; exact d.2.2 x hl x hx rfl) hr
      simp only [addr?_node, dealloc, Heap.read_of hc, Res.ok_bind]
      by_cases hd : l.height < fuel
      · rw [dealloc_deep l fuel hd hl d.1, Res.ok_bind, ihr fuel (by omega) hr' d.2.1]; rfl
      · rw [ihl fuel (by omega) hl d.1]; rfl

theorem copy_shallow (t : BTree (Addr × α)) (fuel : Nat) (hf : fuel < t.height) {par : Ptr} (hw : h.WF)
    (H : Holds h (cells par t)) {a : Addr} (ha : t.addr? = some a) : copy fuel h a = Res.diverge := by
  induction t generalizing h fuel par a with
  | nil => simp at ha
  | node p l r ihl ihr =>
    cases fuel with
    | zero => rfl
    | succ fuel =>
      simp [height] at hf H ha
      subst ha
      obtain ⟨hc, hl, hr⟩ := H
      rw [copy_step fuel h p.1 _ hc]
      have S0 : Stage h (h.alloc ⟨p.2, none, none, none⟩).1 h.next p.2 .nil .nil :=
        ⟨by simp [Heap.alloc], by simp, by simp, by simp, by simpa using grown_alloc hw _⟩
      have e0 : buildStep h p.2 l.addr? r.addr? (copy fuel) = (do
        let g ← buildSub (h.alloc ⟨p.2, none, none, none⟩).1 h.next l.addr? (copy fuel) (fun a m => { m with left := some a })
        let g ← buildSub g h.next r.addr? (copy fuel) (fun a m => { m with right := some a })
        let g ← attach g h.next
        pure (g, h.next)) := rfl
      simp only [e0]
      by_cases hd : l.height ≤ fuel
      · obtain ⟨g1, l', e1, S1, P1⟩ := stage_left (on := l.addr?) (F := copy fuel) (P := fun _ => True) S0 (fun _ => trivial)
          (fun nx e => by
            obtain ⟨h', a', t', q1, q2, q3, _⟩ := copy_deep l fuel hd S0.grown.wf (S0.grown.holds hw hl) e
            exact ⟨h', a', t', q1, q2, q3, trivial⟩)
        rw [e1, Res.ok_bind]
        cases hra : r.addr? with
        | none => cases r with
          | nil => simp [height] at hf; omega
          | node => simp at hra
        | some c =>
          have := ihr fuel (by omega) S1.grown.wf (S1.grown.holds hw hr) hra
          simp [buildSub, this]
      · cases hla : l.addr? with
        | none => cases l with
          | nil => simp [height] at hd
          | node => simp at hla
        | some c =>
          have := ihl fuel (by omega) S0.grown.wf (S0.grown.holds hw hl) hla
          simp [buildSub, this]

theorem calcSize_shallow (t : BTree (Addr × α)) (fuel : Nat) (hf : fuel < t.height) {par : Ptr} (H : Holds h (cells par t))
    {a : Addr} (ha : t.addr? = some a) : calcSize fuel h a = Res.diverge := by
  induction t generalizing fuel par a with
  | nil => simp at ha
  | node p l r ihl ihr =>
    cases fuel with
    | zero => rfl
    | succ fuel =>
      simp [height] at hf H ha
      subst ha
      obtain ⟨hc, hl, hr⟩ := H
      simp only [calcSize, Heap.read_of hc, Res.ok_bind]
      cases hla : l.addr? with
      | none =>
        cases hra : r.addr? with
        | none =>
          cases l <;> cases r <;> simp [height] at hla hra hf
        | some c =>
          cases l with
          | node => simp at hla
          | nil => simp [ihr fuel (by simpa [height] using hf) hr hra]
      | some c =>
        by_cases hd : l.height ≤ fuel
        · simp only [calcSize_deep l fuel hd hl hla, Res.ok_bind]
          cases hra : r.addr? with
          | none => cases r with
            | nil => simp [height] at hf; omega
            | node => simp at hra
          | some d => simp [ihr fuel (by omega) hr hra]
        · simp [ihl fuel (by omega) hl hla]

theorem eq_shallow (eqv : α → α → Bool) (h2 : BHeap α) (t u : BTree (Addr × α)) (fuel : Nat) (hf : fuel < t.height)
    {par par' : Ptr} (H : Holds h (cells par t)) (K : Holds h2 (cells par' u)) {a b : Addr}
    (ha : t.addr? = some a) (hb : u.addr? = some b) (he : eqBy eqv t.vals u.vals = true) :
    eq eqv fuel h a h2 b = Res.diverge := by
  induction t generalizing u fuel par par' a b with
  | nil => simp at ha
  | node p l r ihl ihr =>
    cases u with
    | nil => simp at hb
    | node q l' r' =>
      cases fuel with
      | zero => rfl
      | succ fuel =>
        simp [height] at hf H K ha hb
        subst ha hb
        obtain ⟨hc, hl, hr⟩ := H
        obtain ⟨hc', hl', hr'⟩ := K
        simp only [vals_node, eqBy, Bool.and_eq_true] at he
        obtain ⟨hv, hel, her⟩ := he
        have il : ∀ a b, l.addr? = some a → l'.addr? = some b → fuel < l.height → _ := fun a b e e' f => ihl l' fuel f hl hl' e e' hel
        have ir : ∀ a b, r.addr? = some a → r'.addr? = some b → fuel < r.height → _ := fun a b e e' f => ihr r' fuel f hr hr' e e' her
        have dl : ∀ a b, l.addr? = some a → l'.addr? = some b → l.height ≤ fuel → eq eqv fuel h a h2 b = Res.ok true := fun a b e e' f => by
          rw [eq_deep eqv h2 l l' fuel f hl hl' e e', hel]
        clear ihl ihr
        simp only [eq, Heap.read_of hc, Heap.read_of hc', Res.ok_bind, hv, Bool.not_true, Bool.false_eq_true, if_false]
        by_cases hd : l.height ≤ fuel
        · have hrf : fuel < r.height := by omega
          clear hf
          cases l <;> cases l' <;> simp [vals, eqBy] at hel <;> cases r <;> cases r' <;> simp [vals, eqBy] at her <;>
            simp_all [height]
        · cases l <;> cases l' <;> simp [vals, eqBy] at hel <;> cases r <;> cases r' <;> simp_all [vals, eqBy, height]

end Binary

namespace Nary
open Tree
variable {α : Type} {h : NHeap α}

theorem eachChild_ok (f : Addr → Res Nat) (op : Nat → Nat → Nat) (g : Tree (Addr × α) → Nat) :
    ∀ (loop : Nat) (ts : List (Tree (Addr × α))) (par prev : Ptr) (k acc : Nat), Holds h (cellsL par prev none k ts) → ts.length < loop →
      (∀ t ∈ ts, f t.addr = Res.ok (g t)) → eachChild f op h loop (headAddr ts) acc = Res.ok ((ts.map g).foldl op acc)
  | 0, _, _, _, _, _, _, hl, _ => by omega
  | n + 1, [], _, _, _, _, _, _, _ => by simp [eachChild]
  | n + 1, t :: ts, par, prev, k, acc, H, hl, hf => by
    simp only [cellsL_cons, holds_append, holds_cells_node] at H
    simp only [headAddr_cons, eachChild, hf t (by simp), Res.ok_bind, Heap.read_of H.1.1, rec_, Option.or_none]
    rw [eachChild_ok f op g n ts _ _ k _ H.2 (by simpa using hl) (fun u hu => hf u (by simp [hu]))]
    simp

theorem eachChild_diverge (f : Addr → Res Nat) (op : Nat → Nat → Nat) :
    ∀ (loop : Nat) (ts : List (Tree (Addr × α))) (par prev : Ptr) (k acc : Nat), Holds h (cellsL par prev none k ts) →
      (∀ t ∈ ts, f t.addr = Res.diverge ∨ ∃ v, f t.addr = Res.ok v) → (∃ t ∈ ts, f t.addr = Res.diverge) →
      eachChild f op h loop (headAddr ts) acc = Res.diverge
  | 0, _, _, _, _, _, _, _, _ => rfl
  | n + 1, [], _, _, _, _, _, _, hd => by simp at hd
  | n + 1, t :: ts, par, prev, k, acc, H, hf, hd => by
    simp only [cellsL_cons, holds_append, holds_cells_node] at H
    simp only [headAddr_cons, eachChild]
    rcases hf t (by simp) with e | ⟨v, e⟩
    · simp [e]
    · simp only [e, Res.ok_bind, Heap.read_of H.1.1, rec_, Option.or_none]
      refine eachChild_diverge f op n ts _ _ k _ H.2 (fun u hu => hf u (by simp [hu])) ?_
      obtain ⟨u, hu, hd⟩ := hd
      rcases List.mem_cons.mp hu with rfl | hu
      · rw [e] at hd; cases hd
      · exact ⟨u, hu, hd⟩

theorem foldl_size : ∀ (ts : List (Tree (Addr × α))) (acc : Nat), (ts.map size).foldl (· + ·) acc = acc + sizeL ts
  | [], acc => by simp [sizeL]
  | t :: ts, acc => by simp only [List.map_cons, List.foldl_cons, foldl_size ts, sizeL]; omega

theorem foldl_arity : ∀ (ts : List (Tree (Addr × α))) (acc : Nat), (ts.map arity).foldl max acc = max acc (arityL ts)
  | [], acc => by simp [arityL]
  | t :: ts, acc => by simp only [List.map_cons, List.foldl_cons, foldl_arity ts, arityL]; omega

theorem heightL_mem {ts : List (Tree (Addr × α))} {t : Tree (Addr × α)} (ht : t ∈ ts) : t.height ≤ heightL ts := by
  induction ts with
  | nil => simp at ht
  | cons u us ih =>
    simp only [heightL]
    rcases List.mem_cons.mp ht with rfl | h
    · omega
    · have := ih h; omega

theorem arityL_mem {ts : List (Tree (Addr × α))} {t : Tree (Addr × α)} (ht : t ∈ ts) : t.arity ≤ arityL ts := by
  induction ts with
  | nil => simp at ht
  | cons u us ih =>
    simp only [arityL]
    rcases List.mem_cons.mp ht with rfl | h
    · omega
    · have := ih h; omega

theorem heightL_exists {d : Nat} : ∀ {ts : List (Tree (Addr × α))}, d < heightL ts → ∃ t ∈ ts, d < t.height
  | [], h => by simp [heightL] at h
  | t :: ts, h => by
    simp only [heightL] at h
    by_cases e : d < t.height
    · exact ⟨t, by simp, e⟩
    · obtain ⟨u, hu, hh⟩ := heightL_exists (ts := ts) (d := d) (by omega)
      exact ⟨u, by simp [hu], hh⟩

theorem holds_mem {ts : List (Tree (Addr × α))} {t : Tree (Addr × α)} (ht : t ∈ ts) {par prev : Ptr} {k : Nat}
    (H : Holds h (cellsL par prev none k ts)) : ∃ prev nx k, Holds h (cells par prev nx k t) := by
  induction ts generalizing prev with
  | nil => simp at ht
  | cons u us ih =>
    simp only [cellsL_cons, holds_append] at H
    rcases List.mem_cons.mp ht with rfl | hm
    · exact ⟨_, _, _, H.1⟩
    · exact ih hm H.2

theorem sizeCalls_spec (loop d : Nat) (t : Tree (Addr × α)) {par prev nx : Ptr} {k : Nat} (H : Holds h (cells par prev nx k t))
    (hl : t.arity < loop) :
    (t.height ≤ d → sizeCalls loop h d t.addr = Res.ok t.size) ∧ (d < t.height → sizeCalls loop h d t.addr = Res.diverge) := by
  induction d generalizing t par prev nx k with
  | zero => cases t; exact ⟨by simp [height], fun _ => rfl⟩
  | succ d ih =>
    rw [holds_cells_node] at H
    obtain ⟨p, cs⟩ := t
    simp only [height, sizeCalls, Heap.read_of H.1, Res.ok_bind, rec_, children_node]
    simp only [arity] at hl
    have ha : ∀ c ∈ cs, c.arity < loop := fun c hc => by have := arityL_mem hc; omega
    refine ⟨fun hd => ?_, fun hd => ?_⟩
    · rw [eachChild_ok _ _ size loop cs _ _ _ _ H.2 (by omega)]
      · rw [foldl_size]; simp [size]; omega
      · intro c hc
        obtain ⟨_, _, _, Hc⟩ := holds_mem hc H.2
        exact (ih c Hc (ha c hc)).1 (by have := heightL_mem hc; omega)
    · refine eachChild_diverge _ _ loop cs _ _ _ _ H.2 ?_ ?_
      · intro c hc
        obtain ⟨_, _, _, Hc⟩ := holds_mem hc H.2
        by_cases e : c.height ≤ d
        · exact Or.inr ⟨_, (ih c Hc (ha c hc)).1 e⟩
        · exact Or.inl ((ih c Hc (ha c hc)).2 (by omega))
      · obtain ⟨c, hc, hh⟩ := heightL_exists (d := d) (ts := cs) (by omega)
        obtain ⟨_, _, _, Hc⟩ := holds_mem hc H.2
        exact ⟨c, hc, (ih c Hc (ha c hc)).2 hh⟩

theorem arityCalls_spec (loop d : Nat) (t : Tree (Addr × α)) {par prev nx : Ptr} {k : Nat} (H : Holds h (cells par prev nx k t))
    (hl : t.arity < loop) :
    (t.height ≤ d → arityCalls loop h d t.addr = Res.ok t.arity) ∧ (d < t.height → arityCalls loop h d t.addr = Res.diverge) := by
  induction d generalizing t par prev nx k with
  | zero => cases t; exact ⟨by simp [height], fun _ => rfl⟩
  | succ d ih =>
    rw [holds_cells_node] at H
    obtain ⟨p, cs⟩ := t
    simp only [height, arityCalls, Heap.read_of H.1, Res.ok_bind, rec_, children_node]
    have e0 : ∀ k : Nat → Res Nat, (match headAddr cs with
        | some c => do
          let m ← h.read c
          let start ← pure (m.following + 1)
          k start
        | none => do
          let start ← pure 0
          k start) = k cs.length := by
      intro k
      cases cs with
      | nil => rfl
      | cons c cs =>
        have H2 := H.2
        simp only [children_node, cellsL_cons, holds_append, holds_cells_node] at H2
        simp [Heap.read_of H2.1.1, rec_]
    simp only [arity] at hl
    have ha : ∀ c ∈ cs, c.arity < loop := fun c hc => by have := arityL_mem hc; omega
    refine ⟨fun hd => ?_, fun hd => ?_⟩
    · refine (e0 _).trans ?_
      rw [eachChild_ok _ _ arity loop cs _ _ _ _ H.2 (by omega)]
      · rw [foldl_arity]; simp [arity]
      · intro c hc
        obtain ⟨_, _, _, Hc⟩ := holds_mem hc H.2
        exact (ih c Hc (ha c hc)).1 (by have := heightL_mem hc; omega)
    · refine (e0 _).trans ?_
      refine eachChild_diverge _ _ loop cs _ _ _ _ H.2 ?_ ?_
      · intro c hc
        obtain ⟨_, _, _, Hc⟩ := holds_mem hc H.2
        by_cases e : c.height ≤ d
        · exact Or.inr ⟨_, (ih c Hc (ha c hc)).1 e⟩
        · exact Or.inl ((ih c Hc (ha c hc)).2 (by omega))
      · obtain ⟨c, hc, hh⟩ := heightL_exists (d := d) (ts := cs) (by omega)
        obtain ⟨_, _, _, Hc⟩ := holds_mem hc H.2
        exact ⟨c, hc, (ih c Hc (ha c hc)).2 hh⟩

end Nary
