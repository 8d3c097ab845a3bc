import Verif.Spec.Position
import Verif.Proof.NaryDealloc
import Verif.Proof.BinQuery
import Verif.Proof.Frame
/-! Moving several node pointers at once. -/
namespace Tree
variable {β : Type}

theorem at_plug {t s : Tree β} {p : List Nat} (h : t.at? p = some s) : ∃ fs, plug fs s = t ∧
    ((p = [] ∧ fs = []) ∨ ∃ f fs', fs = f :: fs' ∧ p = f.lefts.length :: p.tail ∧
      t.at? p.tail = some (node f.label (f.lefts ++ s :: f.rights))) := by
  induction p generalizing s with
  | nil => simp [at?] at h; exact ⟨[], by simp [h], Or.inl ⟨rfl, rfl⟩⟩
  | cons i p ih =>
    simp [at?, Option.bind_eq_some_iff] at h
    obtain ⟨u, hu, hs⟩ := h
    obtain ⟨fs, h1, _⟩ := ih hu
    cases u with
    | node a cs =>
    simp at hs
    obtain ⟨hi, hs⟩ := List.getElem?_eq_some_iff.mp hs
    have hc : cs = cs.take i ++ s :: cs.drop (i + 1) := by
      conv => lhs; rw [← List.take_append_drop i cs]
      rw [List.drop_eq_getElem_cons hi, hs]
    refine ⟨⟨a, cs.take i, cs.drop (i + 1)⟩ :: fs, ?_, Or.inr ⟨_, _, rfl, ?_, ?_⟩⟩
    · simp only [plug_cons]; rw [← hc]; exact h1
    · simp; omega
    · simp only [List.tail_cons]; rw [← hc]; exact hu

theorem at_map {γ : Type} (f : β → γ) (t : Tree β) (p : List Nat) : (t.map f).at? p = (t.at? p).map (Tree.map f) := by
  induction p with
  | nil => simp [at?]
  | cons i p ih => simp [at?, ih]; cases t.at? p <;> simp [children_map]

theorem check_map {γ : Type} (f : β → γ) (t : Tree β) (p : List Nat) : (t.map f).check p = t.check p := by
  simp [check, at_map]

theorem move_map {γ : Type} (f : β → γ) (t : Tree β) (m : Move) (p : List Nat) : (t.map f).move m p = t.move m p := by
  cases m <;> (try cases p) <;> simp [move, check_map, at_map]
  · rename_i i p; cases i <;> simp [move]
  · cases t.at? [] <;> simp [children_map]
  · rename_i i p; cases t.at? (i :: p) <;> simp [children_map]

theorem moves_map {γ : Type} (f : β → γ) (t : Tree β) (ms : List Move) (o : Option (List Nat)) :
    (t.map f).moves ms o = t.moves ms o := by
  induction ms generalizing o with
  | nil => rfl
  | cons m ms ih =>
    have : (t.map f).move m = t.move m := funext (move_map f t m)
    simp [moves, ih, this]

end Tree

namespace Nary
open Tree
variable {α : Type} {h : NHeap α} {t s : Tree (Addr × α)}

theorem check_bind (t : Tree (Addr × α)) (p : List Nat) : (t.check p).bind t.addrAt = (t.at? p).map addr := by
  cases e : t.at? p <;> simp [check, addrAt, e]

theorem step_at (H : Rep h t) {p : List Nat} (hs : t.at? p = some s) {m : Move} (hm : m ≠ .left ∧ m ≠ .right) :
    step h m s.addr = Res.ok ((t.move m p).bind t.addrAt) := by
  obtain ⟨fs, hp, hk⟩ := at_plug hs
  have H' : Rep h (plug fs s) := hp ▸ H
  have hc := H'.cell
  have hkid : ∀ i, (t.at? (i :: p)).map addr = s.children[i]?.map addr := by intro i; simp [at?, hs]
  cases m with
  | left => exact absurd rfl hm.1
  | right => exact absurd rfl hm.2
  | child i => simp only [step, getChild_spec H', move, check_bind, hkid]
  | first =>
    simp only [step, Heap.read_of hc, Res.ok_bind, Res.pure_eq, rec_, move, check_bind, hkid]
    simp [headAddr, List.head?_eq_getElem?]
  | last =>
    simp only [step, Heap.read_of hc, Res.ok_bind, Res.pure_eq, rec_, move, hs, Option.bind_some, check_bind, hkid]
    simp [lastAddr, List.getLast?_eq_getElem?]
  | parent =>
    simp only [step, Heap.read_of hc, Res.ok_bind, Res.pure_eq, rec_]
    rcases hk with ⟨rfl, rfl⟩ | ⟨f, fs', rfl, hp', hu⟩
    · simp [move, fpar]
    · rw [hp']; simp [move, fpar, addrAt, hu, addr]
  | prev =>
    simp only [step, Heap.read_of hc, Res.ok_bind, Res.pure_eq, rec_]
    rcases hk with ⟨rfl, rfl⟩ | ⟨f, fs', rfl, hp', hu⟩
    · simp [move, fprev]
    · rw [hp']
      cases hn : f.lefts.length with
      | zero => simp [List.length_eq_zero_iff] at hn; simp [move, fprev, hn]
      | succ i => simp [move, fprev, addrAt, at?, hu, hn, lastAddr, List.getLast?_eq_getElem?, List.getElem?_append]
  | next =>
    simp only [step, Heap.read_of hc, Res.ok_bind, Res.pure_eq, rec_]
    rcases hk with ⟨rfl, rfl⟩ | ⟨f, fs', rfl, hp', hu⟩
    · simp [move, fnext]
    · rw [hp']
      simp only [move, check_bind, at?, hu, fnext, Option.bind_some, children_node]
      rw [List.getElem?_append_right (by omega)]
      simp [headAddr, List.head?_eq_getElem?]

/-- A move leads to a node. -/
theorem move_some {p q : List Nat} (hp : (t.at? p).isSome) {m : Move} (h : t.move m p = some q) : (t.at? q).isSome := by
  have hchk : ∀ r, t.check r = some q → (t.at? q).isSome := by
    intro r hr
    simp [check] at hr
    obtain ⟨h1, rfl⟩ := hr
    exact h1
  cases m with
  | parent =>
    cases p with
    | nil => simp [move] at h
    | cons i p => simp [move] at h; subst h; cases e : t.at? p <;> simp_all [at?]
  | prev =>
    match p with
    | [] => simp [move] at h
    | 0 :: p => simp [move] at h
    | (i + 1) :: p =>
      simp [move] at h; subst h
      cases e : t.at? p <;> simp_all [at?]
      omega
  | next => cases p <;> simp only [move] at h <;> first | exact hchk _ h | simp at h
  | first => exact hchk _ h
  | last =>
    simp only [move, Option.bind_eq_some_iff] at h
    obtain ⟨_, _, h⟩ := h
    exact hchk _ h
  | child i => exact hchk _ h
  | left => simp [move] at h
  | right => simp [move] at h

theorem moves_some {ms : List Move} {o : Option (List Nat)} (ho : ∀ p, o = some p → (t.at? p).isSome) {q : List Nat}
    (h : t.moves ms o = some q) : (t.at? q).isSome := by
  induction ms generalizing o with
  | nil => exact ho q h
  | cons m ms ih =>
    refine ih (o := o.bind (t.move m)) ?_ h
    intro p hp
    obtain ⟨r, hr, hp⟩ := Option.bind_eq_some_iff.mp hp
    exact move_some (ho r hr) hp

end Nary

namespace Multi

/-- Moves of the pointers, component by component, from what they do to positions. -/
theorem run_spec {ι P : Type} (step : Move → Addr → Res Ptr) (loc : ι → P → Ptr) (mv : ι → Move → P → Option P)
    (mvs : ι → List Move → Option P → Option P) (h0 : ∀ i o, mvs i [] o = o)
    (h1 : ∀ i m ms o, mvs i (m :: ms) o = mvs i ms (o.bind (mv i m))) (legal : Move → Prop) (good : ι → Prop)
    (hs : ∀ i m p a, good i → legal m → loc i p = some a → step m a = Res.ok ((mv i m p).bind (loc i)))
    (hv : ∀ i m p q, good i → (loc i p).isSome → mv i m p = some q → (loc i q).isSome)
    (ms : List Move) (hms : ∀ m ∈ ms, legal m) (m : Multi) (l : List (ι × Option P))
    (hl : ∀ x ∈ l, good x.1 ∧ ∀ p, x.2 = some p → (loc x.1 p).isSome) (hm : m.ptrs = l.map (fun x => x.2.bind (loc x.1))) :
    ∃ m', run step ms m = Res.ok m' ∧ m'.ptrs = l.map (fun x => (mvs x.1 ms x.2).bind (loc x.1)) := by
  induction ms generalizing m l with
  | nil => exact ⟨m, rfl, by simp [h0, hm]⟩
  | cons k ms ih =>
    have key : ∀ l : List (ι × Option P), (∀ x ∈ l, good x.1 ∧ ∀ p, x.2 = some p → (loc x.1 p).isSome) →
        callAll (step k) (l.map (fun x => x.2.bind (loc x.1))) =
          Res.ok ((l.map (fun x => (x.1, x.2.bind (mv x.1 k)))).map (fun x => x.2.bind (loc x.1))) := by
      intro l
      induction l with
      | nil => intro _; rfl
      | cons x l ih2 =>
        intro hl
        have := ih2 (fun y hy => hl y (List.mem_cons_of_mem _ hy))
        simp only [List.map_cons, callAll]
        rw [this]
        obtain ⟨i, o⟩ := x
        cases o with
        | none => simp [callOn]
        | some p =>
          have := (hl (i, some p) (by simp)).2 p rfl
          obtain ⟨a, ha⟩ := Option.isSome_iff_exists.mp this
          simp [callOn, ha, hs i k p a (hl (i, some p) (by simp)).1 (hms k (by simp)) ha]
    have hl' : ∀ x ∈ l.map (fun x => (x.1, x.2.bind (mv x.1 k))), good x.1 ∧ ∀ p, x.2 = some p → (loc x.1 p).isSome := by
      intro x hx
      obtain ⟨y, hy, rfl⟩ := List.mem_map.mp hx
      refine ⟨(hl y hy).1, ?_⟩
      intro p hp
      simp [Option.bind_eq_some_iff] at hp
      obtain ⟨q, hq, hp⟩ := hp
      exact hv _ _ _ _ (hl y hy).1 ((hl y hy).2 q hq) hp
    obtain ⟨m', e1, e2⟩ := ih (fun x hx => hms x (List.mem_cons_of_mem _ hx)) (of _) _ hl' rfl
    refine ⟨m', ?_, ?_⟩
    · simp only [run, go, hm, key l hl, Res.ok_bind, Res.pure_eq]
      exact e1
    · rw [e2]; simp [h1]

end Multi

namespace BTree
variable {β : Type}

theorem at_plug {t : BTree β} {p : List Bool} (hne : (t.at? p).label?.isSome) : ∃ fs, plug fs (t.at? p) = t ∧
    ((p = [] ∧ fs = []) ∨ ∃ f fs', fs = f :: fs' ∧ p = f.holeLeft :: p.tail ∧ t.at? p.tail = f.fill (t.at? p)) := by
  induction p with
  | nil => exact ⟨[], rfl, Or.inl ⟨rfl, rfl⟩⟩
  | cons b p ih =>
    simp only [at?] at hne ⊢
    cases e : t.at? p with
    | nil => cases b <;> simp [e, left, right, label?] at hne
    | node a l r =>
      obtain ⟨fs, h1, _⟩ := ih (by simp [e, label?])
      rw [e] at h1
      cases b
      · exact ⟨⟨a, false, l⟩ :: fs, by simp [plug, Frame.fill, right, h1], Or.inr ⟨_, _, rfl, rfl, by simp [Frame.fill, right, e]⟩⟩
      · exact ⟨⟨a, true, r⟩ :: fs, by simp [plug, Frame.fill, left, h1], Or.inr ⟨_, _, rfl, rfl, by simp [Frame.fill, left, e]⟩⟩

theorem at_map {γ : Type} (f : β → γ) (t : BTree β) (p : List Bool) : (t.map f).at? p = (t.at? p).map f := by
  induction p with
  | nil => rfl
  | cons b p ih => simp only [at?, ih]; cases t.at? p <;> cases b <;> rfl

theorem check_map {γ : Type} (f : β → γ) (t : BTree β) (p : List Bool) : (t.map f).check p = t.check p := by
  simp [check, at_map, label?_map]

theorem move_map {γ : Type} (f : β → γ) (t : BTree β) (m : Move) (p : List Bool) : (t.map f).move m p = t.move m p := by
  cases m <;> (try (cases p <;> try (rename_i b p; cases b))) <;> simp [move, check_map]

theorem moves_map {γ : Type} (f : β → γ) (t : BTree β) (ms : List Move) (o : Option (List Bool)) :
    (t.map f).moves ms o = t.moves ms o := by
  induction ms generalizing o with
  | nil => rfl
  | cons m ms ih =>
    have : (t.map f).move m = t.move m := funext (move_map f t m)
    simp [moves, ih, this]

end BTree

namespace Binary
open BTree
variable {α : Type} {h : BHeap α} {t : BTree (Addr × α)}

theorem check_bind (t : BTree (Addr × α)) (p : List Bool) : (t.check p).bind t.addrAt = (t.at? p).addr? := by
  cases e : t.at? p <;> simp [check, addrAt, e, label?]

theorem check_isSome (t : BTree (Addr × α)) (p : List Bool) : (t.check p).isSome = (t.at? p).addr?.isSome := by
  cases e : t.at? p <;> simp [check, e, label?]

theorem step_at (H : Rep h t) {p : List Bool} {a : Addr} (hs : t.addrAt p = some a) (m : Move) :
    step h m a = Res.ok ((t.move m p).bind t.addrAt) := by
  cases e : t.at? p with
  | nil => simp [addrAt, e] at hs
  | node q l r =>
  obtain ⟨b, v⟩ := q
  simp [addrAt, e] at hs
  subst hs
  obtain ⟨fs, hp, hk⟩ := BTree.at_plug (t := t) (p := p) (by simp [e, label?])
  rw [e] at hp hk
  have H' : Rep h (BTree.plug fs (BTree.node (b, v) l r)) := hp ▸ H
  have hc := H'.cell
  simp only at hc
  have hL : t.at? (true :: p) = l := by simp [BTree.at?, e, left]
  have hR : t.at? (false :: p) = r := by simp [BTree.at?, e, right]
  have cL : t.check (true :: p) = if l.label?.isSome then some (true :: p) else none := by simp [check, hL]
  have cR : t.check (false :: p) = if r.label?.isSome then some (false :: p) else none := by simp [check, hR]
  cases m with
  | left => simp only [step, Heap.read_of hc, Res.ok_bind, Res.pure_eq, BTree.move, check_bind, hL]
  | right => simp only [step, Heap.read_of hc, Res.ok_bind, Res.pure_eq, BTree.move, check_bind, hR]
  | first =>
    simp only [step, first_of hc, BTree.move, cL, cR]
    cases l <;> cases r <;> simp [label?, addrAt, hL, hR]
  | last =>
    simp only [step, last_of hc, BTree.move, cL, cR]
    cases l <;> cases r <;> simp [label?, addrAt, hL, hR]
  | child i =>
    simp only [step, BTree.move, cL, cR]
    match i with
    | 0 => simp only [getChild, first_of hc]; cases l <;> cases r <;> simp [label?, addrAt, hL, hR, List.reduceOption]
    | 1 => simp only [getChild, Heap.read_of hc, Res.ok_bind]; cases l <;> cases r <;> simp [label?, addrAt, hL, hR, List.reduceOption]
    | i + 2 => simp only [getChild]; cases l <;> cases r <;> simp [label?, addrAt, hL, hR, List.reduceOption]
  | parent =>
    simp only [step, Heap.read_of hc, Res.ok_bind, Res.pure_eq]
    rcases hk with ⟨rfl, rfl⟩ | ⟨f, fs', rfl, hp', hu⟩
    · simp [BTree.move]
    · rw [hp']; simp [BTree.move, addrAt, hu]
  | prev =>
    rcases hk with ⟨rfl, rfl⟩ | ⟨f, fs', rfl, hp', hu⟩
    · simp at hc; simp [step, prev, isRightChild, BTree.move, Heap.read_of hc]
    · have hq := H'.parent_cell
      have hother : some b ≠ f.other.addr? := by
        intro e
        have h5 := ((rep_plug _ _).mp H').2.2
        exact (List.nodup_append.mp h5).2.2 b (by simp [ctxAddrs, addr?_mem e.symm]) b (by simp) rfl
      generalize hq0 : p.tail = q at hp' hu
      subst hp'
      clear hq0 hL hR cL cR e
      obtain ⟨w, c, o⟩ := f
      have ho : t.at? ((!c) :: q) = o := by cases c <;> simp [BTree.at?, hu, Frame.fill, left, right]
      have ce : t.check ((!c) :: q) = if o.label?.isSome then some ((!c) :: q) else none := by simp [check, ho]
      cases c <;> cases o <;>
        simp_all [step, prev, isRightChild, BTree.move, Heap.read_of hc, Heap.read_of hq, frameRec, label?, addrAt] <;> grind
  | next =>
    rcases hk with ⟨rfl, rfl⟩ | ⟨f, fs', rfl, hp', hu⟩
    · simp at hc; simp [step, next, isLeftChild, BTree.move, Heap.read_of hc]
    · have hq := H'.parent_cell
      have hother : some b ≠ f.other.addr? := by
        intro e
        have h5 := ((rep_plug _ _).mp H').2.2
        exact (List.nodup_append.mp h5).2.2 b (by simp [ctxAddrs, addr?_mem e.symm]) b (by simp) rfl
      generalize hq0 : p.tail = q at hp' hu
      subst hp'
      clear hq0 hL hR cL cR e
      obtain ⟨w, c, o⟩ := f
      have ho : t.at? ((!c) :: q) = o := by cases c <;> simp [BTree.at?, hu, Frame.fill, left, right]
      have ce : t.check ((!c) :: q) = if o.label?.isSome then some ((!c) :: q) else none := by simp [check, ho]
      cases c <;> cases o <;>
        simp_all [step, next, isLeftChild, BTree.move, Heap.read_of hc, Heap.read_of hq, frameRec, label?, addrAt] <;> grind

theorem move_some {p q : List Bool} (hp : (t.addrAt p).isSome) {m : Move} (h : t.move m p = some q) : (t.addrAt q).isSome := by
  have hchk : ∀ r, t.check r = some q → (t.addrAt q).isSome := by
    intro r hr
    simp only [check] at hr
    split at hr
    · next h1 => simp at hr; subst hr; simpa [addrAt, addr?] using h1
    · simp at hr
  have hor : ∀ r s, (t.check r).or (t.check s) = some q → (t.addrAt q).isSome := by
    intro r s hr
    cases e : t.check r with
    | none => rw [e] at hr; exact hchk s (by simpa using hr)
    | some x => rw [e] at hr; exact hchk r (by simpa [e] using hr)
  cases m with
  | parent =>
    cases p with
    | nil => simp [BTree.move] at h
    | cons i p =>
      simp [BTree.move] at h; subst h
      simp only [addrAt, BTree.at?] at hp ⊢
      cases e : t.at? p with
      | nil => cases i <;> simp [e, left, right] at hp
      | node a l r => simp
  | prev =>
    match p with
    | [] => simp [BTree.move] at h
    | true :: p => simp [BTree.move] at h
    | false :: p => exact hchk _ h
  | next =>
    match p with
    | [] => simp [BTree.move] at h
    | true :: p => exact hchk _ h
    | false :: p => simp [BTree.move] at h
  | first => exact hor _ _ h
  | last => exact hor _ _ h
  | left => exact hchk _ h
  | right => exact hchk _ h
  | child i =>
    have hm := List.mem_of_getElem? h
    simp [List.reduceOption] at hm
    rcases hm with hm | hm
    · exact hchk _ hm.symm
    · exact hchk _ hm.symm

theorem moves_some {ms : List Move} {o : Option (List Bool)} (ho : ∀ p, o = some p → (t.addrAt p).isSome) {q : List Bool}
    (h : t.moves ms o = some q) : (t.addrAt q).isSome := by
  induction ms generalizing o with
  | nil => exact ho q h
  | cons m ms ih =>
    refine ih (o := o.bind (t.move m)) ?_ h
    intro p hp
    obtain ⟨r, hr, hp⟩ := Option.bind_eq_some_iff.mp hp
    exact move_some (ho r hr) hp

end Binary
