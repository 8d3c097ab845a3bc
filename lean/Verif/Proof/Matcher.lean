import Verif.Model.Matcher
import Verif.Proof.StructNode
import Verif.Proof.Lawful
/-! # Making a pattern -/

namespace Wanted
variable {α β : Type} [DecidableEq α] [DecidableEq β]
theorem matchValue_iff (w : Wanted α β) (x : α) : w.matchValue x = true ↔ w.Accepts x := by
  cases w with
  | any => simp [matchValue, Accepts]
  | value v => simp only [matchValue, Accepts, beq_iff_eq]; exact eq_comm
  | having a g => simp only [matchValue, Accepts, beq_iff_eq]; exact eq_comm
end Wanted

namespace Label
variable {α β : Type} [DecidableEq α] [DecidableEq β]
theorem matchValue_iff (l : Label α β) (x : α) : l.matchValue x = true ↔ l.Accepts x := by
  cases l <;> simp [matchValue, Accepts, Wanted.matchValue_iff]
end Label

namespace SNode
variable {α β γ : Type}

/-- The forest stored in a chain of siblings, without levels and indexes. -/
inductive Holds : SNode γ → List (Tree γ) → Prop where
  | empty : Holds .empty []
  | mk {v : γ} {f n : SNode γ} {cs ts : List (Tree γ)} {l i : Nat} :
      Holds f cs → Holds n ts → Holds (.mk (some v) f n l i) (.node v cs :: ts)

theorem Holds.setLevel {s : SNode γ} {ts : List (Tree γ)} (H : Holds s ts) : ∀ k, Holds (s.setLevel k) ts := by
  induction H with
  | empty => exact fun _ => .empty
  | mk _ _ h1 h2 => exact fun _ => .mk (h1 _) (h2 _)

theorem Holds.assignIndexes {s : SNode γ} {ts : List (Tree γ)} (H : Holds s ts) : ∀ k, Holds (s.assignIndexes k) ts := by
  induction H with
  | empty => exact fun _ => .empty
  | mk h1 _ _ h2 => exact fun _ => .mk h1 (h2 _)

theorem Holds.make {v : γ} {f n : SNode γ} {cs ts : List (Tree γ)} (H : Holds f cs) (Hn : Holds n ts) :
    Holds (make (some v) f n) (.node v cs :: ts) := .mk ((H.assignIndexes _).setLevel _) Hn

theorem captureNames_setLevel (s : SNode (Label α β)) : ∀ k, (s.setLevel k).captureNames = s.captureNames := by
  induction s with
  | empty => exact fun _ => rfl
  | mk v f n l i h1 h2 => intro k; simp [setLevel, captureNames, h1, h2]

theorem captureNames_assignIndexes (s : SNode (Label α β)) : ∀ k, (s.assignIndexes k).captureNames = s.captureNames := by
  induction s with
  | empty => exact fun _ => rfl
  | mk v f n l i h1 h2 => intro k; simp [assignIndexes, captureNames, h2]

theorem captureNames_make (v : Option (Label α β)) (f n : SNode (Label α β)) :
    (make v f n).captureNames = (v.bind Label.name?).toList ++ (f.captureNames ++ n.captureNames) := by
  simp [make, captureNames, captureNames_setLevel, captureNames_assignIndexes]

section
variable [DecidableEq α] [DecidableEq β]

theorem Holds.objects {s : SNode γ} {ts : List (Tree γ)} (H : Holds s ts) : s.labels.length = s.objects := by
  induction H with
  | empty => rfl
  | mk _ _ h1 h2 => simp [SNode.labels, SNode.objects, h1, h2]; omega

theorem Holds.ids {s : SNode (Label α β)} {ts : List (Tree (Label α β))} (H : Holds s ts) :
    ∀ k, Pat.idsL (s.pats k) = (List.range s.objects).map (k + ·) := by
  induction H with
  | empty => intro k; rfl
  | @mk v f n cs ts l i _ _ h1 h2 =>
    intro k
    simp only [pats, Pat.idsL, Pat.preL, Pat.pre, List.map_append, List.map_cons, Pat.id, SNode.objects]
    have e1 := h1 (k + 1)
    have e2 := h2 (k + 1 + f.objects)
    simp only [Pat.idsL] at e1 e2
    rw [e1, e2, Nat.add_comm 1, List.range_succ_eq_map, List.range_add]
    simp [Function.comp_def, Nat.add_assoc, Nat.add_comm, Nat.add_left_comm]

theorem Holds.written {s : SNode (Label α β)} {ts : List (Tree (Label α β))} (H : Holds s ts) {name : Nat → List Char} :
    ∀ k, (∀ j (l : Label α β), s.labels[j]? = some (some l) → ∀ c, l.name? = some c → name (k + j) = c) →
      Pat.WrittenL name (s.pats k) ts := by
  induction H with
  | empty => intro k _; rfl
  | @mk v f n cs ts l i H1 _ h1 h2 =>
    intro k hk
    have hlen := H1.objects
    refine ⟨_, _, rfl, ?_, h2 _ fun j l hl c hc => ?_⟩
    · refine ⟨rfl, v.matchValue_iff, fun c hc => ?_, h1 _ fun j l hl c hc => ?_⟩
      · simpa using hk 0 v (by simp [labels]) c hc
      · have := hk (j + 1) l (by
          have : j < f.labels.length := by
            apply Classical.byContradiction; intro hn
            rw [List.getElem?_eq_none (by omega)] at hl; cases hl
          simpa [labels, List.getElem?_append_left this] using hl) c hc
        rw [← this]; congr 1; omega
    · have := hk (f.objects + j + 1) l (by
        simp only [labels, List.getElem?_cons_succ]
        rw [List.getElem?_append_right (by omega)]
        rw [hlen]
        rw [← hl]; congr 1; omega) c hc
      rw [← this]; congr 1; omega

end
end SNode

namespace PExpr
variable {α β : Type}
open SNode

/-- Names taken from a list in which none is given twice. -/
abbrev Few (l : List (List Char)) : Prop := (l.filter (fun c => c ≠ [])).Nodup

theorem few_append {l m : List (List Char)} (h : Few (l ++ m)) : Few l ∧ Few m ∧ ∀ c ∈ l, c ≠ [] → c ∉ m := by
  simp only [Few, List.filter_append, List.nodup_append] at h
  refine ⟨h.1, h.2.1, fun c hc hn hm => ?_⟩
  exact h.2.2 c (by simp [hc, hn]) c (by simp [hm, hn]) rfl

/-- Objects compile if no name occurs twice. -/
theorem checked_of_few {s : SNode (Label α β)} (h : Few s.captureNames) : s.checked = some s := by
  cases s with
  | empty => rfl
  | mk v f n l i =>
    rw [checked, if_neg]
    simp only [clash]
    cases hv : v.bind Label.name? with
    | none => simp
    | some c =>
      simp only [captureNames, hv, Option.toList_some] at h
      obtain ⟨_, _, h3⟩ := few_append h
      simp only [Bool.and_eq_true, bne_iff_ne, ne_eq, List.contains_iff_mem, not_and]
      intro hc _ hm
      exact h3 c (by simp) hc (List.mem_append_left _ hm)

theorem subnames {l m : List (List Char)} (h : Few m) (hs : l.Sublist m) : Few l :=
  List.Nodup.sublist (hs.filter _) h

mutual
theorem eval_of_means {e : PExpr α β} {t : Tree (Label α β)} (M : Means e t) (hd : Few e.names) :
    ∃ s, eval e = some s ∧ Holds s [t] ∧ s.captureNames.Sublist e.names := by
  match e, M with
  | .one w, .one _ => exact ⟨_, rfl, .make .empty .empty, by simp [captureNames_make, captureNames, Label.name?]⟩
  | .opt q w, .opt _ _ => exact ⟨_, rfl, .make .empty .empty, by simp [captureNames_make, captureNames, Label.name?]⟩
  | .star q w, .star _ _ => exact ⟨_, rfl, .make .empty .empty, by simp [captureNames_make, captureNames, Label.name?]⟩
  | .cpt c e, .cpt _ M =>
    obtain ⟨-, he, -⟩ := few_append (l := [c]) hd
    obtain ⟨s, hs, H, hn⟩ := eval_of_means M he
    have hsub : (make (some (Label.cpt c)) s .empty).captureNames.Sublist (PExpr.names (.cpt c e)) := by
      simp [captureNames_make, captureNames, Label.name?, PExpr.names, hn]
    exact ⟨_, by rw [eval, hs]; exact checked_of_few (subnames hd hsub), .make H .empty, hsub⟩
  | .call e args, .call (l := lb) (old := old) M hk ML =>
    obtain ⟨he, ha, -⟩ := few_append (l := e.names) (m := namesL args) hd
    obtain ⟨s, hs, H, hn⟩ := eval_of_means M he
    obtain ⟨ss, hss, row, hrow, HR, hnr⟩ := evalL_of_means ML ha
    cases H with
    | @mk v f n cs ts l i H1 H2 =>
      cases H2
      have hsub : (make (some lb) row .empty).captureNames.Sublist (PExpr.names (.call e args)) := by
        simp only [captureNames_make, captureNames, List.append_nil, PExpr.names]
        refine List.Sublist.append ?_ hnr
        simp only [captureNames] at hn
        exact (List.sublist_append_left _ _).trans hn
      refine ⟨make (some lb) row .empty, ?_, .make HR .empty, hsub⟩
      simp only [eval, hs, hss, Option.bind_eq_bind, Option.bind_some]
      rw [callMatcher, hrow]
      simp only [Option.bind_eq_bind, Option.bind_some, withFirst, checked_of_few (subnames hd hsub)]
      simp only [SNode.make]
      cases lb <;> first | rfl | exact absurd rfl hk
theorem evalL_of_means {es : List (PExpr α β)} {ts : List (Tree (Label α β))} (M : MeansL es ts) (hd : Few (namesL es)) :
    ∃ ss, evalL es = some ss ∧ ∃ row,
      ss.foldr (fun element accumulated => do checked (SNode.withNext element (← accumulated))) (some .empty) = some row ∧
      Holds row ts ∧ row.captureNames.Sublist (namesL es) := by
  match es, M with
  | [], .nil => exact ⟨[], rfl, .empty, rfl, .empty, by simp [captureNames]⟩
  | e :: es, .cons (t := t) M ML =>
    obtain ⟨he, ha, -⟩ := few_append (l := e.names) (m := namesL es) hd
    obtain ⟨s, hs, H, hn⟩ := eval_of_means M he
    obtain ⟨ss, hss, row, hrow, HR, hnr⟩ := evalL_of_means ML ha
    cases H with
    | @mk v f n cs ts l i H1 H2 =>
      cases H2
      have hsub : (make (some v) f row).captureNames.Sublist (namesL (e :: es)) := by
        simp only [captureNames_make, namesL]
        rw [← List.append_assoc]
        refine List.Sublist.append ?_ hnr
        simpa [captureNames] using hn
      refine ⟨_ :: ss, by rw [evalL, hs, hss]; rfl, make (some v) f row, ?_, .make H1 HR, hsub⟩
      rw [List.foldr_cons, hrow]
      simp only [Option.bind_eq_bind, Option.bind_some, withNext]
      exact checked_of_few (subnames hd hsub)
end

mutual
theorem means_unique {e : PExpr α β} {t t' : Tree (Label α β)} (M : Means e t) (M' : Means e t') : t = t' := by
  match e, M, M' with
  | .one w, .one _, .one _ => rfl
  | .opt q w, .opt _ _, .opt _ _ => rfl
  | .star q w, .star _ _, .star _ _ => rfl
  | .cpt c e, .cpt _ M, .cpt _ M' => rw [means_unique M M']
  | .call e args, .call M _ ML, .call M' _ ML' =>
    cases means_unique M M'
    rw [meansL_unique ML ML']
theorem meansL_unique {es : List (PExpr α β)} {ts ts' : List (Tree (Label α β))} (M : MeansL es ts) (M' : MeansL es ts') : ts = ts' := by
  match es, M, M' with
  | [], .nil, .nil => rfl
  | e :: es, .cons M ML, .cons M' ML' => rw [means_unique M M', meansL_unique ML ML']
end

end PExpr

namespace PExpr
variable {α β : Type}
open SNode

theorem checked_some {s r : SNode (Label α β)} (h : s.checked = some r) : r = s ∧ s.clash = false := by
  unfold checked at h
  split at h
  · cases h
  · cases h
    rename_i hc
    exact ⟨rfl, by simpa using hc⟩

mutual
theorem holds {e : PExpr α β} {t : Tree (Label α β)} (M : Means e t) {s : SNode (Label α β)} (hs : eval e = some s) : Holds s [t] := by
  match e, M with
  | .one w, .one _ => cases hs; exact .make .empty .empty
  | .opt q w, .opt _ _ => cases hs; exact .make .empty .empty
  | .star q w, .star _ _ => cases hs; exact .make .empty .empty
  | .cpt c e, .cpt _ M =>
    rw [eval] at hs
    obtain ⟨s0, hs0, hs⟩ := Option.bind_eq_some_iff.mp hs
    obtain ⟨rfl, -⟩ := checked_some hs
    exact .make (holds M hs0) .empty
  | .call e args, .call M hk ML =>
    rw [eval] at hs
    obtain ⟨s0, hs0, hs⟩ := Option.bind_eq_some_iff.mp hs
    obtain ⟨ss, hss, hs⟩ := Option.bind_eq_some_iff.mp hs
    obtain ⟨r, hr, hs⟩ := Option.bind_eq_some_iff.mp hs
    rw [callMatcher] at hr
    obtain ⟨row, hrow, hr⟩ := Option.bind_eq_some_iff.mp hr
    obtain ⟨rfl, -⟩ := checked_some hr
    have : s = s0.withFirst row := by
      split at hs
      · cases hs
      · exact (Option.some.inj hs).symm
    subst this
    have H := holds M hs0
    cases H with
    | mk H1 H2 => exact .make (holdsL ML hss hrow) H2
theorem holdsL {es : List (PExpr α β)} {ts : List (Tree (Label α β))} (M : MeansL es ts) {ss : List (SNode (Label α β))}
    (hss : evalL es = some ss) {row : SNode (Label α β)}
    (hrow : ss.foldr (fun element accumulated => do checked (SNode.withNext element (← accumulated))) (some .empty) = some row) :
    Holds row ts := by
  match es, M with
  | [], .nil => cases hss; cases hrow; exact .empty
  | e :: es, .cons M ML =>
    rw [evalL] at hss
    obtain ⟨s0, hs0, hss⟩ := Option.bind_eq_some_iff.mp hss
    obtain ⟨ss0, hss0, hss⟩ := Option.bind_eq_some_iff.mp hss
    cases hss
    rw [List.foldr_cons] at hrow
    obtain ⟨row0, hrow0, hrow⟩ := Option.bind_eq_some_iff.mp hrow
    obtain ⟨rfl, -⟩ := checked_some hrow
    have H := holds M hs0
    cases H with
    | mk H1 H2 => exact .make H1 (holdsL ML hss0 hrow0)
end

end PExpr

namespace SNode
variable {α β : Type}

/-- Every matcher passed the check of its class. -/
def Sound : SNode (Label α β) → Prop
  | empty => True
  | mk v f n l i => (mk v f n l i).clash = false ∧ Sound f ∧ Sound n

theorem isEmpty_setLevel {γ : Type} (s : SNode γ) (k : Nat) : (s.setLevel k).isEmpty = s.isEmpty := by cases s <;> rfl
theorem isEmpty_assignIndexes {γ : Type} (s : SNode γ) (k : Nat) : (s.assignIndexes k).isEmpty = s.isEmpty := by cases s <;> rfl

theorem Sound.setLevel {s : SNode (Label α β)} : s.Sound → ∀ k, (s.setLevel k).Sound := by
  induction s with
  | empty => exact fun h _ => h
  | mk v f n l i h1 h2 =>
    intro h k
    refine ⟨?_, h1 h.2.1 _, h2 h.2.2 _⟩
    have := h.1
    simp only [clash, captureNames_setLevel, isEmpty_setLevel] at this ⊢
    exact this

theorem Sound.assignIndexes {s : SNode (Label α β)} : s.Sound → ∀ k, (s.assignIndexes k).Sound := by
  induction s with
  | empty => exact fun h _ => h
  | mk v f n l i h1 h2 =>
    intro h k
    refine ⟨?_, h.2.1, h2 h.2.2 _⟩
    have := h.1
    simp only [clash, isEmpty_assignIndexes] at this ⊢
    exact this

theorem Sound.make {v : Option (Label α β)} {f n : SNode (Label α β)} (hf : f.Sound) (hn : n.Sound)
    (h : (make v f n).clash = false) : (make v f n).Sound := ⟨h, (hf.assignIndexes _).setLevel _, hn⟩

end SNode

namespace PExpr
variable {α β : Type}
open SNode

mutual
theorem sound {e : PExpr α β} {s : SNode (Label α β)} (hs : eval e = some s) : s.Sound := by
  match e with
  | .one w => cases hs; exact .make trivial trivial rfl
  | .opt q w => cases hs; exact .make trivial trivial rfl
  | .star q w => cases hs; exact .make trivial trivial rfl
  | .cpt c e =>
    rw [eval] at hs
    obtain ⟨s0, hs0, hs⟩ := Option.bind_eq_some_iff.mp hs
    obtain ⟨rfl, h⟩ := checked_some hs
    exact .make (sound hs0) trivial h
  | .call e args =>
    rw [eval] at hs
    obtain ⟨s0, hs0, hs⟩ := Option.bind_eq_some_iff.mp hs
    obtain ⟨ss, hss, hs⟩ := Option.bind_eq_some_iff.mp hs
    obtain ⟨r, hr, hs⟩ := Option.bind_eq_some_iff.mp hs
    rw [callMatcher] at hr
    obtain ⟨row, hrow, hr⟩ := Option.bind_eq_some_iff.mp hr
    obtain ⟨rfl, h⟩ := checked_some hr
    have : s = s0.withFirst row := by
      split at hs
      · cases hs
      · exact (Option.some.inj hs).symm
    subst this
    have H := sound hs0
    cases s0 with
    | empty => trivial
    | mk v f n l i => exact .make (soundL hss hrow) H.2.2 h
theorem soundL {es : List (PExpr α β)} {ss : List (SNode (Label α β))}
    (hss : evalL es = some ss) {row : SNode (Label α β)}
    (hrow : ss.foldr (fun element accumulated => do checked (SNode.withNext element (← accumulated))) (some .empty) = some row) :
    row.Sound := by
  match es with
  | [] => cases hss; cases hrow; trivial
  | e :: es =>
    rw [evalL] at hss
    obtain ⟨s0, hs0, hss⟩ := Option.bind_eq_some_iff.mp hss
    obtain ⟨ss0, hss0, hss⟩ := Option.bind_eq_some_iff.mp hss
    cases hss
    rw [List.foldr_cons] at hrow
    obtain ⟨row0, hrow0, hrow⟩ := Option.bind_eq_some_iff.mp hrow
    obtain ⟨rfl, h⟩ := checked_some hrow
    have H := sound hs0
    cases s0 with
    | empty => trivial
    | mk v f n l i => exact .make H.2.1 (soundL hss0 hrow0) h
end

end PExpr

namespace Pat
variable {α β γ : Type} {name : Nat → List Char}

theorem Written.test_eq {i j : Nat} {k k' : MKind} {f f' : α → Bool} {ps qs : List (Pat α)} {t : Tree (Label α β)} {n n' : Nat → List Char}
    (h : Written n (node i k f ps) t) (h' : Written n' (node j k' f' qs) t) : k = k' ∧ f = f' := by
  simp only [Written] at h h'
  refine ⟨h.1.trans h'.1.symm, funext fun x => ?_⟩
  have := (h.2.1 x).trans (h'.2.1 x).symm
  cases hx : f x <;> cases hx' : f' x <;> simp [hx, hx'] at this ⊢

section
variable {val : γ → α} {n n' : Nat → List Char}
mutual
theorem fits_of_written : (p p' : Pat α) → {t : Tree (Label α β)} → Written n p t → Written n' p' t → (T : Tree γ) →
    Fits val p T → Fits val p' T
  | node i k f ps, node j k' f' qs, t, h, h', T, hf => by
    obtain ⟨rfl, rfl⟩ := h.test_eq h'
    simp only [Written] at h h'
    have hl := h.2.2.2
    have hl' := h'.2.2.2
    cases k with
    | one =>
      simp only [Fits] at hf ⊢
      exact ⟨hf.1, fitsL_of_written ps qs hl hl' _ hf.2⟩
    | cpt =>
      simp only [Fits] at hf ⊢
      exact fitsL_of_written ps qs hl hl' _ hf
    | opt q =>
      simp only [Fits] at hf ⊢
      rcases hf with hf | hf
      · exact .inl ⟨hf.1, fitsL_of_written ps qs hl hl' _ hf.2⟩
      · exact .inr ⟨hf.1, fitsL_of_written ps qs hl hl' _ hf.2⟩
    | star q =>
      simp only [Fits] at hf ⊢
      rcases hf with hf | hf
      · exact .inl ⟨hf.1, fun hq => fitsS_of_written ps qs hl hl' _ _ (hf.2.1 hq), fun hq => fitsL_of_written ps qs hl hl' _ (hf.2.2 hq)⟩
      · exact .inr ⟨hf.1, fitsL_of_written ps qs hl hl' _ hf.2⟩
theorem fitsL_of_written : (ps qs : List (Pat α)) → {ts : List (Tree (Label α β))} → WrittenL n ps ts → WrittenL n' qs ts →
    (Ts : List (Tree γ)) → FitsL val ps Ts → FitsL val qs Ts
  | [], [], _, _, _, _, _ => by simp [FitsL]
  | [], q :: qs, _, h, h', _, _ => by
    simp only [WrittenL] at h h'
    obtain ⟨_, _, e, _⟩ := h'
    rw [h] at e; cases e
  | p :: ps, [], _, h, h', _, _ => by
    simp only [WrittenL] at h h'
    obtain ⟨_, _, e, _⟩ := h
    rw [h'] at e; cases e
  | p :: ps, q :: qs, ts, h, h', Ts, hf => by
    simp only [WrittenL] at h h'
    obtain ⟨t, us, rfl, h1, h2⟩ := h
    obtain ⟨t', us', e, h1', h2'⟩ := h'
    cases e
    simp only [FitsL] at hf ⊢
    obtain ⟨l, T, r, e, f1, f2⟩ := hf
    exact ⟨l, T, r, e, fits_of_written p q h1 h1' T f1, fitsL_of_written ps qs h2 h2' r f2⟩
theorem fitsS_of_written : (ps qs : List (Pat α)) → {ts : List (Tree (Label α β))} → WrittenL n ps ts → WrittenL n' qs ts →
    (g : γ → Bool) → (Ts : List (Tree γ)) → FitsS val g ps Ts → FitsS val g qs Ts
  | [], [], _, _, _, _, _, _ => by simp [FitsS]
  | [], q :: qs, _, h, h', _, _, _ => by
    simp only [WrittenL] at h h'
    obtain ⟨_, _, e, _⟩ := h'
    rw [h] at e; cases e
  | p :: ps, [], _, h, h', _, _, _ => by
    simp only [WrittenL] at h h'
    obtain ⟨_, _, e, _⟩ := h
    rw [h'] at e; cases e
  | p :: ps, q :: qs, ts, h, h', g, Ts, hf => by
    simp only [WrittenL] at h h'
    obtain ⟨t, us, rfl, h1, h2⟩ := h
    obtain ⟨t', us', e, h1', h2'⟩ := h'
    cases e
    simp only [FitsS] at hf ⊢
    obtain ⟨T, r, e, f1, f2⟩ := hf
    exact ⟨T, r, e, fits_of_written p q h1 h1' T f1, fitsS_of_written ps qs h2 h2' g r f2⟩
end

theorem WrittenL.length : (ps : List (Pat α)) → {ts : List (Tree (Label α β))} → WrittenL n ps ts → ps.length = ts.length
  | [], _, h => by simp only [WrittenL] at h; rw [h]; rfl
  | p :: ps, _, h => by
    simp only [WrittenL] at h
    obtain ⟨t, us, rfl, _, h2⟩ := h
    simp [WrittenL.length ps h2]

mutual
theorem plain_of_written : (p p' : Pat α) → {t : Tree (Label α β)} → Written n p t → Written n' p' t → p.plain → p'.plain
  | node i k f ps, node j k' f' qs, t, h, h', hf => by
    obtain ⟨rfl, rfl⟩ := h.test_eq h'
    simp only [Written] at h h'
    have hl := h.2.2.2
    have hl' := h'.2.2.2
    have e := (WrittenL.length ps hl).trans (WrittenL.length qs hl').symm
    cases k with
    | one => simp only [plain] at hf ⊢; exact plainL_of_written ps qs hl hl' hf
    | cpt => simp only [plain] at hf ⊢; exact ⟨e ▸ hf.1, plainL_of_written ps qs hl hl' hf.2⟩
    | opt q =>
      simp only [plain] at hf ⊢
      refine ⟨fun h0 => hf.1 ?_, plainL_of_written ps qs hl hl' hf.2⟩
      rw [h0] at e
      exact List.length_eq_zero_iff.mp e
    | star q => simp only [plain] at hf
theorem plainL_of_written : (ps qs : List (Pat α)) → {ts : List (Tree (Label α β))} → WrittenL n ps ts → WrittenL n' qs ts →
    plainL ps → plainL qs
  | _, [], _, _, _, _ => by simp [plainL]
  | [], q :: qs, _, h, h', _ => by
    simp only [WrittenL] at h h'
    obtain ⟨_, _, e, _⟩ := h'
    rw [h] at e; cases e
  | p :: ps, q :: qs, ts, h, h', hf => by
    simp only [WrittenL] at h h'
    obtain ⟨t, us, rfl, h1, h2⟩ := h
    obtain ⟨t', us', e, h1', h2'⟩ := h'
    cases e
    simp only [plainL] at hf ⊢
    exact ⟨plain_of_written p q h1 h1' hf.1, plainL_of_written ps qs h2 h2' hf.2⟩
end

theorem name?_kind (l : Label α β) : l.kind = .cpt ↔ l.name?.isSome = true := by cases l <;> simp [Label.kind, Label.name?]

mutual
/-- The captures, in the order they are written. -/
theorem written_captures : (p : Pat α) → {t : Tree (Label α β)} → Written n p t →
    p.captures.map (fun q => n q.id) = t.pre.filterMap Label.name?
  | node i k f ps, .node l ts, h => by
    simp only [Written, Tree.label, Tree.children] at h
    obtain ⟨rfl, _, h1, h2⟩ := h
    have := writtenL_captures ps h2
    cases l with
    | cpt c =>
      have e : n (node i (Label.cpt c : Label α β).kind f ps).id = c := h1 c rfl
      simp only [Label.kind] at e
      simp [captures, Label.kind, Tree.pre, this, e, show (Label.cpt c : Label α β).name? = some c from rfl]
    | one w => simp [captures, Label.kind, Tree.pre, this, show (Label.one w : Label α β).name? = none from rfl]
    | opt q w => simp [captures, Label.kind, Tree.pre, this, show (Label.opt q w : Label α β).name? = none from rfl]
    | star q w => simp [captures, Label.kind, Tree.pre, this, show (Label.star q w : Label α β).name? = none from rfl]
theorem writtenL_captures : (ps : List (Pat α)) → {ts : List (Tree (Label α β))} → WrittenL n ps ts →
    (capturesL ps).map (fun q => n q.id) = (Tree.preL ts).filterMap Label.name?
  | [], _, h => by simp only [WrittenL] at h; subst h; rfl
  | p :: ps, _, h => by
    simp only [WrittenL] at h
    obtain ⟨t, us, rfl, h1, h2⟩ := h
    simp [capturesL, Tree.preL, written_captures p h1, writtenL_captures ps h2]
end
end
end Pat

namespace SNode
variable {α β : Type} [DecidableEq α] [DecidableEq β] {name : Nat → List Char}

theorem Holds.captureNames {s : SNode (Label α β)} {ts : List (Tree (Label α β))} (H : Holds s ts) :
    s.captureNames = (Tree.preL ts).filterMap Label.name? := by
  induction H with
  | empty => rfl
  | @mk v f n cs ts l i _ _ h1 h2 =>
    simp only [SNode.captureNames, h1, h2, Tree.preL, Tree.pre, List.cons_append, List.filterMap_cons, List.filterMap_append]
    cases v <;> simp [Label.name?]

theorem isValidName_eq (c : List Char) (qs : List (Pat α)) :
    Pat.isValidName name c qs = (qs.map (fun q => name q.id)).contains c := by
  have key : ∀ qs : List (Pat α), Pat.indexOfCapture name c qs < qs.length ↔ c ∈ qs.map (fun q => name q.id) := by
    intro qs
    induction qs with
    | nil => simp [Pat.indexOfCapture]
    | cons q qs ih =>
      by_cases h : name q.id = c
      · simp [Pat.indexOfCapture, h]
      · have h' : ¬ c = name q.id := fun e => h e.symm
        simp only [Pat.indexOfCapture, h, if_false, List.length_cons, List.map_cons, List.mem_cons, h', false_or]
        rw [← ih]; omega
  rw [Pat.isValidName, Bool.eq_iff_iff]
  simp [key]

theorem Holds.pats_isEmpty {s : SNode (Label α β)} {ts : List (Tree (Label α β))} (H : Holds s ts) (k : Nat) :
    (s.pats k).isEmpty = s.isEmpty := by
  cases H <;> rfl

theorem Holds.valid {s : SNode (Label α β)} {ts : List (Tree (Label α β))} (H : Holds s ts) (hs : s.Sound) :
    ∀ k, Pat.WrittenL name (s.pats k) ts → Pat.validNamesL name (s.pats k) = true := by
  induction H with
  | empty => intro k _; rfl
  | @mk v f n cs ts l i H1 H2 h1 h2 =>
    intro k hw
    simp only [pats, Pat.WrittenL] at hw
    obtain ⟨t, us, e, hw1, hw2⟩ := hw
    cases e
    simp only [pats, Pat.validNamesL, Bool.and_eq_true]
    refine ⟨?_, h2 hs.2.2 _ hw2⟩
    simp only [Pat.Written, Tree.label, Tree.children] at hw1
    simp only [Pat.validNames, Bool.and_eq_true]
    refine ⟨?_, h1 hs.2.1 _ hw1.2.2.2⟩
    have hc := hs.1
    cases v with
    | cpt c =>
      have hn := hw1.2.2.1 c rfl
      simp only [clash, Option.bind_some, Label.name?] at hc
      rw [H2.pats_isEmpty]
      have hcap := Pat.writtenL_captures _ hw1.2.2.2
      rw [← H1.captureNames] at hcap
      rw [hn]
      simp only [Label.kind, decide_true, Bool.true_and]
      cases hf : f.pats (k + 1) with
      | nil =>
        have := H1.pats_isEmpty (k + 1)
        rw [hf] at this
        cases n.isEmpty <;> simp [Pat.childrenCaptures, Pat.isValidName]
      | cons q qs =>
        have he := H1.pats_isEmpty (k + 1)
        rw [hf] at he hcap
        simp only [List.isEmpty_cons] at he
        rw [← he] at hc
        cases hn : n.isEmpty with
        | true => simp [Pat.childrenCaptures, Pat.isValidName]
        | false =>
          rw [hn] at hc
          simp only [Pat.childrenCaptures, Bool.not_false, if_true, isValidName_eq, hcap]
          simp only [Bool.not_false, Bool.true_and] at hc
          by_cases h0 : c = [] <;> simp_all
    | one w => simp [Label.kind]
    | opt q w => simp [Label.kind]
    | star q w => simp [Label.kind]

end SNode
