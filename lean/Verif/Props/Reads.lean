import Verif.Props.Print
import Verif.Props.Compare
import Verif.Props.Literal
import Verif.Proof.Reads
/-!
# C84, C85, C86: what the printed text says

`Reads` (Spec/Reads.lean) is the grammar of the expressions a program can write for a literal; `Clear disp ok` says that the
texts of the values allowed by `ok` can be told apart. For C84 and C85 no address digits are wanted (C86 is about those).
-/
open Tree World
variable {α : Type}

section
variable {disp : Bool → α → List Char} {pos : Addr → Nat} {hex : Bool} {P : Prefs}

theorem nary_text (hd : P.digits = 0) (o : Shown (Addr × α)) :
    (o.marked hex (hex || decide (0 < P.digits))).text (fun q => nodeText disp P.digits q.1 (pos q.2.1) q.2.2) (fun _ => false) P.step 0 =
      (o.map fun p => (p.2, false)).text (fun a => disp hex a.1) (fun a => a.2) P.step 0 := by
  have e : (hex || decide (0 < P.digits)) = hex := by simp [hd]
  rw [e, Shown.text_marked hex _ _ (fun p => disp hex p.2) (fun _ => false) (by simp [nodeText, hd]) (fun _ => rfl)]
  exact Shown.text_map (fun p : Addr × α => (p.2, false)) _ _ (fun a => disp hex a.1) (fun a => a.2) (fun _ => rfl) (fun _ => rfl) _ _ _

theorem binary_text (hd : P.digits = 0) (o : Shown ((Addr × α) × Bool)) :
    (o.marked hex (hex || decide (0 < P.digits))).text (fun q => nodeText disp P.digits q.1 (pos q.2.1.1) q.2.1.2) (fun q => q.2.2) P.step 0 =
      (o.map fun p => (p.1.2, p.2)).text (fun a => disp hex a.1) (fun a => a.2) P.step 0 := by
  have e : (hex || decide (0 < P.digits)) = hex := by simp [hd]
  rw [e, Shown.text_marked hex _ _ (fun p => disp hex p.1.2) (fun p => p.2) (by simp [nodeText, hd]) (fun _ => rfl)]
  exact Shown.text_map (fun p : (Addr × α) × Bool => (p.1.2, p.2)) _ _ (fun a => disp hex a.1) (fun a => a.2) (fun _ => rfl) (fun _ => rfl) _ _ _

theorem no_gaps {β : Type} (t : Tree β) (f : β → α) : (t.map fun b => (f b, false)).Gaps := by
  intro fs s hs h
  have hm : s.label ∈ (t.map fun b => (f b, false)).pre := by rw [← hs]; exact mem_pre_plug _ _
  rw [pre_map] at hm
  obtain ⟨b, _, hb⟩ := List.mem_map.mp hm
  rw [← hb] at h
  cases h
end

/-- The whole text of a tree is an expression of the program that stands for the tree: a tree made from that expression has
the same shape and the same values. -/
theorem C84_literal_nary {W : World (NNode α)} {ts : Nat → Option (Option (Tree (Addr × α)))} {x : Nat} {t : Tree (Addr × α)}
    (O : Owned (Nary.shape α) W ts) (hx : ts x = some (some t)) (P : Prefs) (hd : P.digits = 0) (hl : (t.size : Int) ≤ P.limit)
    (disp : Bool → α → List Char) (pos : Addr → Nat) (hex : Bool) :
    ∃ text e s, Nary.print P disp pos hex W x = Res.ok (text, hex) ∧ Reads (fun s v => s = disp hex v) text e ∧
      Expr.Means e (Lit.full t.vals) [] ∧ Expr.eval e = some s ∧
      ∀ y, ts y = none → ∃ W' n, W.newStructNary y s = Res.ok W' ∧ Owned (Nary.shape α) W' (upd ts y (some (some n))) ∧
        n.vals = t.vals := by
  have h1 := C30_whole_nary O hx P (by omega) disp pos hex hl
  rw [nary_text hd, Shown.map_all] at h1
  have M := expr_means (t.map fun p => (p.2, false))
  rw [lit_full] at M
  obtain ⟨s, hs, _⟩ := Expr.eval_of_means M
  refine ⟨_, _, s, by rw [h1]; simp [hd], expr_reads P.step 0 _, M, hs, fun y hy => ?_⟩
  obtain ⟨W', n, e1, e2, e3, _⟩ := C24_new_nary t.vals O hy
  exact ⟨W', n, by rw [C24_object_nary M hs]; exact e1, e2, e3⟩

theorem C84_literal_binary {W : World (BNode α)} {ts : Nat → Option (BTree (Addr × α))} {x : Nat} {t : BTree (Addr × α)}
    (O : Owned (Binary.shape α) W ts) (hx : ts x = some t) (hne : t ≠ .nil) (P : Prefs) (hd : P.digits = 0)
    (hl : (t.size : Int) ≤ P.limit) (disp : Bool → α → List Char) (pos : Addr → Nat) (hex : Bool) :
    ∃ text e s l, Binary.print P disp pos hex W x = Res.ok (text, hex) ∧ Reads (fun s v => s = disp hex v) text e ∧
      Expr.Means e l [] ∧ l.toB = t.vals ∧ Expr.eval e = some s ∧
      ∀ y, ts y = none → ∃ W' n, W.newStructBinary l.size y s = Res.ok W' ∧ Owned (Binary.shape α) W' (upd ts y (some n)) ∧
        n.vals = t.vals := by
  obtain ⟨G, hG, h1⟩ := C30_whole_binary O hx hne P (by omega) disp pos hex hl
  rw [binary_text hd, Shown.map_all] at h1
  have hG' : t.vals.toGaps = [G.map fun p => (p.1.2, p.2)] := by
    rw [BTree.vals, BTree.gaps_map, hG]; rfl
  have M := expr_means (G.map fun p => (p.1.2, p.2))
  obtain ⟨k1, k2, k3⟩ := BTree.gaps_toB _ _ hG'
  obtain ⟨s, hs, _⟩ := Expr.eval_of_means M
  refine ⟨_, _, s, _, by rw [h1]; simp [hd], expr_reads P.step 0 _, M, k1, hs, fun y hy => ?_⟩
  have hlab : (G.map fun p => (p.1.2, p.2)).lit.label.isSome := by
    obtain ⟨a, cs⟩ := G
    cases cs <;> simp [Tree.map, mapL, lit]
  obtain ⟨W', n, e1, e2, e3, _⟩ := C24_new_binary _ hlab k2 k3 O hy
  exact ⟨W', n, by rw [C24_object_binary M hs]; exact e1, e2, by rw [e3, k1]⟩

/-- When the texts of the values are clear, the same text shows the same part of two trees, whatever the two limits. -/
theorem C84_part_nary {W W' : World (NNode α)} {ts ts' : Nat → Option (Option (Tree (Addr × α)))} {x x' : Nat} {t t' : Tree (Addr × α)}
    (O : Owned (Nary.shape α) W ts) (hx : ts x = some (some t)) (O' : Owned (Nary.shape α) W' ts') (hx' : ts' x' = some (some t'))
    {P P' : Prefs} (hd : P.digits = 0) (hd' : P'.digits = 0) (hP : P.step = P'.step) (hl : 1 ≤ P.limit) (hl' : 1 ≤ P'.limit)
    {disp : Bool → α → List Char} {hex : Bool} {ok : α → Prop} (C : Clear (disp hex) ok)
    (ho : ∀ v ∈ t.vals.pre, ok v) (ho' : ∀ v ∈ t'.vals.pre, ok v) {pos pos' : Addr → Nat}
    (h : Nary.print P disp pos hex W x = Nary.print P' disp pos' hex W' x') :
    ∃ o : Shown α, o.Of t.vals ∧ o.Of t'.vals ∧ o.pre = t.vals.pre.take P.limit.toNat ∧ o.pre = t'.vals.pre.take P'.limit.toNat := by
  obtain ⟨o, h1, h2, h3, _⟩ := C30_tree_nary O hx P (by omega) disp pos hex hl
  obtain ⟨o', h1', h2', h3', _⟩ := C30_tree_nary O' hx' P' (by omega) disp pos' hex hl'
  rw [h1, h1', nary_text hd, nary_text hd', hP] at h
  have e : o.map (fun p => (p.2, false)) = o'.map (fun p => (p.2, false)) := by
    refine Shown.text_unique C P'.step 0 ((h2.map _).gapped (no_gaps _ _)) ((h2'.map _).gapped (no_gaps _ _))
      (Shown.all_pre _ ?_) (Shown.all_pre _ ?_) (Prod.mk.inj (Res.ok.inj h)).1
    · intro p hp
      rw [Shown.pre_map] at hp
      obtain ⟨q, hq, rfl⟩ := List.mem_map.mp hp
      exact ho _ (by rw [vals, pre_map]; exact List.mem_map_of_mem (h2.sub _ hq))
    · intro p hp
      rw [Shown.pre_map] at hp
      obtain ⟨q, hq, rfl⟩ := List.mem_map.mp hp
      exact ho' _ (by rw [vals, pre_map]; exact List.mem_map_of_mem (h2'.sub _ hq))
  have e2 := congrArg (Shown.map Prod.fst) e
  have mm : ∀ o : Shown (Addr × α), (o.map (fun p => (p.2, false))).map Prod.fst = o.map Prod.snd := by
    intro o; rw [Shown.map_map]
  rw [mm, mm] at e2
  refine ⟨o.map Prod.snd, h2.map _, e2 ▸ h2'.map _, ?_, ?_⟩
  · rw [Shown.pre_map, h3, vals, pre_map, List.map_take]
  · rw [e2, Shown.pre_map, h3', vals, pre_map, List.map_take]

theorem C84_part_binary {W W' : World (BNode α)} {ts ts' : Nat → Option (BTree (Addr × α))} {x x' : Nat} {t t' : BTree (Addr × α)}
    (O : Owned (Binary.shape α) W ts) (hx : ts x = some t) (O' : Owned (Binary.shape α) W' ts') (hx' : ts' x' = some t')
    (hne : t ≠ .nil) (hne' : t' ≠ .nil)
    {P P' : Prefs} (hd : P.digits = 0) (hd' : P'.digits = 0) (hP : P.step = P'.step) (hl : 1 ≤ P.limit) (hl' : 1 ≤ P'.limit)
    {disp : Bool → α → List Char} {hex : Bool} {ok : α → Prop} (C : Clear (disp hex) ok)
    (ho : ∀ v ∈ t.vals.pre, ok v) (ho' : ∀ v ∈ t'.vals.pre, ok v) {pos pos' : Addr → Nat}
    (h : Binary.print P disp pos hex W x = Binary.print P' disp pos' hex W' x') :
    ∃ G G', t.vals.toGaps = [G] ∧ t'.vals.toGaps = [G'] ∧ ∃ o : Shown (α × Bool), o.Of G ∧ o.Of G' ∧
      o.pre = G.pre.take P.limit.toNat ∧ o.pre = G'.pre.take P'.limit.toNat := by
  obtain ⟨G, o, hG, h1, h2, h3, _⟩ := C30_tree_binary O hx hne P (by omega) disp pos hex hl
  obtain ⟨G', o', hG', h1', h2', h3', _⟩ := C30_tree_binary O' hx' hne' P' (by omega) disp pos' hex hl'
  rw [h1, h1', binary_text hd, binary_text hd', hP] at h
  have hV : ∀ {t : BTree (Addr × α)} {G}, t.toGaps = [G] → t.vals.toGaps = [G.map fun p => (p.1.2, p.2)] := by
    intro t G hG
    rw [BTree.vals, BTree.gaps_map, hG]; rfl
  have hmem : ∀ {t : BTree (Addr × α)} {G}, t.toGaps = [G] → ∀ p ∈ G.pre, p.1.2 ∈ t.vals.pre := by
    intro t G hG p hp
    have := gaps_pre t
    rw [hG, preL_cons, preL_nil, List.append_nil] at this
    rw [BTree.vals, BTree.pre_map, ← this]
    exact List.mem_map_of_mem (List.mem_map_of_mem hp)
  have e : o.map (fun p => (p.1.2, p.2)) = o'.map (fun p => (p.1.2, p.2)) := by
    refine Shown.text_unique C P'.step 0 ((h2.map _).gapped (BTree.gaps_gaps (hV hG))) ((h2'.map _).gapped (BTree.gaps_gaps (hV hG')))
      (Shown.all_pre _ ?_) (Shown.all_pre _ ?_) (Prod.mk.inj (Res.ok.inj h)).1
    · intro p hp
      rw [Shown.pre_map] at hp
      obtain ⟨q, hq, rfl⟩ := List.mem_map.mp hp
      exact ho _ (hmem hG _ (h2.sub _ hq))
    · intro p hp
      rw [Shown.pre_map] at hp
      obtain ⟨q, hq, rfl⟩ := List.mem_map.mp hp
      exact ho' _ (hmem hG' _ (h2'.sub _ hq))
  refine ⟨_, _, hV hG, hV hG', o.map (fun p => (p.1.2, p.2)), h2.map _, e ▸ h2'.map _, ?_, ?_⟩
  · rw [Shown.pre_map, h3, pre_map, List.map_take]
  · rw [e, Shown.pre_map, h3', pre_map, List.map_take]

/-- Two trees with the same whole text are equal. -/
theorem C84_unique_nary {W W' : World (NNode α)} {ts ts' : Nat → Option (Option (Tree (Addr × α)))} {x x' : Nat}
    {t t' : Option (Tree (Addr × α))}
    (O : Owned (Nary.shape α) W ts) (hx : ts x = some t) (O' : Owned (Nary.shape α) W' ts') (hx' : ts' x' = some t')
    {P P' : Prefs} (hd : P.digits = 0) (hd' : P'.digits = 0) (hP : P.step = P'.step)
    (hl : ∀ u, t = some u → (u.size : Int) ≤ P.limit) (hl' : ∀ u, t' = some u → (u.size : Int) ≤ P'.limit)
    {disp : Bool → α → List Char} {hex : Bool} {ok : α → Prop} (C : Clear (disp hex) ok)
    (ho : ∀ u, t = some u → ∀ v ∈ u.vals.pre, ok v) (ho' : ∀ u, t' = some u → ∀ v ∈ u.vals.pre, ok v) {pos pos' : Addr → Nat}
    (h : Nary.print P disp pos hex W x = Nary.print P' disp pos' hex W' x') : t.map vals = t'.map vals := by
  have hall : ∀ u : Tree (Addr × α), (∀ v ∈ u.vals.pre, ok v) →
      Shown.All (fun a => ok a.1) (Shown.all (u.map fun p => (p.2, false))) := by
    intro u hu
    refine Shown.all_pre _ fun p hp => ?_
    rw [(Shown.all_of _).2, pre_map] at hp
    obtain ⟨q, hq, rfl⟩ := List.mem_map.mp hp
    exact hu _ (by rw [vals, pre_map]; exact List.mem_map_of_mem hq)
  cases t with
  | none =>
    cases t' with
    | none => rfl
    | some u' =>
      have h1 := (C30_nothing_nary O hx P disp pos hex).1 rfl
      have h2 := C30_whole_nary O' hx' P' (by omega) disp pos' hex (hl' _ rfl)
      rw [nary_text hd', Shown.map_all] at h2
      rw [h1, h2] at h
      exact absurd (Prod.mk.inj (Res.ok.inj h)).1.symm (Shown.text_ne_hole C _ (hall _ (ho' _ rfl)))
  | some u =>
    have h2 := C30_whole_nary O hx P (by omega) disp pos hex (hl _ rfl)
    rw [nary_text hd, Shown.map_all] at h2
    cases t' with
    | none =>
      have h1 := (C30_nothing_nary O' hx' P' disp pos' hex).1 rfl
      rw [h1, h2] at h
      exact absurd (Prod.mk.inj (Res.ok.inj h)).1 (Shown.text_ne_hole C _ (hall _ (ho _ rfl)))
    | some u' =>
      have h2' := C30_whole_nary O' hx' P' (by omega) disp pos' hex (hl' _ rfl)
      rw [nary_text hd', Shown.map_all] at h2'
      rw [h2, h2', hP] at h
      have := Shown.all_inj (Shown.text_unique C P'.step 0 ((Shown.all_of _).1.gapped (no_gaps _ _)) ((Shown.all_of _).1.gapped (no_gaps _ _))
        (hall _ (ho _ rfl)) (hall _ (ho' _ rfl)) (Prod.mk.inj (Res.ok.inj h)).1)
      have e2 := congrArg (Tree.map Prod.fst) this
      have mm : ∀ u : Tree (Addr × α), (u.map (fun p => (p.2, false))).map Prod.fst = u.vals := by
        intro u
        induction u using Tree.ind with
        | h p cs ih =>
          simp only [Tree.map, mapL_eq, List.map_map, vals, node.injEq, true_and]
          exact List.map_congr_left fun c hc => by simpa [vals] using ih c hc
      rw [mm, mm] at e2
      simp [e2]

theorem C84_unique_binary {W W' : World (BNode α)} {ts ts' : Nat → Option (BTree (Addr × α))} {x x' : Nat} {t t' : BTree (Addr × α)}
    (O : Owned (Binary.shape α) W ts) (hx : ts x = some t) (O' : Owned (Binary.shape α) W' ts') (hx' : ts' x' = some t')
    {P P' : Prefs} (hd : P.digits = 0) (hd' : P'.digits = 0) (hP : P.step = P'.step)
    (hl : (t.size : Int) ≤ P.limit) (hl' : (t'.size : Int) ≤ P'.limit)
    {disp : Bool → α → List Char} {hex : Bool} {ok : α → Prop} (C : Clear (disp hex) ok)
    (ho : ∀ v ∈ t.vals.pre, ok v) (ho' : ∀ v ∈ t'.vals.pre, ok v) {pos pos' : Addr → Nat}
    (h : Binary.print P disp pos hex W x = Binary.print P' disp pos' hex W' x') : t.vals = t'.vals := by
  have hV : ∀ {t : BTree (Addr × α)} {G}, t.toGaps = [G] → t.vals.toGaps = [G.map fun p => (p.1.2, p.2)] := by
    intro t G hG
    rw [BTree.vals, BTree.gaps_map, hG]; rfl
  have hall : ∀ {t : BTree (Addr × α)} {G}, t.toGaps = [G] → (∀ v ∈ t.vals.pre, ok v) →
      Shown.All (fun a => ok a.1) (Shown.all (G.map fun p => (p.1.2, p.2))) := by
    intro t G hG hu
    refine Shown.all_pre _ fun p hp => ?_
    rw [(Shown.all_of _).2, pre_map] at hp
    obtain ⟨q, hq, rfl⟩ := List.mem_map.mp hp
    have := gaps_pre t
    rw [hG, preL_cons, preL_nil, List.append_nil] at this
    exact hu _ (by rw [BTree.vals, BTree.pre_map, ← this]; exact List.mem_map_of_mem (List.mem_map_of_mem hq))
  by_cases hn : t = .nil
  · subst hn
    by_cases hn' : t' = .nil
    · subst hn'; rfl
    · have h1 := (C30_nothing_binary O hx P disp pos hex).1 rfl
      obtain ⟨G', hG', h2⟩ := C30_whole_binary O' hx' hn' P' (by omega) disp pos' hex hl'
      rw [binary_text hd', Shown.map_all] at h2
      rw [h1, h2] at h
      exact absurd (Prod.mk.inj (Res.ok.inj h)).1.symm (Shown.text_ne_hole C _ (hall hG' ho'))
  · obtain ⟨G, hG, h2⟩ := C30_whole_binary O hx hn P (by omega) disp pos hex hl
    rw [binary_text hd, Shown.map_all] at h2
    by_cases hn' : t' = .nil
    · subst hn'
      have h1 := (C30_nothing_binary O' hx' P' disp pos' hex).1 rfl
      rw [h1, h2] at h
      exact absurd (Prod.mk.inj (Res.ok.inj h)).1 (Shown.text_ne_hole C _ (hall hG ho))
    · obtain ⟨G', hG', h2'⟩ := C30_whole_binary O' hx' hn' P' (by omega) disp pos' hex hl'
      rw [binary_text hd', Shown.map_all] at h2'
      rw [h2, h2', hP] at h
      have := Shown.all_inj (Shown.text_unique C P'.step 0 ((Shown.all_of _).1.gapped (BTree.gaps_gaps (hV hG)))
        ((Shown.all_of _).1.gapped (BTree.gaps_gaps (hV hG'))) (hall hG ho) (hall hG' ho') (Prod.mk.inj (Res.ok.inj h)).1)
      exact BTree.gaps_inj (hV hG) (this ▸ hV hG')

/-! Which values are clear: `code_like_print` of characters, numbers, and strings. -/

theorem stop_at {c : Char} : ∀ {l l' r r' : List Char}, c ∉ l → c ∉ l' → l ++ c :: r = l' ++ c :: r' → l = l' ∧ r = r'
  | [], [], _, _, _, _, h => by simpa using h
  | [], d :: l', _, _, _, h2, h => by simp at h; simp [h.1] at h2
  | d :: l, [], _, _, h1, _, h => by simp at h; simp [h.1] at h1
  | d :: l, d' :: l', r, r', h1, h2, h => by
    simp only [List.cons_append, List.cons.injEq] at h
    simp only [List.mem_cons, not_or] at h1 h2
    obtain ⟨e1, e2⟩ := stop_at h1.2 h2.2 h.2
    exact ⟨by rw [h.1, e1], e2⟩

theorem digits_clear (n : Nat) : (∀ c ∈ Nat.toDigits 10 n, c ≠ ')' ∧ c ≠ '-') ∧ Nat.toDigits 10 n ≠ [] := by
  refine ⟨fun c hc => ?_, ?_⟩
  · have := Nat.isDigit_of_mem_toDigits (by decide) (by decide) hc
    constructor <;> (rintro rfl; revert this; decide)
  · intro h
    have h1 := Nat.ofDigitChars_toDigits (b := 10) (n := n) (by decide) (by decide)
    rw [h] at h1
    have h2 : n = 0 := h1.symm
    subst h2
    revert h; decide

theorem digits_inj {m n : Nat} (h : Nat.toDigits 10 m = Nat.toDigits 10 n) : m = n := by
  rw [← Nat.ofDigitChars_toDigits (b := 10) (n := m) (by decide) (by decide), h, Nat.ofDigitChars_toDigits (by decide) (by decide)]

theorem C84_clear_number : Clear (numText false) (fun _ => True) := by
  refine ⟨fun v v' r r' _ _ h => ?_, fun v _ => ?_⟩
  · obtain ⟨h1, h2⟩ := stop_at (fun hc => ((digits_clear v).1 _ hc).1 rfl) (fun hc => ((digits_clear v').1 _ hc).1 rfl) h
    exact ⟨digits_inj h1, h2⟩
  · obtain ⟨h1, h2⟩ := digits_clear v
    cases e : Nat.toDigits 10 v with
    | nil => exact absurd e h2
    | cons c r => exact ⟨c, r, e, (h1 c (by simp [e])).1⟩

theorem C84_clear_int : Clear intText (fun _ => True) := by
  have hno : ∀ i, ')' ∉ intText i := by
    intro i hc
    have := (digits_clear i.natAbs).1
    rw [intText] at hc
    split at hc
    · rcases List.mem_cons.mp hc with h | h
      · cases h
      · exact (this _ h).1 rfl
    · exact (this _ hc).1 rfl
  refine ⟨fun v v' r r' _ _ h => ?_, fun v _ => ?_⟩
  · obtain ⟨h1, h2⟩ := stop_at (hno v) (hno v') h
    refine ⟨?_, h2⟩
    have d := (digits_clear v.natAbs).1
    have d' := (digits_clear v'.natAbs).1
    rw [intText, intText] at h1
    split at h1 <;> split at h1
    · have := digits_inj (List.cons.inj h1).2; omega
    · exact absurd rfl (d' '-' (by rw [← h1]; simp)).2
    · exact absurd rfl (d '-' (by rw [h1]; simp)).2
    · have := digits_inj h1; omega
  · obtain ⟨h1, h2⟩ := digits_clear v.natAbs
    rw [intText]
    split
    · exact ⟨_, _, rfl, by decide⟩
    · cases e : Nat.toDigits 10 v.natAbs with
      | nil => exact absurd e h2
      | cons c r => exact ⟨c, r, rfl, (h1 c (by simp [e])).1⟩

theorem C84_clear_char : Clear charText (fun _ => True) :=
  ⟨fun v v' r r' _ _ h => by simpa [charText] using h, fun v _ => ⟨_, _, rfl, by decide⟩⟩

theorem C84_clear_string : Clear stringText (fun s => '"' ∉ s.toList) := by
  refine ⟨fun v v' r r' h1 h2 h => ?_, fun v _ => ⟨_, _, rfl, by decide⟩⟩
  simp only [stringText, List.cons_append, List.append_assoc, List.nil_append, List.cons.injEq, true_and] at h
  obtain ⟨e1, e2⟩ := stop_at h1 h2 h
  exact ⟨String.toList_inj.mp e1, by simpa using e2⟩

/-- Strings without double quotes: two trees with the same whole text are equal. -/
theorem C85_unique_nary_partial {W W' : World (NNode String)} {ts ts' : Nat → Option (Option (Tree (Addr × String)))} {x x' : Nat}
    {t t' : Option (Tree (Addr × String))}
    (O : Owned (Nary.shape String) W ts) (hx : ts x = some t) (O' : Owned (Nary.shape String) W' ts') (hx' : ts' x' = some t')
    {P P' : Prefs} (hd : P.digits = 0) (hd' : P'.digits = 0) (hP : P.step = P'.step)
    (hl : ∀ u, t = some u → (u.size : Int) ≤ P.limit) (hl' : ∀ u, t' = some u → (u.size : Int) ≤ P'.limit)
    (ho : ∀ u, t = some u → ∀ v ∈ u.vals.pre, '"' ∉ v.toList) (ho' : ∀ u, t' = some u → ∀ v ∈ u.vals.pre, '"' ∉ v.toList)
    {hex : Bool} {pos pos' : Addr → Nat}
    (h : Nary.print P (fun _ => stringText) pos hex W x = Nary.print P' (fun _ => stringText) pos' hex W' x') :
    t.map vals = t'.map vals :=
  C84_unique_nary O hx O' hx' hd hd' hP hl hl' C84_clear_string ho ho' h

theorem C85_unique_binary_partial {W W' : World (BNode String)} {ts ts' : Nat → Option (BTree (Addr × String))} {x x' : Nat}
    {t t' : BTree (Addr × String)}
    (O : Owned (Binary.shape String) W ts) (hx : ts x = some t) (O' : Owned (Binary.shape String) W' ts') (hx' : ts' x' = some t')
    {P P' : Prefs} (hd : P.digits = 0) (hd' : P'.digits = 0) (hP : P.step = P'.step)
    (hl : (t.size : Int) ≤ P.limit) (hl' : (t'.size : Int) ≤ P'.limit)
    (ho : ∀ v ∈ t.vals.pre, '"' ∉ v.toList) (ho' : ∀ v ∈ t'.vals.pre, '"' ∉ v.toList)
    {hex : Bool} {pos pos' : Addr → Nat}
    (h : Binary.print P (fun _ => stringText) pos hex W x = Binary.print P' (fun _ => stringText) pos' hex W' x') :
    t.vals = t'.vals :=
  C84_unique_binary O hx O' hx' hd hd' hP hl hl' C84_clear_string ho ho' h

/-- Quotes inside a string are not escaped: a root with two children and a root with one child print the same text. -/
theorem C85_quotes_defect : ∃ text,
    Nary.print Prefs.default (fun _ => stringText) id false
      (Samples.after (Nary.kind String) [.newLit 0 (node "r" [node "a" [], node "b" []])]) 0 = Res.ok (text, false) ∧
    Nary.print Prefs.default (fun _ => stringText) id false
      (Samples.after (Nary.kind String) [.newLit 0 (node "r" [node "a\"),\n        n(\"b" []])]) 0 = Res.ok (text, false) :=
  ⟨_, rfl, by decide +kernel⟩

section
variable {disp : Bool → α → List Char} {pos : Addr → Nat} {hex : Bool} {P : Prefs}

theorem nary_same_mode (hm : P.digits = 0 ∨ hex = true) (o : Shown (Addr × α)) :
    (o.marked hex (hex || decide (0 < P.digits))).text (fun q => nodeText disp P.digits q.1 (pos q.2.1) q.2.2) (fun _ => false) P.step 0 =
      o.text (fun p => nodeText disp P.digits hex (pos p.1) p.2) (fun _ => false) P.step 0 ∧ (hex || decide (0 < P.digits)) = hex := by
  have e : (hex || decide (0 < P.digits)) = hex := by rcases hm with h | h <;> simp [h]
  refine ⟨?_, e⟩
  rw [e]
  exact Shown.text_marked hex _ _ _ _ (fun _ => rfl) (fun _ => rfl) _ _ _

theorem binary_same_mode (hm : P.digits = 0 ∨ hex = true) (o : Shown ((Addr × α) × Bool)) :
    (o.marked hex (hex || decide (0 < P.digits))).text (fun q => nodeText disp P.digits q.1 (pos q.2.1.1) q.2.1.2) (fun q => q.2.2) P.step 0 =
      o.text (fun p => nodeText disp P.digits hex (pos p.1.1) p.1.2) (fun p => p.2) P.step 0 ∧ (hex || decide (0 < P.digits)) = hex := by
  have e : (hex || decide (0 < P.digits)) = hex := by rcases hm with h | h <;> simp [h]
  refine ⟨?_, e⟩
  rw [e]
  exact Shown.text_marked hex _ _ _ _ (fun _ => rfl) (fun _ => rfl) _ _ _
end

/-- Without addresses, or on a stream already in hexadecimal mode: every value is written in the mode of the stream, and
the mode is the same afterwards. -/
theorem C86_mode_nary_partial {W : World (NNode α)} {ts : Nat → Option (Option (Tree (Addr × α)))} {x : Nat} {t : Tree (Addr × α)}
    (O : Owned (Nary.shape α) W ts) (hx : ts x = some (some t)) (P : Prefs) (hd : P.digits < 16) (disp : Bool → α → List Char)
    (pos : Addr → Nat) (hex : Bool) (hl : 1 ≤ P.limit) (hm : P.digits = 0 ∨ hex = true) :
    ∃ o, Nary.print P disp pos hex W x =
        Res.ok (o.text (fun p => nodeText disp P.digits hex (pos p.1) p.2) (fun _ => false) P.step 0, hex) ∧
      Shown.Of o t ∧ o.pre = t.pre.take P.limit.toNat := by
  obtain ⟨o, h1, h2, h3, _⟩ := C30_tree_nary O hx P hd disp pos hex hl
  obtain ⟨e1, e2⟩ := nary_same_mode (disp := disp) (pos := pos) hm o
  exact ⟨o, by rw [h1, e1, e2], h2, h3⟩

theorem C86_mode_binary_partial {W : World (BNode α)} {ts : Nat → Option (BTree (Addr × α))} {x : Nat} {t : BTree (Addr × α)}
    (O : Owned (Binary.shape α) W ts) (hx : ts x = some t) (hne : t ≠ .nil) (P : Prefs) (hd : P.digits < 16)
    (disp : Bool → α → List Char) (pos : Addr → Nat) (hex : Bool) (hl : 1 ≤ P.limit) (hm : P.digits = 0 ∨ hex = true) :
    ∃ G o, t.toGaps = [G] ∧ Binary.print P disp pos hex W x =
        Res.ok (o.text (fun p => nodeText disp P.digits hex (pos p.1.1) p.1.2) (fun p => p.2) P.step 0, hex) ∧
      Shown.Of o G ∧ o.pre = G.pre.take P.limit.toNat := by
  obtain ⟨G, o, hG, h1, h2, h3, _⟩ := C30_tree_binary O hx hne P hd disp pos hex hl
  obtain ⟨e1, e2⟩ := binary_same_mode (disp := disp) (pos := pos) hm o
  exact ⟨G, o, hG, by rw [h1, e1, e2], h2, h3⟩

/-- Printing any tree with addresses leaves the stream in hexadecimal mode. -/
theorem C86_hex_nary_defect {W : World (NNode α)} {ts : Nat → Option (Option (Tree (Addr × α)))} {x : Nat} {t : Tree (Addr × α)}
    (O : Owned (Nary.shape α) W ts) (hx : ts x = some (some t)) (P : Prefs) (hd : P.digits < 16) (h0 : 0 < P.digits)
    (disp : Bool → α → List Char) (pos : Addr → Nat) (hex : Bool) (hl : 1 ≤ P.limit) :
    ∃ text, Nary.print P disp pos hex W x = Res.ok (text, true) := by
  obtain ⟨o, h1, _⟩ := C30_tree_nary O hx P hd disp pos hex hl
  exact ⟨_, by rw [h1, show (hex || decide (0 < P.digits)) = true by simp [h0]]⟩

theorem C86_hex_binary_defect {W : World (BNode α)} {ts : Nat → Option (BTree (Addr × α))} {x : Nat} {t : BTree (Addr × α)}
    (O : Owned (Binary.shape α) W ts) (hx : ts x = some t) (hne : t ≠ .nil) (P : Prefs) (hd : P.digits < 16) (h0 : 0 < P.digits)
    (disp : Bool → α → List Char) (pos : Addr → Nat) (hex : Bool) (hl : 1 ≤ P.limit) :
    ∃ text, Binary.print P disp pos hex W x = Res.ok (text, true) := by
  obtain ⟨_, o, _, h1, _⟩ := C30_tree_binary O hx hne P hd disp pos hex hl
  exact ⟨_, by rw [h1, show (hex || decide (0 < P.digits)) = true by simp [h0]]⟩

/-- The tree `n(10)(n(10))` printed with addresses on a fresh stream: the root as `10`, its child as `a`; printed once more,
the root as `a` too. With 16 or more digits the behaviour is undefined. -/
theorem C86_values_defect :
    Nary.print ⟨2, 10, 2⟩ numText id false (Samples.after (Nary.kind Nat) [.newLit 0 (node 10 [node 10 []])]) 0 =
      Res.ok ("n(10 @00)(\n  n(a @01))".toList, true) ∧
    Nary.print ⟨2, 10, 2⟩ numText id true (Samples.after (Nary.kind Nat) [.newLit 0 (node 10 [node 10 []])]) 0 =
      Res.ok ("n(a @00)(\n  n(a @01))".toList, true) ∧
    Nary.print ⟨2, 10, 16⟩ numText id false (Samples.after (Nary.kind Nat) [.newLit 0 (node 10 [node 10 []])]) 0 = Res.ub :=
  ⟨by decide +kernel, by decide +kernel, by decide +kernel⟩

/-! The hypotheses are met: the sample trees, numbers in decimal; and the expression that is read. -/

example : ∃ ts, Owned (Nary.shape Nat) Samples.nworld ts ∧ ts 0 = some (some Samples.deep) ∧ ts 1 = some none ∧ ts 2 = none ∧
    (Samples.deep.size : Int) ≤ (⟨8, 10, 0⟩ : Prefs).limit ∧ Clear (numText false) (fun _ => True) :=
  let ⟨ts, O, h0, h1, h2⟩ := Samples.nstate
  ⟨ts, O, h0, h1, h2, by decide, C84_clear_number⟩
example : ∃ ts, Owned (Binary.shape Nat) Samples.bworld ts ∧ ts 0 = some Samples.bin ∧ Samples.bin ≠ .nil ∧ ts 2 = none ∧
    (Samples.bin.size : Int) ≤ (⟨8, 10, 0⟩ : Prefs).limit :=
  let ⟨ts, O, h0, _, h2⟩ := Samples.bstate
  ⟨ts, O, h0, by decide, h2, by decide⟩
example : Reads (fun s v => s = numText false v) "n(1)(\n  n(),\n  n(2))".toList (.call (.n 1) [.hole, .n 2]) := by
  have h1 : Reads (fun s v => s = numText false v) ("n(".toList ++ numText false 1 ++ ")".toList) (.n 1) := .n rfl
  have h2 : Reads (fun s v => s = numText false v) ("n(".toList ++ numText false 2 ++ ")".toList) (.n 2) := .n rfl
  exact .call h1 (.cons (.space (Or.inr rfl) (.space (Or.inl rfl) (.space (Or.inl rfl) .hole)))
    (.one (.space (Or.inr rfl) (.space (Or.inl rfl) (.space (Or.inl rfl) h2)))))
