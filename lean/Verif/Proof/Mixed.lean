import Verif.Spec.Mixed
import Verif.Proof.History
import Verif.Proof.Compare
/-! Histories with trees of both kinds. -/
open Tree World

namespace Both
variable {α : Type} {eqv : α → α → Bool}

theorem start_owned : (start : Both α).Owned Forests.none := ⟨_root_.start_owned (Nary.lawful α), _root_.start_owned (Binary.lawful α)⟩

theorem Owned.unique {W : Both α} {F G : Forests α} (O : W.Owned F) (O' : W.Owned G) : F = G := by
  have h1 := OwnedBut.unique (Nary.determined α) O.n O'.n
  have h2 := OwnedBut.unique (Binary.determined α) O.b O'.b
  cases F; cases G; simp_all

theorem step_spec {W : Both α} {F : Forests α} (O : W.Owned F) (op : MOp α) (hl : MLegal W F op) :
    ∃ W' o F', Both.step eqv W op = Res.ok (W', o) ∧ W'.Owned F' ∧ MEffect eqv W F W' F' o op ∧
      (W.Cached F → MTrue eqv F o op ∧ (MCountsOk W F op → MSmall F → MSmall F' → W'.Cached F')) := by
  have L := Nary.lawful α
  have LB := Binary.lawful α
  cases op with
  | nary op =>
    obtain ⟨A, o, ts, e, O', E, hc⟩ := _root_.step_spec L O.n op hl
    refine ⟨(A, W.2), .call o, ⟨ts, F.b⟩, by simp [step, e], ⟨O', O.b⟩, ⟨rfl, rfl, o, rfl, E⟩, fun C => ?_⟩
    refine ⟨by rintro _ ⟨⟩; exact (hc C.n).1, fun h1 h2 h3 => ⟨(hc C.n).2 h1 h2.1 h3.1, C.b⟩⟩
  | binary op =>
    obtain ⟨B, o, ts, e, O', E, hc⟩ := _root_.step_spec LB O.b op hl
    refine ⟨(W.1, B), .call o, ⟨F.n, ts⟩, by simp [step, e], ⟨O.n, O'⟩, ⟨rfl, rfl, o, rfl, E⟩, fun C => ?_⟩
    refine ⟨by rintro _ ⟨⟩; exact (hc C.b).1, fun h1 h2 h3 => ⟨C.n, (hc C.b).2 h1 h2.2 h3.2⟩⟩
  | newBinary x y =>
    obtain ⟨t, hy⟩ := Option.isSome_iff_exists.mp hl.2
    obtain ⟨A, B, n, e, O', hv, hf, OB, hc⟩ := newBinary_spec O.n O.b hl.1 hy
    exact ⟨(A, B), .call .unit, ⟨upd F.n x (some n), F.b⟩, by simp [step, e], ⟨O', OB⟩, ⟨rfl, rfl, t, n, hy, hv, hf, rfl⟩,
      fun C => ⟨by rintro _ ⟨⟩, fun _ _ _ => ⟨(hc C.n C.b).1, (hc C.n C.b).2⟩⟩⟩
  | assignBinary x y =>
    obtain ⟨t, hy⟩ := Option.isSome_iff_exists.mp hl.2
    obtain ⟨u, hx⟩ := Option.isSome_iff_exists.mp hl.1
    obtain ⟨A, B, n, e, O', hv, hf, OB, hc⟩ := assignBinary_spec O.n O.b hx hy
    exact ⟨(A, B), .call .unit, ⟨upd F.n x (some n), F.b⟩, by simp [step, e], ⟨O', OB⟩, ⟨rfl, rfl, t, n, hy, hv, hf, rfl⟩,
      fun C => ⟨by rintro _ ⟨⟩, fun _ _ _ => ⟨(hc C.n C.b).1, (hc C.n C.b).2⟩⟩⟩
  | eqNN x y =>
    obtain ⟨t, hx⟩ := Option.isSome_iff_exists.mp hl.1
    obtain ⟨u, hy⟩ := Option.isSome_iff_exists.mp hl.2
    obtain ⟨A, b, e, O', _, h1, h2⟩ := eq_total L (E := Nary.same eqv) (fun h t u a b => Nary.kind_eq eqv h t u a b) rfl
      (fun t u h => Nary.same_sizes t u h) O.n hx hy
    refine ⟨(A, W.2), .bool b, F, by simp [step, e], ⟨O', O.b⟩, ⟨rfl, b, rfl, fun hb t' u' ht hu => ?_⟩, fun C => ⟨?_, fun _ _ _ => ⟨(h2 C.n).2, C.b⟩⟩⟩
    · rw [hx] at ht; rw [hy] at hu; cases ht; cases hu; exact (h1 hb).symm
    · rintro _ ⟨⟩ t' u' ht hu
      rw [hx] at ht; rw [hy] at hu; cases ht; cases hu; exact (h2 C.n).1
  | eqBB x y =>
    obtain ⟨t, hx⟩ := Option.isSome_iff_exists.mp hl.1
    obtain ⟨u, hy⟩ := Option.isSome_iff_exists.mp hl.2
    obtain ⟨B, b, e, O', _, h1, h2⟩ := eq_total LB (E := BTree.eqBy eqv) (fun h t u a b => Binary.kind_eq eqv h t u a b) rfl
      (fun t u h => Binary.eqBy_sizes t u h) O.b hx hy
    refine ⟨(W.1, B), .bool b, F, by simp [step, e], ⟨O.n, O'⟩, ⟨rfl, b, rfl, fun hb t' u' ht hu => ?_⟩, fun C => ⟨?_, fun _ _ _ => ⟨C.n, (h2 C.b).2⟩⟩⟩
    · rw [hx] at ht; rw [hy] at hu; cases ht; cases hu; exact (h1 hb).symm
    · rintro _ ⟨⟩ t' u' ht hu
      rw [hx] at ht; rw [hy] at hu; cases ht; cases hu; exact (h2 C.b).1
  | eqNB x y =>
    obtain ⟨t, hx⟩ := Option.isSome_iff_exists.mp hl.1
    obtain ⟨u, hy⟩ := Option.isSome_iff_exists.mp hl.2
    obtain ⟨A, B, b, e, O', OB, h1, h2⟩ := World.eqBinary_total eqv O.n O.b hx hy
    refine ⟨(A, B), .bool b, F, by simp [step, e], ⟨O', OB⟩, ⟨rfl, b, rfl, fun hb t' u' ht hu => ?_⟩,
      fun C => ⟨?_, fun _ _ _ => ⟨(h2 C.n C.b).2.1, (h2 C.n C.b).2.2⟩⟩⟩
    · rw [hx] at ht; rw [hy] at hu; cases ht; cases hu; exact (h1 hb).symm
    · rintro _ ⟨⟩ t' u' ht hu
      rw [hx] at ht; rw [hy] at hu; cases ht; cases hu; exact (h2 C.n C.b).1
  | eqNL x l =>
    obtain ⟨t, hx⟩ := Option.isSome_iff_exists.mp hl.1
    obtain ⟨A, b, e, O', _, h1, h2⟩ := Nary.treeEqLit_total eqv hl.2 O.n hx
    refine ⟨(A, W.2), .bool b, F, by simp [step, e], ⟨O', O.b⟩, ⟨rfl, b, rfl, fun hb t' ht => ?_⟩, fun C => ⟨?_, fun _ _ _ => ⟨(h2 C.n).2, C.b⟩⟩⟩
    · rw [hx] at ht; cases ht; exact (h1 hb).symm
    · rintro _ ⟨⟩ t' ht
      rw [hx] at ht; cases ht; exact (h2 C.n).1
  | eqBL x l =>
    obtain ⟨t, hx⟩ := Option.isSome_iff_exists.mp hl.1
    obtain ⟨B, b, e, O', _, h1, h2⟩ := Binary.treeEqLit_total eqv hl.2.1 hl.2.2.1 hl.2.2.2 O.b hx
    refine ⟨(W.1, B), .bool b, F, by simp [step, e], ⟨O.n, O'⟩, ⟨rfl, b, rfl, fun hb t' ht => ?_⟩, fun C => ⟨?_, fun _ _ _ => ⟨C.n, (h2 C.b).2⟩⟩⟩
    · rw [hx] at ht; cases ht; exact (h1 hb).symm
    · rintro _ ⟨⟩ t' ht
      rw [hx] at ht; cases ht; exact (h2 C.b).1

theorem history (ops : List (MOp α)) : ∀ {W : Both α} {F : Forests α}, W.Owned F → MSupports eqv W ops →
    ∃ W' as F', Both.run eqv W ops = Res.ok (W', as) ∧ as.length = ops.length ∧
      MTrace (fun _ _ _ => True) eqv W F (ops.zip as) W' F' ∧ W'.Owned F' := by
  induction ops with
  | nil => intro W F O _; exact ⟨W, [], F, rfl, rfl, .done W F O, O⟩
  | cons op ops ih =>
    intro W F O ⟨⟨F0, O0, hl⟩, hrest⟩
    cases O0.unique O
    obtain ⟨W1, o, F1, h1, h2, h3, _⟩ := step_spec (eqv := eqv) O op hl
    obtain ⟨W2, as, F2, h4, h5, h6, h7⟩ := ih h2 (hrest W1 o h1)
    exact ⟨W2, o :: as, F2, by simp [Both.run, h1, h4], by simp [h5], .step _ _ _ _ _ _ _ _ _ O h1 h3 trivial h6, h7⟩

theorem history_counts (ops : List (MOp α)) : ∀ {W : Both α} {F : Forests α}, W.Owned F → W.Cached F → MSupports eqv W ops →
    MKeepsCounts eqv W ops →
    ∃ W' as F', Both.run eqv W ops = Res.ok (W', as) ∧ as.length = ops.length ∧
      MTrace (MTrue eqv) eqv W F (ops.zip as) W' F' ∧ W'.Owned F' ∧ W'.Cached F' := by
  induction ops with
  | nil => intro W F O C _ _; exact ⟨W, [], F, rfl, rfl, .done W F O, O, C⟩
  | cons op ops ih =>
    intro W F O C ⟨⟨F0, O0, hl⟩, hrest⟩ ⟨hk, hkrest⟩
    cases O0.unique O
    obtain ⟨W1, o, F1, h1, h2, h3, hc⟩ := step_spec (eqv := eqv) O op hl
    have hk1 := hkrest W1 o h1
    have hsm : MSmall F1 := by
      cases ops with
      | nil => exact hk1 F1 h2
      | cons op' ops => exact (hk1.1 F1 h2).2
    obtain ⟨W2, as, F2, h4, h5, h6, h7⟩ := ih h2 ((hc C).2 (hk _ O).1 (hk _ O).2 hsm) (hrest W1 o h1) hk1
    exact ⟨W2, o :: as, F2, by simp [Both.run, h1, h4], by simp [h5], .step _ _ _ _ _ _ _ _ _ O h1 h3 (hc C).1 h6, h7⟩

end Both
