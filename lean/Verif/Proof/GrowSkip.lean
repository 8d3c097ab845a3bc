import Verif.Proof.GrowCore
/-! Looking for the next node to copy. -/
open Tree

set_option linter.unusedSimpArgs false

namespace Generate
open Grow
variable {ν α lit : Type}
variable {K : Kind ν α lit} {value : ν → α} {B : Pattern.Builder ν} {T s : Tree (Addr × α)} {base : Heap ν → Prop}
  {made : Heap ν → Tree (Lab α) → Prop} {gs0 : List (Frame (Addr × α))} {keys : List Addr} {Q : Addr → Tree (Lab α)} {test : α → Bool}
  {q : Quantifier} {h0 : Heap ν} {g : Addr → Option Addr} {σ : State ν} {P : Tree (Lab α)}

/-- Nothing more is copied. -/
def Exhausted (q : Quantifier) (σ : State ν) : Prop := q = .default ∧ σ.left = 0

theorem check_exhausted (x : Addr) (gp : Ptr) (h : Exhausted q σ) : check K value q test σ x gp = Res.ok (false, σ, gp, false) := by
  unfold check
  unfold Exhausted at h
  rw [if_pos h]; rfl

theorem Core.check_key (C : Core made base test s keys Q h0 g σ P) {x : Addr} (gp : Ptr) (h : ¬ Exhausted q σ) (hx : x ∈ keys)
    (hg : g x = none) : check K value q test σ x gp =
      Res.ok (true, { σ with targets := release σ.targets x, left := σ.left - 1 }, some (Q x).label.2, true) := by
  unfold check
  unfold Exhausted at h
  rw [if_neg h]
  have := C.targets x
  simp only [hx, hg, if_true] at this
  simp only [this]; rfl

theorem Core.check_other (M : Makes K value B T base made) (J : Job T gs0 s keys Q test) (C : Core made base test s keys Q h0 g σ P)
    {f : Frame (Addr × α)} {fs u} (hs : plug (f :: fs) u = s) (gp : Ptr) (h : ¬ Exhausted q σ) (hx : u.addr ∉ keys) :
    check K value q test σ u.addr gp = Res.ok (if f.label.1 ∈ keys then false else test u.label.2, σ, gp, false) := by
  unfold check
  unfold Exhausted at h
  rw [if_neg h]
  have h1 := C.targets u.addr
  simp only [hx, if_false] at h1
  simp only [h1]
  have hp : plug (f :: (fs ++ gs0)) u = T := sub_trans (fs := f :: fs) hs J.sub
  rw [(M.raw C.hbase).parent f _ u hp]
  simp only [Res.ok_bind]
  have h2 := C.targets f.label.1
  obtain ⟨n, hn, hv⟩ := M.read C.hbase hp
  by_cases hk : f.label.1 ∈ keys
  · simp only [hk, if_true] at h2
    simp [h2, hk]
  · simp only [hk, if_false] at h2
    simp [h2, hk, Heap.read_of hn, hv]

theorem ne_root (hn : s.addrs.Nodup) {f : Frame (Addr × α)} {fs u} (hs : plug (f :: fs) u = s) : u.addr ≠ s.addr := by
  intro e
  have := (sub_unique (g := Prod.fst) hn hs (show plug [] s = s from rfl) e).1
  cases this

theorem Core.next_base (M : Makes K value B T base made) (J : Job T gs0 s keys Q test) (C : Core made base test s keys Q h0 g σ P)
    {f : Frame (Addr × α)} {fs u} (hs : plug (f :: fs) u = s) (gp : Ptr) :
    nextPair K s.addr σ.heap u.addr gp = (do pure (headAddr f.rights, ← follow (K.nav σ.heap none).next gp)) := by
  unfold nextPair
  rw [if_neg (ne_root (nodup_sub M.nodup J.sub) hs)]
  have hp : plug (f :: (fs ++ gs0)) u = T := sub_trans (fs := f :: fs) hs J.sub
  rw [(M.raw C.hbase).next f _ u hp]
  rfl

/-- Among the children of a copied node. -/
theorem Core.skip_live (M : Makes K value B T base made) (J : Job T gs0 s keys Q test) (C : Core made base test s keys Q h0 g σ P)
    {fs : List (Frame (Addr × α))} {a : Addr × α} (hk : a.1 ∉ keys) : ∀ (n : Nat) (l r : List (Tree (Addr × α))),
    plug fs (node a (l ++ r)) = s → (∀ v ∈ r, g v.addr = none) → r.length < n →
    (skip K value q test s.addr n σ (headAddr r, none) = Res.ok (σ, none, none, false) ∧
      (Exhausted q σ ∨ ∀ u ∈ r, ¬ Elig keys test u)) ∨
    ∃ r1 u r2, r = r1 ++ u :: r2 ∧ ¬ Exhausted q σ ∧ (∀ v ∈ r1, ¬ Elig keys test v) ∧
      ((u.addr ∈ keys ∧ skip K value q test s.addr n σ (headAddr r, none) =
          Res.ok ({ σ with targets := release σ.targets u.addr, left := σ.left - 1 }, some u.addr, some (Q u.addr).label.2, true)) ∨
       (u.addr ∉ keys ∧ test u.label.2 = true ∧ skip K value q test s.addr n σ (headAddr r, none) = Res.ok (σ, some u.addr, none, false))) := by
  intro n
  induction n with
  | zero => intro l r _ _ h; cases h
  | succ n ih =>
    intro l r hs hr hn
    cases r with
    | nil => exact .inl ⟨by simp [skip], .inr (by simp)⟩
    | cons u r =>
      have hp : plug (⟨a, l, r⟩ :: fs) u = s := hs
      have hs' : plug fs (node a ((l ++ [u]) ++ r)) = s := by simpa using hs
      have hr' : ∀ v ∈ r, g v.addr = none := fun v hv => hr v (by simp [hv])
      have hnp := C.next_base M J hp none
      have hstep : ∀ {b}, check K value q test σ u.addr none = Res.ok (b, σ, none, false) → b = false →
          skip K value q test s.addr (n + 1) σ (headAddr (u :: r), none) = skip K value q test s.addr n σ (headAddr r, none) := by
        intro b h1 h2
        subst h2
        simp only [headAddr_cons, skip, h1, Res.ok_bind, Bool.false_eq_true, if_false, hnp, follow, Res.pure_eq]
      by_cases hx : Exhausted q σ
      · have hc := check_exhausted (K := K) (value := value) (test := test) u.addr none hx
        rw [hstep hc rfl]
        rcases ih (l ++ [u]) r hs' hr' (by simp at hn; omega) with ⟨h1, -⟩ | ⟨r1, v, r2, -, h2, -⟩
        · exact .inl ⟨h1, .inl hx⟩
        · exact absurd hx h2
      · by_cases hu : u.addr ∈ keys
        · refine .inr ⟨[], u, r, rfl, hx, by simp, .inl ⟨hu, ?_⟩⟩
          simp only [headAddr_cons, skip, C.check_key none hx hu (hr u (by simp)), Res.ok_bind, if_true]; rfl
        · have hc := C.check_other (q := q) M J hp none hx hu
          simp only [hk, if_false] at hc
          rcases Bool.eq_false_or_eq_true (test u.label.2) with ht | ht
          · refine .inr ⟨[], u, r, rfl, hx, by simp, .inr ⟨hu, ht, ?_⟩⟩
            simp only [headAddr_cons, skip, hc, ht, Res.ok_bind, if_true]; rfl
          · rw [hstep hc ht]
            have hne : ¬ Elig keys test u := by simp [Elig, hu, ht]
            rcases ih (l ++ [u]) r hs' hr' (by simp at hn; omega) with ⟨h1, h2⟩ | ⟨r1, v, r2, rfl, h2, h3, h4⟩
            · refine .inl ⟨h1, h2.imp_right fun h => ?_⟩
              intro v hv
              rcases List.mem_cons.mp hv with rfl | hv
              · exact hne
              · exact h v hv
            · refine .inr ⟨u :: r1, v, r2, rfl, h2, ?_, h4⟩
              intro w hw
              rcases List.mem_cons.mp hw with rfl | hw
              · exact hne
              · exact h3 w hw

/-- Among the children of a node matched by an argument. -/
theorem Core.skip_dead (M : Makes K value B T base made) (J : Job T gs0 s keys Q test) (C : Core made base test s keys Q h0 g σ P)
    {fs : List (Frame (Addr × α))} {a : Addr × α} (hk : a.1 ∈ keys) {fs' : List (Frame (Addr × α))} {b : Addr × α} : ∀ (n : Nat) (l r dl ds : List (Tree (Addr × α))),
    plug fs (node a (l ++ r)) = s → plug fs' (node b (dl ++ ds)) = P.map rel → r.length < n →
    ∃ x, skip K value q test s.addr n σ (headAddr r, headAddr ds) = Res.ok (σ, none, x, false) := by
  intro n
  induction n with
  | zero => intro l r _ _ _ _ h; cases h
  | succ n ih =>
    intro l r dl ds hs hds hn
    cases r with
    | nil => exact ⟨_, by simp [skip]; rfl⟩
    | cons u r =>
      have hp : plug (⟨a, l, r⟩ :: fs) u = s := hs
      have hs' : plug fs (node a ((l ++ [u]) ++ r)) = s := by simpa using hs
      have hu : u.addr ∉ keys := by
        intro hu
        obtain ⟨f', gs', u', h1, h2, -, h3, -⟩ := J.way _ hu
        obtain ⟨e, -⟩ := sub_unique (g := Prod.fst) (nodup_sub M.nodup J.sub) h1 hp h2
        cases e
        exact h3 ⟨a, l, r⟩ (by simp) hk
      have hc : check K value q test σ u.addr (headAddr ds) = Res.ok (false, σ, headAddr ds, false) := by
        by_cases hx : Exhausted q σ
        · exact check_exhausted _ _ hx
        · have hc := C.check_other (q := q) M J hp (headAddr ds) hx hu
          simpa only [hk, if_true] using hc
      have hnp := C.next_base M J hp (headAddr ds)
      cases ds with
      | nil =>
        simp only [headAddr_nil, follow, Res.pure_eq, Res.ok_bind] at hnp
        obtain ⟨x, hx⟩ := ih (l ++ [u]) r dl [] hs' hds (by simp at hn; omega)
        refine ⟨x, ?_⟩
        simp only [headAddr_nil] at hc hx ⊢
        simp only [headAddr_cons, skip, hc, Res.ok_bind, Bool.false_eq_true, if_false, hnp, hx]
      | cons d ds =>
        have h1 := (M.mraw C.hmade).next ⟨b, dl, ds⟩ fs' d hds
        simp only [headAddr_cons, follow, h1, Res.pure_eq, Res.ok_bind] at hnp
        obtain ⟨x, hx⟩ := ih (l ++ [u]) r (dl ++ [d]) ds hs' (by simpa using hds) (by simp at hn; omega)
        refine ⟨x, ?_⟩
        simp only [headAddr_cons] at hc ⊢
        simp only [skip, hc, Res.ok_bind, Bool.false_eq_true, if_false, hnp, hx]

/-- What a step of the traversal does below the node `a` with the copy `ra`, going over its last children `r`. -/
theorem Core.row (M : Makes K value B T base made) (J : Job T gs0 s keys Q test) (C : Core made base test s keys Q h0 g σ P)
    (hT0 : ∀ x ∈ T.addrs, x < h0.next) {fs : List (Frame (Addr × α))} {a : Addr × α} {ra} (hk : a.1 ∉ keys) (ha : g a.1 = some ra)
    {n : Nat} {l r : List (Tree (Addr × α))} (hs : plug fs (node a (l ++ r)) = s) (hr : ∀ v ∈ r, g v.addr = none)
    (hl : ∀ v ∈ l, Elig keys test v → g v.addr ≠ none) (hn : r.length < n) (above : State ν → Res Addr) (hab : ∀ σ', σ'.heap = σ.heap → above σ' = Res.ok ra) :
    ((do let (s', r') ← skip K value q test s.addr n σ (headAddr r, none)
         place K value B s' (above s') r') = Res.ok (σ, none) ∧ (Exhausted q σ ∨ ∀ u ∈ r, ¬ Elig keys test u)) ∨
    ∃ r1 u r2 gu σ' P', r = r1 ++ u :: r2 ∧ ¬ Exhausted q σ ∧ (∀ v ∈ r1, ¬ Elig keys test v) ∧ Elig keys test u ∧
      (do let (s', r') ← skip K value q test s.addr n σ (headAddr r, none)
          place K value B s' (above s') r') = Res.ok (σ', some (u.addr, gu)) ∧
      Core made base test s keys Q h0 (upd g u.addr (some gu)) σ' P' := by
  rcases C.skip_live (q := q) M J hk n l r hs hr hn with ⟨e, h⟩ | ⟨r1, u, r2, rfl, hx, h1, h2⟩
  · refine .inl ⟨?_, h⟩
    simp only [e, Res.ok_bind, place]; rfl
  · have hs' : plug fs (node a ((l ++ r1) ++ u :: r2)) = s := by simpa using hs
    have hr' : ∀ v ∈ u :: r2, g v.addr = none := fun v hv => hr v (by
      rcases List.mem_cons.mp hv with rfl | hv
      · simp
      · simp [hv])
    have hl' : ∀ v ∈ l ++ r1, Elig keys test v → g v.addr ≠ none := by
      intro v hv
      rcases List.mem_append.mp hv with hv | hv
      · exact hl v hv
      · exact fun he => absurd he (h1 v hv)
    rcases h2 with ⟨hu, e⟩ | ⟨hu, ht, e⟩
    · obtain ⟨h', P', e', C'⟩ := C.key_step M J hT0 hs' ha hk hr' hl' hu
      refine .inr ⟨r1, u, r2, (Q u.addr).label.2, _, P', rfl, hx, h1, .inl hu, ?_, C'⟩
      simp only [e, Res.ok_bind, place, if_true, hab ⟨σ.heap, release σ.targets u.addr, σ.left - 1⟩ rfl, e']; rfl
    · obtain ⟨h1', gu, h', P', e1, e2, C'⟩ := C.clone_step M J hT0 hs' ha hk hr' hl' ht hu
      refine .inr ⟨r1, u, r2, gu, _, P', rfl, hx, h1, .inr ht, ?_, C'⟩
      simp only [e, Res.ok_bind, place, e1, hab σ rfl, e2]; rfl
end Generate
