import Verif.Proof.Makes
/-! The part of a tree that has been copied so far. -/
open Tree

set_option linter.unusedSimpArgs false

theorem Tree.mem_addrsL {α : Type} {ts : List (Tree (Addr × α))} {x : Addr} : x ∈ addrsL ts ↔ ∃ t ∈ ts, x ∈ t.addrs := by
  induction ts with
  | nil => simp
  | cons t ts ih => simp [ih]

namespace Grow
variable {α : Type} (keys : List Addr) (Q : Addr → Tree (Lab α)) (g : Addr → Option Addr)

mutual
/-- The copy of the nodes in `g`: a node of `keys` has the result `Q` there. -/
def sel : Tree (Addr × α) → List (Tree (Lab α))
  | .node a cs =>
    match g a.1 with
    | none => []
    | some r => if a.1 ∈ keys then [Q a.1] else [.node (a, r) (selL cs)]
def selL : List (Tree (Addr × α)) → List (Tree (Lab α))
  | [] => []
  | t :: ts => sel t ++ selL ts
end

def selFrame (f : Frame (Addr × α)) : Frame (Lab α) :=
  ⟨(f.label, (g f.label.1).getD 0), selL keys Q g f.lefts, selL keys Q g f.rights⟩

/-- The nodes above have been copied and are not in `keys`. -/
def Live (fs : List (Frame (Addr × α))) : Prop := ∀ f ∈ fs, (∃ r, g f.label.1 = some r) ∧ f.label.1 ∉ keys

variable {keys Q g}

theorem sel_none {t : Tree (Addr × α)} (h : g t.addr = none) : sel keys Q g t = [] := by
  obtain ⟨a, cs⟩ := t
  have h : g a.1 = none := h
  simp [sel, h]

theorem sel_key {t : Tree (Addr × α)} {r} (h : g t.addr = some r) (hk : t.addr ∈ keys) : sel keys Q g t = [Q t.addr] := by
  obtain ⟨a, cs⟩ := t
  have h : g a.1 = some r := h
  have hk : a.1 ∈ keys := hk
  simp [sel, h, hk]; rfl

theorem sel_live {a : Addr × α} {cs r} (h : g a.1 = some r) (hk : a.1 ∉ keys) :
    sel keys Q g (node a cs) = [node (a, r) (selL keys Q g cs)] := by
  simp [sel, h, hk]

theorem selL_append (l r : List (Tree (Addr × α))) : selL keys Q g (l ++ r) = selL keys Q g l ++ selL keys Q g r := by
  induction l with
  | nil => simp [selL]
  | cons t l ih => simp [selL, ih]

theorem selL_none {ts : List (Tree (Addr × α))} (h : ∀ t ∈ ts, g t.addr = none) : selL keys Q g ts = [] := by
  induction ts with
  | nil => simp [selL]
  | cons t ts ih => simp [selL, sel_none (h t (by simp)), ih (fun u hu => h u (by simp [hu]))]

/-- The copies of the children of a node are copies of its children. -/
theorem sel_label {t : Tree (Addr × α)} (hQ : ∀ k ∈ keys, k = t.addr → (Q k).label.1 = t.label) :
    ∀ c ∈ sel keys Q g t, c.label.1 = t.label := by
  obtain ⟨a, cs⟩ := t
  intro c hc
  simp only [sel] at hc
  split at hc
  · cases hc
  · split at hc
    · next hk => simp at hc; subst hc; exact hQ _ hk rfl
    · simp at hc; subst hc; rfl

theorem selL_label {ts : List (Tree (Addr × α))} (hQ : ∀ t ∈ ts, ∀ k ∈ keys, k = t.addr → (Q k).label.1 = t.label) :
    ∀ c ∈ selL keys Q g ts, c.label.1 ∈ ts.map label := by
  induction ts with
  | nil => simp [selL]
  | cons t ts ih =>
    intro c hc
    simp only [selL, List.mem_append] at hc
    rcases hc with hc | hc
    · rw [sel_label (hQ t (by simp)) c hc]; simp
    · have := ih (fun u hu => hQ u (by simp [hu])) c hc
      simp only [List.map_cons, List.mem_cons]; exact .inr this

theorem sel_congr {g' : Addr → Option Addr} (t : Tree (Addr × α)) :
    (∀ a ∈ t.addrs, g a = g' a) → sel keys Q g t = sel keys Q g' t := by
  induction t using ind with
  | h a cs ih =>
    intro h
    have hL : ∀ ts : List (Tree (Addr × α)), (∀ t ∈ ts, t ∈ cs) → selL keys Q g ts = selL keys Q g' ts := by
      intro ts
      induction ts with
      | nil => intro _; rfl
      | cons t ts iht =>
        intro hts
        simp only [selL]
        rw [iht (fun u hu => hts u (by simp [hu])), ih t (hts t (by simp)) (fun b hb => h b (by
          rw [addrs_node]; exact List.mem_cons_of_mem _ (mem_addrsL.mpr ⟨t, hts t (by simp), hb⟩)))]
    have h0 := h a.1 (by simp [addrs_node])
    simp only [sel, ← h0, hL cs (fun _ h => h)]

theorem selL_congr {g' : Addr → Option Addr} {ts : List (Tree (Addr × α))} (h : ∀ a ∈ addrsL ts, g a = g' a) :
    selL keys Q g ts = selL keys Q g' ts := by
  induction ts with
  | nil => rfl
  | cons t ts ih =>
    simp only [selL]
    rw [ih (fun a ha => h a (by simp [addrsL_cons, ha])), sel_congr t (fun a ha => h a (by simp [addrsL_cons, ha]))]

theorem sel_plug : ∀ {fs : List (Frame (Addr × α))} {t : Tree (Addr × α)} {P : Tree (Lab α)}, Live keys g fs → sel keys Q g t = [P] →
    sel keys Q g (plug fs t) = [plug (fs.map (selFrame keys Q g)) P] := by
  intro fs
  induction fs with
  | nil => intro t P _ h; exact h
  | cons f fs ih =>
    intro t P hl h
    obtain ⟨⟨r, hr⟩, hk⟩ := hl f (by simp)
    have h1 : sel keys Q g (node f.label (f.lefts ++ t :: f.rights)) =
        [node (f.label, r) (selL keys Q g f.lefts ++ P :: selL keys Q g f.rights)] := by
      rw [sel_live hr hk, selL_append, selL, h]; rfl
    rw [plug, ih (fun f hf => hl f (by simp [hf])) h1]
    simp [plug, selFrame, hr]

/-- A node is not found elsewhere in the tree. -/
theorem apart {s : Tree (Addr × α)} (hn : s.addrs.Nodup) : ∀ {fs : List (Frame (Addr × α))} {u : Tree (Addr × α)}, plug fs u = s →
    ∀ f ∈ fs, f.label.1 ≠ u.addr ∧ u.addr ∉ addrsL f.lefts ∧ u.addr ∉ addrsL f.rights := by
  intro fs u h f hf
  have h1 := (Nary.addrs_plug fs u).nodup_iff.mp (h ▸ hn)
  obtain ⟨-, -, h3⟩ := List.nodup_append.mp h1
  have h4 : ∀ x ∈ Nary.ctxAddrs fs, x ≠ u.addr := fun x hx => h3 x hx _ (addr_mem_addrs u)
  have h5 : ∀ (fs : List (Frame (Addr × α))), f ∈ fs → ∀ x, (x = f.label.1 ∨ x ∈ addrsL f.lefts ∨ x ∈ addrsL f.rights) → x ∈ Nary.ctxAddrs fs := by
    intro fs
    induction fs with
    | nil => simp
    | cons e fs ih =>
      intro hf x hx
      simp only [Nary.ctxAddrs, List.mem_cons, List.mem_append]
      rcases List.mem_cons.mp hf with rfl | hf
      · rcases hx with hx | hx | hx <;> simp [hx]
      · have := ih hf x hx; simp [this]
  exact ⟨h4 _ (h5 fs hf _ (.inl rfl)), fun hm => h4 _ (h5 fs hf _ (.inr (.inl hm))) rfl, fun hm => h4 _ (h5 fs hf _ (.inr (.inr hm))) rfl⟩

theorem nodup_sub {s T : Tree (Addr × α)} {gs : List (Frame (Addr × α))} (hn : T.addrs.Nodup) (h : plug gs s = T) : s.addrs.Nodup :=
  (List.nodup_append.mp ((Nary.addrs_plug gs s).nodup_iff.mp (h ▸ hn))).2.1

/-- One more node is copied. -/
theorem sel_grow {s : Tree (Addr × α)} (hn : s.addrs.Nodup) {fs : List (Frame (Addr × α))} {a : Addr × α} {l r : List (Tree (Addr × α))}
    {u : Tree (Addr × α)} (h : plug fs (node a (l ++ u :: r)) = s) (hl : Live keys g fs) {ra} (ha : g a.1 = some ra) (hk : a.1 ∉ keys)
    (hr : ∀ v ∈ u :: r, g v.addr = none) {gu : Addr} {N : Tree (Lab α)} (hN : sel keys Q (upd g u.addr (some gu)) u = [N]) :
    sel keys Q g s = [plug (fs.map (selFrame keys Q g)) (node (a, ra) (selL keys Q g l))] ∧
      sel keys Q (upd g u.addr (some gu)) s = [plug (fs.map (selFrame keys Q g)) (node (a, ra) (selL keys Q g l ++ [N]))] := by
  have hs : plug (⟨a, l, r⟩ :: fs) u = s := h
  have hap := apart hn hs
  have hne : ∀ x, x ≠ u.addr → upd g u.addr (some gu) x = g x := fun x hx => by simp [upd, hx]
  refine ⟨?_, ?_⟩
  · rw [← h, sel_plug hl (sel_live ha hk), selL_append, selL_none hr, List.append_nil]
  · have hl' : Live keys (upd g u.addr (some gu)) fs := by
      intro f hf
      rw [hne _ (hap f (by simp [hf])).1]; exact hl f hf
    have h0 := hap ⟨a, l, r⟩ (by simp)
    rw [← h, sel_plug hl' (sel_live (r := ra) (by rw [hne _ h0.1]; exact ha) hk), selL_append, selL, hN]
    have h1 : selL keys Q (upd g u.addr (some gu)) r = [] := selL_none (fun v hv => by
      rw [hne _ (fun e => h0.2.2 (e ▸ addr_mem_addrsL hv))]; exact hr v (by simp [hv]))
    have h2 : selL keys Q (upd g u.addr (some gu)) l = selL keys Q g l := selL_congr (fun x hx => hne x (fun e => h0.2.1 (e ▸ hx)))
    have h3 : fs.map (selFrame keys Q (upd g u.addr (some gu))) = fs.map (selFrame keys Q g) := by
      refine List.map_congr_left fun f hf => ?_
      have h0 := hap f (by simp [hf])
      simp only [selFrame]
      rw [hne _ h0.1, selL_congr (g := upd g u.addr (some gu)) (g' := g) (fun x hx => hne x (fun e => h0.2.1 (e ▸ hx))),
        selL_congr (g := upd g u.addr (some gu)) (g' := g) (fun x hx => hne x (fun e => h0.2.2 (e ▸ hx)))]
    rw [h1, h2, h3, List.append_nil]
end Grow
