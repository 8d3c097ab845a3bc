import Verif.Spec.Prune
import Verif.Proof.EraseRange
import Verif.Proof.LawfulBin
/-! Erasing a range prunes. -/
open Tree

namespace Binary
variable {α : Type}
open BTree

theorem prune_congr {p q : Addr × α → Bool} (t : BTree (Addr × α)) (h : ∀ x ∈ t.pre, p x = q x) : t.prune p = t.prune q := by
  induction t with
  | nil => rfl
  | node x l r ihl ihr =>
    simp only [BTree.pre, List.mem_cons, List.mem_append] at h
    simp only [BTree.prune]
    rw [h x (Or.inl rfl), ihl (fun y hy => h y (Or.inr (Or.inl hy))), ihr (fun y hy => h y (Or.inr (Or.inr hy)))]

theorem prune_plug {p q : Addr × α → Bool} (fs : List (BTree.Frame (Addr × α))) : ∀ (s s' : BTree (Addr × α)),
    s.prune p = s'.prune q → (∀ x : Addr × α, x.1 ∈ ctxAddrs fs → p x = q x) → (plug fs s).prune p = (plug fs s').prune q := by
  induction fs with
  | nil => intro s s' h _; exact h
  | cons f fs ih =>
    intro s s' h hx
    simp only [ctxAddrs, List.mem_cons, List.mem_append] at hx
    refine ih _ _ ?_ (fun x hx' => hx x (Or.inr (Or.inr hx')))
    have h1 := hx f.label (Or.inl rfl)
    have h2 : f.other.prune p = f.other.prune q := prune_congr _ fun x hx' => hx x (Or.inr (Or.inl (List.mem_map_of_mem hx')))
    unfold Frame.fill
    split <;> simp [BTree.prune, h1, h2, h]

/-- Erasing one after the other prunes. -/
theorem prune_eq {t t' : BTree (Addr × α)} {m : List Addr} (H : Prune (Binary.shape α) t m t') (hn : t.addrs.Nodup) :
    t' = t.prune (fun x => decide (x.1 ∈ m)) := by
  induction H with
  | done t =>
    have : t.prune (fun x => decide (x.1 ∈ [])) = t := by
      clear hn
      induction t with
      | nil => rfl
      | node x l r ihl ihr => simp [BTree.prune, ihl, ihr] at *; exact ⟨ihl, ihr⟩
    exact this.symm
  | step c s a l t' ha _ _ ih =>
    have hp := addrs_plug c s
    have hn' : (ctxAddrs c ++ s.addrs).Nodup := hp.nodup_iff.mp hn
    have hnil : (plug c (.nil : BTree (Addr × α))).addrs.Nodup := by
      refine (addrs_plug c .nil).nodup_iff.mpr ?_
      simp only [BTree.addrs, BTree.pre, List.map_nil, List.append_nil]
      exact (List.nodup_append.mp hn').1
    rw [ih hnil]
    refine (prune_plug c s .nil ?_ ?_).symm
    · rw [Binary.shape_ptr] at ha
      cases s with
      | nil => cases ha
      | node x l' r' =>
        have : x.1 = a := by simpa [BTree.addr?, BTree.label?] using ha
        simp [BTree.prune, this]
    · intro x hx
      have hne : x.1 ≠ a := by
        rintro rfl
        refine (List.nodup_append.mp hn').2.2 _ hx _ ?_ rfl
        rw [Binary.shape_ptr] at ha
        cases s with
        | nil => cases ha
        | node y l' r' =>
          have : y.1 = x.1 := by simpa [BTree.addr?, BTree.label?] using ha
          simp [BTree.addrs, BTree.pre, this]
      simp [hne]
end Binary

namespace Nary
variable {α : Type}

theorem pruneL_append {β : Type} (p : β → Bool) (a b : List (Tree β)) : pruneL p (a ++ b) = pruneL p a ++ pruneL p b := by
  induction a with
  | nil => simp [pruneL]
  | cons t ts ih => simp [pruneL, ih]

theorem pruneL_eq {β : Type} (p : β → Bool) (a : List (Tree β)) : pruneL p a = a.flatMap (fun t => (t.prune p).toList) := by
  induction a with
  | nil => simp [pruneL]
  | cons t ts ih => simp [pruneL, ih]

theorem prune_congr {β : Type} {p q : β → Bool} (t : Tree β) (h : ∀ x ∈ t.pre, p x = q x) : t.prune p = t.prune q := by
  induction t using Tree.ind with
  | h a cs ih =>
    simp only [pre_node, List.mem_cons] at h
    have : pruneL p cs = pruneL q cs := by
      rw [pruneL_eq, pruneL_eq]
      have hh : ∀ c ∈ cs, c.prune p = c.prune q := fun c hc => ih c hc fun x hx => h x (Or.inr (by
        rw [preL_eq]; exact List.mem_flatMap.mpr ⟨c, hc, hx⟩))
      clear ih h
      induction cs with
      | nil => rfl
      | cons d ds ihd => simp [hh d (by simp), ihd (fun c hc => hh c (by simp [hc]))]
    simp only [prune, h a (Or.inl rfl), this]

theorem pruneL_congr {β : Type} {p q : β → Bool} (ts : List (Tree β)) (h : ∀ x ∈ preL ts, p x = q x) : pruneL p ts = pruneL q ts := by
  induction ts with
  | nil => simp [pruneL]
  | cons d ds ih =>
    simp only [preL_cons, List.mem_append] at h
    simp [pruneL, prune_congr d (fun x hx => h x (Or.inl hx)), ih (fun x hx => h x (Or.inr hx))]

theorem prune_plug {p q : Addr × α → Bool} (fs : List (Frame (Addr × α))) : ∀ (s s' : Tree (Addr × α)),
    s.prune p = s'.prune q → (∀ x : Addr × α, x.1 ∈ ctxAddrs fs → p x = q x) → (plug fs s).prune p = (plug fs s').prune q := by
  induction fs with
  | nil => intro s s' h _; exact h
  | cons f fs ih =>
    intro s s' h hx
    simp only [ctxAddrs, List.mem_cons, List.mem_append] at hx
    refine ih _ _ ?_ (fun x hx' => hx x ?_)
    · have h1 := hx f.label (by simp)
      have h2 : pruneL p f.lefts = pruneL q f.lefts := pruneL_congr _ fun x hx' => hx x (by simp [addrsL, List.mem_map_of_mem hx'])
      have h3 : pruneL p f.rights = pruneL q f.rights := pruneL_congr _ fun x hx' => hx x (by simp [addrsL, List.mem_map_of_mem hx'])
      simp [prune, pruneL_append, pruneL, h1, h2, h3, h]
    · simp [hx']

theorem prune_hole {p q : Addr × α → Bool} (f : Frame (Addr × α)) (fs : List (Frame (Addr × α))) (s : Tree (Addr × α))
    (h : s.prune p = none) (hx : ∀ x : Addr × α, x.1 ∈ ctxAddrs (f :: fs) → p x = q x) :
    (plug (f :: fs) s).prune p = (plug fs (node f.label (f.lefts ++ f.rights))).prune q := by
  simp only [ctxAddrs, List.mem_cons, List.mem_append] at hx
  refine prune_plug fs _ _ ?_ (fun x hx' => hx x (by simp [hx']))
  have h1 := hx f.label (by simp)
  have h2 : pruneL p f.lefts = pruneL q f.lefts := pruneL_congr _ fun x hx' => hx x (by simp [addrsL, List.mem_map_of_mem hx'])
  have h3 : pruneL p f.rights = pruneL q f.rights := pruneL_congr _ fun x hx' => hx x (by simp [addrsL, List.mem_map_of_mem hx'])
  simp [prune, pruneL_append, pruneL, h1, h2, h3, h]

/-- Erasing one after the other prunes. -/
theorem prune_eq {t t' : Option (Tree (Addr × α))} {m : List Addr} (H : Prune (Nary.shape α) t m t') (hn : ((Nary.shape α).addrs t).Nodup) :
    t' = t.bind (prune (fun x => decide (x.1 ∈ m))) := by
  induction H with
  | done t =>
    cases t with
    | none => rfl
    | some t =>
      have : ∀ t : Tree (Addr × α), t.prune (fun x => decide (x.1 ∈ [])) = some t := by
        intro t
        induction t using Tree.ind with
        | h a cs ih =>
          have : pruneL (fun x => decide (x.1 ∈ [])) cs = cs := by
            rw [pruneL_eq]
            clear hn
            induction cs with
            | nil => rfl
            | cons d ds ihd => rw [List.flatMap_cons, ih d (by simp), ihd (fun c hc => ih c (by simp [hc]))]; rfl
          simp [prune] at *; exact this
      simp only [Option.bind_some, this]
  | step c s a l t' ha _ _ ih =>
    rw [shape_addrs] at hn ih
    have hn' : (ctxAddrs c ++ s.elim [] Tree.addrs).Nodup := (addrs_fill c s).nodup_iff.mp hn
    have hnil : ((fill c (none : Option (Tree (Addr × α)))).elim [] Tree.addrs).Nodup := by
      refine (addrs_fill c none).nodup_iff.mpr ?_
      simpa using (List.nodup_append.mp hn').1
    rw [ih hnil]
    rw [shape_ptr] at ha
    cases s with
    | none => cases ha
    | some s =>
      have ha' : s.label.1 = a := by simpa [addr] using ha
      have hs0 : s.prune (fun x => decide (x.1 ∈ a :: l)) = none := by
        cases s with
        | node b cs =>
          simp only [label_node] at ha'
          simp [prune, ha']
      show _ = (fill c (some s)).bind _
      rw [fill_some]
      simp only [Option.bind_some]
      cases c with
      | nil => exact hs0.symm
      | cons f fs =>
        have hnil' : (shape α).plug (f :: fs) (shape α).nil = some (plug fs (node f.label (f.lefts ++ f.rights))) := by
          simp [shape, fill]
        rw [hnil', Option.bind_some]
        refine (prune_hole f fs s hs0 ?_).symm
        intro x hx
        have hne : x.1 ≠ a := by
          rintro rfl
          refine (List.nodup_append.mp hn').2.2 _ hx _ ?_ rfl
          simp only [Option.elim_some, Tree.addrs]
          rw [← ha']
          exact List.mem_map_of_mem (label_mem_pre s)
        simp [hne]
end Nary

section
variable {ν α lit T V C : Type} {K : Kind ν α lit} {S : Shape K T V C} {t t' : T}

/-- When the code can erase everywhere, it can erase every range. -/
theorem prune_exists (L : Lawful S) (hrem : ∀ c, S.removable c) {m l2 : List Addr} : ∀ {t : T} {l1 : List Addr},
    (S.addrs t).Nodup → S.post t = l1 ++ m ++ l2 → ∃ t', Prune S t m t' := by
  induction m with
  | nil => intro t l1 _ _; exact ⟨t, .done t⟩
  | cons a m ih =>
    intro t l1 hn hp
    have hm : a ∈ S.addrs t := (L.post_perm t).mem_iff.mp (by rw [hp]; simp)
    have hpn : (S.post t).Nodup := (L.post_perm t).nodup_iff.mpr hn
    rcases L.rose_cases t with rfl | ⟨R, hR⟩
    · simp [Shape.addrs, L.rose_nil] at hm
    · obtain ⟨fs, u, h1, h2⟩ := exists_plug_of_mem (t := R) (a := a) (by simpa [Shape.addrs, hR] using hm)
      obtain ⟨c, s, h3, h4⟩ := L.find t fs u (by rw [hR, h1])
      have ha : S.ptr s = some a := by simp [Shape.ptr, h4, h2]
      subst h3
      have hn2 : (S.addrs (S.plug c S.nil)).Nodup :=
        (List.nodup_append.mp ((L.addrs_plug c s).nodup_iff.mp hn)).1
      have hp' : S.post (S.plug c s) = l1 ++ a :: (m ++ l2) := by rw [hp]; simp
      by_cases hc : c = S.top
      · subst hc
        have hll := L.range_root hpn (by rw [L.plug_top]; exact ha) hp'
        simp only [List.append_eq_nil_iff] at hll
        obtain ⟨rfl, rfl⟩ := hll
        exact ⟨_, .step _ _ _ _ _ ha (Or.inl rfl) (.done _)⟩
      · obtain ⟨k1, hk⟩ := L.range_inner hpn ha hc hp'
        obtain ⟨t', ht'⟩ := ih (t := S.plug c S.nil) (l1 := k1) hn2 (by rw [hk]; simp)
        exact ⟨t', .step _ _ _ _ _ ha (Or.inr (hrem c)) ht'⟩

/-- A range that starts at the first node is exactly what goes. -/
theorem prune_prefix (L : Lawful S) {m l2 : List Addr} (H : Prune S t m t') : (S.addrs t).Nodup → S.post t = m ++ l2 → S.post t' = l2 := by
  induction H with
  | done t => intro _ hp; simpa using hp
  | step c s a l t' ha _ _ ih =>
    intro hn hp
    have hpn : (S.post (S.plug c s)).Nodup := (L.post_perm _).nodup_iff.mpr hn
    have hn2 : (S.addrs (S.plug c S.nil)).Nodup := (List.nodup_append.mp ((L.addrs_plug c s).nodup_iff.mp hn)).1
    have hp' : S.post (S.plug c s) = [] ++ a :: (l ++ l2) := by rw [hp]; simp
    apply ih hn2
    by_cases hc : c = S.top
    · subst hc
      have hll := L.range_root hpn (by rw [L.plug_top]; exact ha) hp'
      rw [hll, L.plug_top]; simp [Shape.post, L.rose_nil]
    · have hne : s ≠ S.nil := by rintro rfl; rw [L.ptr_nil] at ha; cases ha
      obtain ⟨k1, k2, h1, h2⟩ := L.post_split hc hne
      obtain ⟨q, hq⟩ := L.post_last ha
      rw [hp'] at hpn
      have e : [] ++ a :: (l ++ l2) = (k1 ++ q) ++ a :: k2 := by rw [← hp', h1, hq]; simp
      have := split_unique hpn e
      rw [h2, ← this.2]
      have h3 : k1 ++ q = [] := this.1.symm
      simp at h3
      simp [h3.1]
end
