import Verif.Proof.GrowBfs
import Verif.Spec.Yields
/-! The subtrees matched by the arguments of a `star`. -/
open Tree

set_option linter.unusedSimpArgs false

namespace Tree
variable {β : Type}

/-- `ts` are subtrees found in the sequence `us` below accepted nodes, from left to right. -/
inductive Reach (f : β → Bool) : List (Tree β) → List (Tree β) → Prop
  | nil : Reach f [] []
  | drop {t us ts} : Reach f us ts → Reach f (t :: us) ts
  | take {t us ts} : Reach f us ts → Reach f (t :: us) (t :: ts)
  | pass {t us ts ts'} : f t.label = true → Reach f t.children ts → Reach f us ts' → Reach f (t :: us) (ts ++ ts')

namespace Reach
variable {f : β → Bool}

theorem none (us : List (Tree β)) : Reach f us [] := by
  induction us with
  | nil => exact .nil
  | cons t us ih => exact .drop ih

theorem split : ∀ {a b ts : List (Tree β)}, Reach f (a ++ b) ts → ∃ ts1 ts2, ts = ts1 ++ ts2 ∧ Reach f a ts1 ∧ Reach f b ts2 := by
  intro a
  induction a with
  | nil => intro b ts h; exact ⟨[], ts, rfl, .nil, h⟩
  | cons t a ih =>
    intro b ts h
    cases h with
    | drop h =>
      obtain ⟨ts1, ts2, rfl, h1, h2⟩ := ih h
      exact ⟨ts1, ts2, rfl, .drop h1, h2⟩
    | take h =>
      obtain ⟨ts1, ts2, rfl, h1, h2⟩ := ih h
      exact ⟨t :: ts1, ts2, rfl, .take h1, h2⟩
    | pass hf hc h =>
      obtain ⟨ts1, ts2, rfl, h1, h2⟩ := ih h
      exact ⟨_, ts2, (List.append_assoc ..).symm, .pass hf hc h1, h2⟩

theorem into {t : Tree β} {us ts : List (Tree β)} (hf : f t.label = true) (h : Reach f (t.children ++ us) ts) : Reach f (t :: us) ts := by
  obtain ⟨ts1, ts2, rfl, h1, h2⟩ := split h
  exact .pass hf h1 h2

theorem opens {us vs ts : List (Tree β)} (h : Opens f us vs) (hv : Reach f vs ts) : Reach f us ts := by
  induction h with
  | refl => exact hv
  | skip _ ih => exact .drop (ih hv)
  | into hf _ ih => exact into hf (ih hv)

theorem frontier : ∀ (n : Nat) {us ts : List (Tree β)}, sizeL us ≤ n → List.Sublist ts (frontierL f us) → Reach f us ts := by
  intro n
  induction n with
  | zero =>
    intro us ts hn hs
    cases us with
    | nil => simp [frontierL_nil] at hs; subst hs; exact .nil
    | cons t us => have := size_pos t; simp at hn; omega
  | succ n ih =>
    intro us ts hn hs
    cases us with
    | nil => simp [frontierL_nil] at hs; subst hs; exact .nil
    | cons t us =>
      obtain ⟨a, cs⟩ := t
      simp at hn
      rw [frontierL_cons, frontier_node] at hs
      by_cases hf : f a = true
      · simp only [hf, if_true] at hs
        refine into hf (ih (by simp; omega) ?_)
        have : frontierL f (cs ++ us) = frontierL f cs ++ frontierL f us := by
          clear hs hn
          induction cs with
          | nil => simp [frontierL_nil]
          | cons c cs ih => simp [frontierL_cons, ih]
        simpa [this] using hs
      · simp only [hf, if_false] at hs
        simp only [Bool.false_eq_true, if_false, List.singleton_append] at hs
        have hsz : sizeL us ≤ n := by omega
        cases hs with
        | cons _ hs => exact .drop (ih hsz hs)
        | cons_cons _ hs => exact .take (ih hsz hs)

variable {α : Type} {f : Addr × α → Bool}

theorem sub {us ts : List (Tree (Addr × α))} (h : Reach f us ts) : ∀ t ∈ ts, t.addr ∈ addrsL us := by
  induction h with
  | nil => simp
  | drop _ ih => intro t ht; simp [ih t ht]
  | take _ ih =>
    intro t ht
    rcases List.mem_cons.mp ht with rfl | ht
    · simp [addr_mem_addrs]
    · simp [ih t ht]
  | @pass t us ts ts' _ _ _ ih1 ih2 =>
    intro u hu
    rcases List.mem_append.mp hu with hu | hu
    · obtain ⟨a, cs⟩ := t
      have := ih1 u hu
      simp at this
      simp [this]
    · simp [ih2 u hu]

theorem nodup {us ts : List (Tree (Addr × α))} (h : Reach f us ts) : (addrsL us).Nodup → (ts.map addr).Nodup := by
  induction h with
  | nil => simp
  | drop _ ih => intro hn; simp at hn; exact ih (List.nodup_append.mp hn).2.1
  | @take t us ts h ih =>
    intro hn
    simp at hn
    obtain ⟨h1, h2, h3⟩ := List.nodup_append.mp hn
    simp only [List.map_cons, List.nodup_cons]
    refine ⟨?_, ih h2⟩
    intro hm
    obtain ⟨u, hu, e⟩ := List.mem_map.mp hm
    exact h3 _ (addr_mem_addrs t) _ (h.sub u hu) e.symm
  | @pass t us ts ts' _ hc hu ih1 ih2 =>
    intro hn
    simp at hn
    obtain ⟨h1, h2, h3⟩ := List.nodup_append.mp hn
    obtain ⟨a, cs⟩ := t
    simp at h1 h3 hc ih1
    simp only [List.map_append, List.nodup_append]
    refine ⟨ih1 h1.2, ih2 h2, ?_⟩
    intro x hx y hy e
    obtain ⟨u, hu', rfl⟩ := List.mem_map.mp hx
    obtain ⟨v, hv, rfl⟩ := List.mem_map.mp hy
    exact h3.2 _ (hc.sub u hu') _ (hu.sub v hv) e
end Reach

mutual
/-- The subtrees at the nodes of `keys` which are not below another one. -/
def hits {α : Type} (keys : List Addr) : Tree (Addr × α) → List (Tree (Addr × α))
  | .node a cs => if a.1 ∈ keys then [.node a cs] else hitsL keys cs
def hitsL {α : Type} (keys : List Addr) : List (Tree (Addr × α)) → List (Tree (Addr × α))
  | [] => []
  | t :: ts => hits keys t ++ hitsL keys ts
end

variable {α : Type} {keys : List Addr}

theorem hits_node (a : Addr × α) (cs) : hits keys (node a cs) = if a.1 ∈ keys then [node a cs] else hitsL keys cs := by simp [hits]
@[simp] theorem hitsL_nil : hitsL keys ([] : List (Tree (Addr × α))) = [] := by simp [hitsL]
@[simp] theorem hitsL_cons (t : Tree (Addr × α)) (ts) : hitsL keys (t :: ts) = hits keys t ++ hitsL keys ts := by simp [hitsL]

theorem hits_none (t : Tree (Addr × α)) : (∀ x ∈ t.addrs, x ∉ keys) → hits keys t = [] := by
  induction t using ind with
  | h a cs ih =>
    intro h
    rw [hits_node, if_neg (h a.1 (by simp))]
    have : ∀ ts : List (Tree (Addr × α)), (∀ t ∈ ts, t ∈ cs) → hitsL keys ts = [] := by
      intro ts
      induction ts with
      | nil => simp
      | cons t ts iht =>
        intro hts
        rw [hitsL_cons, iht (fun u hu => hts u (by simp [hu])), ih t (hts t (by simp)) (fun x hx => h x (by
          rw [addrs_node]; exact List.mem_cons_of_mem _ (mem_addrsL.mpr ⟨t, hts t (by simp), hx⟩)))]
        rfl
    exact this cs (fun _ h => h)

variable {f : Addr × α → Bool}

/-- The subtrees are found again by their addresses, and the nodes above them are accepted. -/
theorem Reach.hits {us ts : List (Tree (Addr × α))} (h : Reach f us ts) : (addrsL us).Nodup →
    (∀ x ∈ addrsL us, x ∈ keys ↔ x ∈ ts.map addr) →
    hitsL keys us = ts ∧ ∀ s fs a l, plug fs (node a (l ++ us)) = s → ∀ t ∈ ts, ∃ gs e, e.label = a ∧ plug (gs ++ e :: fs) t = s ∧
      ∀ e ∈ gs, f e.label = true ∧ e.label.1 ∉ keys := by
  induction h with
  | nil => simp
  | @drop t us ts h ih =>
    intro hn hk
    simp at hn hk
    obtain ⟨h1, h2, h3⟩ := List.nodup_append.mp hn
    obtain ⟨i1, i2⟩ := ih h2 (fun x hx => by simpa using hk x (.inr hx))
    refine ⟨?_, ?_⟩
    · rw [hitsL_cons, i1, hits_none]; · rfl
      intro x hx hxk
      obtain ⟨u, hu, e⟩ := (hk x (.inl hx)).mp hxk
      exact h3 x hx _ (h.sub u hu) e.symm
    · intro s fs a l hs
      exact i2 s fs a (l ++ [t]) (by simpa using hs)
  | @take t us ts h ih =>
    intro hn hk
    simp at hn hk
    obtain ⟨h1, h2, h3⟩ := List.nodup_append.mp hn
    obtain ⟨i1, i2⟩ := ih h2 (fun x hx => by
      have hne : x ≠ t.addr := fun e => h3 _ (addr_mem_addrs t) x hx e.symm
      simpa [hne] using hk x (.inr hx))
    refine ⟨?_, ?_⟩
    · rw [hitsL_cons, i1]
      have : t.addr ∈ keys := (hk _ (.inl (addr_mem_addrs t))).mpr (.inl rfl)
      obtain ⟨b, cs⟩ := t
      have : b.1 ∈ keys := this
      simp [hits_node, this]
    · intro s fs a l hs u hu
      rcases List.mem_cons.mp hu with rfl | hu
      · exact ⟨[], ⟨a, l, us⟩, rfl, hs, by simp⟩
      · exact i2 s fs a (l ++ [t]) (by simpa using hs) u hu
  | @pass t us ts ts' hf hc h ih1 ih2 =>
    intro hn hk
    simp at hn hk
    obtain ⟨h1, h2, h3⟩ := List.nodup_append.mp hn
    obtain ⟨b, cs⟩ := t
    simp only [children_node, addrs_node, List.nodup_cons, List.mem_cons] at h1 h3 hc ih1 hk hf
    have hself : b.1 ∉ keys := by
      intro hm
      rcases (hk b.1 (.inl (.inl rfl))).mp hm with ⟨u, hu, e⟩ | ⟨u, hu, e⟩
      · exact h1.1 (e ▸ hc.sub u hu)
      · exact h3 b.1 (.inl rfl) _ (h.sub u hu) e.symm
    obtain ⟨i1, i2⟩ := ih1 h1.2 (fun x hx => by
      rw [hk x (.inl (.inr hx))]
      simp only [List.mem_map]
      constructor
      · rintro (h' | ⟨u, hu, e⟩)
        · exact h'
        · exact absurd e.symm (h3 x (.inr hx) _ (h.sub u hu))
      · exact .inl)
    obtain ⟨j1, j2⟩ := ih2 h2 (fun x hx => by
      rw [hk x (.inr hx)]
      simp only [List.mem_map]
      constructor
      · rintro (⟨u, hu, e⟩ | h')
        · exact absurd e (h3 _ (.inr (hc.sub u hu)) x hx)
        · exact h'
      · exact .inr)
    refine ⟨?_, ?_⟩
    · simp [hits_node, hself, i1, j1]
    · intro s fs a l hs u hu
      rcases List.mem_append.mp hu with hu | hu
      · obtain ⟨gs, e, h4, h5, h6⟩ := i2 s (⟨a, l, us⟩ :: fs) b [] hs u hu
        refine ⟨gs ++ [e], ⟨a, l, us⟩, rfl, by simpa using h5, ?_⟩
        intro d hd
        rcases List.mem_append.mp hd with hd | hd
        · exact h6 d hd
        · simp at hd; subst hd; rw [h4]; exact ⟨hf, hself⟩
      · exact j2 s fs a (l ++ [node b cs]) (by simpa using hs) u hu
end Tree
