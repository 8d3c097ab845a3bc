import Verif.Spec.Tree
/-! Lemmas about abstract trees. -/

namespace Tree
variable {β γ : Type}

@[simp] theorem label_node (a : β) (cs) : (node a cs).label = a := rfl
@[simp] theorem children_node (a : β) (cs) : (node a cs).children = cs := rfl
theorem node_eta (t : Tree β) : node t.label t.children = t := by cases t; rfl

@[simp] theorem pre_node (a : β) (cs) : (node a cs).pre = a :: preL cs := by simp [pre]
@[simp] theorem preL_nil : preL ([] : List (Tree β)) = [] := by simp [preL]
@[simp] theorem preL_cons (t : Tree β) (ts) : preL (t :: ts) = pre t ++ preL ts := by simp [preL]
@[simp] theorem post_node (a : β) (cs) : (node a cs).post = postL cs ++ [a] := by simp [post]
@[simp] theorem postL_nil : postL ([] : List (Tree β)) = [] := by simp [postL]
@[simp] theorem postL_cons (t : Tree β) (ts) : postL (t :: ts) = post t ++ postL ts := by simp [postL]
@[simp] theorem size_node (a : β) (cs) : (node a cs).size = sizeL cs + 1 := by simp [size]
@[simp] theorem sizeL_nil : sizeL ([] : List (Tree β)) = 0 := by simp [sizeL]
@[simp] theorem sizeL_cons (t : Tree β) (ts) : sizeL (t :: ts) = size t + sizeL ts := by simp [sizeL]
@[simp] theorem height_node (a : β) (cs) : (node a cs).height = heightL cs + 1 := by simp [height]
@[simp] theorem heightL_nil : heightL ([] : List (Tree β)) = 0 := by simp [heightL]
@[simp] theorem heightL_cons (t : Tree β) (ts) : heightL (t :: ts) = max (height t) (heightL ts) := by simp [heightL]
@[simp] theorem arity_node (a : β) (cs) : (node a cs).arity = max cs.length (arityL cs) := by simp [arity]
@[simp] theorem arityL_nil : arityL ([] : List (Tree β)) = 0 := by simp [arityL]
@[simp] theorem arityL_cons (t : Tree β) (ts) : arityL (t :: ts) = max (arity t) (arityL ts) := by simp [arityL]
@[simp] theorem map_node (f : β → γ) (a : β) (cs) : (node a cs).map f = node (f a) (mapL f cs) := by simp [map]
@[simp] theorem mapL_nil (f : β → γ) : mapL f ([] : List (Tree β)) = [] := by simp [mapL]
@[simp] theorem mapL_cons (f : β → γ) (t : Tree β) (ts) : mapL f (t :: ts) = map f t :: mapL f ts := by simp [mapL]
@[simp] theorem mirror_node (a : β) (cs) : (node a cs).mirror = node a (mirrorL cs) := by simp [mirror]
@[simp] theorem mirrorL_nil : mirrorL ([] : List (Tree β)) = [] := by simp [mirrorL]
@[simp] theorem mirrorL_cons (t : Tree β) (ts) : mirrorL (t :: ts) = mirrorL ts ++ [mirror t] := by simp [mirrorL]
@[simp] theorem leavesL_nil : leavesL ([] : List (Tree β)) = [] := by simp [leavesL]
@[simp] theorem leavesL_cons (t : Tree β) (ts) : leavesL (t :: ts) = leaves t ++ leavesL ts := by simp [leavesL]
@[simp] theorem leaves_nil (a : β) : leaves (node a []) = [a] := by simp [leaves]
@[simp] theorem leaves_cons (a : β) (c cs) : leaves (node a (c :: cs)) = leaves c ++ leavesL cs := by simp [leaves]

theorem mapL_eq (f : β → γ) (ts : List (Tree β)) : mapL f ts = ts.map (map f) := by
  induction ts <;> simp_all
theorem mirrorL_eq (ts : List (Tree β)) : mirrorL ts = (ts.map mirror).reverse := by
  induction ts <;> simp_all
theorem preL_eq (ts : List (Tree β)) : preL ts = ts.flatMap pre := by
  induction ts <;> simp_all
theorem postL_eq (ts : List (Tree β)) : postL ts = ts.flatMap post := by
  induction ts <;> simp_all
@[simp] theorem preL_append (a b : List (Tree β)) : preL (a ++ b) = preL a ++ preL b := by
  simp [preL_eq]
@[simp] theorem postL_append (a b : List (Tree β)) : postL (a ++ b) = postL a ++ postL b := by
  simp [postL_eq]
@[simp] theorem leavesL_append (a b : List (Tree β)) : leavesL (a ++ b) = leavesL a ++ leavesL b := by
  induction a <;> simp_all
@[simp] theorem sizeL_append (a b : List (Tree β)) : sizeL (a ++ b) = sizeL a + sizeL b := by
  induction a <;> simp_all; omega
@[simp] theorem heightL_append (a b : List (Tree β)) : heightL (a ++ b) = max (heightL a) (heightL b) := by
  induction a <;> simp_all [Nat.max_assoc]

theorem label_mem_pre (t : Tree β) : t.label ∈ t.pre := by cases t; simp

theorem pre_eq_cons (t : Tree β) : t.pre = t.label :: preL t.children := by cases t; simp
theorem post_eq (t : Tree β) : t.post = postL t.children ++ [t.label] := by cases t; simp

theorem pre_ne_nil (t : Tree β) : t.pre ≠ [] := by cases t; simp
theorem size_pos (t : Tree β) : 0 < t.size := by cases t; simp

@[simp] theorem length_pre (t : Tree β) : t.pre.length = t.size := by
  induction t using ind with
  | h a cs ih =>
    simp
    induction cs with
    | nil => simp
    | cons c cs ih2 => simp_all

@[simp] theorem length_preL (ts : List (Tree β)) : (preL ts).length = sizeL ts := by
  induction ts <;> simp_all

theorem mirror_mirror (t : Tree β) : t.mirror.mirror = t := by
  induction t using ind with
  | h a cs ih =>
    simp [mirrorL_eq]
    induction cs with
    | nil => simp
    | cons c cs ih2 => simp_all

@[simp] theorem label_mirror (t : Tree β) : t.mirror.label = t.label := by cases t; simp
@[simp] theorem children_mirror (t : Tree β) : t.mirror.children = (t.children.map mirror).reverse := by
  cases t; simp [mirrorL_eq]

/-- Post-order is the reverse of the pre-order of the mirror image. -/
theorem pre_mirror (t : Tree β) : t.mirror.pre = t.post.reverse := by
  induction t using ind with
  | h a cs ih =>
    simp
    induction cs with
    | nil => simp
    | cons c cs ih2 => simp_all

theorem post_mirror (t : Tree β) : t.mirror.post = t.pre.reverse := by
  have := pre_mirror t.mirror
  rw [mirror_mirror] at this
  simp [this]

theorem post_perm_pre (t : Tree β) : t.post.Perm t.pre := by
  induction t using ind with
  | h a cs ih =>
    simp
    have : (postL cs).Perm (preL cs) := by
      induction cs with
      | nil => simp
      | cons c cs ih2 =>
        simp
        exact List.Perm.append (ih c (by simp)) (ih2 (fun c hc => ih c (by simp [hc])))
    exact (List.perm_append_comm).trans (by simpa using this)

theorem nodup_post {t : Tree β} : t.post.Nodup ↔ t.pre.Nodup := (post_perm_pre t).nodup_iff
theorem mem_post {t : Tree β} {a : β} : a ∈ t.post ↔ a ∈ t.pre := (post_perm_pre t).mem_iff

/-! ### contexts -/

@[simp] theorem plug_nil (t : Tree β) : plug [] t = t := rfl
@[simp] theorem plug_cons (f : Frame β) (fs t) :
    plug (f :: fs) t = plug fs (node f.label (f.lefts ++ t :: f.rights)) := rfl
theorem plug_append (fs gs : List (Frame β)) (t) : plug (fs ++ gs) t = plug gs (plug fs t) := by
  induction fs generalizing t <;> simp_all

/-- The nodes before / after the hole in pre-order. -/
def preBefore : List (Frame β) → List β
  | [] => []
  | f :: fs => preBefore fs ++ f.label :: preL f.lefts
def preAfter : List (Frame β) → List β
  | [] => []
  | f :: fs => preL f.rights ++ preAfter fs

theorem pre_plug (fs : List (Frame β)) (s : Tree β) :
    (plug fs s).pre = preBefore fs ++ s.pre ++ preAfter fs := by
  induction fs generalizing s with
  | nil => simp [preBefore, preAfter]
  | cons f fs ih => simp [ih, preBefore, preAfter]

theorem exists_plug_of_mem {t : Tree β} {a : β} (h : a ∈ t.pre) :
    ∃ fs s, plug fs s = t ∧ s.label = a := by
  induction t using ind with
  | h b cs ih =>
    simp [preL_eq] at h
    rcases h with rfl | ⟨c, hc, ha⟩
    · exact ⟨[], node a cs, rfl, rfl⟩
    · obtain ⟨fs, s, h1, h2⟩ := ih c hc ha
      obtain ⟨l, r, rfl⟩ := List.append_of_mem hc
      exact ⟨fs ++ [⟨b, l, r⟩], s, by simp [plug_append, h1], h2⟩

theorem mem_pre_plug (fs : List (Frame β)) (s : Tree β) : s.label ∈ (plug fs s).pre := by
  rw [pre_plug]; simp [label_mem_pre]

/-- With distinct labels, the label of a focus determines its position. -/
theorem split_unique {l1 l2 m1 m2 : List β} {a : β} (hn : (l1 ++ a :: l2).Nodup)
    (h : l1 ++ a :: l2 = m1 ++ a :: m2) : l1 = m1 ∧ l2 = m2 := by
  induction l1 generalizing m1 with
  | nil =>
    cases m1 with
    | nil => simpa using h
    | cons b m1 =>
      simp at h
      obtain ⟨rfl, h⟩ := h
      subst h; simp at hn
  | cons b l1 ih =>
    cases m1 with
    | nil =>
      simp at h
      obtain ⟨rfl, h⟩ := h
      simp at hn
    | cons c m1 =>
      simp at h hn
      obtain ⟨rfl, h⟩ := h
      have := ih (by simpa using hn.2) h
      simp [this]

def Frame.mirror (f : Frame β) : Frame β := ⟨f.label, mirrorL f.rights, mirrorL f.lefts⟩

theorem mirrorL_append (a b : List (Tree β)) : mirrorL (a ++ b) = mirrorL b ++ mirrorL a := by
  simp [mirrorL_eq]

theorem mirror_plug (fs : List (Frame β)) (s : Tree β) :
    (plug fs s).mirror = plug (fs.map Frame.mirror) s.mirror := by
  induction fs generalizing s with
  | nil => rfl
  | cons f fs ih => simp [ih, Frame.mirror, mirrorL_append]

theorem mirrorL_mirrorL (ts : List (Tree β)) : mirrorL (mirrorL ts) = ts := by
  have := mirror_mirror (node (default : Nat) ([] : List (Tree Nat)))
  simp [mirrorL_eq]
  induction ts with
  | nil => simp
  | cons t ts ih => simp [mirror_mirror, ih]

theorem Frame.mirror_mirror (f : Frame β) : f.mirror.mirror = f := by
  simp [Frame.mirror, mirrorL_mirrorL]

/-! ### map -/
@[simp] theorem label_map (f : β → γ) (t : Tree β) : (t.map f).label = f t.label := by cases t; simp
@[simp] theorem children_map (f : β → γ) (t : Tree β) : (t.map f).children = t.children.map (map f) := by
  cases t; simp [mapL_eq]
theorem pre_map (f : β → γ) (t : Tree β) : (t.map f).pre = t.pre.map f := by
  induction t using ind with
  | h a cs ih =>
    simp
    induction cs with
    | nil => simp
    | cons c cs ih2 => simp_all
theorem size_map (f : β → γ) (t : Tree β) : (t.map f).size = t.size := by
  rw [← length_pre, ← length_pre, pre_map]; simp

def Frame.map (g : β → γ) (f : Frame β) : Frame γ := ⟨g f.label, f.lefts.map (Tree.map g), f.rights.map (Tree.map g)⟩

theorem plug_map (g : β → γ) (fs : List (Frame β)) (s : Tree β) :
    (plug fs s).map g = plug (fs.map (Frame.map g)) (s.map g) := by
  induction fs generalizing s with
  | nil => rfl
  | cons f fs ih => simp [ih, Frame.map, mapL_eq]

/-- A decomposition of a mapped tree comes from a decomposition of the tree. -/
theorem plug_eq_map (g : β → γ) {fs : List (Frame γ)} {s : Tree γ} {t : Tree β} (h : plug fs s = t.map g) :
    ∃ fs' s', plug fs' s' = t ∧ fs'.map (Frame.map g) = fs ∧ s'.map g = s := by
  induction fs generalizing s with
  | nil => exact ⟨[], t, rfl, rfl, by simpa using h.symm⟩
  | cons f fs ih =>
    obtain ⟨fs', s', h1, h2, h3⟩ := ih (by simpa using h)
    cases s' with
    | node a cs =>
      simp [mapL_eq] at h3
      obtain ⟨ha, hcs⟩ := h3
      rw [List.map_eq_append_iff] at hcs
      obtain ⟨l, r, rfl, hl, hr⟩ := hcs
      rw [List.map_eq_cons_iff] at hr
      obtain ⟨c, r, rfl, hc, hr⟩ := hr
      refine ⟨⟨a, l, r⟩ :: fs', c, by simpa using h1, ?_, hc⟩
      simp [h2, Frame.map, ha, hl, hr]

theorem eqByL_length (eqv : β → γ → Bool) {ts : List (Tree β)} {us : List (Tree γ)} (h : ts.length ≠ us.length) :
    eqByL eqv ts us = false := by
  induction ts generalizing us with
  | nil => cases us <;> simp_all [eqByL]
  | cons t ts ih =>
    cases us with
    | nil => simp [eqByL]
    | cons u us => simp [eqByL, ih (us := us) (by simpa using h)]

end Tree
