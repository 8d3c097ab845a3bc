import Verif.Proof.ThreadCalls
import Verif.Proof.Tally
/-! # What threads are told although they race, if every access is one step -/
open Threads

section
variable {ν α lit β γ : Type} (K : Kind ν α lit) {e : Still ν} {T : Loc → Nat}
open Prog

/-- Every member is unknown or right. -/
def Valid (T : Loc → Nat) (c : Cells) : Prop := ∀ l, c l = 0 ∨ c l = T l

/-- Some members have been filled in. -/
def Later (T : Loc → Nat) (c d : Cells) : Prop := ∀ l, d l = c l ∨ (c l = 0 ∧ d l = T l)

theorem Later.refl (c : Cells) : Later T c c := fun _ => Or.inl rfl
theorem Later.trans {c d f : Cells} (h : Later T c d) (h' : Later T d f) : Later T c f := by
  intro l
  rcases h' l with h1 | ⟨h1, h2⟩ <;> rcases h l with h3 | ⟨h3, h4⟩
  · exact Or.inl (h1.trans h3)
  · exact Or.inr ⟨h3, h1.trans h4⟩
  · exact Or.inr ⟨h3 ▸ h1, h2⟩
  · exact Or.inr ⟨h3, h2⟩
theorem Later.valid {c d : Cells} (h : Later T c d) (hv : Valid T c) : Valid T d := by
  intro l
  rcases h l with h | ⟨_, h⟩
  · rw [h]; exact hv l
  · exact Or.inr h
theorem Later.fill {c : Cells} (hv : Valid T c) (l : Loc) : Later T c (fun m => if m = l then T l else c m) := by
  intro m
  by_cases hm : m = l
  · subst hm
    rcases hv m with h | h
    · exact Or.inr ⟨h, by simp⟩
    · exact Or.inl (by simp [h])
  · exact Or.inl (by simp [hm])

/-- Whatever is filled in between its steps, the thread writes only right numbers and ends as `o` says (`none`: undefined
behaviour). -/
def Sure (e : Still ν) (T : Loc → Nat) (o : Option β) : Prog ν β → Cells → Prop
  | .done b, _ => o = some b
  | .bad, _ => o = none
  | .get l k, c => ∀ d, Later T c d → Sure e T o (k (d l)) d
  | .set l v k, c => v = T l ∧ ∀ d, Later T c d → Sure e T o k (fun m => if m = l then v else d m)
  | .look k, c => Sure e T o (k e.heap e.roots) c

theorem Sure.later {o : Option β} : ∀ {p : Prog ν β} {c d : Cells}, Sure e T o p c → Later T c d → Sure e T o p d
  | .done _, _, _, h, _ => h
  | .bad, _, _, h, _ => h
  | .get _ _, _, _, h, hl => fun f hf => h f (hl.trans hf)
  | .set _ _ _, _, _, h, hl => ⟨h.1, fun f hf => h.2 f (hl.trans hf)⟩
  | .look k, _, _, h, hl => Sure.later (p := k e.heap e.roots) h hl

theorem Sure.bind {o : Option γ} {b : β} {q : β → Prog ν γ} : ∀ {p : Prog ν β} {c : Cells}, Valid T c → Sure e T (some b) p c →
    (∀ d, Valid T d → Sure e T o (q b) d) → Sure e T o (p.bind q) c
  | .done _, c, hv, h, hq => by cases h; exact hq c hv
  | .bad, _, _, h, _ => by cases h
  | .get l k, c, hv, h, hq => fun d hd => Sure.bind (p := k (d l)) (hd.valid hv) (h d hd) hq
  | .set l v k, c, hv, h, hq => by
      obtain ⟨rfl, h⟩ := h
      exact ⟨rfl, fun d hd => Sure.bind (p := k) ((Later.fill (hd.valid hv) l).valid (hd.valid hv)) (h d hd) hq⟩
  | .look k, c, hv, h, hq => Sure.bind (p := k e.heap e.roots) hv h hq

theorem Sure.bind_bad {q : β → Prog ν γ} : ∀ {p : Prog ν β} {c : Cells}, Sure e T (none : Option β) p c →
    Sure e T (none : Option γ) (p.bind q) c
  | .done _, c, h => by cases h
  | .bad, _, _ => rfl
  | .get l k, c, h => fun d hd => Sure.bind_bad (p := k (d l)) (h d hd)
  | .set l v k, c, h => ⟨h.1, fun d hd => Sure.bind_bad (p := k) (h.2 d hd)⟩
  | .look k, c, h => Sure.bind_bad (p := k e.heap e.roots) h

/-- Run alone, it ends so too. -/
theorem Sure.alone {o : Option β} : ∀ {p : Prog ν β} {c : Cells}, Sure e T o p c → (p.alone e c).map (·.2) = o
  | .done _, c, h => h.symm
  | .bad, _, h => h.symm
  | .get l k, c, h => Sure.alone (p := k (c l)) (h c (Later.refl c))
  | .set l v k, c, h => Sure.alone (p := k) (h.2 c (Later.refl c))
  | .look k, c, h => Sure.alone (p := k e.heap e.roots) h

theorem Sure.step {o : Option β} {p : Prog ν β} {c : Cells} (hv : Valid T c) (h : Sure e T o p c) :
    Later T c (p.step e c).1 ∧ Sure e T o (p.step e c).2 (p.step e c).1 := by
  cases p with
  | done b => exact ⟨Later.refl _, h⟩
  | bad => exact ⟨Later.refl _, h⟩
  | get l k => exact ⟨Later.refl _, h c (Later.refl _)⟩
  | set l v k =>
    obtain ⟨rfl, h⟩ := h
    exact ⟨Later.fill hv l, h c (Later.refl _)⟩
  | look k => exact ⟨Later.refl _, h⟩

theorem sure_run {o : Nat → Option β} : ∀ (sched : List Nat) (R : Running ν β), Valid T R.cells →
    (∀ i, Sure e T (o i) (R.threads i) R.cells) →
    Valid T (R.run e sched).cells ∧ ∀ i, Sure e T (o i) ((R.run e sched).threads i) (R.run e sched).cells
  | [], R, hv, h => ⟨hv, h⟩
  | j :: sched, R, hv, h => by
    have hs := Sure.step hv (h j)
    refine sure_run sched (R.step e j) (hs.1.valid hv) (fun i => ?_)
    by_cases hij : i = j
    · subst hij
      have : (R.step e i).threads i = ((R.threads i).step e R.cells).2 := by simp [Running.step]
      rw [this]; exact hs.2
    · rw [Running.step_other hij]
      exact (h i).later hs.1

/-- It ends as `o` says whatever is known at the beginning. -/
def Certain (e : Still ν) (T : Loc → Nat) (p : Prog ν β) (o : Option β) : Prop := ∀ c, Valid T c → Sure e T o p c

theorem Certain.done (b : β) : Certain e T (done b) (some b) := fun _ _ => rfl
theorem Certain.bad : Certain e T (bad : Prog ν β) none := fun _ _ => rfl
theorem Certain.bind {p : Prog ν β} {q : β → Prog ν γ} {o : Option β} (h : Certain e T p o) (h' : ∀ b, ∃ o', Certain e T (q b) o') :
    ∃ o', Certain e T (p.bind q) o' := by
  cases o with
  | none => exact ⟨none, fun c hv => Sure.bind_bad (h c hv)⟩
  | some b =>
    obtain ⟨o', h'⟩ := h' b
    exact ⟨o', fun c hv => Sure.bind hv (h c hv) (fun d hd => h' d hd)⟩
theorem Certain.nodes (f : Heap ν → Res β) : ∃ o, Certain e T (nodes f) o := by
  simp only [Certain, Prog.nodes, Sure]
  cases f e.heap with
  | ok b => exact ⟨some b, fun _ _ => rfl⟩
  | ub => exact ⟨none, fun _ _ => rfl⟩
  | diverge => exact ⟨none, fun _ _ => rfl⟩
theorem Certain.root (x : Nat) : ∃ o, Certain e T (root x : Prog ν Ptr) o := by
  simp only [Certain, Prog.root, Sure]
  cases e.roots x with
  | some b => exact ⟨some b, fun _ _ => rfl⟩
  | none => exact ⟨none, fun _ _ => rfl⟩

/-- The right numbers, for the nodes and roots there are. -/
structure Truth (e : Still ν) (T : Loc → Nat) : Prop where
  empty : ∀ x, e.roots x = some none → T (x, .size) = 0 ∧ T (x, .arity) = 0
  size : ∀ x a, e.roots x = some (some a) → T (x, .size) ≠ 0 ∧ K.calcSize e.heap.fuel e.heap a = .ok (T (x, .size))
  arity : ∀ x a, e.roots x = some (some a) → (K.first e.heap a = .ok none ∧ T (x, .arity) = 0) ∨
    ∃ f, K.first e.heap a = .ok (some f) ∧ T (x, .arity) ≠ 0 ∧ K.calcArity e.heap.fuel e.heap a = .ok (T (x, .arity))

theorem sure_read {l : Loc} {c : Cells} (h : c l = T l) (hz : T l = 0 ∨ c l ≠ 0) : Sure e T (some (T l)) (Prog.read l : Prog ν Nat) c := by
  intro d hd
  simp only [Sure, Option.some.injEq]
  rcases hd l with h1 | ⟨_, h1⟩
  · rw [h1, h]
  · exact h1.symm

theorem Certain.size (H : Truth K e T) (x : Nat) : ∃ o, Certain e T (Threads.size K x) o := by
  simp only [Certain, Threads.size, Prog.root, Prog.bind, Sure]
  cases hx : e.roots x with
  | none => exact ⟨none, fun _ _ => rfl⟩
  | some p =>
    cases p with
    | none =>
      have ht := (H.empty x hx).1
      refine ⟨some (T (x, .size)), fun c hv => ?_⟩
      exact sure_read ((hv _).elim (fun h => h.trans ht.symm) id) (Or.inl ht)
    | some a =>
      obtain ⟨ht, hc⟩ := H.size x a hx
      refine ⟨some (T (x, .size)), fun c hv => ?_⟩
      simp only [Prog.read, Prog.bind]
      intro d hd
      have hv' := hd.valid hv
      by_cases h0 : d (x, .size) = 0
      · simp only [h0, beq_self_eq_true, if_true, Prog.nodes, Prog.bind, Sure, hc, Prog.write]
        refine ⟨trivial, fun f hf => ?_⟩
        exact sure_read (e := e) (by simp) (Or.inr (by simpa using ht))
      · have hb : (d (x, .size) == 0) = false := by simpa using h0
        simp only [hb, Bool.false_eq_true, if_false]
        exact sure_read ((hv' _).resolve_left h0) (Or.inr h0)

theorem Certain.arity (H : Truth K e T) (x : Nat) : ∃ o, Certain e T (Threads.arity K x) o := by
  simp only [Certain, Threads.arity, Prog.root, Prog.bind, Sure]
  cases hx : e.roots x with
  | none => exact ⟨none, fun _ _ => rfl⟩
  | some p =>
    refine ⟨some (T (x, .arity)), fun c hv => ?_⟩
    cases p with
    | none =>
      have ht := (H.empty x hx).2
      exact sure_read ((hv _).elim (fun h => h.trans ht.symm) id) (Or.inl ht)
    | some a =>
      simp only [Prog.read, Prog.bind]
      intro d hd
      have hv' := hd.valid hv
      by_cases h0 : d (x, .arity) = 0
      · simp only [h0, beq_self_eq_true, if_true, Prog.nodes, Prog.bind, Sure, Prog.write]
        rcases H.arity x a hx with ⟨hf, ht⟩ | ⟨f, hf, ht, hc⟩
        · simp only [hf, Prog.bind]
          exact sure_read (h0.trans ht.symm) (Or.inl ht)
        · simp only [hf, Prog.bind, hc, Sure]
          refine ⟨trivial, fun f hf => ?_⟩
          exact sure_read (e := e) (by simp) (Or.inr (by simpa using ht))
      · have hb : (d (x, .arity) == 0) = false := by simpa using h0
        simp only [hb, Bool.false_eq_true, if_false]
        exact sure_read ((hv' _).resolve_left h0) (Or.inr h0)

theorem Certain.some_bind {p : Prog ν β} {q : β → Prog ν γ} (h : ∃ o, Certain e T p o) (h' : ∀ b, ∃ o', Certain e T (q b) o') :
    ∃ o', Certain e T (p.bind q) o' := h.elim fun _ h => h.bind h'

theorem Certain.ite {c : Prop} [Decidable c] {p q : Prog ν β} (h : ∃ o, Certain e T p o) (h' : ∃ o, Certain e T q o) :
    ∃ o, Certain e T (if c then p else q) o := by split <;> assumption

theorem Certain.call (H : Truth K e T) (c : Call ν α β) (hc : c.Steady) : ∃ o, Certain e T (Threads.call K c) o := by
  have hd : ∀ {γ : Type} (b : γ), ∃ o, Certain e T (Prog.done b : Prog ν γ) o := fun b => ⟨_, Certain.done b⟩
  cases c with
  | size x => exact Certain.some_bind (Certain.size K H x) fun _ => hd _
  | arity x => exact Certain.some_bind (Certain.arity K H x) fun _ => hd _
  | forget x => exact hc.elim
  | copied f x => exact hc.elim
  | eq eqv x y =>
    refine Certain.some_bind (Certain.some_bind (Certain.root x) fun p => Certain.some_bind (Certain.root y) fun q => Certain.ite (hd _)
      (Certain.some_bind (Certain.size K H x) fun _ => Certain.some_bind (Certain.size K H y) fun _ => Certain.ite (hd _)
      (Certain.some_bind (Certain.arity K H x) fun _ => Certain.some_bind (Certain.arity K H y) fun _ => Certain.ite (hd _) ?_))) fun _ => hd _
    cases p with
    | none => exact hd _
    | some n => cases q with
      | none => exact ⟨_, Certain.bad⟩
      | some m => exact Certain.nodes _
  | eqWith cmp s a x =>
    refine Certain.some_bind (Certain.some_bind (Certain.root x) fun p => Certain.some_bind (Certain.size K H x) fun _ => Certain.ite (hd _)
      (Certain.some_bind (Certain.arity K H x) fun _ => Certain.ite (hd _) ?_)) fun _ => hd _
    cases p with
    | none => exact hd _
    | some n => exact Certain.nodes _
  | inserted f x => exact Certain.some_bind (Certain.some_bind (Certain.root x) fun p => Certain.some_bind (Certain.nodes _) fun _ =>
      Certain.some_bind (Certain.size K H x) fun _ => Certain.some_bind (Certain.arity K H x) fun _ => hd _) fun _ => hd _
  | use f x => exact Certain.some_bind (Certain.root x) fun _ => Certain.some_bind (Certain.nodes _) fun _ => hd _

theorem Certain.thread (H : Truth K e T) : ∀ cs : List (Call ν α β), (∀ c ∈ cs, c.Steady) → ∃ o, Certain e T (Threads.thread K cs) o
  | [], _ => ⟨_, Certain.done _⟩
  | c :: cs, h => Certain.some_bind (Certain.call K H c (h c (by simp))) fun _ =>
      Certain.some_bind (Certain.thread H cs fun c hc => h c (by simp [hc])) fun _ => ⟨_, Certain.done _⟩
end

section
variable {ν α lit β T V C : Type} {K : Kind ν α lit} {S : Shape K T V C} (L : Lawful S) {W : World ν} {ts : Nat → Option T}
include L

theorem still_root (O : Owned S W ts) {x : Nat} {p : Ptr} (h : W.still.roots x = some p) :
    ∃ t r, ts x = some t ∧ W.vars x = some r ∧ r.root = p ∧ p = S.ptr t ∧ S.Rep W.heap t := by
  simp only [World.still, Option.map_eq_some_iff] at h
  obtain ⟨r, hr, rfl⟩ := h
  obtain ⟨t, ht⟩ := Option.isSome_iff_exists.mp (show (ts x).isSome from by rw [← O.alive x, hr]; rfl)
  obtain ⟨r', hr', _, hp, _⟩ := O.get L ht
  rw [hr] at hr'
  cases hr'
  exact ⟨t, r, ht, hr, rfl, hp, O.rep x t ht⟩

/-- The right numbers. -/
def truth (S : Shape K T V C) (ts : Nat → Option T) (l : Loc) : Nat :=
  match ts l.1, l.2 with
  | some t, .size => S.size t
  | some t, .arity => S.arity t
  | none, _ => 0

theorem truth_of (O : Owned S W ts) : Truth K W.still (truth S ts) := by
  constructor
  · intro x hx
    obtain ⟨t, r, ht, hr, _, hp, H⟩ := still_root L O hx
    have := L.ptr_none_iff.mp hp.symm
    subst this
    simp [truth, ht, L.size_nil, L.arity_nil]
  · intro x a hx
    obtain ⟨t, r, ht, hr, _, hp, H⟩ := still_root L O hx
    refine ⟨?_, ?_⟩
    · simp only [truth, ht]
      obtain ⟨R, hR, _⟩ := L.rose_of_ptr hp.symm
      cases R with | node b cs =>
      simp [Shape.size, hR, Tree.sizeL, Tree.size]
      try omega
    · simp only [truth, ht]
      exact L.calcSize W.heap t a O.wf H hp.symm
  · intro x a hx
    obtain ⟨t, r, ht, hr, _, hp, H⟩ := still_root L O hx
    obtain ⟨R, hR, hl⟩ := L.rose_of_ptr hp.symm
    have hf := TreeOps.first_spec L H hp.symm hR
    have hc := L.calcArity W.heap t a O.wf H hp.symm
    simp only [truth, ht]
    cases hk : R.children with
    | nil =>
      rw [hk] at hf
      exact Or.inl ⟨hf, TreeOps.arity_leaf L hp.symm hR hk⟩
    | cons k ks =>
      rw [hk] at hf
      refine Or.inr ⟨_, hf, ?_, hc⟩
      cases R with | node b cs =>
      simp at hk
      simp [Shape.arity, hR, hk, Tree.arityL, Tree.arity]
      try omega

theorem valid_of (O : Owned S W ts) (hC : Cached S W ts) : Valid (truth S ts) W.cells := by
  rintro ⟨x, n⟩
  cases hx : W.vars x with
  | none => left; simp [World.cells, hx]
  | some r =>
    obtain ⟨t, ht⟩ := Option.isSome_iff_exists.mp (show (ts x).isSome from by rw [← O.alive x, hx]; rfl)
    have := hC x r t hx ht
    cases n
    · simpa [World.cells, hx, truth, ht] using this.1
    · simpa [World.cells, hx, truth, ht] using this.2

theorem settled_of (O : Owned S W ts) {x : Nat} (hF : Filled S W ts x) : Settled K W.still W.cells x := by
  intro a ha
  obtain ⟨t, r, ht, hr, _, hp, H⟩ := still_root L O ha
  have hf := hF r t hr ht
  rw [(cells_some hr).1, (cells_some hr).2]
  refine ⟨hf.1 ?_, ?_⟩
  · rintro rfl
    rw [L.ptr_none_iff.mpr rfl] at hp
    cases hp
  · obtain ⟨R, hR, hl⟩ := L.rose_of_ptr hp.symm
    by_cases hk : S.kids t = 0
    · right
      intro f
      rw [show W.still.heap = W.heap from rfl, TreeOps.first_spec L H hp.symm hR]
      cases R with | node b cs =>
      simp [Shape.kids, hR] at hk
      simp [hk]
    · exact Or.inl (hf.2 hk)
end

namespace Generic
section
variable {ν α lit β T V C : Type} {K : Kind ν α lit} {S : Shape K T V C} {W : World ν} {ts : Nat → Option T}
open Threads

theorem thread_alone (cs : List (Call ν α β)) {W' : World ν} {as : List (Told β)} (h : W.tells K cs = Res.ok (W', as)) :
    (Threads.thread K cs).alone W.still W.cells = some (W'.cells, as) ∧ W'.still = W.still := by
  have := Agrees.thread K cs W
  simp only [h] at this
  exact ⟨this.1, this.2 _ _ rfl⟩

theorem no_race (L : Lawful S) (O : Owned S W ts) (threads : Nat → List (Call ν α β))
    (h : ∀ i j x, i ≠ j → x ∈ (threads i).flatMap Call.trees → x ∈ (threads j).flatMap Call.trees →
      Filled S W ts x ∧ .forget x ∉ threads i) :
    (∀ sched, ¬ ((W.begin K threads).run W.still sched).Race) ∧
    ∀ i W' as, W.tells K (threads i) = Res.ok (W', as) → ∃ n, ∀ sched : List Nat, n ≤ sched.count i →
      ((W.begin K threads).run W.still sched).threads i = .done as := by
  have hA : (W.begin K threads).Apart W.still :=
    threads_apart K (fun i j x hne hi hj => ⟨settled_of L O (h i j x hne hi hj).1, (h i j x hne hi hj).2⟩)
  refine ⟨fun sched => Running.apart_no_race (Running.apart_run sched _ hA).1, fun i W' as ht => ?_⟩
  refine ⟨((W.begin K threads).threads i).steps W.still W.cells, fun sched hn => ?_⟩
  have h1 := (Running.apart_run sched _ hA).2 i
  have h2 := thread_alone (K := K) (threads i) ht
  have h3 : (((W.begin K threads).run W.still sched).threads i).steps W.still ((W.begin K threads).run W.still sched).cells = 0 := by
    rw [h1.1]; exact Nat.sub_eq_zero_of_le hn
  have h4 := h1.2
  rw [show ((W.begin K threads).threads i).alone W.still (W.begin K threads).cells = some (W'.cells, as) from h2.1] at h4
  rcases Prog.steps_zero h3 with ⟨b, hb⟩ | hb
  · rw [hb] at h4 ⊢
    simp [Prog.alone] at h4
    rw [h4]
  · rw [hb] at h4
    simp [Prog.alone] at h4

theorem steady (L : Lawful S) (O : Owned S W ts) (hC : Cached S W ts) (threads : Nat → List (Call ν α β))
    (h : ∀ i, ∀ c ∈ threads i, c.Steady) {i : Nat} {W' : World ν} {as : List (Told β)} (ht : W.tells K (threads i) = Res.ok (W', as))
    (sched : List Nat) : ((W.begin K threads).run W.still sched).threads i ≠ .bad ∧
      ∀ bs, ((W.begin K threads).run W.still sched).threads i = .done bs → bs = as := by
  have H := truth_of L O
  have hv := valid_of L O hC
  have hc : ∀ i, ∃ o, Certain W.still (truth S ts) (Threads.thread K (threads i)) o := fun i => Certain.thread K H _ (h i)
  obtain ⟨o, ho⟩ := Classical.axiomOfChoice hc
  have hs := (sure_run sched (W.begin K threads) hv (fun i => ho i _ hv)).2 i
  have h1 := (ho i _ hv).alone
  rw [(thread_alone (K := K) (threads i) ht).1] at h1
  have h2 : o i = some as := h1.symm
  rw [h2] at hs
  refine ⟨fun hb => ?_, fun bs hb => ?_⟩
  · rw [hb] at hs; cases hs
  · rw [hb] at hs; cases hs; rfl

theorem size_accesses {x : Nat} {p : Ptr} (hx : W.still.roots x = some p) (c : Cells) :
    ((x, .size), false) ∈ (Threads.size K x).accesses W.still c := by
  simp only [Threads.size, Prog.root, Prog.bind, Prog.accesses, hx]
  cases p <;> simp [Prog.bind, Prog.read, Prog.accesses]

theorem size_writes (L : Lawful S) (O : Owned S W ts) {x : Nat} {t : T} {r : TreeRec} (hx : ts x = some t) (hr : W.vars x = some r)
    (hne : t ≠ S.nil) (h0 : r.size = 0) : ((x, .size), true) ∈ (Threads.size K x).accesses W.still W.cells := by
  obtain ⟨r', hr', _, hp, _⟩ := O.get L hx
  rw [hr] at hr'; cases hr'
  have hroot : W.still.roots x = some (S.ptr t) := by simp [World.still, hr, hp]
  cases hpt : S.ptr t with
  | none => exact absurd (L.ptr_none_iff.mp hpt) hne
  | some a =>
    rw [hpt] at hroot
    have hc := L.calcSize W.heap t a O.wf (O.rep x t hx) hpt
    have hcell := (cells_some hr).1
    rw [h0] at hcell
    have hh : W.still.heap = W.heap := rfl
    simp [Threads.size, Prog.root, Prog.bind, Prog.accesses, hroot, Prog.read, hcell, Prog.nodes, hc, hh, Prog.write]

theorem thread_accesses {c : Call ν α β} {cs : List (Call ν α β)} {d : Cells} {a : Loc × Bool} (h : a ∈ (Threads.call K c).accesses W.still d) :
    a ∈ (Threads.thread K (c :: cs)).accesses W.still d := by
  rw [Threads.thread, Prog.accesses_bind]
  exact List.mem_append_left _ h

theorem call_size {x : Nat} {d : Cells} {a : Loc × Bool} (h : a ∈ (Threads.size K x).accesses W.still d) :
    a ∈ (Threads.call K (.size x : Call ν α β)).accesses W.still d := by
  rw [Threads.call, Prog.accesses_bind]
  exact List.mem_append_left _ h

theorem call_eqWith {x s a : Nat} {cmp : Heap ν → Addr → Res Bool} {p : Ptr} (hx : W.still.roots x = some p) {d : Cells} {m : Loc × Bool}
    (h : m ∈ (Threads.size K x).accesses W.still d) : m ∈ (Threads.call K (.eqWith cmp s a x : Call ν α β)).accesses W.still d := by
  rw [Threads.call, Prog.accesses_bind]
  refine List.mem_append_left _ ?_
  simp only [Threads.eqWith, Prog.root, Prog.bind, Prog.accesses, hx]
  rw [Prog.accesses_bind]
  exact List.mem_append_left _ h

/-- Two calls at the beginning of two threads. -/
theorem race_of (threads : Nat → List (Call ν α β)) {i j : Nat} (hne : i ≠ j) {c c' : Call ν α β} {cs cs' : List (Call ν α β)}
    (hi : threads i = c :: cs) (hj : threads j = c' :: cs') {l : Loc} {w : Bool}
    (h : (l, true) ∈ (Threads.call K c).accesses W.still W.cells) (h' : (l, w) ∈ (Threads.call K c').accesses W.still W.cells) :
    ∃ sched, ((W.begin K threads).run W.still sched).Race := by
  rw [Running.race_iff]
  refine ⟨i, j, hne, l, true, w, ?_, ?_, rfl⟩
  · simp only [World.begin, hi]; exact thread_accesses h
  · simp only [World.begin, hj]; exact thread_accesses h'

/-- The calls that ask for the size. -/
theorem asks (L : Lawful S) (O : Owned S W ts) {x : Nat} {t : T} {r : TreeRec} (hx : ts x = some t) (hr : W.vars x = some r)
    (hne : t ≠ S.nil) (h0 : r.size = 0) {c : Call ν α β} (hc : c = .size x ∨ ∃ cmp s a, c = .eqWith cmp s a x) :
    ((x, .size), true) ∈ (Threads.call K c).accesses W.still W.cells := by
  have hw := size_writes L O hx hr hne h0
  have hroot : W.still.roots x = some r.root := by simp [World.still, hr]
  rcases hc with rfl | ⟨cmp, s, a, rfl⟩
  · exact call_size hw
  · exact call_eqWith hroot hw

theorem size_races (L : Lawful S) (O : Owned S W ts) {x : Nat} {t : T} {r : TreeRec} (hx : ts x = some t) (hr : W.vars x = some r)
    (hne : t ≠ S.nil) (h0 : r.size = 0) (threads : Nat → List (Call ν α β)) {i j : Nat} (hij : i ≠ j)
    {c c' : Call ν α β} {cs cs' : List (Call ν α β)} (hi : threads i = c :: cs) (hj : threads j = c' :: cs')
    (hc : c = .size x ∨ ∃ cmp s a, c = .eqWith cmp s a x) (hc' : c' = .size x ∨ ∃ cmp s a, c' = .eqWith cmp s a x) :
    ∃ sched, ((W.begin K threads).run W.still sched).Race :=
  race_of threads hij hi hj (asks L O hx hr hne h0 hc) (asks L O hx hr hne h0 hc')

theorem forget_races {x : Nat} {r : TreeRec} (hr : W.vars x = some r) (threads : Nat → List (Call ν α β)) {i j : Nat} (hij : i ≠ j)
    {cs cs' : List (Call ν α β)} (hi : threads i = .forget x :: cs) (hj : threads j = .size x :: cs') :
    ∃ sched, ((W.begin K threads).run W.still sched).Race := by
  have hroot : W.still.roots x = some r.root := by simp [World.still, hr]
  refine race_of threads hij hi hj (l := (x, .size)) (w := false) ?_ (call_size (size_accesses hroot _))
  simp [Threads.call, Threads.forget, Prog.root, Prog.bind, Prog.accesses, hroot, Prog.write]

theorem forget_answers (L : Lawful S) (O : Owned S W ts) {x : Nat} {t : T} (hx : ts x = some t) (hne : t ≠ S.nil)
    (threads : Nat → List (Call ν α β)) {i j : Nat} (hij : i ≠ j) (hi : threads i = [.size x]) (hj : threads j = [.forget x]) :
    ∃ sched, ((W.begin K threads).run W.still sched).threads i = .done [.num 0] := by
  obtain ⟨r, hr, _, hp, _⟩ := O.get L hx
  have hroot : W.still.roots x = some (S.ptr t) := by simp [World.still, hr, hp]
  cases hpt : S.ptr t with
  | none => exact absurd (L.ptr_none_iff.mp hpt) hne
  | some a =>
    rw [hpt] at hroot
    have hc := L.calcSize W.heap t a O.wf (O.rep x t hx) hpt
    have hcell := (cells_some hr).1
    have hh : W.still.heap = W.heap := rfl
    by_cases h0 : r.size = 0
    · rw [h0] at hcell
      refine ⟨[i, i, i, i, j, j, i], ?_⟩
      simp [Running.run, World.begin, Running.step, hi, hj, hij, Ne.symm hij, Threads.thread, Threads.call, Threads.size, Threads.forget,
        Prog.root, Prog.bind, Prog.step, hroot, Prog.read, hcell, Prog.nodes, hh, hc, Prog.write]
    · refine ⟨[i, i, j, j, i], ?_⟩
      have hb : W.cells (x, .size) ≠ 0 := by rw [hcell]; exact h0
      simp [Running.run, World.begin, Running.step, hi, hj, hij, Ne.symm hij, Threads.thread, Threads.call, Threads.size, Threads.forget,
        Prog.root, Prog.bind, Prog.step, hroot, Prog.read, hb, Prog.nodes, hh, hc, Prog.write]
end
end Generic
