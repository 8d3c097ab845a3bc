import Verif.Proof.Threads
import Verif.Proof.Frame
/-! # Threads that call const functions -/
open Threads

namespace Prog
variable {ν β γ δ : Type} {e : Still ν}

theorem alone_bind : ∀ (p : Prog ν β) (f : β → Prog ν γ) (c : Cells),
    (p.bind f).alone e c = (p.alone e c).bind fun r => (f r.2).alone e r.1
  | done b, f, c => rfl
  | bad, f, c => rfl
  | get l k, f, c => alone_bind (k (c l)) f c
  | set l v k, f, c => alone_bind k f _
  | look k, f, c => alone_bind (k e.heap e.roots) f c

theorem accesses_bind : ∀ (p : Prog ν β) (f : β → Prog ν γ) (c : Cells),
    (p.bind f).accesses e c = p.accesses e c ++ ((p.alone e c).map fun r => (f r.2).accesses e r.1).getD []
  | done b, f, c => by simp [bind, accesses, alone]
  | bad, f, c => by simp [bind, accesses, alone]
  | get l k, f, c => by simp [bind, accesses, alone, accesses_bind (k (c l)) f c]
  | set l v k, f, c => by simp [bind, accesses, alone, accesses_bind k f _]
  | look k, f, c => by simp [bind, accesses, alone, accesses_bind (k e.heap e.roots) f c]

/-- Members that are not written keep their values. -/
theorem unwritten : ∀ (p : Prog ν β) (c d : Cells) (b : β) (l : Loc), p.alone e c = some (d, b) → (l, true) ∉ p.accesses e c → d l = c l
  | done b, c, d, b', l, h, _ => by cases h; rfl
  | bad, c, d, b, l, h, _ => by cases h
  | get m k, c, d, b, l, h, hn => unwritten (k (c m)) c d b l h (fun hx => hn (by simp [accesses, hx]))
  | set m v k, c, d, b, l, h, hn => by
      have := unwritten k _ d b l h (fun hx => hn (by simp [accesses, hx]))
      rw [this]
      have : l ≠ m := by rintro rfl; exact hn (by simp [accesses])
      simp [this]
  | look k, c, d, b, l, h, hn => unwritten (k e.heap e.roots) c d b l h (by simpa [accesses] using hn)

end Prog

section
variable {ν α lit β γ : Type} (K : Kind ν α lit)
open Prog

/-- What can be seen of the end of a call. -/
def Res.seen : Res (World ν × β) → Option (Cells × β)
  | .ok (W, b) => some (W.cells, b)
  | _ => none

/-- The thread does what the function does. -/
def Agrees (p : Prog ν β) (f : World ν → Res (World ν × β)) : Prop :=
  ∀ W, p.alone W.still W.cells = (f W).seen ∧ ∀ W' b, f W = .ok (W', b) → W'.still = W.still

theorem Agrees.bind {p : Prog ν β} {f : World ν → Res (World ν × β)} {q : β → Prog ν γ} {g : β → World ν → Res (World ν × γ)}
    (h : Agrees p f) (h' : ∀ b, Agrees (q b) (g b)) : Agrees (p.bind q) (fun W => do let (W, b) ← f W; g b W) := by
  intro W
  have h1 := h W
  rw [alone_bind, h1.1]
  cases hf : f W with
  | ub => simp [hf, Res.seen]
  | diverge => simp [hf, Res.seen]
  | ok r =>
    obtain ⟨W1, b⟩ := r
    simp only [hf, Res.ok_bind]
    have h2 := h' b W1
    have e1 := h1.2 W1 b hf
    rw [← e1]
    exact h2

theorem Agrees.done (b : β) : Agrees (ν := ν) (done b) (fun W => pure (W, b)) := fun _ => ⟨rfl, by rintro _ _ ⟨⟩; rfl⟩

theorem cells_some {W : World ν} {x : Nat} {r : TreeRec} (h : W.vars x = some r) :
    W.cells (x, .size) = r.size ∧ W.cells (x, .arity) = r.arity := by simp [World.cells, h]

theorem still_some {W : World ν} {x : Nat} : W.still.roots x = (W.vars x).map (·.root) := rfl

theorem put_same {W : World ν} {x : Nat} {r : TreeRec} (h : W.vars x = some r) : W.put x (some r) = W := by
  cases W; simp only [World.put, World.mk.injEq, true_and]; funext y; split <;> simp_all

theorem put_size {W : World ν} {x : Nat} {r : TreeRec} (n : Nat) (h : W.vars x = some r) :
    (W.put x (some { r with size := n })).cells = (fun m => if m = (x, .size) then n else W.cells m) ∧
      (W.put x (some { r with size := n })).still = W.still := by
  constructor
  · funext ⟨y, c⟩
    simp only [World.cells, World.put, Prod.mk.injEq]
    by_cases hy : y = x
    · subst hy; cases c <;> simp [h]
    · simp [hy]
  · simp only [World.still, World.put, Still.mk.injEq, true_and]
    funext y
    by_cases hy : y = x <;> simp [hy, h]

theorem put_arity {W : World ν} {x : Nat} {r : TreeRec} (n : Nat) (h : W.vars x = some r) :
    (W.put x (some { r with arity := n })).cells = (fun m => if m = (x, .arity) then n else W.cells m) ∧
      (W.put x (some { r with arity := n })).still = W.still := by
  constructor
  · funext ⟨y, c⟩
    simp only [World.cells, World.put, Prod.mk.injEq]
    by_cases hy : y = x
    · subst hy; cases c <;> simp [h]
    · simp [hy]
  · simp only [World.still, World.put, Still.mk.injEq, true_and]
    funext y
    by_cases hy : y = x <;> simp [hy, h]

theorem Agrees.size (x : Nat) : Agrees (Threads.size K x) (fun W => W.size K x) := by
  intro W
  simp only [World.size, World.get, Threads.size, root, Prog.bind, alone, still_some]
  cases hx : W.vars x with
  | none => simp [Prog.bind, alone, Res.seen]
  | some r =>
    have hc := cells_some hx
    simp only [Res.ok_bind, TreeOps.sizeQ, Option.map_some, Prog.bind]
    cases hr : r.root with
    | none => simp [Prog.read, alone, hc, put_same hx, Res.seen]
    | some a =>
      simp only [Prog.read, Prog.bind, alone, hc.1]
      by_cases hs : r.size = 0
      · simp only [hs, beq_self_eq_true, if_true, nodes, Prog.bind, alone]
        have hh : W.still.heap = W.heap := rfl
        simp only [hh]
        cases hcalc : K.calcSize W.heap.fuel W.heap a with
        | ub => simp [Prog.bind, alone, Res.seen]
        | diverge => simp [Prog.bind, alone, Res.seen]
        | ok n =>
          have := put_size n hx
          rw [hr] at this
          simp [Prog.bind, alone, write, this, Res.seen]
      · have : (r.size == 0) = false := by simpa using hs
        simp [this, alone, hc, put_same hx, Res.seen]

theorem Agrees.arity (x : Nat) : Agrees (Threads.arity K x) (fun W => W.arity K x) := by
  intro W
  simp only [World.arity, World.get, Threads.arity, root, Prog.bind, alone, still_some]
  cases hx : W.vars x with
  | none => simp [Prog.bind, alone, Res.seen]
  | some r =>
    have hc := cells_some hx
    simp only [Res.ok_bind, TreeOps.arityQ, Option.map_some, Prog.bind]
    cases hr : r.root with
    | none => simp [Prog.read, alone, hc, put_same hx, Res.seen]
    | some a =>
      simp only [Prog.read, Prog.bind, alone, hc.2]
      by_cases hs : r.arity = 0
      · simp only [hs, beq_self_eq_true, if_true, nodes, Prog.bind, alone]
        have hh : W.still.heap = W.heap := rfl
        simp only [hh]
        cases hfirst : K.first W.heap a with
        | ub => simp [Prog.bind, alone, Res.seen]
        | diverge => simp [Prog.bind, alone, Res.seen]
        | ok f =>
          cases f with
          | none => simp [Prog.bind, alone, hc, hs, put_same hx, Res.seen]
          | some f =>
            simp only [Prog.bind, alone, Res.ok_bind, hh]
            cases hcalc : K.calcArity W.heap.fuel W.heap a with
            | ub => simp [Prog.bind, alone, Res.seen]
            | diverge => simp [Prog.bind, alone, Res.seen]
            | ok n =>
              have := put_arity n hx
              rw [hr] at this
              simp [Prog.bind, alone, write, this, Res.seen]
      · have : (r.arity == 0) = false := by simpa using hs
        simp [this, alone, hc, put_same hx, Res.seen]

theorem Agrees.congr {p : Prog ν β} {f g : World ν → Res (World ν × β)} (h : Agrees p f) (hf : ∀ W, f W = g W) : Agrees p g := by
  rwa [show g = f from funext (fun W => (hf W).symm)]

theorem Agrees.bad : Agrees (ν := ν) (β := β) bad (fun _ => .ub) := fun _ => ⟨rfl, by rintro _ _ ⟨⟩⟩

theorem Agrees.root (x : Nat) : Agrees (ν := ν) (root x) (fun W => do let r ← W.get x; pure (W, r.root)) := by
  intro W
  simp only [World.get, Prog.root, alone, still_some]
  cases hx : W.vars x <;> simp [alone, Res.seen]

theorem Agrees.nodes (f : Heap ν → Res β) : Agrees (nodes f) (fun W => do let b ← f W.heap; pure (W, b)) := by
  intro W
  have hh : W.still.heap = W.heap := rfl
  simp only [Prog.nodes, alone, hh]
  cases hf : f W.heap <;> simp [alone, Res.seen]

theorem Agrees.forget (x : Nat) : Agrees (ν := ν) (Threads.forget x) (fun W => do let W ← W.updateCounts x; pure (W, ())) := by
  intro W
  simp only [World.updateCounts, World.get, Threads.forget, Prog.root, Prog.bind, alone, still_some]
  cases hx : W.vars x with
  | none => simp [Prog.bind, alone, Res.seen]
  | some r =>
    have h1 := put_size 0 hx
    have h2 := put_arity (W := W.put x (some { r with size := 0 })) (x := x) (r := { r with size := 0 }) 0 (by simp [World.put])
    have h3 : (W.put x (some { r with size := 0 })).put x (some { r with size := 0, arity := 0 }) = W.put x (some { r with size := 0, arity := 0 }) := by
      simp only [World.put]; congr 1; funext y; split <;> rfl
    simp only [h3] at h2
    simp only [Option.map_some, Prog.bind, write, alone, Res.ok_bind, Res.pure_eq, Res.seen]
    refine ⟨?_, ?_⟩
    · rw [h2.1, h1.1]
    · rintro W' b ⟨⟩
      rw [h2.2, h1.2]

theorem Agrees.ite {c : Prop} [Decidable c] {p q : Prog ν β} {f g : World ν → Res (World ν × β)} (h : Agrees p f) (h' : Agrees q g) :
    Agrees (if c then p else q) (fun W => if c then f W else g W) := by
  split
  · exact h.congr (fun W => rfl)
  · exact h'.congr (fun W => rfl)

theorem Agrees.eq (eqv : α → α → Bool) (x y : Nat) : Agrees (Threads.eq K eqv x y) (fun W => W.eq K eqv x y) := by
  refine (Agrees.bind (Agrees.root x) fun p => Agrees.bind (Agrees.root y) fun q => Agrees.ite (Agrees.done false)
    (Agrees.bind (Agrees.size K x) fun s => Agrees.bind (Agrees.size K y) fun s' => Agrees.ite (Agrees.done false)
    (Agrees.bind (Agrees.arity K x) fun a => Agrees.bind (Agrees.arity K y) fun a' => Agrees.ite (Agrees.done false)
    (g := fun W => match p with
      | none => pure (W, true)
      | some n => do
        let m ← deref q
        let b ← K.eq eqv W.heap.fuel W.heap n W.heap m
        pure (W, b)) ?_))).congr ?_
  · cases p with
    | none => exact Agrees.done true
    | some n =>
      cases q with
      | none => exact Agrees.bad
      | some m => exact Agrees.nodes _
  · intro W
    simp only [World.eq]
    cases W.get x <;> simp
    rename_i rx
    cases W.get y <;> simp
    cases rx.root <;> rfl

theorem Agrees.eqWith (cmp : Heap ν → Addr → Res Bool) (s a : Nat) (x : Nat) :
    Agrees (Threads.eqWith K cmp s a x) (fun W => W.eqWith K cmp s a x) := by
  refine (Agrees.bind (Agrees.root x) fun p => Agrees.bind (Agrees.size K x) fun s => Agrees.ite (Agrees.done false)
    (Agrees.bind (Agrees.arity K x) fun a => Agrees.ite (Agrees.done false)
    (g := fun W => match p with
      | none => pure (W, false)
      | some n => do
        let b ← cmp W.heap n
        pure (W, b)) ?_)).congr ?_
  · cases p with
    | none => exact Agrees.done false
    | some n => exact Agrees.nodes _
  · intro W
    simp only [World.eqWith]
    cases W.get x <;> simp
    rename_i r
    cases r.root <;> rfl

theorem Agrees.call (c : Call ν α β) : Agrees (Threads.call K c) (fun W => W.told K c) := by
  cases c with
  | size x => exact (Agrees.bind (Agrees.size K x) fun n => Agrees.done _).congr fun W => rfl
  | arity x => exact (Agrees.bind (Agrees.arity K x) fun n => Agrees.done _).congr fun W => rfl
  | forget x =>
    refine (Agrees.bind (Agrees.forget x) fun n => Agrees.done _).congr fun W => ?_
    simp only [World.told]
    cases W.updateCounts x <;> simp
  | eq eqv x y => exact (Agrees.bind (Agrees.eq K eqv x y) fun n => Agrees.done _).congr fun W => rfl
  | eqWith cmp s a x => exact (Agrees.bind (Agrees.eqWith K cmp s a x) fun n => Agrees.done _).congr fun W => rfl
  | use f x =>
    refine (Agrees.bind (Agrees.root x) fun p => Agrees.bind (Agrees.nodes fun h => f h p) fun b => Agrees.done _).congr fun W => ?_
    simp only [World.told]
    cases W.get x <;> simp
    rename_i r
    cases f W.heap r.root <;> simp
  | inserted f x =>
    refine (Agrees.bind (Agrees.bind (Agrees.root x) fun p => Agrees.bind (Agrees.nodes fun h => f h p) fun b => Agrees.bind (Agrees.size K x) fun s =>
      Agrees.bind (Agrees.arity K x) fun a => Agrees.done (b, s, a)) fun r => Agrees.done _).congr fun W => ?_
    simp only [World.told]
    cases W.get x <;> simp
    rename_i r
    cases f W.heap r.root <;> simp
    cases W.size K x <;> simp
    rename_i w
    cases w.1.arity K x <;> simp
  | copied f x =>
    intro W
    simp only [World.told, Threads.call, Threads.copied, Prog.root, Prog.bind, alone, still_some, World.get]
    cases hx : W.vars x with
    | none => simp [Prog.bind, alone, Res.seen]
    | some r =>
      have hh : W.still.heap = W.heap := rfl
      simp only [Option.map_some, Prog.bind, Prog.nodes, alone, hh, Res.ok_bind]
      cases hf : f W.heap r.root <;> simp [Prog.bind, alone, Res.seen, Prog.read, cells_some hx]

theorem Agrees.thread : ∀ cs : List (Call ν α β), Agrees (Threads.thread K cs) (fun W => W.tells K cs)
  | [] => Agrees.done []
  | c :: cs => (Agrees.bind (Agrees.call K c) fun a => Agrees.bind (Agrees.thread cs) fun as => Agrees.done (a :: as)).congr fun W => rfl
end

/-! ### which members are accessed -/
section
variable {ν α lit β γ : Type} (K : Kind ν α lit) {e : Still ν}
open Prog

/-- Only members of these trees are accessed. -/
def Only (e : Still ν) (X : List Nat) (p : Prog ν β) : Prop := ∀ c, ∀ a ∈ p.accesses e c, a.1.1 ∈ X

/-- There is nothing to fill in at the tree `y`. -/
def Settled (e : Still ν) (c : Cells) (y : Nat) : Prop :=
  ∀ a, e.roots y = some (some a) → c (y, .size) ≠ 0 ∧ (c (y, .arity) ≠ 0 ∨ ∀ f, K.first e.heap a ≠ .ok (some f))

/-- If there is nothing to fill in at `y`, it is not written. -/
def Spares (e : Still ν) (y : Nat) (p : Prog ν β) : Prop := ∀ c, Settled K e c y → ∀ a ∈ p.accesses e c, a.1.1 = y → a.2 = false

theorem Only.bind {X : List Nat} {p : Prog ν β} {q : β → Prog ν γ} (h : Only e X p) (h' : ∀ b, Only e X (q b)) : Only e X (p.bind q) := by
  intro c a ha
  rw [accesses_bind] at ha
  rcases List.mem_append.mp ha with ha | ha
  · exact h c a ha
  · cases hp : p.alone e c with
    | none => simp [hp] at ha
    | some r => exact h' r.2 r.1 a (by simpa [hp] using ha)

theorem Only.done {X : List Nat} (b : β) : Only e X (done b : Prog ν β) := by intro c a ha; simp [accesses] at ha
theorem Only.bad {X : List Nat} : Only e X (bad : Prog ν β) := by intro c a ha; simp [accesses] at ha
theorem Only.root {X : List Nat} (x : Nat) : Only e X (root x : Prog ν Ptr) := by
  intro c a ha; simp only [Prog.root, accesses] at ha; split at ha <;> simp [accesses] at ha
theorem Only.nodes {X : List Nat} (f : Heap ν → Res β) : Only e X (nodes f) := by
  intro c a ha; simp only [Prog.nodes, accesses] at ha; split at ha <;> simp [accesses] at ha
theorem Only.read {X : List Nat} {x : Nat} (hx : x ∈ X) (n : Count) : Only e X (Prog.read (x, n) : Prog ν Nat) := by
  intro c a ha; simp [Prog.read, accesses] at ha; subst ha; exact hx
theorem Only.write {X : List Nat} {x : Nat} (hx : x ∈ X) (n : Count) (v : Nat) : Only e X (write (x, n) v : Prog ν Unit) := by
  intro c a ha; simp [Prog.write, accesses] at ha; subst ha; exact hx
theorem Only.ite {X : List Nat} {c : Prop} [Decidable c] {p q : Prog ν β} (h : Only e X p) (h' : Only e X q) :
    Only e X (if c then p else q) := by split <;> assumption

theorem Only.size {X : List Nat} {x : Nat} (hx : x ∈ X) : Only e X (Threads.size K x) := by
  refine (Only.root x).bind fun p => ?_
  cases p with
  | none => exact Only.read hx _
  | some a => exact (Only.read hx _).bind fun s => Only.ite ((Only.nodes _).bind fun n => (Only.write hx _ _).bind fun _ => Only.read hx _) (Only.read hx _)

theorem Only.arity {X : List Nat} {x : Nat} (hx : x ∈ X) : Only e X (Threads.arity K x) := by
  refine (Only.root x).bind fun p => ?_
  cases p with
  | none => exact Only.read hx _
  | some a =>
    refine (Only.read hx _).bind fun s => Only.ite ((Only.nodes _).bind fun f => ?_) (Only.read hx _)
    cases f with
    | none => exact Only.read hx _
    | some f => exact (Only.nodes _).bind fun n => (Only.write hx _ _).bind fun _ => Only.read hx _

theorem Only.call (c : Call ν α β) : Only e c.trees (Threads.call K c) := by
  cases c with
  | size x => exact (Only.size K (by simp [Call.trees])).bind fun _ => Only.done _
  | arity x => exact (Only.arity K (by simp [Call.trees])).bind fun _ => Only.done _
  | forget x => exact ((Only.root x).bind fun _ => (Only.write (by simp [Call.trees]) _ _).bind fun _ => Only.write (by simp [Call.trees]) _ _).bind fun _ => Only.done _
  | eq eqv x y =>
    refine ((Only.root x).bind fun p => (Only.root y).bind fun q => Only.ite (Only.done _)
      ((Only.size K (by simp [Call.trees])).bind fun _ => (Only.size K (by simp [Call.trees])).bind fun _ => Only.ite (Only.done _)
      ((Only.arity K (by simp [Call.trees])).bind fun _ => (Only.arity K (by simp [Call.trees])).bind fun _ => Only.ite (Only.done _) ?_))).bind fun _ => Only.done _
    cases p with
    | none => exact Only.done _
    | some n => cases q with
      | none => exact Only.bad
      | some m => exact Only.nodes _
  | eqWith cmp s a x =>
    refine ((Only.root x).bind fun p =>
      (Only.size K (by simp [Call.trees])).bind fun _ => Only.ite (Only.done _)
      ((Only.arity K (by simp [Call.trees])).bind fun _ => Only.ite (Only.done _) ?_)).bind fun _ => Only.done _
    cases p with
    | none => exact Only.done _
    | some n => exact Only.nodes _
  | copied f x => exact ((Only.root x).bind fun _ => (Only.nodes _).bind fun _ => (Only.read (by simp [Call.trees]) _).bind fun _ =>
      (Only.read (by simp [Call.trees]) _).bind fun _ => Only.done _).bind fun _ => Only.done _
  | inserted f x => exact ((Only.root x).bind fun _ => (Only.nodes _).bind fun _ => (Only.size K (by simp [Call.trees])).bind fun _ =>
      (Only.arity K (by simp [Call.trees])).bind fun _ => Only.done _).bind fun _ => Only.done _
  | use f x => exact (Only.root x).bind fun _ => (Only.nodes _).bind fun _ => Only.done _

theorem Only.mono {X Y : List Nat} {p : Prog ν β} (h : Only e X p) (hs : ∀ x ∈ X, x ∈ Y) : Only e Y p := fun c a ha => hs _ (h c a ha)

theorem Only.thread : ∀ cs : List (Call ν α β), Only e (cs.flatMap Call.trees) (Threads.thread K cs)
  | [] => Only.done _
  | c :: cs => ((Only.call K c).mono (by intro x hx; simp [hx])).bind fun _ =>
      ((Only.thread cs).mono (by intro x hx; rw [List.flatMap_cons]; exact List.mem_append_right _ hx)).bind fun _ => Only.done _

theorem Spares.of_only {X : List Nat} {y : Nat} {p : Prog ν β} (h : Only e X p) (hy : y ∉ X) : Spares K e y p := by
  intro c _ a ha hay
  exact absurd (hay ▸ h c a ha) hy

theorem Spares.settled {y : Nat} {p : Prog ν β} (h : Spares K e y p) {c d : Cells} {b : β} (hs : Settled K e c y)
    (hd : p.alone e c = some (d, b)) : Settled K e d y := by
  have hw : ∀ n, d (y, n) = c (y, n) := fun n => unwritten p c d b _ hd (fun hx => by have := h c hs _ hx rfl; cases this)
  intro a ha
  rw [hw, hw]
  exact hs a ha

theorem Spares.bind {y : Nat} {p : Prog ν β} {q : β → Prog ν γ} (h : Spares K e y p) (h' : ∀ b, Spares K e y (q b)) :
    Spares K e y (p.bind q) := by
  intro c hs a ha hay
  rw [accesses_bind] at ha
  rcases List.mem_append.mp ha with ha | ha
  · exact h c hs a ha hay
  · cases hp : p.alone e c with
    | none => simp [hp] at ha
    | some r => exact h' r.2 r.1 (h.settled K hs hp) a (by simpa [hp] using ha) hay

theorem Spares.quiet {y : Nat} {p : Prog ν β} (h : Only e [] p) : Spares K e y p := Spares.of_only K h (by simp)
theorem Spares.read (y : Nat) (l : Loc) : Spares K e y (Prog.read l : Prog ν Nat) := by
  intro c _ a ha _; simp [Prog.read, accesses] at ha; subst ha; rfl
theorem Spares.ite {y : Nat} {c : Prop} [Decidable c] {p q : Prog ν β} (h : Spares K e y p) (h' : Spares K e y q) :
    Spares K e y (if c then p else q) := by split <;> assumption

theorem Spares.size (x y : Nat) : Spares K e y (Threads.size K x) := by
  by_cases hxy : x = y
  · subst hxy
    intro c hs a ha _
    simp only [Threads.size, Prog.root, Prog.bind, accesses] at ha
    split at ha
    · rename_i p hp
      cases p with
      | none => simp [Prog.bind, Prog.read, accesses] at ha; rw [ha]
      | some r =>
        have := (hs r hp).1
        simp [Prog.bind, Prog.read, accesses, this] at ha; rw [ha]
    · simp [Prog.bind, accesses] at ha
  · exact Spares.of_only K (Only.size K (X := [x]) (by simp)) (by simpa using Ne.symm hxy)

theorem Spares.arity (x y : Nat) : Spares K e y (Threads.arity K x) := by
  by_cases hxy : x = y
  · subst hxy
    intro c hs a ha _
    simp only [Threads.arity, Prog.root, Prog.bind, accesses] at ha
    split at ha
    · rename_i p hp
      cases p with
      | none => simp [Prog.bind, Prog.read, accesses] at ha; rw [ha]
      | some r =>
        by_cases h0 : c (x, .arity) = 0
        · have := (hs r hp).2.resolve_left (fun h => h h0)
          simp only [Prog.bind, Prog.read, accesses, h0, beq_self_eq_true, if_true, Prog.nodes] at ha
          cases hf : K.first e.heap r with
          | ub => simp [hf, Prog.bind, accesses] at ha; rw [ha]
          | diverge => simp [hf, Prog.bind, accesses] at ha; rw [ha]
          | ok f =>
            cases f with
            | none => simp [hf, Prog.bind, accesses] at ha; rw [ha]
            | some f => exact absurd hf (this f)
        · simp [Prog.bind, Prog.read, accesses, h0] at ha; rw [ha]
    · simp [Prog.bind, accesses] at ha
  · exact Spares.of_only K (Only.arity K (X := [x]) (by simp)) (by simpa using Ne.symm hxy)

theorem Spares.call (y : Nat) (c : Call ν α β) (hc : c ≠ .forget y) : Spares K e y (Threads.call K c) := by
  have hd : ∀ {γ : Type} (b : γ), Spares K e y (done b : Prog ν γ) := fun b => Spares.quiet K (Only.done b)
  have hr : ∀ x, Spares K e y (root x : Prog ν Ptr) := fun x => Spares.quiet K (Only.root x)
  have hn : ∀ {γ : Type} (f : Heap ν → Res γ), Spares K e y (nodes f) := fun f => Spares.quiet K (Only.nodes f)
  cases c with
  | size x => exact (Spares.size K x y).bind K fun _ => hd _
  | arity x => exact (Spares.arity K x y).bind K fun _ => hd _
  | forget x => exact Spares.of_only K (Only.call K (.forget x)) (by intro h; simp [Call.trees] at h; exact hc (by rw [h]))
  | eq eqv x z =>
    refine ((hr x).bind K fun p => (hr z).bind K fun q => Spares.ite K (hd _)
      ((Spares.size K x y).bind K fun _ => (Spares.size K z y).bind K fun _ => Spares.ite K (hd _)
      ((Spares.arity K x y).bind K fun _ => (Spares.arity K z y).bind K fun _ => Spares.ite K (hd _) ?_))).bind K fun _ => hd _
    cases p with
    | none => exact hd _
    | some n => cases q with
      | none => exact Spares.quiet K Only.bad
      | some m => exact hn _
  | eqWith cmp s a x =>
    refine ((hr x).bind K fun p =>
      (Spares.size K x y).bind K fun _ => Spares.ite K (hd _)
      ((Spares.arity K x y).bind K fun _ => Spares.ite K (hd _) ?_)).bind K fun _ => hd _
    cases p with
    | none => exact hd _
    | some n => exact hn _
  | copied f x => exact ((hr x).bind K fun _ => (hn _).bind K fun _ => (Spares.read K y _).bind K fun _ =>
      (Spares.read K y _).bind K fun _ => hd _).bind K fun _ => hd _
  | inserted f x => exact ((hr x).bind K fun _ => (hn _).bind K fun _ => (Spares.size K x y).bind K fun _ =>
      (Spares.arity K x y).bind K fun _ => hd _).bind K fun _ => hd _
  | use f x => exact (hr x).bind K fun _ => (hn _).bind K fun _ => hd _

theorem Spares.thread (y : Nat) : ∀ cs : List (Call ν α β), .forget y ∉ cs → Spares K e y (Threads.thread K cs)
  | [], _ => Spares.quiet K (Only.done _)
  | c :: cs, h => (Spares.call K y c (by rintro rfl; exact h (by simp))).bind K fun _ =>
      (Spares.thread y cs (fun hx => h (by simp [hx]))).bind K fun _ => Spares.quiet K (Only.done _)

/-- Threads that share only trees with nothing to fill in do not conflict. -/
theorem threads_apart {W : World ν} {threads : Nat → List (Call ν α β)}
    (h : ∀ i j x, i ≠ j → x ∈ (threads i).flatMap Call.trees → x ∈ (threads j).flatMap Call.trees →
      Settled K W.still W.cells x ∧ .forget x ∉ threads i) : (W.begin K threads).Apart W.still := by
  rintro i j hne ⟨l, w, w', h1, h2, h3⟩
  have m1 := Only.thread K (threads i) _ _ h1
  have m2 := Only.thread K (threads j) _ _ h2
  have s1 := h i j l.1 hne m1 m2
  have s2 := h j i l.1 (Ne.symm hne) m2 m1
  have e1 : w = false := Spares.thread K l.1 (threads i) s1.2 _ s1.1 _ h1 rfl
  have e2 : w' = false := Spares.thread K l.1 (threads j) s2.2 _ s2.1 _ h2 rfl
  rw [e1, e2] at h3
  cases h3
end
