import Verif.Model.Compare
/-!
# Calling const functions from several threads

`tree_base` stores its size and its arity in `mutable` members (tree_base.hpp 99, 101) that const functions write. Here the const
functions are broken up into their single accesses to those members, so that the accesses of several threads can alternate. They
are the functions of Model/Tree.lean and Model/Compare.lean once more, in the order of the accesses of the source; a theorem
(`C94_alone`) says that a thread on its own does the same as those.

The other attributes of a tree object and the nodes are only read by const functions: no function below writes them. Threads that write
those (by calling functions that are not const while others read) are not modelled.
-/

/-- The two mutable members of a tree object: tree_base.hpp 99, 101. -/
inductive Count : Type where
  | size
  | arity
  deriving DecidableEq, Repr

/-- A mutable member of the tree object with that number. -/
abbrev Loc := Nat × Count

/-- What a thread still has to do: single accesses to the mutable members, looks at what no thread writes (the nodes and the
roots of the tree objects; `none`: no such object), undefined behaviour. -/
inductive Prog (ν β : Type) : Type where
  | done (b : β)
  | bad
  | get (l : Loc) (k : Nat → Prog ν β)
  | set (l : Loc) (v : Nat) (k : Prog ν β)
  | look (k : Heap ν → (Nat → Option Ptr) → Prog ν β)

namespace Prog
variable {ν β γ : Type}

def bind : Prog ν β → (β → Prog ν γ) → Prog ν γ
  | done b, f => f b
  | bad, _ => bad
  | get l k, f => get l (fun v => (k v).bind f)
  | set l v k, f => set l v (k.bind f)
  | look k, f => look (fun h r => (k h r).bind f)

/-- Read a member. -/
def read (l : Loc) : Prog ν Nat := get l done
/-- Write a member. -/
def write (l : Loc) (v : Nat) : Prog ν Unit := set l v (done ())
/-- `root_node` of a tree object; using an object that does not exist is undefined behaviour. -/
def root (x : Nat) : Prog ν Ptr := look fun _ roots => match roots x with
  | some p => done p
  | none => bad
/-- A computation that reads nodes. -/
def nodes (f : Heap ν → Res β) : Prog ν β := look fun h _ => match f h with
  | .ok b => done b
  | _ => bad

end Prog

namespace Threads
variable {ν α lit β : Type} (K : Kind ν α lit)
open Prog

/-- tree_base.hpp 208-213, `size()`. -/
def size (x : Nat) : Prog ν Nat :=
  (root x).bind fun
    | some a => (read (x, .size)).bind fun s =>
        if s == 0 then
          (nodes (fun h => K.calcSize h.fuel h a)).bind fun n => (write (x, .size) n).bind fun _ => read (x, .size)
        else read (x, .size)
    | none => read (x, .size)

/-- tree_base.hpp 215-224, `arity()`. -/
def arity (x : Nat) : Prog ν Nat :=
  (root x).bind fun
    | some a => (read (x, .arity)).bind fun s =>
        if s == 0 then
          (nodes (fun h => K.first h a)).bind fun
            | some _ =>
              (nodes (fun h => K.calcArity h.fuel h a)).bind fun n => (write (x, .arity) n).bind fun _ => read (x, .arity)
            | none => read (x, .arity)
        else read (x, .arity)
    | none => read (x, .arity)

/-- tree_base.hpp 226-229, `update_size_arity()`, a const function. -/
def forget (x : Nat) : Prog ν Unit :=
  (root x).bind fun _ => (write (x, .size) 0).bind fun _ => write (x, .arity) 0

/-- tree_base.hpp 278-289, `x == y`. -/
def eq (eqv : α → α → Bool) (x y : Nat) : Prog ν Bool :=
  (root x).bind fun p => (root y).bind fun q =>
  if p.isNone != q.isNone then done false
  else (size K x).bind fun s => (size K y).bind fun s' =>
    if s != s' then done false
    else (arity K x).bind fun a => (arity K y).bind fun a' =>
      if a != a' then done false
      else match p, q with
        | none, _ => done true
        | some n, some m => nodes (fun h => K.eq eqv h.fuel h n h m)
        | some _, none => bad

/-- tree_base.hpp 290-302, `x == n(v)(…)`. -/
def eqWith (cmp : Heap ν → Addr → Res Bool) (size' arity' : Nat) (x : Nat) : Prog ν Bool :=
  (root x).bind fun p => (size K x).bind fun s =>
  if s != size' then done false
  else (arity K x).bind fun a =>
    if a != arity' then done false
    else match p with
      | none => done false
      | some n => nodes (fun h => cmp h n)

/-- What copy construction and copy assignment from the tree `x` read (tree.hpp 84-108, 171-185) and the constructor of a view
(tree_view.hpp 29-36): its nodes, of which a copy is made for the thread's own tree, and its members as they are. -/
def copied (f : Heap ν → Ptr → Res β) (x : Nat) : Prog ν (β × Nat × Nat) :=
  (root x).bind fun p => (nodes (fun h => f h p)).bind fun b =>
  (read (x, .size)).bind fun s => (read (x, .arity)).bind fun a => done (b, s, a)

/-- What `insert_over` of a copy of the tree `x` (tree.hpp 495-507) does with it, and the conversion of a binary tree (nary_tree.hpp
30-59). The order of evaluation of the arguments is left to the compiler; here from left to right. -/
def inserted (f : Heap ν → Ptr → Res β) (x : Nat) : Prog ν (β × Nat × Nat) :=
  (root x).bind fun p => (nodes (fun h => f h p)).bind fun b =>
  (size K x).bind fun s => (arity K x).bind fun a => done (b, s, a)

/-- A call that has a const access to a tree `x`. `use`: one that only looks at the nodes, such as `empty()`, `begin()`, the
operations of a const_iterator, `operator<<`, or the insertion of a copy as a child (tree.hpp 589-602). -/
inductive Call (ν α β : Type) : Type where
  | size (x : Nat)
  | arity (x : Nat)
  | forget (x : Nat)
  | eq (eqv : α → α → Bool) (x y : Nat)
  | eqWith (cmp : Heap ν → Addr → Res Bool) (size arity : Nat) (x : Nat)
  | copied (f : Heap ν → Ptr → Res β) (x : Nat)
  | inserted (f : Heap ν → Ptr → Res β) (x : Nat)
  | use (f : Heap ν → Ptr → Res β) (x : Nat)

/-- What a call answers. -/
inductive Told (β : Type) : Type where
  | num (n : Nat)
  | unit
  | flag (b : Bool)
  | got (b : β)
  | counts (b : β) (size arity : Nat)
  deriving DecidableEq, Repr

/-- One call. -/
def call : Call ν α β → Prog ν (Told β)
  | .size x => (size K x).bind fun n => done (.num n)
  | .arity x => (arity K x).bind fun n => done (.num n)
  | .forget x => (forget x).bind fun _ => done .unit
  | .eq eqv x y => (eq K eqv x y).bind fun b => done (.flag b)
  | .eqWith cmp s a x => (eqWith K cmp s a x).bind fun b => done (.flag b)
  | .copied f x => (copied f x).bind fun r => done (.counts r.1 r.2.1 r.2.2)
  | .inserted f x => (inserted K f x).bind fun r => done (.counts r.1 r.2.1 r.2.2)
  | .use f x => (root x).bind fun p => (nodes (fun h => f h p)).bind fun b => done (.got b)

/-- A thread that makes the calls one after the other. -/
def thread : List (Call ν α β) → Prog ν (List (Told β))
  | [] => done []
  | c :: cs => (call K c).bind fun a => (thread cs).bind fun as => done (a :: as)

end Threads

/-- The values of the mutable members of all objects. -/
abbrev Cells := Loc → Nat

/-- What no thread writes. -/
structure Still (ν : Type) where
  heap : Heap ν
  roots : Nat → Option Ptr

namespace World
variable {ν : Type}
def still (W : World ν) : Still ν := ⟨W.heap, fun x => (W.vars x).map (·.root)⟩
def cells (W : World ν) : Cells := fun l => match W.vars l.1, l.2 with
  | some r, .size => r.size
  | some r, .arity => r.arity
  | none, _ => 0
end World

namespace Prog
variable {ν β : Type}

/-- One access of a thread. A thread that is finished, or whose behaviour is undefined, does nothing. -/
def step (e : Still ν) (c : Cells) : Prog ν β → Cells × Prog ν β
  | done b => (c, done b)
  | bad => (c, bad)
  | get l k => (c, k (c l))
  | set l v k => ((fun m => if m = l then v else c m), k)
  | look k => (c, k e.heap e.roots)

/-- The member a thread is about to access, and whether it will write it. -/
def next : Prog ν β → Option (Loc × Bool)
  | get l _ => some (l, false)
  | set l _ _ => some (l, true)
  | _ => none

/-- What happens when the thread runs alone: the members and the answer at the end; `none`: undefined behaviour. -/
def alone (e : Still ν) : Prog ν β → Cells → Option (Cells × β)
  | done b, c => some (c, b)
  | bad, _ => none
  | get l k, c => alone e (k (c l)) c
  | set l v k, c => alone e k (fun m => if m = l then v else c m)
  | look k, c => alone e (k e.heap e.roots) c

/-- The members accessed by the thread when it runs alone, with true for those written. -/
def accesses (e : Still ν) : Prog ν β → Cells → List (Loc × Bool)
  | done _, _ => []
  | bad, _ => []
  | get l k, c => (l, false) :: accesses e (k (c l)) c
  | set l v k, c => (l, true) :: accesses e k (fun m => if m = l then v else c m)
  | look k, c => accesses e (k e.heap e.roots) c

/-- How many steps the thread takes when it runs alone. -/
def steps (e : Still ν) : Prog ν β → Cells → Nat
  | done _, _ => 0
  | bad, _ => 0
  | get l k, c => steps e (k (c l)) c + 1
  | set l v k, c => steps e k (fun m => if m = l then v else c m) + 1
  | look k, c => steps e (k e.heap e.roots) c + 1

end Prog

/-- Several threads: number `i` still has to do `threads i`. -/
structure Running (ν β : Type) where
  cells : Cells
  threads : Nat → Prog ν β

namespace Running
variable {ν β : Type}

/-- Thread `i` makes its next step. -/
def step (e : Still ν) (R : Running ν β) (i : Nat) : Running ν β :=
  ⟨((R.threads i).step e R.cells).1, fun j => if j = i then ((R.threads i).step e R.cells).2 else R.threads j⟩

/-- A schedule: the numbers of the threads, in the order in which they make their steps. -/
def run (e : Still ν) (R : Running ν β) (schedule : List Nat) : Running ν β := schedule.foldl (step e) R

/-- A data race: two threads are about to access the same member, at least one of them to write it. -/
def Race (R : Running ν β) : Prop :=
  ∃ i j l w w', i ≠ j ∧ (R.threads i).next = some (l, w) ∧ (R.threads j).next = some (l, w') ∧ (w || w') = true

end Running
