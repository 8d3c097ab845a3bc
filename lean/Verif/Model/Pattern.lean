import Verif.Model.Tree
import Verif.Model.Filter
import Verif.Model.Generate
/-!
# Searching a pattern

Models include/TreeDS/matcher: pattern.hpp, node/matcher.hpp, node/one_matcher.hpp, node/opt_matcher.hpp, node/multi_matcher.hpp,
node/capture.hpp. Not modelled: the counter
`steps`, the type check of assign_result. The C++ objects `first_child` and `next_sibling` of a matcher are the list of children
here.
-/

/-- matcher.hpp 47, `matched_node` of each matcher object. -/
abbrev Marks := Nat → Ptr

def Marks.set (m : Marks) (i : Nat) (p : Ptr) : Marks := fun j => if j = i then p else m j

namespace Pat
variable {α : Type}

mutual
/-- `info.matches_null`: one_matcher.hpp 24-32, opt_matcher.hpp 23-34, multi_matcher.hpp 33-44, capture.hpp 21 (like its
argument). -/
def matchesNull : Pat α → Bool
  | node _ .one _ _ => false
  | node _ _ _ ps => allNull ps
def allNull : List (Pat α) → Bool
  | [] => true
  | p :: ps => matchesNull p && allNull ps
end

/-- `info.prefers_null`: one_matcher.hpp 30, opt_matcher.hpp 38, multi_matcher.hpp 48, capture.hpp 21. A capture never uses it: it has its own
`search_node_this`. -/
def prefersNull : Pat α → Bool
  | node i (.opt q) f ps => matchesNull (node i (.opt q) f ps) && q == .reluctant
  | node i (.star q) f ps => matchesNull (node i (.star q) f ps) && q == .reluctant
  | _ => false

/-- matcher.hpp 97-106, `child_may_steal_node`, for an opt_matcher or multi_matcher with the given children. -/
def childMaySteal (ps : List (Pat α)) : Bool := (ps.filter (fun p => !p.matchesNull)).length ≤ 1

/-- matcher.hpp 144-152, `reset` of the matchers and what is below them. -/
def resetL (ps : List (Pat α)) (m : Marks) : Marks := fun i => if i ∈ idsL ps then none else m i

/-- The node remembered by the first matcher of a list. -/
def headMark (ps : List (Pat α)) (m : Marks) : Ptr :=
  match ps with
  | [] => none
  | p :: _ => m p.id

end Pat

/-- What the matchers of a pattern remember: `matched_node` (matcher.hpp 47) of each and `subtree_cut` (multi_matcher.hpp 51) of
each `star`. -/
structure Memo where
  marks : Marks
  cuts : Marks

/-- matcher.hpp 144-152, `reset`: it does not touch `subtree_cut`. -/
def Memo.reset {α : Type} (s : Memo) (ps : List (Pat α)) : Memo := { s with marks := Pat.resetL ps s.marks }
def Memo.mark (s : Memo) (i : Nat) (p : Ptr) : Memo := { s with marks := s.marks.set i p }
def Memo.cut (s : Memo) (i : Nat) (p : Ptr) : Memo := { s with cuts := s.cuts.set i p }

/-- The iterators of a search. `pre`, `leaves`: those made by get_match_iterator (multi_matcher.hpp 58-88) for the `star` with the
given identity and value matcher; `leaves`, for a possessive one, is a tree_iterator_filter. -/
inductive Walk (α : Type) where
  | fixed
  | siblings
  | pre (i : Nat) (test : α → Bool)
  | leaves (test : α → Bool)

/-- An iterator: policy, root of the navigator, current node, and the stack of `policy::leaves`. -/
structure SIt (α : Type) where
  walk : Walk α
  root : Ptr
  cur : Ptr
  aux : List Addr

namespace Search
open Pat
variable {α : Type} (nav : Ptr → Nav) (val : Addr → Res α) (fuel : Nat)

/-- The predicate of multi_matcher.hpp 62-69, for a node `x`. `cut` is the `subtree_cut` of a `star` that is not possessive. -/
def below (cut : Ptr) (test : α → Bool) (x : Addr) : Res Bool := do
  let p ← deref (← (nav none).parent x)
  if some p == cut then pure false else do pure (test (← val p))

/-- The navigator of an iterator. The predicate is asked about the current state of the `star`: it captures `this`. -/
def navOf (s : Memo) (w : Walk α) (root : Ptr) : Nav :=
  match w with
  | .pre i test => PredNav.nav (nav root) (below nav val (s.cuts i) test) fuel
  | .leaves test => PredNav.nav (nav root) (below nav val none test) fuel
  | _ => nav root

/-- The predicate of multi_matcher.hpp 73-75. -/
def notIn (test : α → Bool) (a : Addr) : Res Bool := do pure (!test (← val a))

/-- `++it` for an iterator at the node `a`: fixed.hpp 17-19, siblings.hpp 21-23, pre_order.hpp 15-37, tree_iterator_filter.hpp
117-122. -/
def next (s : Memo) (it : SIt α) (a : Addr) : Res (SIt α) :=
  match it.walk with
  | .fixed => pure { it with cur := none }
  | .siblings => do pure { it with cur := ← (nav it.root).next a }
  | .pre _ _ => do pure { it with cur := ← Policy.preInc (navOf nav val fuel s it.walk it.root) fuel a }
  | .leaves test => do
    let r ← FilterIter.move Policy.leaves (navOf nav val fuel s it.walk it.root) fuel (notIn val test) .inc ⟨some a, it.aux⟩
    pure { it with cur := r.cur, aux := r.aux }

/-- tree_iterator.hpp 125-127 and tree_iterator_filter.hpp 97-99, `other_node`. -/
def otherNode (s : Memo) (it : SIt α) (p : Ptr) : Res (SIt α) :=
  match it.walk with
  | .leaves test => do
    let r ← FilterIter.wrap Policy.leaves (navOf nav val fuel s it.walk it.root) fuel (notIn val test) ⟨p, []⟩
    pure { it with cur := r.cur, aux := r.aux }
  | _ => pure { it with cur := p, aux := [] }

/-- one_matcher.hpp 43-53, opt_matcher.hpp 56-65: `other_navigator(basic_navigator())` sets the root by `fix_navigator_root`
(policy_base.hpp 83-87, siblings.hpp 14-19), then `go_first_child()`, then `other_policy(siblings())`. -/
def childIt (it : SIt α) (a : Addr) : Res (SIt α) := do
  let root ← match it.walk with
    | .siblings => do
      match ← (nav none).parent a with
      | some p => pure p
      | none => pure a
    | _ => pure a
  pure ⟨.siblings, some root, ← (nav (some root)).first a, []⟩

/-- `it.other_policy(policy::fixed())` at the node `a`. (For a tree_iterator_filter the result is one too, whose predicate accepts
`a`.) -/
def fixedIt (it : SIt α) (a : Addr) : SIt α := ⟨.fixed, it.root, some a, []⟩

/-- multi_matcher.hpp 58-88, `get_match_iterator`, at the node `a`. -/
def targetIt (i : Nat) (q : Quantifier) (test : α → Bool) (s : Memo) (a : Addr) : Res (SIt α) :=
  if q = .possessive then do
    let nv := navOf nav val fuel s (.leaves test) (some a)
    let r ← Policy.leaves.goFirst nv fuel []
    let r ← FilterIter.wrap Policy.leaves nv fuel (notIn val test) r
    pure ⟨.leaves test, some a, r.cur, r.aux⟩
  else do
    pure ⟨.pre i test, some a, ← Policy.preInc (navOf nav val fuel s (.pre i test) (some a)) fuel a, []⟩

/-- pre_order.hpp 69-90, `go_depth_first_ramification`, from the node `a`. The captured flag is `found`. -/
def ramification (nv : Nav) (a : Addr) : Res Ptr := do
  let (r, found) ← keepCallingT nv.first (fun (_ : Bool) _ child => do pure (!(← nv.isLast child), true))
    (fun found _ child => pure (some child, found)) fuel false a
  if found then pure r else pure none

/-- The function `ackowledge` of multi_matcher.hpp 277-279; `none` stands for `empty_t`. -/
def acknowledge (ack : Option Nat) (s : Memo) (a : Addr) : Memo :=
  match ack with
  | none => s
  | some i => s.cut i (some a)

/-- The loop of matcher.hpp 184-204 and what follows it: `step` is `search_node_impl` at a node. -/
def loop (step : Memo → SIt α → Addr → Res (Bool × Memo)) (i : Nat) (ack : Option Nat) (null : Bool) (begin_ : SIt α) :
    Nat → Memo → SIt α → Res (Bool × Memo × SIt α)
  | 0, _, _ => Res.diverge
  | n + 1, s, it =>
    match it.cur with
    | none => if null then pure (true, s, begin_) else pure (false, s, it)
    | some a => do
      let (ok, s) ← step s it a
      if ok then do
        let s := acknowledge ack (s.mark i (some a)) a
        pure (true, s, ← next nav val fuel s it a)
      else loop step i ack null begin_ n s (← next nav val fuel s it a)

/-- The loop of matcher.hpp 244-253, with `rematch` of multi_matcher.hpp 118-132 for the `star` with identity `i`: `this` and
`rest` are `search_node_this` and the search of the next sibling, `p` is the identity of the matcher. -/
def rematch (this rest : Memo → SIt α → Res (Bool × Memo × SIt α)) (i p : Nat) :
    Nat → Memo → SIt α → Res (Bool × Memo × SIt α)
  | 0, _, _ => Res.diverge
  | n + 1, s, it =>
    match it.cur with
    | none => pure (false, s, it)
    | some _ =>
      match s.marks p with
      | none => pure (false, s.cut i none, it)
      | some b => do
        let s := s.cut i none
        let start := { it with cur := ← ramification fuel (navOf nav val fuel s it.walk it.root) b, aux := [] }
        let (ok, s, it) ← this s start
        if !ok then rematch this rest i p n s it
        else do
          let (ok, s, it) ← rest s it
          if ok then pure (true, s, it) else rematch this rest i p n s start

mutual
/-- `search_node_this`: matcher.hpp 169-205, capture.hpp 29-44; with `search_node_impl` of one_matcher.hpp 37-55,
opt_matcher.hpp 46-77 and multi_matcher.hpp 266-290. -/
def this : Pat α → Option Nat → Memo → SIt α → Res (Bool × Memo × SIt α)
  | Pat.node i .cpt _ ps, ack, s, it => do
    let (ok, s, it) ← all ps ack none s it
    if ok then pure (true, s.mark i (headMark ps s.marks), it) else pure (false, s, it)
  | Pat.node i .one test ps, ack, s, it =>
    loop nav val fuel (fun s it a => do
      if !test (← val a) then pure (false, s)
      else do
        let (ok, s, _) ← all ps none none s (← childIt nav it a)
        pure (ok, s)) i ack false it fuel s it
  | Pat.node i (.opt q) test ps, ack, s, it =>
    if prefersNull (Pat.node i (.opt q) test ps) then pure (true, s, it)
    else loop nav val fuel (fun s it a => do
      if !test (← val a) then
        if childMaySteal ps then do
          let (ok, s, _) ← all ps none none s (fixedIt it a)
          pure (ok, s)
        else pure (false, s)
      else do
        let (ok, s, _) ← all ps none none s (← childIt nav it a)
        if !ok && q != .possessive && childMaySteal ps then do
          let (ok, s, _) ← all ps none none s (fixedIt it a)
          pure (ok, s)
        else pure (ok, s)) i ack (matchesNull (Pat.node i (.opt q) test ps)) it fuel s it
  | Pat.node i (.star q) test ps, ack, s, it =>
    if prefersNull (Pat.node i (.star q) test ps) then pure (true, s, it)
    else loop nav val fuel (fun s it a => do
      if !test (← val a) then
        if childMaySteal ps then do
          let (ok, s, _) ← all ps none none s (fixedIt it a)
          pure (ok, s)
        else pure (false, s)
      else do
        let (ok, s, _) ← all ps (some i) (if q = .possessive then none else some i) s (← targetIt nav val fuel i q test s a)
        if !ok && q != .possessive && childMaySteal ps then do
          let (ok, s, _) ← all ps none none s (fixedIt it a)
          pure (ok, s)
        else pure (ok, s)) i ack (matchesNull (Pat.node i (.star q) test ps)) it fuel s it
/-- `search_node` of the first matcher of a list of siblings (matcher.hpp 266-280, with `search_node_sibling`, 225-264; 207-223
for the empty list). `rem` is the `star` whose `rematch` is passed, `none` stands for `empty_t`. -/
def all : List (Pat α) → Option Nat → Option Nat → Memo → SIt α → Res (Bool × Memo × SIt α)
  | [], _, _, s, it => pure (true, s, it)
  | p :: ps, ack, rem, s, it => do
    let (ok, s, begin_) ← this p ack s it
    if !ok then pure (false, s, begin_)
    else do
      let (ok, s, it) ← all ps ack rem s begin_
      if ok then pure (true, s, it)
      else do
        let (ok, s, it) ← match rem with
          | none => pure (false, s, it)
          | some i => rematch nav val fuel (this p ack) (all ps ack rem) i p.id fuel s begin_
        if ok then pure (true, s, it)
        else if p.matchesNull && (s.marks p.id).isSome then do
          let it ← otherNode nav val fuel s it (s.marks p.id)
          all ps ack rem (s.reset (p :: ps)) it
        else pure (false, s, it)
end

/-- pattern.hpp 28-41, `do_search` of a tree or view with the given root. The test of lines 30-32 compares the address of a
tree object with the address of a node, which are never equal here. `tree.root()` is a fixed iterator: tree_base.hpp 250-256. -/
def search (root : Ptr) (p : Pat α) (s : Memo) : Res (Bool × Memo) := do
  let (ok, s, _) ← all nav val fuel [p] none none (s.reset [p]) ⟨.fixed, root, root, []⟩
  pure (ok, s)

end Search

namespace Pattern
open Pat
variable {ν α lit : Type} (K : Kind ν α lit) (value : ν → α)

variable (B : Builder ν)

mutual
/-- matcher.hpp 288-294 `result`, one_matcher.hpp 57-71, opt_matcher.hpp 79-96, capture.hpp 51-55, multi_matcher.hpp 154-178, 180-189,
213-222, 292-315. -/
def result (m : Marks) : Pat α → Heap ν → Res (Heap ν × Ptr)
  | Pat.node i .cpt _ ps, h =>
    match m i with
    | none => pure (h, none)
    | some _ => resultHead m ps h
  | Pat.node i .one _ ps, h =>
    match m i with
    | none => pure (h, none)
    | some a => do
      let n ← h.read a
      let (h, r) := h.alloc (K.leaf (value n))
      let h ← resultL m r ps h
      pure (h, some r)
  | Pat.node i (.opt _) _ ps, h =>
    match m i with
    | none => pure (h, none)
    | some a => do
      let (h, stolen, ptr) ← if childMaySteal ps then stealL m a none ps h else pure (h, false, none)
      if stolen then pure (h, ptr)
      else do
        let n ← h.read a
        let (h, r) := h.alloc (K.leaf (value n))
        let h ← resultL m r ps h
        pure (h, some r)
  | Pat.node i (.star q) test ps, h =>
    match m i with
    | none => pure (h, none)
    | some a =>
      if ps.all (fun p => (m p.id).isNone) then
        match q with
        | .reluctant => pure (h, none)
        | .default => do
          let (h, r) ← Generate.clone K value h a
          pure (h, some r)
        | _ => do
          let (h, r) ← Generate.clone K value h a
          let h ← Generate.keepAssigning K value B test h.fuel h r (← (K.nav h none).first a)
          pure (h, some r)
      else do
        let (h, stolen, ptr) ← if childMaySteal ps then stealL m a none ps h else pure (h, false, none)
        if stolen then pure (h, ptr)
        else do
          let (h, r) ← Generate.clone K value h a
          if q = .reluctant then do
            let h ← climbL m [(a, r)] ps h
            pure (h, some r)
          else do
            let s ← targetsL m ps ⟨h, [], 0⟩
            let h ← Generate.run K value B q test a s r
            pure (h, some r)
/-- The result of the first matcher of a list. -/
def resultHead (m : Marks) : List (Pat α) → Heap ν → Res (Heap ν × Ptr)
  | [], _ => Res.ub
  | p :: _, h => result m p h
/-- The children of a result: `assign_child_like` of the result of each matcher that matched a node. -/
def resultL (m : Marks) (r : Addr) : List (Pat α) → Heap ν → Res (Heap ν)
  | [], h => pure h
  | p :: ps, h => do
    let h ← match m p.id with
      | none => pure h
      | some a => do
        let (h, c) ← result m p h
        let c ← deref c
        B.attach h r c a
    resultL m r ps h
/-- matcher.hpp 108-126, `did_child_steal_node` of a matcher that matched `a`; results made for earlier children are released. -/
def stealL (m : Marks) (a : Addr) : Ptr → List (Pat α) → Heap ν → Res (Heap ν × Bool × Ptr)
  | ptr, [], h => pure (h, false, ptr)
  | ptr, p :: ps, h => do
    if m p.id = some a then do
      let (h, c) ← result m p h
      let h ← match ptr with
        | some _ => K.dealloc h.fuel h ptr
        | none => pure h
      let (h, _, ptr) ← stealL m a c ps h
      pure (h, true, ptr)
    else stealL m a ptr ps h
/-- multi_matcher.hpp 224-233: the results of the arguments of a `star`. -/
def targetsL (m : Marks) : List (Pat α) → Generate.State ν → Res (Generate.State ν)
  | [], s => pure s
  | p :: ps, s => do
    let s ← match m p.id with
      | none => pure s
      | some a => do
        let (h, c) ← result m p s.heap
        let (h, l) ← Generate.store K h s.targets a c
        pure (⟨h, l, s.left + 1⟩ : Generate.State ν)
    targetsL m ps s
/-- multi_matcher.hpp 190-210: the arguments of a reluctant `star` one after the other. -/
def climbL (m : Marks) (cloned : List (Addr × Addr)) : List (Pat α) → Heap ν → Res (Heap ν)
  | [], h => pure h
  | p :: ps, h => do
    let t ← deref (m p.id)
    let (h, c) ← result m p h
    let c ← deref c
    let (h, cloned) ← Generate.climb K value B h.fuel h cloned t c
    climbL m cloned ps h
end
end Pattern

namespace Pat
variable {α : Type}
mutual
/-- matcher.hpp 67-94, `get_following_captures`: the matcher itself if it is a capture, the captures among its children, then
those among its following siblings. -/
def captures : Pat α → List (Pat α)
  | .node i .cpt f ps => .node i .cpt f ps :: capturesL ps
  | .node _ .one _ ps => capturesL ps
  | .node _ (.opt _) _ ps => capturesL ps
  | .node _ (.star _) _ ps => capturesL ps
def capturesL : List (Pat α) → List (Pat α)
  | [] => []
  | p :: ps => captures p ++ capturesL ps
end

/-- matcher.hpp 314-316 and pattern.hpp 44-47. -/
def markCount (p : Pat α) : Nat := (captures p).length
end Pat

/-- The state of a pattern object: what its matchers remember, and whether `node_type` (pattern.hpp 19) has been set. The model
has one type of nodes at a time, so that the types compared by assign_result are equal once it is set. -/
structure Pattern.State where
  memo : Memo
  typed : Bool

abbrev Pattern.State.marks (s : Pattern.State) : Marks := s.memo.marks

namespace World
variable {ν α lit : Type} (K : Kind ν α lit) (value : ν → α) (B : Pattern.Builder ν)

/-- pattern.hpp 28-41 and 49-60, `search`. -/
def search (W : World ν) (p : Pat α) (s : Pattern.State) (x : Nat) : Res (Bool × Pattern.State) := do
  let r ← W.get x
  let (ok, m) ← Search.search (K.nav W.heap) (fun a => do pure (value (← W.heap.read a))) W.heap.fuel r.root p s.memo
  pure (ok, ⟨m, s.typed || ok⟩)

/-- Assign what the matcher `q` of the pattern matched to a tree: tree.hpp 226-229. `false` is the `std::invalid_argument`. -/
def assignPart (W : World ν) (q : Pat α) (s : Pattern.State) (x : Nat) : Res (Bool × World ν) := do
  if !s.typed then pure (false, W)
  else do
    let (h, a) ← Pattern.result K value B s.marks q W.heap
    let r ← W.get x
    let (h, r) ← TreeOps.assign K h r a 0 0
    pure (true, (W.setHeap h).put x (some r))

/-- pattern.hpp 62-69, `assign_result`. -/
def assignResult (W : World ν) (p : Pat α) (s : Pattern.State) (x : Nat) : Res (Bool × World ν) :=
  W.assignPart K value B p s x

/-- pattern.hpp 71-78 and matcher.hpp 296-300, `assign_mark` with an index, which is counted from 1. An index without a capture
does not compile. -/
def assignMark (W : World ν) (p : Pat α) (s : Pattern.State) (k x : Nat) : Res (Bool × World ν) :=
  match p.captures[k - 1]? with
  | some q => W.assignPart K value B q s x
  | none => Res.ub
end World
