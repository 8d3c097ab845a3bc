import Verif.Model.Core
/-!
# Navigators and the loops built on them

Models include/TreeDS/utility.hpp 153-183 (`keep_calling`) and
include/TreeDS/node/navigator/navigator_base.hpp.
The C++ navigator takes node pointers; here the functions take addresses and a possibly null argument goes
through `deref` at the call site.
-/

/-- The operations a policy uses from its navigator (navigator_base.hpp 219-280). -/
structure Nav where
  root : Ptr
  parent : Addr → Res Ptr
  prev : Addr → Res Ptr
  next : Addr → Res Ptr
  first : Addr → Res Ptr
  last : Addr → Res Ptr
  isFirst : Addr → Res Bool
  isLast : Addr → Res Bool
  /-- navigator_base.hpp 282-294 and 236-248; only instantiable for binary nodes. -/
  left : Addr → Res Ptr
  right : Addr → Res Ptr
  isLeft : Addr → Res Bool
  isRight : Addr → Res Bool

namespace Nav

/-- navigator_base.hpp 224-226. -/
def isRoot (nav : Nav) (a : Addr) : Bool := some a == nav.root

/-- The navigator with left and right exchanged; a proof device (the C++ code is written twice or with a
`template <bool Left>` parameter). -/
def mirror (nav : Nav) : Nav :=
  { root := nav.root, parent := nav.parent, prev := nav.next, next := nav.prev, first := nav.last,
    last := nav.first, isFirst := nav.isLast, isLast := nav.isFirst,
    left := nav.right, right := nav.left, isLeft := nav.isRight, isRight := nav.isLeft }

end Nav

/-- utility.hpp 174-183: `keep_calling(from, call)`. -/
def keepCalling (call : Addr → Res Ptr) : Nat → Addr → Res Addr
  | 0, _ => Res.diverge
  | n + 1, p => do
    match ← call p with
    | some nx => keepCalling call n nx
    | none => pure p

/-- utility.hpp 153-165: `keep_calling(from, call, test, result)`. `σ` is the state the C++ lambdas capture by
reference (level counters, found flags). -/
def keepCallingT {σ : Type} (call : Addr → Res Ptr) (test : σ → Addr → Addr → Res (Bool × σ))
    (result : σ → Addr → Addr → Res (Ptr × σ)) : Nat → σ → Addr → Res (Ptr × σ)
  | 0, _, _ => Res.diverge
  | n + 1, s, p => do
    match ← call p with
    | some nx =>
      let (b, s) ← test s p nx
      if b then result s p nx else keepCallingT call test result n s nx
    | none => pure (some p, s)

namespace Nav

/-- The do-while loop of navigator_base.hpp 67-117 (`get_other_branch`). `fuel` bounds each inner
`keep_calling`, the structural argument bounds the outer loop. -/
def otherBranchLoop (left : Bool) (nav : Nav) (fuel : Nat) : Nat → Addr → Int → Res Ptr
  | 0, _, _ => Res.diverge
  | n + 1, deepest, lvl => do
    let (crossed, lvl) ← keepCallingT nav.parent
      (fun l child _ => do
        let b ← if left then nav.isFirst child else nav.isLast child
        pure (!b, l - 1))
      (fun l child _ => do
        let r ← if left then nav.prev child else nav.next child
        pure (r, l + 1))
      fuel lvl deepest
    if crossed == nav.root then pure none
    else if lvl == 0 then pure crossed
    else do
      let c ← deref crossed
      let (d, lvl) ← keepCallingT (if left then nav.last else nav.first)
        (fun l _ _ => pure (decide (l + 1 ≥ 0), l + 1))
        (fun l _ child => pure (some child, l))
        fuel lvl c
      if lvl < 0 then do
        let d ← deref d
        otherBranchLoop left nav fuel n d lvl
      else pure d

/-- navigator_base.hpp 62-119, `get_other_branch<Left>`; 296-302 `get_left_branch`/`get_right_branch`. -/
def getOtherBranch (left : Bool) (nav : Nav) (fuel : Nat) (node : Addr) : Res Ptr :=
  otherBranchLoop left nav fuel fuel node 0

/-- The do-while loop of navigator_base.hpp 145-170 (`get_row_extremum`). -/
def rowExtremumLoop (left : Bool) (nav : Nav) (fuel : Nat) : Nat → Addr → Int → Res Ptr
  | 0, _, _ => Res.diverge
  | n + 1, branch, lvl => do
    let (d, lvl) ← keepCallingT (if left then nav.first else nav.last)
      (fun l _ _ => pure (decide (l + 1 ≥ 0), l + 1))
      (fun l _ child => pure (some child, l))
      fuel lvl branch
    if lvl == 0 then pure d
    else do
      let da ← deref d
      let b ← getOtherBranch (!left) nav fuel da
      if lvl < 0 then do
        let ba ← deref b
        rowExtremumLoop left nav fuel n ba lvl
      else pure d

/-- navigator_base.hpp 121-172, `get_row_extremum<Left>`; 304-310 `get_same_row_leftmost/rightmost`. -/
def getRowExtremum (left : Bool) (nav : Nav) (fuel : Nat) (from_ : Addr) : Res Ptr :=
  if nav.isRoot from_ then pure (some from_)
  else do
    let (b, lvl) ← keepCallingT nav.parent
      (fun (l : Int) _ parent => pure (some parent == nav.root, l - 1))
      (fun l _ r => pure (some r, l))
      fuel 0 from_
    let b ← deref b
    rowExtremumLoop left nav fuel fuel b lvl

/-- navigator_base.hpp 174-183, `get_highest_leaf<Left>`; 312-318. -/
def getHighestLeaf (left : Bool) (nav : Nav) (fuel : Nat) : Res Ptr := do
  let r ← deref nav.root
  let a ← keepCalling (if left then nav.first else nav.last) fuel r
  pure (some a)

/-- The do-while loop of navigator_base.hpp 191-215 (`get_deepest_extremum_child`). -/
def deepestLoop (left : Bool) (nav : Nav) (fuel : Nat) : Nat → Addr → Int → Int → Addr → Res Ptr
  | 0, _, _, _, _ => Res.diverge
  | n + 1, cur, curLvl, deepLvl, deep => do
    let (c, curLvl) ← keepCallingT (if left then nav.first else nav.last)
      (fun l _ _ => pure (false, l + 1))
      (fun _ _ _ => Res.ub) -- an empty std::function; never called
      fuel curLvl cur
    let c ← deref c
    let (deepLvl, deep) := if curLvl > deepLvl then (curLvl, c) else (deepLvl, deep)
    match ← getOtherBranch (!left) nav fuel c with
    | some nx => deepestLoop left nav fuel n nx curLvl deepLvl deep
    | none => pure (some deep)

/-- navigator_base.hpp 185-217, `get_deepest_extremum_child<Left>`; 320-326. -/
def getDeepestExtremumChild (left : Bool) (nav : Nav) (fuel : Nat) : Res Ptr := do
  let r ← deref nav.root
  deepestLoop left nav fuel fuel r 0 0 r

end Nav
