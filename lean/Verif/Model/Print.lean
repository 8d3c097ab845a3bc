import Verif.Model.Tree
import Verif.Spec.Print
/-!
# Printing

Models `print_node` and `print_tree` of include/TreeDS/utility.hpp. `get_first_child`, `get_next_sibling` and
`is_right_child` of nodes are only asked below the printed root, where the navigator gives the same answers. What is sent to
the stream is a list of pieces; the stream turns them into characters. Of the state of a stream only `std::hex` is modelled
(`std::setfill` stays in force too, but only matters for output with a width, which the library only uses for addresses).
-/


open Shown (spaces)

/-- utility.hpp 345-349, `print_preferences`. -/
structure Prefs where
  step : Nat
  limit : Int
  digits : Nat

/-- utility.hpp 333-343: the default preferences, the ones `operator<<` uses (tree_base.hpp 375). -/
def Prefs.default : Prefs := ⟨8, 10, 0⟩

/-- What is sent to the stream by one `<<` (or by `code_like_print`, for a value). -/
inductive Piece (α : Type) : Type where
  | text (cs : List Char)
  | value (v : α)
  /-- `std::hex` -/
  | hex
  /-- a number after `std::setfill('0') << std::setw(width)` -/
  | padded (width n : Nat)

/-- The characters a stream writes, and whether it is in hexadecimal mode afterwards. `disp` is `code_like_print`
(utility.hpp 303-332) on a stream in hexadecimal mode or not: numbers are written in the base of the stream. -/
def render {α : Type} (disp : Bool → α → List Char) : Bool → List (Piece α) → List Char × Bool
  | hex, [] => ([], hex)
  | hex, .text cs :: ps => (cs ++ (render disp hex ps).1, (render disp hex ps).2)
  | hex, .value v :: ps => (disp hex v ++ (render disp hex ps).1, (render disp hex ps).2)
  | _, .hex :: ps => render disp true ps
  | hex, .padded w n :: ps =>
    (List.leftpad w '0' (Nat.toDigits (if hex then 16 else 10) n) ++ (render disp hex ps).1, (render disp hex ps).2)

/-- utility.hpp 323-332: `code_like_print` of a number on a stream in hexadecimal mode or not. -/
def numText (hex : Bool) (n : Nat) : List Char := Nat.toDigits (if hex then 16 else 10) n
/-- utility.hpp 323-332: `code_like_print` of a negative or positive number on a stream in decimal mode. -/
def intText (i : Int) : List Char := if i < 0 then '-' :: Nat.toDigits 10 i.natAbs else Nat.toDigits 10 i.natAbs
/-- utility.hpp 307-309: a character between single quotes. -/
def charText (c : Char) : List Char := ['\'', c, '\'']
/-- utility.hpp 311-321: a string between double quotes. -/
def stringText (s : String) : List Char := '"' :: s.toList ++ ['"']

section
variable {α : Type}

mutual
/-- utility.hpp 352-398, `print_node`. `limit` is shared by all the calls (it is passed by reference), hence also a result.
`bin`: the nodes are binary nodes (374-378). `lab`: the value and, if wanted, digits of the address (362-369). -/
def printNode (bin : Bool) (nav : Nav) (lab : Addr → Res (List (Piece α))) (step : Nat) :
    Nat → Nat → Int → Addr → Res (List (Piece α) × Int)
  | 0, _, _, _ => Res.diverge
  | fuel + 1, ind, limit, a =>
    if limit ≤ 0 then pure ([], limit)
    else do
      let name ← lab a
      let head := [.text (spaces ind), .text "n(".toList] ++ name ++ [.text ")".toList]
      match ← nav.first a with
      | none => pure (head, limit)
      | some c => do
        let gap ← if bin then nav.isRight c else pure false
        let head := head ++ [.text "(\n".toList] ++ (if gap then [.text (spaces (ind + step)), .text "n(),\n".toList] else [])
        let limit := limit - 1
        if limit > 0 then do
          let (o, limit) ← printNode bin nav lab step fuel (ind + step) limit c
          let (o', limit) ← printRest bin nav lab step fuel (ind + step) limit c
          pure (head ++ o ++ o' ++ [.text ")".toList], limit)
        else pure (head ++ [.text (spaces (ind + 4)), .text "...".toList, .text ")".toList], limit)
/-- The loop of utility.hpp 381-392, from the sibling after `cur`. -/
def printRest (bin : Bool) (nav : Nav) (lab : Addr → Res (List (Piece α))) (step : Nat) :
    Nat → Nat → Int → Addr → Res (List (Piece α) × Int)
  | 0, _, _, _ => Res.diverge
  | fuel + 1, ind, limit, cur => do
    match ← nav.next cur with
    | none => pure ([], limit)
    | some c => do
      let limit := limit - 1
      if limit > 0 then do
        let (o, limit) ← printNode bin nav lab step fuel ind limit c
        let (o', limit) ← printRest bin nav lab step fuel ind limit c
        pure ([.text ",\n".toList] ++ o ++ o', limit)
      else pure ([.text ",\n".toList, .text (spaces ind), .text "...".toList], limit)
end

/-- utility.hpp 362-369: the value of a node and, if wanted, the last digits of its address. `pos a` is the number
`reinterpret_cast<std::size_t>(&node)`; shifting the 64-bit 1 by 64 or more is undefined. -/
def printLabel (pos : Addr → Nat) (digits : Nat) (a : Addr) (v : α) : Res (List (Piece α)) :=
  if digits > 0 then
    if 4 * digits ≥ 64 then Res.ub
    else pure [.value v, .text " @".toList, .hex, .padded digits (pos a &&& ((1 <<< (4 * digits)) - 1))]
  else pure [.value v]

/-- utility.hpp 400-410, `print_tree` for a tree or view with the given root, on a stream in hexadecimal mode or not: the
characters written and the mode of the stream afterwards. -/
def printTree (bin : Bool) (nav : Nav) (value : Addr → Res α) (fuel : Nat) (P : Prefs) (disp : Bool → α → List Char)
    (pos : Addr → Nat) (hex : Bool) (root : Ptr) : Res (List Char × Bool) :=
  match root with
  | some a => do
    let (o, _) ← printNode bin nav (fun a => do printLabel pos P.digits a (← value a)) P.step fuel 0 P.limit a
    pure (render disp hex o)
  | none => pure (render disp hex [.text "n()".toList])

/-- A view of the node `root` (or of nothing), printed. -/
def Nary.printView (P : Prefs) (disp : Bool → α → List Char) (pos : Addr → Nat) (hex : Bool) (h : NHeap α) (root : Ptr) :
    Res (List Char × Bool) :=
  printTree false (Nary.nav h root) (fun a => do pure (← h.read a).value) h.fuel P disp pos hex root

def Binary.printView (P : Prefs) (disp : Bool → α → List Char) (pos : Addr → Nat) (hex : Bool) (h : BHeap α) (root : Ptr) :
    Res (List Char × Bool) :=
  printTree true (Binary.nav h root) (fun a => do pure (← h.read a).value) h.fuel P disp pos hex root

/-- The tree `x` of a program, printed: utility.hpp 400-410 with `tree.raw_root_node()`. -/
def Nary.print (P : Prefs) (disp : Bool → α → List Char) (pos : Addr → Nat) (hex : Bool) (W : World (NNode α)) (x : Nat) :
    Res (List Char × Bool) := do
  let r ← W.get x
  Nary.printView P disp pos hex W.heap r.root

def Binary.print (P : Prefs) (disp : Bool → α → List Char) (pos : Addr → Nat) (hex : Bool) (W : World (BNode α)) (x : Nat) :
    Res (List Char × Bool) := do
  let r ← W.get x
  Binary.printView P disp pos hex W.heap r.root
end
