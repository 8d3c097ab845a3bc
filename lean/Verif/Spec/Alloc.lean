import Verif.Model.Alloc
/-! # Which calls respect the allocators -/
open World (Src)

/-- The call without the allocator. -/
def ACall.plain {α lit : Type} : ACall α lit → Op α lit
  | .newWith x _ => .newEmpty x
  | .call op => op

section
variable {ν α lit T V C : Type} {K : Kind ν α lit} (S : Shape K T V C)

/-- Every node of every tree came from the allocator the tree object holds: from what it will be given back to. -/
def Homed (A : AWorld ν) (ts : Nat → Option T) : Prop := ∀ x t, ts x = some t → ∀ a ∈ S.addrs t, A.origin a = A.al x

/-- The calls that respect the allocators. -/
def AllocOk (A : AWorld ν) (ts : Nat → Option T) : ACall α lit → Prop
  | .call (.newCopy _ y) => ts y = some S.nil
  | .call (.newLit _ _) => False
  | .call (.assignMove x y) => A.al x = A.al y ∨ ts x = some S.nil
  | .call (.swap x y) => A.al x = A.al y ∨ (ts x = some S.nil ∧ ts y = some S.nil)
  | .call (.insertOver _ _ _ x pos (.moveOf y)) => A.al x = A.al y ∨ ts y = some S.nil ∨
      ∃ t, ts x = some t ∧ OverThrows S x t pos (.moveOf y : Src α lit)
  | .call (.insertChild _ P x pos (.moveOf y)) => A.al x = A.al y ∨ ts y = some S.nil ∨
      ∃ t, ts x = some t ∧ ChildThrows S A.W.heap P x t pos (.moveOf y : Src α lit)
  | _ => True

/-- Each call of the list is supported and respects the allocators, in the state in which it is made. -/
def SupportsA : AWorld ν → List (ACall α lit) → Prop
  | _, [] => True
  | A, c :: cs => (∃ ts, Owned S A.W ts ∧ Legal S A.W.heap ts c.plain ∧ AllocOk S A ts c) ∧
      ∀ A' o, A.step K c = Res.ok (A', o) → SupportsA A' cs
end

/-- Which allocator the object `x` holds after the calls of the list, the last of which comes first. It is the one it was constructed
with, or a default one (0), unless it was move constructed or move assigned: then it is the one the other tree held at that time. -/
def heldAfter {α lit : Type} : List (ACall α lit) → Nat → Nat
  | [], _ => 0
  | .newWith y i :: before, x => if x = y then i else heldAfter before x
  | .call (.newEmpty y) :: before, x => if x = y then 0 else heldAfter before x
  | .call (.newCopy y _) :: before, x => if x = y then 0 else heldAfter before x
  | .call (.newLit y _) :: before, x => if x = y then 0 else heldAfter before x
  | .call (.newMove y z) :: before, x => if x = y then heldAfter before z else heldAfter before x
  | .call (.assignMove y z) :: before, x => if x = y then heldAfter before z else heldAfter before x
  | .call _ :: before, x => heldAfter before x
