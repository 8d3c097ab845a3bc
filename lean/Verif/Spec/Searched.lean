import Verif.Model.Pattern
import Verif.Spec.World
/-! # What a pattern object has been used for -/

/-- The states of a pattern object that is new, or has been used for any searches of trees which are now in `ts` and are the same
as they were then. (The other trees of the program may have changed in between.) A new pattern has no `subtree_cut`. -/
inductive SearchedIn {ν α lit T V C : Type} {K : Kind ν α lit} (S : Shape K T V C) (value : ν → α) (ts : Nat → Option T) (p : Pat α) :
    Pattern.State → Prop
  | new (s : Pattern.State) : (∀ i, s.memo.cuts i = none) → SearchedIn S value ts p s
  | search {W ts0 s s' x ok} : SearchedIn S value ts p s → Owned S W ts0 → ts0 x = ts x →
      W.search K value p s x = Res.ok (ok, s') → SearchedIn S value ts p s'
