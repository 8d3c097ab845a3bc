import Verif.Spec.World
/-!
# What a loop that writes should leave behind
-/

/-- Apply `f` to the value of every node. -/
def onValue {α : Type} (f : α → α) (p : Addr × α) : Addr × α := (p.1, f p.2)

/-- Apply `f` to the value of the nodes at the addresses `l`. -/
def onValueAt {α : Type} (l : List Addr) (f : α → α) (p : Addr × α) : Addr × α := (p.1, if p.1 ∈ l then f p.2 else p.2)
