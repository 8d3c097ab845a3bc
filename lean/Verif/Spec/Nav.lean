import Verif.Model.Nav
import Verif.Spec.Tree
/-!
# A navigator agrees with a tree

`NavSpec nav t`: asked about any node of `t`, the navigator answers with the node's structural neighbours inside `t`;
in particular the root of `t` has no parent and no siblings even if the underlying node has.
-/
open Tree

structure NavSpec (nav : Nav) (t : Tree Addr) : Prop where
  nodup : t.pre.Nodup
  root : nav.root = some t.label
  parent : ∀ fs s, plug fs s = t → nav.parent s.label = Res.ok (fs.head?.map Frame.label)
  prev : ∀ fs s, plug fs s = t →
    nav.prev s.label = Res.ok (fs.head?.bind (fun f => f.lefts.getLast?.map Tree.label))
  next : ∀ fs s, plug fs s = t →
    nav.next s.label = Res.ok (fs.head?.bind (fun f => f.rights.head?.map Tree.label))
  first : ∀ fs s, plug fs s = t → nav.first s.label = Res.ok (s.children.head?.map Tree.label)
  last : ∀ fs s, plug fs s = t → nav.last s.label = Res.ok (s.children.getLast?.map Tree.label)
  isFirst : ∀ fs s, plug fs s = t →
    nav.isFirst s.label = Res.ok (fs.head?.any (fun f => f.lefts.isEmpty))
  isLast : ∀ fs s, plug fs s = t →
    nav.isLast s.label = Res.ok (fs.head?.any (fun f => f.rights.isEmpty))
