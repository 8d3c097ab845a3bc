"""Wrong programs: edits of the model the way a bug would change the C++ code."""
MUTANTS = []
def M(id, file, definition, old, new, claim, edit, breaks, **kw):
    MUTANTS.append(dict(id=id, file=file, definition=definition, old=old, new=new, claim=claim, edit=edit, breaks=breaks, **kw))

# --- policies
M('M001', 'Policy', 'Policy.preInc', "(fun c => do pure (!(← nav.isLast c))) (fun c => nav.next c) cur\n    if result == nav.root", "(fun c => do pure (!(← nav.isFirst c))) (fun c => nav.next c) cur\n    if result == nav.root", 'C01', 'climb while not the first child instead of the last', 'pre-order ++ from a leaf')
M('M002', 'Policy', 'Policy.preInc', "if result == nav.root then pure none else pure result", "pure result", 'C01', 'the climb ending in the root is not turned into end()', 'pre-order loops forever')
M('M003', 'Policy', 'Policy.preDec', "| some p => do pure (some (← keepCalling nav.last fuel p))\n\n/-- pre_order.hpp 56", "| some p => do pure (some (← keepCalling nav.first fuel p))\n\n/-- pre_order.hpp 56", 'C01', 'descend by first children in --', 'pre-order -- lands on the wrong node')
M('M004', 'Policy', 'Policy.preOrder', "nav.getHighestLeaf false fuel)", "nav.getHighestLeaf true fuel)", 'C01', 'go_last goes to the leftmost leaf', '--end() in pre-order')
M('M005', 'Policy', 'Policy.postInc', "| some p => do pure (some (← keepCalling nav.first fuel p))", "| some p => pure (some p)", 'C02', 'no descent after moving to the next sibling', 'post-order skips descendants')
M('M006', 'Policy', 'Policy.postDec', "| none => climb nav fuel (fun c => do pure (!(← nav.isFirst c))) (fun c => nav.prev c) cur\n\n/-- post_order", "| none => nav.prev cur\n\n/-- post_order", 'C02', 'no climb in --', 'post-order -- from a first child that is a leaf')
M('M007', 'Policy', 'Policy.inInc', "(fun s child _ => do pure (← nav.isLeft child, s))", "(fun s child _ => do pure (!(← nav.isRight child), s))", 'C03', 'test not-right instead of left (equivalent on nodes below the root)', 'none: equivalent edit, kept to see that only the proof notices')
M('M008', 'Policy', 'Policy.inInc', "if found then pure result else pure none", "pure result", 'C03', 'found flag ignored', 'in-order never ends')
M('M009', 'Policy', 'Policy.inOrder', "(fun nav fuel => do pure (some (← keepCalling nav.left fuel (← deref nav.root))))", "(fun nav fuel => do pure (some (← keepCalling nav.first fuel (← deref nav.root))))", 'C03', 'begin() follows first children instead of left children', 'in-order begins in the wrong place when a left child is missing')
M('M010', 'Policy', 'Policy.bfsInc', "| some fc => pure ⟨some result, open_ ++ [fc]⟩\n    | none => pure ⟨some result, open_⟩\n\n", "| some fc => pure ⟨some result, fc :: open_⟩\n    | none => pure ⟨some result, open_⟩\n\n", 'C04', 'push_front instead of push_back', 'breadth-first becomes depth-first')
M('M011', 'Policy', 'Policy.bfsInc', "| some sib => sib :: rest", "| some sib => rest ++ [sib]", 'C04', 'the next sibling is queued at the back', 'breadth-first visits children of the first sibling too early')
M('M012', 'Policy', 'Policy.bfsDec', "| none => do nav.getRowExtremum false fuel (← deref (← nav.parent cur))", "| none => do nav.getRowExtremum true fuel (← deref (← nav.parent cur))", 'C04', '-- goes to the leftmost node of the row above', 'breadth-first -- across rows')
M('M013', 'Policy', 'Policy.bfsMake', "let acc ← bfsScan nav fuel none fuel node acc\n", "", 'C08', 'nodes right of the parent forgotten when an iterator is made in the middle', '++ from a converted breadth-first iterator skips nodes')
M('M014', 'Policy', 'Policy.bfsMake', "let acc ← bfsChild nav cur acc\n    pure ⟨some cur, acc⟩", "pure ⟨some cur, acc⟩", 'C08', 'own first child not queued', '++ from a converted breadth-first iterator misses a subtree')
M('M015', 'Policy', 'Policy.breadthFirst', "goLast nav fuel _ := do pure ⟨← nav.getDeepestExtremumChild false fuel, []⟩", "goLast nav fuel _ := do pure ⟨← nav.getDeepestExtremumChild true fuel, []⟩", 'C04', '--end() goes to the leftmost deepest node', 'backward breadth-first')
M('M016', 'Policy', 'Policy.leavesDescend', "if (← nav.next node).isSome then node :: st else st", "if (← nav.first node).isSome then node :: st else st", 'C05', 'pushes nodes with children instead of nodes with a next sibling', 'leaves loop')
M('M017', 'Policy', 'Policy.leavesInc', "| [] => pure ⟨none, []⟩\n  | top :: st => do", "| [] => pure ⟨nav.root, []⟩\n  | top :: st => do", 'C05', 'end of the stack gives the root', 'leaves loop never ends')
M('M018', 'Policy', 'Policy.siblings', "(fun nav _ => do nav.first (← deref nav.root)) (fun nav _ => do nav.last (← deref nav.root))", "(fun nav _ => do nav.first (← deref nav.root)) (fun nav _ => do nav.first (← deref nav.root))", 'C06', 'go_last goes to the first child', '--end() of siblings')
M('M019', 'Policy', 'Policy.fixed', "inc _ _ _ aux := pure ⟨none, aux⟩", "inc _ _ a aux := pure ⟨some a, aux⟩", 'C06', '++ stays', 'fixed loop never ends')
M('M020', 'Policy', 'Iter.inc', "| some _ => P.goFirst nav fuel s.aux\n    | none => pure s", "| some _ => P.goLast nav fuel s.aux\n    | none => pure s", 'C01', '++ on end() goes to the last element', 'begin()')
M('M021', 'Policy', 'Iter.dec', "| some _ => P.goLast nav fuel s.aux", "| some _ => P.goFirst nav fuel s.aux", 'C01', '-- on end() goes to the first element', 'rbegin()')
M('M022', 'Policy', 'Iter.eq', "s1.cur == s2.cur && nav1.root == nav2.root", "s1.cur == s2.cur", 'C33', 'roots not compared', 'end() of different trees compare equal')
M('M023', 'Policy', 'Iter.go', "P.make nav fuel (← f (← deref s.cur))", "pure ⟨← f (← deref s.cur), s.aux⟩", 'C11', 'go_* keeps the old queue', 'breadth-first iterator after go_parent()')
M('M024', 'Policy', 'Iter.otherPolicy', "Q.make nav fuel s.cur", "pure ⟨s.cur, []⟩", 'C08', 'conversion does not rebuild the queue', 'iteration after conversion to breadth_first')
# --- navigator algorithms
M('M025', 'Nav', 'Nav.otherBranchLoop', "pure (!b, l - 1))", "pure (!b, l))", 'C11', 'level not counted while climbing', 'same-row neighbour at the wrong depth')
M('M026', 'Nav', 'Nav.otherBranchLoop', "if crossed == nav.root then pure none", "if lvl == 0 then pure none", 'C11', 'wrong stop test', 'neighbour missed')
M('M027', 'Nav', 'Nav.otherBranchLoop', "pure (decide (l + 1 ≥ 0), l + 1)", "pure (decide (l + 1 ≥ 1), l + 1)", 'C11', 'off by one in the descent', 'neighbour one row too deep')
M('M028', 'Nav', 'Nav.getRowExtremum', "(fun (l : Int) _ parent => pure (some parent == nav.root, l - 1))", "(fun (l : Int) _ parent => pure (some parent == nav.root, l))", 'C11', 'depth not counted', 'row extremum')
M('M029', 'Nav', 'Nav.deepestLoop', "if curLvl > deepLvl then", "if curLvl ≥ deepLvl then", 'C12', 'ties go to the later node', 'leftmost deepest child becomes the rightmost one')
M('M030', 'Nav', 'Nav.getHighestLeaf', "(if left then nav.first else nav.last) fuel r\n  pure (some a)", "(if left then nav.last else nav.first) fuel r\n  pure (some a)", 'C12', 'sides exchanged', 'highest leaf')
M('M031', 'Nav', 'keepCalling', "| none => pure p", "| none => pure 0", 'C01', 'result lost', 'descent')
# --- filter
M('M032', 'Filter', 'FilterIter.moveLoop', "if ← p a then pure s else moveLoop P nav fuel p m n s", "if ← p a then moveLoop P nav fuel p m n s else pure s", 'C32', 'predicate inverted', 'filtered loop')
M('M033', 'Filter', 'FilterIter.wrap', "if ← p a then pure s else move P nav fuel p .inc s", "pure s", 'C32', 'first element not checked', 'filtered loop begins with an excluded element')
M('M034', 'Filter', 'PredNav.next', "nextLoop nav p fuel (← nav.next a)", "nextLoop nav p fuel (some a)", 'C31', 'starts at the node itself', 'filtered next sibling')
M('M035', 'Filter', 'PredNav.first', "else next nav p fuel r", "else pure none", 'C31', 'no search after the first child', 'filtered first child')
M('M036', 'Filter', 'PredNav.left', "| some r => if ← p r then pure (some r) else pure none\n\ndef right", "| some r => pure (some r)\n\ndef right", 'C31', 'predicate not asked for left children', 'filtered left child')
# --- nary nodes
M('M037', 'NaryNode', 'Nary.manageParentLast', "if n.next.isNone then h.modify p", "if n.prev.isNone then h.modify p", 'C24', 'last_child set by the first child', 'links of a tree made from a literal')
M('M038', 'NaryNode', 'Nary.copy', "let (h, a) ← copy fuel h c (some this) none", "let (h, a) ← copy fuel h c parent none", 'C13', 'children of a copy get the wrong parent', 'copies')
M('M039', 'NaryNode', 'Nary.copy', "⟨o.value, parent, o.following, prev, none, none, none⟩\n    let h ← match o.next", "⟨o.value, parent, 0, prev, none, none, none⟩\n    let h ← match o.next", 'C13', 'following_size not copied', 'children() of a copy')
M('M040', 'NaryNode', 'Nary.copy', "let (h, a) ← copy fuel h nx parent (some this)", "let (h, a) ← copy fuel h nx parent none", 'C13', 'prev_sibling of copies not set', 'get_prev_sibling in a copy')
M('M041', 'NaryNode', 'Nary.ofLits', "⟨t.label, parent, ts.length, prev, none, none, none⟩", "⟨t.label, parent, ts.length + 1, prev, none, none, none⟩", 'C24', 'following_siblings off by one', 'tree from a literal')
M('M042', 'NaryNode', 'Nary.dealloc', "    let h ← dealloc fuel h n.next\n", "", 'C15', 'siblings not released', 'leak')
M('M043', 'NaryNode', 'Nary.dealloc', "    let n ← h.read a\n    let h ← dealloc fuel h n.first\n    let h ← dealloc fuel h n.next\n    h.free a", "    let n ← h.read a\n    let h ← h.free a\n    let h ← dealloc fuel h n.first\n    dealloc fuel h n.next", 'C16', 'parent destroyed before its children', 'order of destruction')
M('M044', 'NaryNode', 'Nary.replaceWith', "following := n.following, prev := n.prev, next := n.next })\n      let h ←", "following := 0, prev := n.prev, next := n.next })\n      let h ←", 'C17', 'replacement does not take following_size', 'insert_over in the middle')
M('M045', 'NaryNode', 'Nary.relink', "| some y => some y | none => n.prev", "| some y => n.prev | none => n.prev", 'C17', 'next sibling keeps pointing before the replacement', 'insert_over, then get_prev_sibling')
M('M046', 'NaryNode', 'Nary.relink', "if ← isLastChild h this then", "if ← isFirstChild h this then", 'C17', 'wrong end updated', 'insert_over of a last child')
M('M047', 'NaryNode', 'Nary.prepend', "following := nf.following + 1", "following := nf.following", 'C18', 'following_size of the new first child one short', 'insert_child_front')
M('M048', 'NaryNode', 'Nary.prepend', "h.modify f (fun m => { m with prev := some y })", "pure h", 'C18', 'prev_sibling of the old first child not set', 'insert_child_front')
M('M049', 'NaryNode', 'Nary.append', "| some f => bumpLoop fuel h (some f)", "| some _ => pure h", 'C18', 'following_size of the old children not incremented', 'insert_child_back')
M('M050', 'NaryNode', 'Nary.append', "h.modify this (fun m => { m with last := some y })\n\n/-- The loop of nary_node.hpp 363", "pure h\n\n/-- The loop of nary_node.hpp 363", 'C18', 'last_child not updated', 'insert_child_back')
M('M051', 'NaryNode', 'Nary.unlinkLoop', "following := m.following - 1", "following := m.following", 'C19', 'counters of earlier siblings not decremented', 'erase of a middle child')
M('M052', 'NaryNode', 'Nary.replaceWith', "let h ← h.modify b (fun m => { m with next := n.next })", "pure ()", 'C19', 'erased node stays linked', 'erase of a middle child')
M('M053', 'NaryNode', 'Nary.getChild', "if index == nf.following then pure n.last else", "if index == nf.following + 1 then pure n.last else", 'C11', 'off by one in the shortcut to the last child', 'get_child(children())')
M('M054', 'NaryNode', 'Nary.children', "pure ((← h.read f).following + 1)", "pure (← h.read f).following", 'C11', 'first child not counted', 'children()')
M('M055', 'NaryNode', 'Nary.nav', "prev a := if some a == root then pure none else do pure (← h.read a).prev", "prev a := do pure (← h.read a).prev", 'C11', 'root not a boundary for get_prev_sibling', 'views')
M('M056', 'NaryNode', 'Nary.sizeFrom', "pure (1 + (← sizeFrom fuel h n.first) + (← sizeFrom fuel h n.next))", "pure (1 + (← sizeFrom fuel h n.first))", 'C20', 'only first children counted', 'size()')
M('M057', 'NaryNode', 'Nary.arityLoop', "arityLoop fuel h n.next (max acc a)", "arityLoop fuel h n.next a", 'C21', 'no maximum', 'arity()')
M('M058', 'NaryNode', 'Nary.eq', "if !eqv n.value m.value then pure false", "if eqv n.value m.value then pure false", 'C22', 'value test inverted', '==')
M('M059', 'NaryNode', 'Nary.eq', "if (← children h a) != (← children h' b) then pure false\n    else do", "do", 'C22', 'numbers of children not compared', '== of trees of different shape')
# --- binary nodes
M('M060', 'BinaryNode', 'Binary.attach', "| some r => h.modify r (fun m => { m with parent := some this })\n    | none => pure h\n\n/-- binary_node.hpp 55", "| some _ => pure h\n    | none => pure h\n\n/-- binary_node.hpp 55", 'C13', 'right child not attached', 'copies')
M('M061', 'BinaryNode', 'Binary.copy', "h.modify this (fun m => { m with right := some a })\n      | none => pure h\n    let h ← attach h this\n    pure (h, this)\n\n/-- binary_node.hpp 70", "h.modify this (fun m => { m with left := some a })\n      | none => pure h\n    let h ← attach h this\n    pure (h, this)\n\n/-- binary_node.hpp 70", 'C13', 'right child copied to the left', 'copies')
M('M062', 'BinaryNode', 'Binary.ofLit\'', "| _ :: c :: _ => (match c.label with", "| c :: _ => (match c.label with", 'C24', 'first slot used for both children', 'tree from a literal')
M('M063', 'BinaryNode', 'Binary.dealloc', "    let h ← dealloc fuel h n.right\n", "", 'C15', 'right subtrees not released', 'leak')
M('M064', 'BinaryNode', 'Binary.replaceWith', "if ← isLeftChild h this then h.modify p", "if ← isRightChild h this then h.modify p", 'C17', 'sides exchanged', 'insert_over in a binary tree')
M('M065', 'BinaryNode', 'Binary.replaceWith', "| some y => h.modify y (fun m => { m with parent := some p })\n      | none => pure h\n    h.modify this", "| some _ => pure h\n      | none => pure h\n    h.modify this", 'C17', 'parent of the replacement not set', 'insert_over in a binary tree')
M('M066', 'BinaryNode', 'Binary.prepend', "let h ← if n.right.isNone then h.modify this (fun m => { m with right := m.left, left := none }) else pure h", "let h ← h.modify this (fun m => { m with right := m.left, left := none })", 'C18', 'shift without looking at the right child', 'insert_child_front drops a subtree')
M('M067', 'BinaryNode', 'Binary.append', "h.modify this (fun m => { m with right := some y })\n    else pure h", "h.modify this (fun m => { m with left := some y })\n    else pure h", 'C18', 'appended on the left', 'insert_child_back')
M('M068', 'BinaryNode', 'Binary.first', "| none => pure n.right\n\n/-- binary_node.hpp 159", "| none => pure none\n\n/-- binary_node.hpp 159", 'C11', 'an only right child is no first child', 'get_first_child')
M('M069', 'BinaryNode', 'Binary.prev', "(← h.read (← deref (← h.read a).parent)).left else", "(← h.read (← deref (← h.read a).parent)).right else", 'C11', 'previous sibling of a right child is itself', 'get_prev_sibling')
M('M070', 'BinaryNode', 'Binary.children', "(if n.left.isSome then 1 else 0) + (if n.right.isSome then 1 else 0)", "(if n.left.isSome then 1 else 0) + (if n.left.isSome && n.right.isSome then 1 else 0)", 'C11', 'an only right child not counted', 'children()')
M('M071', 'BinaryNode', 'Binary.calcSize', "pure (1 + l + r)", "pure (1 + max l r)", 'C20', 'height instead of size', 'size()')
M('M072', 'BinaryNode', 'Binary.arityLoop', "if acc == 2 then pure acc", "if acc == 1 then pure acc", 'C21', 'early return at one', 'arity()')
M('M073', 'BinaryNode', 'Binary.eq', "|| n.right.isSome != m.right.isSome then pure false", "then pure false", 'C22', 'presence of the right child not compared', '==')
M('M074', 'BinaryNode', 'Binary.getChild', "if n.left.isSome && n.right.isSome then pure n.right else pure none", "pure n.right", 'C11', 'second child is the right one even if it is the only one', 'get_child(1)')
# --- literals and conversion
M('M075', 'Lit', 'Lit.subtreeSize', "subtreeSizeL cs + (if v.isSome then 1 else 0)", "subtreeSizeL cs + 1", 'C24', 'empty slots counted', 'size() of a tree from a literal')
M('M076', 'Lit', 'Lit.subtreeArityL', "max (max n (subtreeArity t)) (subtreeArityL n ts)", "max n (subtreeArityL n ts)", 'C24', 'only the arity of the root', 'arity() of a tree from a literal')
M('M077', 'Lit', 'Binary.eqLit', "|| (← children h a) != Lit.childCount t then pure false", "then pure false", 'C24', 'numbers of children not compared', '== with a literal')
M('M078', 'Lit', 'Nary.eqLit', "if (← children h a) != Lit.childCount t then pure false\n    else match", "match", 'C24', 'numbers of children not compared', '== with a literal')
M('M079', 'Lit', 'Nary.ofBinary', "let nx ← Binary.next hb other", "let nx ← Binary.prev hb other", 'C23', 'previous instead of next sibling', 'conversion of a binary tree')
M('M080', 'Lit', 'Nary.ofBinary', "let fol ← Binary.followingSiblings hb other", "let fol ← Binary.children hb other", 'C23', 'following_size is the number of children', 'conversion of a binary tree')
M('M081', 'Lit', 'Nary.eqBinary', "(← deref (← Binary.next hb b))", "(← deref (← Binary.first hb b))", 'C23', 'sibling compared with child', '== of an nary and a binary tree')
# --- trees
M('M082', 'Tree', 'TreeOps.assign', "| some _ => K.dealloc h.fuel h r.root\n    | none => pure h\n  pure (h, ⟨root, size, arity, root⟩)", "| some _ => (pure h : Res (Heap ν))\n    | none => pure h\n  pure (h, ⟨root, size, arity, root⟩)", 'C15', 'old nodes not released', 'assignment leaks')
M('M083', 'Tree', 'TreeOps.assign', "pure (h, ⟨root, size, arity, root⟩)", "pure (h, ⟨root, size, arity, r.navRoot⟩)", 'C13', 'navigator keeps the old root', 'iteration after assignment')
M('M084', 'Tree', 'TreeOps.sizeQ', "if r.size == 0 then do", "if r.size == 1 then do", 'C20', 'wrong test for an unknown size', 'size()')
M('M085', 'Tree', 'TreeOps.arityQ', "pure (n, { r with arity := n })", "pure (n, { r with arity := n, size := n })", 'C20', 'arity() writes the size cache', 'size() after arity()')
M('M086', 'Tree', 'TreeOps.replaceNode', "size := wadd r.size (wsub rs 1), arity := 0 }", "size := wadd r.size rs, arity := 0 }", 'C20', 'replaced leaf not subtracted', 'size() after insert_over of a leaf')
M('M087', 'Tree', 'TreeOps.replaceNode', "| some _ => pure (h, { r with size := 0, arity := 0 }, some a)", "| some _ => pure (h, { r with size := 0 }, some a)", 'C21', 'arity kept when a subtree is replaced', 'arity() after insert_over')
M('M088', 'Tree', 'TreeOps.modifySubtree', "let h ← K.dealloc h.fuel h old\n      pure (h, r, .ret ⟨st, pos.root⟩)", "pure (h, r, .ret ⟨st, pos.root⟩)", 'C15', 'replaced subtree not released', 'insert_over leaks')
M('M089', 'Tree', 'TreeOps.addChild', "size := wadd r.size rs, arity := max ra (max r.arity loc)", "size := wadd r.size rs, arity := max ra r.arity", 'C21', 'children of the position not counted', 'arity() after insert_child')
M('M090', 'Tree', 'TreeOps.addChild', "size := wadd r.size rs, arity := max ra (max r.arity loc)", "arity := max ra (max r.arity loc)", 'C20', 'size not updated', 'size() after insert_child')
M('M091', 'Tree', 'TreeOps.addChild', "let h ← if front then K.prepend h.fuel h a node else K.append h.fuel h a node", "let h ← if front then K.append h.fuel h a node else K.prepend h.fuel h a node", 'C18', 'front and back exchanged', 'insert_child_front/back')
M('M092', 'Tree', 'TreeOps.addChild', "if ← K.full h a then do\n      let h ← K.dealloc h.fuel h node\n", "if ← K.full h a then do\n", 'C25', 'node leaked when the binary node is full', 'insert_child that throws')
M('M093', 'Tree', 'TreeOps.eraseSubtree', "let h ← K.dealloc h.fuel h old\n      pure (h, r, .ret ())", "pure (h, r, .ret ())", 'C15', 'erased subtree not released', 'erase leaks')
M('M094', 'Tree', 'TreeOps.erase', "| some _ => pure (h, r, .ret ⟨next, pos.root⟩)", "| some _ => pure (h, r, .ret pos)", 'C27', 'returns the erased position', 'iterator returned by erase')
M('M095', 'Tree', 'TreeOps.eraseRange', "| .ret _ => eraseRange n h r ⟨next, first.root⟩ last", "| .ret _ => pure (h, r, .ret ⟨next, first.root⟩)", 'C27', 'only one element erased', 'erase(first, last)')
M('M096', 'Tree', 'World.newCopy', "pure (W.put x (some ⟨p, r.size, r.arity, p⟩))", "pure (W.put x (some ⟨r.root, r.size, r.arity, r.root⟩))", 'C13', 'shares the nodes', 'copy construction')
M('M097', 'Tree', 'World.newMove', ".put y (some TreeRec.empty))\n\n/-- tree.hpp 128", ".put y (some r))\n\n/-- tree.hpp 128", 'C14', 'moved-from tree keeps its nodes', 'double ownership')
M('M098', 'Tree', 'World.swap', "pure ((W.put x (some ry)).put y (some rx))", "pure ((W.put x (some ry)).put y (some ry))", 'C14', 'one direction only', 'swap')
M('M099', 'Tree', 'World.assignMove', "TreeOps.assign K W.heap (← W.get x) ry.root ry.size ry.arity", "TreeOps.assign K W.heap (← W.get x) ry.root ry.arity ry.size", 'C20', 'size and arity exchanged', 'size() after move assignment')
M('M100', 'Tree', 'World.assignLit', "(some a) (K.litSize l) (K.litArity l)\n", "(some a) (K.litArity l) (K.litSize l)\n", 'C24', 'size and arity exchanged', 'assignment of a literal')
M('M101', 'Tree', 'World.insertOver', "| .moveOf y => if x = y then pure (W, .threw) else do\n      let (W, p, rs, ra) ← overNode", "| .moveOf y => do\n      let (W, p, rs, ra) ← overNode", 'C25', 'self insertion not refused', 'insert_over(it, std::move(self))')
M('M102', 'Tree', 'World.childNode', "pure (W.setHeap h, some a, K.litSize l, K.litArity l)\n  | .emplaceLit l => do\n    let (h, a) ← K.ofLit W.heap l\n    pure (W.setHeap h, some a, K.litSize l, K.litArity l)\n  | .copyOf y => do\n    let (W, p) ← copyNodes K W (← W.get y)\n    pure (W, p, 1, 0)", "pure (W.setHeap h, some a, 1, 0)\n  | .emplaceLit l => do\n    let (h, a) ← K.ofLit W.heap l\n    pure (W.setHeap h, some a, K.litSize l, K.litArity l)\n  | .copyOf y => do\n    let (W, p) ← copyNodes K W (← W.get y)\n    pure (W, p, 1, 0)", 'C20', 'literal appended at the back counted as one node', 'size() after insert_child_back of a literal')
# --- comparison of trees
M('M103', 'Compare', 'World.eq', "if a != a' then pure (W, false)\n      else match rx.root with\n        | none => pure (W, true)", "if a != a' then pure (W, false)\n      else match rx.root with\n        | none => pure (W, false)", 'C22', 'two empty trees compare different', '==')
M('M104', 'Compare', 'World.ne', "pure (W, !b)", "pure (W, b)", 'C22', 'not negated', '!=')
M('M105', 'Compare', 'World.newBinary', "pure (W.put x (some ⟨p, s, a, p⟩), B)", "pure (W.put x (some ⟨p, a, s, p⟩), B)", 'C23', 'size and arity exchanged', 'nary tree from a binary tree')
M('M106', 'Compare', 'World.eqNone', "pure r.root.isNone", "pure r.root.isSome", 'C24', 'inverted', 'comparison with n()')
M('M107', 'Compare', 'World.eqBinary', "| none => pure (W, B, true)", "| none => pure (W, B, false)", 'C23', 'two empty trees compare different', '== of an empty nary and an empty binary tree')
M('M108', 'Policy', 'Policy.bfsUpdate', "| some c => pure (open_ ++ [c])\n      | none => pure open_\n    | none => pure open_\n  pure", "| some _ => pure open_\n      | none => pure open_\n    | none => pure open_\n  pure", 'C26', 'first child of the replacement not queued', 'going on after insert_over with a breadth-first iterator')
M('M109', 'Policy', 'Policy.bfsUpdate', "pure ⟨if s.cur == some a then r else s.cur, open_⟩", "pure ⟨s.cur, open_⟩", 'C26', 'iterator keeps the replaced node', 'iterator returned by insert_over')
M('M110', 'Policy', 'Policy.update', "fun _ s a r => pure (if s.cur == some a then ⟨r, s.aux⟩ else s)", "fun _ s _ _ => pure s", 'C26', 'iterator keeps the replaced node', 'iterator returned by insert_over')
# --- printing
M('M111', 'Print', 'printNode', "if limit ≤ 0 then pure ([], limit)", "if limit ≤ 1 then pure ([], limit)", 'C30', 'limit test off by one', 'the last allowed node is not printed')
M('M112', 'Print', 'printNode', "let limit := limit - 1\n        if limit > 0", "let limit := limit\n        if limit > 0", 'C30', 'the first child is not counted', 'more nodes printed than the limit allows')
M('M113', 'Print', 'printRest', "let limit := limit - 1\n      if limit > 0", "let limit := limit\n      if limit > 0", 'C30', 'siblings are not counted', 'limit not respected')
M('M114', 'Print', 'printNode', "let (o, limit) ← printNode bin nav lab step fuel (ind + step) limit c\n", "let (o, _) ← printNode bin nav lab step fuel (ind + step) limit c\n", 'C30', 'limit passed by value', 'limit not shared by the recursive calls')
M('M115', 'Print', 'printNode', "let gap ← if bin then nav.isRight c else pure false", "let gap ← if bin then nav.isLeft c else pure false", 'C30', 'missing left child shown for left children', 'text of binary trees')
M('M116', 'Print', 'printRest', "pure ([\",\\n\"] ++ o ++ o', limit)", "pure (o ++ o', limit)", 'C30', 'comma between siblings dropped', 'text')
M('M117', 'Print', 'printRest', "else pure ([\",\\n\", spaces ind, \"...\"], limit)", "else pure ([], limit)", 'C30', 'no ... when siblings are cut', 'the text does not say that something was cut')
M('M118', 'Print', 'printNode', "(o', limit) ← printRest bin nav lab step fuel (ind + step) limit c", "(o', limit) ← printRest bin nav lab step fuel ind limit c", 'C30', 'siblings indented like their parent', 'nesting')
M('M119', 'Print', 'Nary.printView', "printTree false (Nary.nav h root)", "printTree false (Nary.nav h none)", 'C30', 'navigator without root: equivalent for first/next asked below the root', 'none expected below the root')
# --- patterns
M('M120', 'Pattern', 'Search.childIt', "| some p => pure p\n    | none => pure a", "| some _ => pure a\n    | none => pure a", 'C35', 'root of the child iterator is the node itself (siblings.hpp 13-18 not applied)', 'none: equivalent as long as only siblings are asked')
M('M121', 'Pattern', 'Search.childIt', "(nav (some root)).first a⟩", "(nav (some root)).last a⟩", 'C35', 'the search of children starts at the last one', 'arguments match in the wrong order')
M('M122', 'Pattern', 'Search.loop', "if ok then pure (true, m.set i (some a), it) else", "if ok then pure (true, m, it) else", 'C35', 'matched node not remembered', 'result is lost')
M('M123', 'Pattern', 'Search.loop', "let it ← next nav it a\n", "", 'C36', 'iterator not advanced', 'search never ends')
M('M124', 'Pattern', 'Search.loop', "| none => if null then pure (true, m, begin_) else pure (false, m, it)", "| none => pure (null, m, it)", 'C36', 'a skipped opt consumes the siblings', 'matchers after a skipped opt find nothing')
M('M125', 'Pattern', 'Search.this', "if !test (← val a) then pure (false, m)\n      else do\n        let (ok, m, _) ← all ps m (← childIt nav it a)\n        pure (ok, m)) i false", "if !test (← val a) then pure (false, m)\n      else pure (true, m)) i false", 'C35', 'one(v)(args) ignores its arguments', 'search true where nothing matches')
M('M126', 'Pattern', 'Search.this', "loop nav (fun m it a => do\n      if !test (← val a) then pure (false, m)", "loop nav (fun m it a => do\n      if test (← val a) then pure (false, m)", 'C35', 'value test inverted', 'search')
M('M127', 'Pattern', 'Search.this', "if ok then pure (true, m.set i (headMark ps m), it)", "if ok then pure (true, m, it)", 'C34', 'a capture does not remember the node', 'assign_mark gives an empty tree')
M('M128', 'Pattern', 'Search.all', "all ps (resetL (p :: ps) m) { it with cur := m p.id }", "all ps (resetL (p :: ps) m) it", 'C37', 'rematching does not go back to the given up node', 'a match is missed')
M('M129', 'Pattern', 'Search.all', "all ps (resetL (p :: ps) m) { it with cur := m p.id }", "all ps m { it with cur := m p.id }", 'C37', 'reset dropped', 'stale nodes remain in the result')
M('M130', 'Pattern', 'Search.all', "else if p.matchesNull && (m p.id).isSome then\n        all ps (resetL (p :: ps) m) { it with cur := m p.id }\n      else pure (false, m, it)", "else pure (false, m, it)", 'C37', 'no rematching', 'an opt that could be skipped makes the search fail')
M('M131', 'Pattern', 'Search.search', "all nav val fuel [p] (resetL [p] m)", "all nav val fuel [p] m", 'C35', 'the pattern is not reset before a search', 'result depends on previous searches')
M('M132', 'Pattern', 'Pattern.result', "| none => pure (h, none)\n    | some _ => resultHead m ps h", "| none => pure (h, none)\n    | some _ => pure (h, none)", 'C35', 'captures contribute nothing', 'result misses captured nodes')
M('M133', 'Pattern', 'Pattern.resultL', "B.attach h r c a\n    resultL m r ps h", "B.attach h r c a\n    pure h", 'C35', 'only the first child is attached', 'result misses nodes')
M('M134', 'Pattern', 'Pattern.stealL', "| some _ => K.dealloc h.fuel h ptr", "| some _ => (pure h : Res (Heap ν))", 'C36', 'results of earlier thieves not released', 'leak')
M('M135', 'Pattern', 'Pattern.result', "if stolen then pure (h, ptr)", "if stolen then pure (h, none)", 'C35', 'the stolen result is dropped', 'result empty')
M('M136', 'Pattern', 'Binary.builder', "fun n => if left then { n with left := some c } else { n with right := some c }", "fun n => if left then { n with right := some c } else { n with left := some c }", 'C35', 'left and right exchanged', 'shape of binary results')
M('M137', 'Pattern', 'Binary.builder', "    h.modify c (fun n => { n with parent := some r })", "    pure h", 'C35', 'parent link not set', 'result is not a well-formed tree')
M('M138', 'Pattern', 'Pat.captures', "| .node i .cpt f ps => .node i .cpt f ps :: capturesL ps", "| .node i .cpt f ps => capturesL ps ++ [.node i .cpt f ps]", 'C34', 'captures numbered in post-order', 'assign_mark(k) of nested captures')
M('M139', 'Pattern', 'Pat.captures', "| p :: ps => captures p ++ capturesL ps", "| p :: ps => capturesL ps ++ captures p", 'C34', 'captures numbered from the right', 'assign_mark(k)')
M('M140', 'Pattern', 'World.search', "pure (ok, ⟨m, s.typed || ok⟩)", "pure (ok, ⟨m, s.typed⟩)", 'C35', 'type not remembered', 'assign_result throws after a successful search')
M('M141', 'Pattern', 'World.assignMark', "p.captures[k - 1]?", "p.captures[k]?", 'C34', 'captures counted from 0', 'assign_mark(1)')
M('M142', 'Pattern', 'Pat.matchesNull', "| node _ .one _ _ => false", "| node _ .one _ ps => allNull ps && !ps.isEmpty", 'C35', 'one(v)(opt(w)) may match nothing', 'search true although the value is missing')
M('M143', 'Pattern', 'Pat.childMaySteal', ".length ≤ 1", ".length ≤ 2", 'C36', 'off by one in the number of arguments', 'result')
# --- comparison
M('M144', 'Compare', 'World.eq', "if s != s' then pure (W, false)", "if s == s' then pure (W, true)", 'C22', 'equal sizes taken for equality', 'trees of the same size compare equal')
M('M145', 'Compare', 'World.eq', "if rx.root.isNone != ry.root.isNone then pure (W, false)\n  else do\n    let (W, s) ← W.size K x", "if false then pure (W, false)\n  else do\n    let (W, s) ← W.size K x", 'C22', 'emptiness not compared', 'invalid read for an empty operand')
M('M146', 'Compare', 'World.ne', "pure (W, !b)", "pure (W, b)", 'C22', '!= is ==', '!=')
M('M147', 'Compare', 'World.eqWith', "| none => pure (W, false)", "| none => pure (W, true)", 'C24', 'an empty tree equals a literal', 'none: a literal with a value has size > 0, equivalent when the counts are right')
M('M148', 'Compare', 'World.eqNone', "pure r.root.isNone", "pure r.root.isSome", 'C24', '== n() inverted', '== n()')
M('M149', 'Compare', 'World.assignBinary', "W.heap (← W.get x) p s a", "W.heap (← W.get x) p a s", 'C23', 'size and arity exchanged', 'size() of a converted tree')
M('M150', 'Compare', 'World.newBinary', "some ⟨p, s, a, p⟩", "some ⟨p, s, a, none⟩", 'C23', 'root of the navigator not set', 'iteration of the converted tree')
# --- predicate navigator
M('M151', 'Filter', 'PredNav.right', "def right (nav : Nav) (p : Addr → Res Bool) (a : Addr) : Res Ptr := do\n  match ← nav.right a with\n  | none => pure none\n  | some r => if ← p r then pure (some r) else pure none", "def right (nav : Nav) (p : Addr → Res Bool) (a : Addr) : Res Ptr := do\n  nav.right a", 'C31', 'predicate not asked for right children', 'filtered right child')
M('M152', 'Filter', 'PredNav.first', "| some r => if ← p r then pure (some r) else next nav p fuel r", "| some r => if ← p r then pure (some r) else pure none", 'C38', 'first child failing the predicate ends the row', 'filtered iteration')
M('M153', 'Filter', 'PredNav.nextLoop', "nextLoop nav p n (← nav.next r)", "pure none", 'C38', 'stop at the first sibling that fails', 'filtered iteration')
M('M154', 'Filter', 'PredNav.nav', "next := next nv p fuel, ", "", 'C38', 'next sibling ignores the predicate', 'filtered iteration')

# --- star (search)
M('M155', 'Pattern', 'Search.below', "if some p == cut then pure false else do pure (test (← val p))", "do pure (test (← val p))", 'C40', 'subtree_cut ignored', 'two arguments of a star match one inside the other')
M('M156', 'Pattern', 'Search.below', "if some p == cut then pure false else do pure (test (← val p))", "if some x == cut then pure false else do pure (test (← val p))", 'C40', 'subtree_cut compared with the node instead of its parent', 'two arguments of a star match one inside the other')
M('M157', 'Pattern', 'Search.below', "if some p == cut then pure false else do pure (test (← val p))", "if some p == cut then pure false else do pure (test (← val x))", 'C40', 'value of the node instead of its parent', 'arguments of a star must be accepted by the star')
M('M158', 'Pattern', 'Search.acknowledge', "| some i => s.cut i (some a)", "| some _ => s", 'C40', 'acknowledge dropped', 'two arguments of a star match one inside the other')
M('M159', 'Pattern', 'Search.targetIt', "pure ⟨.pre i test, some a, ← Policy.preInc (navOf nav val fuel s (.pre i test) (some a)) fuel a, []⟩", "pure ⟨.pre i test, some a, some a, []⟩", 'C40', 'the iterator of a star starts at the node itself', 'the argument takes the node the star takes')
M('M160', 'Pattern', 'Search.rematch', "let s := s.cut i none\n        let start", "let start", 'C40', 'subtree_cut not cleared before rematching', 'ramification walks in the wrong tree')
M('M161', 'Pattern', 'Search.ramification', "(fun (_ : Bool) _ child => do pure (!(← nv.isLast child), true))", "(fun (_ : Bool) _ child => do pure (!(← nv.isFirst child), true))", 'C40', 'first instead of last child in go_depth_first_ramification', 'rematching')
M('M162', 'Pattern', 'Search.ramification', "if found then pure r else pure none", "pure r", 'C40', 'found flag ignored in go_depth_first_ramification', 'rematching loops')
M('M163', 'Pattern', 'Search.notIn', "pure (!test (← val a))", "pure (test (← val a))", 'C40', 'a possessive star offers the accepted leaves', 'possessive star')
M('M164', 'Pattern', 'Search.this', "if !ok && q != .possessive && childMaySteal ps then do\n          let (ok, s, _) ← all ps none none s (fixedIt it a)\n          pure (ok, s)\n        else pure (ok, s)) i ack (matchesNull (Pat.node i (.star q) test ps))", "if !ok && childMaySteal ps then do\n          let (ok, s, _) ← all ps none none s (fixedIt it a)\n          pure (ok, s)\n        else pure (ok, s)) i ack (matchesNull (Pat.node i (.star q) test ps))", 'C40', 'a possessive star gives up its node', 'possessive star matches where it must not')
M('M165', 'Pattern', 'Search.this', "if !ok && q != .possessive && childMaySteal ps then do\n          let (ok, s, _) ← all ps none none s (fixedIt it a)\n          pure (ok, s)\n        else pure (ok, s)) i ack (matchesNull (Pat.node i (.star q) test ps))", "pure (ok, s)) i ack (matchesNull (Pat.node i (.star q) test ps))", 'C41', 'a star is never missing when it accepts the value', 'star()(one(1)) is not found in 1')
M('M166', 'Pattern', 'Search.this', "let (ok, s, _) ← all ps (some i) (if q = .possessive then none else some i) s (← targetIt nav val fuel i q test s a)", "let (ok, s, _) ← all ps (some i) (if q = .possessive then none else some i) s (← childIt nav it a)", 'C41', 'star looks only at the children', 'deep match missed')
M('M167', 'Pattern', 'Search.navOf', "| .leaves test => PredNav.nav (nav root) (below nav val none test) fuel", "| .leaves test => nav root", 'C40', 'predicate navigator dropped for a possessive star', 'arguments match below rejected nodes')
M('M168', 'Pattern', 'Search.targetIt', "let r ← FilterIter.wrap Policy.leaves nv fuel (notIn val test) r\n    pure", "pure", 'C40', 'first leaf not filtered', 'a possessive star gives a leaf it accepts to its argument')
M('M169', 'Pattern', 'Search.next', "| .leaves test => do\n    let r ← FilterIter.move Policy.leaves (navOf nav val fuel s it.walk it.root) fuel (notIn val test) .inc ⟨some a, it.aux⟩", "| .leaves test => do\n    let r ← Policy.leaves.inc (navOf nav val fuel s it.walk it.root) fuel ⟨some a, it.aux⟩", 'C40', 'leaves not filtered by ++', 'possessive star', expect_model_error=None)
M('M170', 'Pattern', 'Search.loop', "let s := acknowledge ack (s.mark i (some a)) a\n        pure (true, s, ← next nav val fuel s it a)", "let s := s.mark i (some a)\n        let it ← next nav val fuel s it a\n        pure (true, acknowledge ack s a, it)", 'C40', 'acknowledge after the iterator is advanced', 'the next argument is matched inside the first')
M('M171', 'Pattern', 'Search.rematch', "if ok then pure (true, s, it) else rematch this rest i p n s start", "if ok then pure (true, s, it) else rematch this rest i p n s it", 'C40', 'rematch continues from the wrong iterator', 'none: only the end test reads it')
M('M172', 'Pattern', 'Search.rematch', "let (ok, s, it) ← rest s it\n          if ok then", "if ok then", 'C40', 'siblings not searched after rematching', 'true although the next argument does not match')
M('M173', 'Pattern', 'Search.this', "if !test (← val a) then\n        if childMaySteal ps then do\n          let (ok, s, _) ← all ps none none s (fixedIt it a)\n          pure (ok, s)\n        else pure (false, s)\n      else do\n        let (ok, s, _) ← all ps (some i)", "if !test (← val a) then pure (false, s)\n      else do\n        let (ok, s, _) ← all ps (some i)", 'C41', 'a star that does not accept the node fails', 'star(9)(one(1)) is not found in 1')
# --- views
M('M174', 'View', 'View.at\'', "| .some a => if some a == r.navRoot then r.size else 0", "| .some _ => r.size", 'C39', 'size of the tree copied for an inner node', 'size() of a view')
M('M175', 'View', 'View.at\'', "| .some a => if some a == r.navRoot then r.arity else 0", "| .some _ => r.arity", 'C39', 'arity of the tree copied for an inner node', 'arity() of a view')
M('M176', 'View', 'View.at\'', "   | .none => 0,\n   cur⟩", "   | .none => 0,\n   r.navRoot⟩", 'C39', 'navigator keeps the root of the tree', 'iteration over a view leaves the subtree')
M('M177', 'View', 'View.at\'', "  ⟨cur,\n", "  ⟨r.root,\n", 'C39', 'view shows the whole tree', 'view at an iterator')
M('M178', 'View', 'View.eq', "if v.root.isNone != w.root.isNone then pure (v, w, false)", "if v.root.isNone then pure (v, w, true)", 'C39', 'an empty view equals every view', 'empty views')
M('M179', 'View', 'View.eq', "let b ← K.eq eqv h.fuel h n h m", "let b ← K.eq eqv h.fuel h n h n", 'C39', 'compares with itself', '== of views')
M('M180', 'View', 'View.eqBinary', "if s != s' then pure (v, w, false)", "if s == s' then pure (v, w, false)", 'C39', 'different when the sizes are equal', 'nary view == binary view', nth=1)
M('M181', 'View', 'View.eq', "if a != a' then pure (v, w, false)", "if a != a' then pure (v, w, true)", 'C39', 'equal when the arities differ', '== of views')
M('M182', 'View', 'View.ofTree', "⟨r.root, r.size, r.arity, r.navRoot⟩", "⟨r.root, r.arity, r.size, r.navRoot⟩", 'C39', 'size and arity exchanged', 'size() of a view')
# --- result of star
M('M183', 'Generate', 'Generate.check', "if q = .default ∧ s.left = 0 then", "if q = .default ∧ s.left = 1 then", 'C42', 'a default star stops one argument too early', 'the last argument is missing in the result')
M('M184', 'Generate', 'Generate.check', "if q = .default ∧ s.left = 0 then pure (false, s, g, false)\n  else match", "if q = .default ∧ q = .greedy then pure (false, s, g, false)\n  else match", 'C42', 'a default star never stops', 'what a default star takes')
M('M185', 'Generate', 'Generate.check', "if q = .default ∧ s.left = 0 then", "if (q = .default ∨ True) ∧ s.left = 0 then", 'C42', 'all stars stop when the arguments are reached', 'what a greedy star takes')
M('M186', 'Generate', 'Generate.check', "left := s.left - 1 }", "left := s.left }", 'C42', 'valid_targets not decremented', 'what a default star takes')
M('M187', 'Generate', 'Generate.check', "targets := release s.targets x, ", "", 'C42', 'the result of an argument is used and destroyed', 'no invalid access')
M('M188', 'Generate', 'Generate.check', "if (find s.targets p).isSome then pure (false, s, g, false)\n        else", "", 'C42', 'children of a matched node are added below its result', 'the result holds nodes that were not matched')
M('M189', 'Generate', 'Generate.check', "else do pure (test (value (← s.heap.read x)), s, g, false)\n      | none", "else do pure (!test (value (← s.heap.read x)), s, g, false)\n      | none", 'C42', 'value test inverted', 'the star takes nodes it does not accept')
M('M190', 'Generate', 'Generate.skip', "if ok then pure (s, some x, g, assigned)\n    else skip n s (← nextPair K root s.heap x g)", "if ok then pure (s, some x, g, assigned)\n    else if n = 0 then skip n s (← nextPair K root s.heap x g) else pure (s, none, g, false)", 'C42', 'the first sibling not taken ends the row', 'matches behind it are missing')
M('M191', 'Generate', 'Generate.nextPair', "if x = root then pure (none, none)\n  else do", "if x = root ∧ False then pure (none, none)\n  else do", 'C42', 'root not checked in get_next_sibling', 'none: get_next_sibling is never called for the root here')
M('M192', 'Generate', 'Generate.nextPair', "← follow (K.nav h none).next g)", "none)", 'C42', 'second pointer dropped by get_next_sibling', 'none: the new nodes have no next sibling when they are asked')
M('M193', 'Generate', 'Generate.place', "let h ← B.attach s.heap (← above) g x\n      pure", "let h := s.heap\n      pure", 'C42', 'the result of an argument is not attached', 'the arguments are missing in the result')
M('M194', 'Generate', 'Generate.place', "let (h, g) ← clone K value s.heap x\n    let h ← B.attach h (← above) g x\n    pure ({ s with heap := h }, some (x, g))", "let (h, g) ← clone K value s.heap x\n    pure ({ s with heap := h }, some (x, g))", 'C42', 'a new node is not attached', 'leak')
M('M195', 'Generate', 'Generate.next', "(do deref (← (K.nav s.heap none).parent e.2))", "(pure e.2)", 'C42', 'a sibling is attached below its sibling', 'nesting of the result')
M('M196', 'Generate', 'Generate.first', "let d ← (K.nav s.heap none).first e.2", "let d : Ptr := none", 'C42', 'children of the copy not looked at', 'an argument that is already in the result')
M('M197', 'Generate', 'Generate.bfs', "| some e => e :: open_\n", "| some e => open_ ++ [e]\n", 'C42', 'siblings are pushed behind', 'order of the levels: a default star')
M('M198', 'Generate', 'Generate.bfs', "| some e => open_ ++ [e]\n", "| some e => e :: open_\n", 'C42', 'children are pushed in front: depth first', 'order of the levels: a default star')
M('M199', 'Generate', 'Generate.bfs', "      | some e => open_ ++ [e]\n      | none => open_\n", "      | some _ => open_\n      | none => open_\n", 'C42', 'children are not visited', 'matches below are missing')
M('M200', 'Generate', 'Generate.run', "freeTargets K s.targets s.heap", "pure s.heap", 'C42', 'results that were not used are not destroyed', 'none for solid patterns: every result is used')
M('M201', 'Generate', 'Generate.run', "first K value B q test root fuel s (root, r)", "first K value B q test root fuel s (root, root)", 'C42', 'the source is extended instead of the copy', 'other trees do not change')
M('M202', 'Generate', 'Generate.keepAssigning', "let h ← keepAssigning n h g (← (K.nav h none).first c)\n", "let h ← keepAssigning n h g none\n", 'C43', 'only children, no grandchildren', 'what a greedy star takes')
M('M203', 'Generate', 'Generate.keepAssigning', "let h ← keepAssigning n h g (← (K.nav h none).first c)", "let h ← keepAssigning n h t (← (K.nav h none).first c)", 'C43', 'grandchildren attached to the wrong node', 'nesting of the result')
M('M204', 'Generate', 'Generate.keepAssigning', "then keepAssigning n h t (some c)", "then keepAssigning n h t (← (K.nav h none).next c)", 'C43', 'the loop goes on at the next child (what was meant)', 'the result is reached')
M('M205', 'Generate', 'Generate.climb', "climb n h ((t, c) :: cloned) p d", "climb n h cloned p d", 'C42', 'cloned nodes are not remembered', 'none with one argument, where nothing looks for them: thin patterns')
M('M206', 'Generate', 'Generate.climb', "| some r => do pure (← B.attach h r c t, cloned)", "| some r => do pure (← B.attach h r c p, cloned)", 'C42', 'wrong reference for assign_child_like', 'left or right of the result of a binary tree')
M('M207', 'Generate', 'Generate.climb', "climb n h ((t, c) :: cloned) p d", "climb n h ((t, c) :: cloned) p c", 'C42', 'the climb goes on with the old node', 'result is not a tree')
M('M208', 'Generate', 'Generate.store', "(x, p) :: l.filter (fun e => e.1 != x)", "(x, p) :: l.filter (fun e => e.1 == x)", 'C42', 'the other results are forgotten', 'arguments are missing, leak')
M('M209', 'Pattern', 'Pattern.targetsL', "⟨h, l, s.left + 1⟩", "⟨h, l, s.left⟩", 'C42', 'valid_targets not counted', 'what a default star takes')
M('M210', 'Pattern', 'Pattern.result', "let h ← climbL m [(a, r)] ps h", "let h ← climbL m [] ps h", 'C42', 'the copy of the top node is not remembered', 'the climb leaves the tree')
M('M211', 'Pattern', 'Pattern.result', "if q = .reluctant then do\n            let h ← climbL", "if q = .greedy then do\n            let h ← climbL", 'C42', 'a greedy star takes only the way to its arguments', 'what the quantifiers take')
M('M212', 'Pattern', 'Pattern.result', "let s ← targetsL m ps ⟨h, [], 0⟩\n            let h ← Generate.run K value B q test a s r", "let h ← Generate.run K value B q test a ⟨h, [], 0⟩ r", 'C42', 'results of the arguments are not made', 'arguments replaced by accepted nodes')
M('M213', 'Pattern', 'Pattern.result', "| .reluctant => pure (h, none)\n        | .default => do", "| .default => pure (h, none)\n        | .reluctant => do", 'C43', 'reluctant and default exchanged', 'star without arguments')
M('M214', 'Generate', 'Binary.builder', "let left ← Binary.isLeftChild h a", "let left ← Binary.isLeftChild h r", 'C42', 'side taken from the parent', 'left or right of the result of a binary tree')
# --- any pattern (C44)
M('M215', 'Pattern', 'Search.search', "all nav val fuel [p] none none (s.reset [p]) ⟨", "all nav val fuel [p] none none s ⟨", 'C44', 'marks of an earlier search are kept', 'matchers may remember nodes of another tree')
M('M216', 'Pattern', 'Search.all', "all ps ack rem (s.reset (p :: ps)) it", "all ps ack rem s it", 'C37', 'marks are kept when a matcher gives up its node', 'a given up node appears in the result')
M('M217', 'Pattern', 'Search.loop', "else loop step i ack null begin_ n s (← next nav val fuel s it a)", "else loop step i ack null begin_ n s (← next nav val fuel s begin_ a)", 'C44', 'the loop goes on from the first node only', 'none for walks without a stack: the node is given')
M('M218', 'Pattern', 'Search.rematch', "if ok then pure (true, s, it) else rematch this rest i p n s start", "if ok then pure (true, s, it) else rematch this rest i p n s { start with cur := none }", 'C41', 'rematching is tried once', 'a match is missed')
M('M219', 'Policy', 'Policy.preInc', "if result == nav.root then pure none else pure result", "pure result", 'C01', 'the walk does not stop at the root', 'the loop never ends')
M('M220', 'Pattern', 'Search.below', "let p ← deref (← (nav none).parent x)", "let p := x", 'C41', 'the predicate looks at the node, not at its parent', 'nodes below a rejected node are reached')
M('M221', 'Pattern', 'Search.childIt', "pure ⟨.siblings, some root, ← (nav (some root)).first a, []⟩", "pure ⟨.siblings, some root, some a, []⟩", 'C34', 'arguments are searched among the siblings', 'a child matches its own parent')
M('M222', 'Pattern', 'Search.fixedIt', "⟨.fixed, it.root, some a, []⟩", "⟨it.walk, it.root, some a, []⟩", 'C34', 'an argument that takes the place of its opt is searched among the siblings', 'a match at another node')
M('M223', 'Pattern', 'Search.otherNode', "| _ => pure { it with cur := p, aux := [] }", "| _ => pure { it with aux := [] }", 'C37', 'rematching does not go back to the given up node', 'a match is missed')
M('M224', 'Pattern', 'Search.ramification', "if found then pure r else pure none", "pure r", 'C41', 'the deepest first child is tried when nothing branches', 'a node is matched twice or a match is missed')
M('M225', 'Filter', 'PredNav.first', "| some r => if ← p r then pure (some r) else next nav p fuel r", "| some r => if ← p a then pure (some r) else next nav p fuel r", 'C44', 'the predicate is asked about the parent', 'an invalid access at the root')
# --- struct_node objects (C46, C24)
M('M226', 'StructNode', 'SNode.make', "mk v (setLevel (assignIndexes first 0) (0 + 1)) next 0 0", "mk v (setLevel first (0 + 1)) next 0 0", 'C46', 'indexes are not assigned', 'get_index() is always 0')
M('M227', 'StructNode', 'SNode.setLevel', "mk v (setLevel f (l + 1)) (setLevel n l) l i", "mk v (setLevel f l) (setLevel n l) l i", 'C46', 'the level of children is not increased', 'get_level() below the first level')
M('M228', 'StructNode', 'SNode.setLevel', "(setLevel n l) l i", "n l i", 'C46', 'the levels of siblings are not set', 'get_level() of later siblings')
M('M229', 'StructNode', 'SNode.withNext', "| mk v f _ _ _, s => make v f s", "| mk v f n _ _, s => make v f (match n with | empty => s | _ => n)", 'C46', 'an argument keeps the siblings it had', 'slots of another literal are taken over')
M('M230', 'StructNode', 'SNode.withFirst', "| mk v _ n _ _, c => make v c n", "| mk v f n _ _, c => make v (match f with | empty => c | _ => f) n", 'C46', 'a second call does not replace the children', 'e(a)(b) has the child a')
M('M231', 'StructNode', 'SNode.sizeFrom', "mk v f n _ _ => sizeFrom (accumulated + sizeFrom (if v.isSome then 1 else 0) f) n", "mk _ f n _ _ => sizeFrom (accumulated + sizeFrom 1 f) n", 'C46', 'empty slots are counted', 'subtree_size() counts n()')
M('M232', 'StructNode', 'SNode.arityFrom', "(arityFrom (countFrom 0 f) 0 f)", "(arityFrom own 0 f)", 'C46', 'children() of the outer node is used below', 'subtree_arity() of a deep literal')
M('M233', 'StructNode', 'SNode.countFrom', "(if v.isSome then accumulated + 1 else accumulated)", "(accumulated + 1)", 'C46', 'children() counts empty slots', 'children() of n(1)(n(), n(2))')
M('M234', 'StructNode', 'SNode.followingSiblings', "if n.isEmpty then 0 else 1 + followingSiblings n", "if n.isEmpty then 0 else 1", 'C24', 'following siblings are counted up to one', 'counters of a tree made from a literal with three children')
M('M235', 'StructNode', 'SNode.getChildren', "successors (s.childrenAll - 1) s.first", "successors (s.children - 1) s.first", 'C46', 'get_children counts only the non empty slots', 'get_child(i) of the last slots')
M('M236', 'StructNode', 'SNode.successors', "| 0, s@(mk ..) => some [s]", "| 0, (mk ..) => some []", 'C46', 'the last slot is dropped', 'get_child of the last slot')
M('M237', 'StructNode', 'Nary.ofStruct', "let (h, a) ← ofStruct h n parent (some this)", "let (h, a) ← ofStruct h n parent prev", 'C24', 'a following node is given the previous sibling of this one', 'get_prev_sibling in a tree made from a literal')
M('M238', 'StructNode', 'Nary.ofStruct', "let (h, a) ← ofStruct h f (some this) none", "let (h, a) ← ofStruct h f parent none", 'C24', 'children are given the grandparent as parent', 'parents in a tree made from a literal')
M('M239', 'StructNode', 'Binary.ofStruct', "h.modify this (fun m => { m with right := some a })", "h.modify this (fun m => { m with left := some a })", 'C24', 'the second slot becomes the left child', 'a tree made from n(1)(n(2), n(3))')
M('M240', 'StructNode', 'Binary.ofStruct', "let (h, a) ← ofStruct fuel h s.first.next", "let (h, a) ← ofStruct fuel h s.first", 'C24', 'the first slot is used twice', 'the right child of a tree made from a literal')
M('M241', 'StructNode', 'World.newStructNary', "let (h, a) ← Nary.ofStruct W.heap s none none\n  pure ((W.setHeap h).put x (some ⟨some a, s.subtreeSize, s.subtreeArity, some a⟩))", "let (h, a) ← Nary.ofStruct W.heap s none none\n  pure ((W.setHeap h).put x (some ⟨some a, s.subtreeArity, s.subtreeSize, some a⟩))", 'C24', 'size and arity are exchanged', 'size() of a tree made from a literal')
M('M242', 'StructNode', 'SNode.assignIndexes', "(assignIndexes n (i + 1))", "(assignIndexes n i)", 'C46', 'all siblings have the same index', 'get_index()')
M('M243', 'StructNode', 'SNode.call', "element.withNext accumulated) empty", "accumulated.withNext element) empty", 'C46', 'swapped arguments of the fold', 'a literal with children')
# --- filtered iterator objects (C32, C47)
M('M244', 'FilterObj', 'FilterIter.Obj.copy', "⟨o.nav, o.st, o.predicate⟩", "⟨o.nav, o.st, none⟩", 'C47', 'the copy has no predicate', 'a copied iterator is undefined when moved')
M('M245', 'FilterObj', 'FilterIter.Obj.post', "pure (c, ← o.move P fuel m)", "let o ← o.move P fuel m; pure (o, o)", 'C47', 'it++ returns the moved iterator', 'the value of it++')
M('M246', 'FilterObj', 'FilterIter.Obj.otherPolicy', "do make Q o.nav fuel p (← Iter.otherPolicy Q o.nav fuel o.st)", "do make Q o.nav fuel p (← Q.make o.nav fuel none)", 'C47', 'other_policy goes to end()', 'the position after other_policy')
M('M247', 'FilterObj', 'FilterIter.Obj.assign', "{ o with nav := other.nav, st := other.st }", "{ o with nav := other.nav, st := ⟨other.st.cur, o.st.aux⟩ }", 'C47', 'the policy container is not assigned', 'an assigned iterator goes on wrongly')
M('M248', 'FilterObj', 'FilterIter.Obj.make', "← wrap P nav fuel p s, some p⟩", "s, some p⟩", 'C32', 'the first element is not checked', 'a filtered loop begins with an excluded element')
M('M249', 'FilterObj', 'FilterIter.Obj.otherPolicy', "do make Q o.nav fuel p (", "do make Q o.nav fuel (fun _ => pure true) (", 'C47', 'other_policy drops the predicate', 'a loop after other_policy visits excluded elements')
# --- names of captures (C48)
M('M250', 'Named', 'Pat.indexOfCapture', "| [] => 1", "| [] => 0", 'C48', 'the base case is 0, as the comment in the source says', 'none: an index equal to the number of captures is not valid either')
M('M251', 'Named', 'Pat.indexOfCapture', "if name q.id = c then 0 else 1 + indexOfCapture c qs", "if name q.id = c then 0 else indexOfCapture c qs", 'C48', 'the index is not increased', 'a name designates the wrong capture')
M('M252', 'Named', 'Pat.isValidName', "indexOfCapture name c captures < captures.length", "indexOfCapture name c captures ≤ captures.length", 'C48', 'wrong boundary', 'a name without a capture compiles')
M('M253', 'Named', 'World.assignMarkNamed', "p.captures[Pat.indexOfCapture name c p.captures]?", "p.captures[Pat.indexOfCapture name c p.captures - 1]?", 'C48', 'index counted from 1', 'the capture before the named one')
M('M254', 'Named', 'Pat.childrenCaptures', "if hasNext then capturesL (p :: ps) else []", "[]", 'C48', 'names below a capture are never checked', 'a nested capture with the same name compiles')
M('M255', 'Named', 'Pat.validNames', "(childrenCaptures hasNext ps)) && validNamesL ps", "(childrenCaptures hasNext ps))", 'C48', 'only the outermost matcher is checked', 'a nested capture with the same name compiles')
M('M256', 'NodeQuery', 'NodeQuery.indexLoop', "if a == this then pure index", "if a == this then pure (index + 1)", 'C49', 'index counted from 1', 'the index is not the position')
M('M257', 'NodeQuery', 'NodeQuery.breadthFirstIndex', "let s ← Policy.breadthFirst.make (navAt (some root)) fuel (some root)", "let s ← Policy.breadthFirst.make (navAt (some root)) fuel (some this)", 'C49', 'the iteration starts at the node', 'the index is always 0')
M('M258', 'NodeQuery', 'NodeQuery.isRoot', "(← (navAt none).parent this).isNone", "(← (navAt none).parent this).isSome", 'C49', 'negated', 'is_root is wrong')
M('M259', 'NodeQuery', 'NodeQuery.hasChildren', "(← (navAt none).first this).isSome", "(← (navAt none).next this).isSome", 'C49', 'asks for the next sibling', 'has_children is wrong')
M('M260', 'NodeQuery', 'Nary.isUniqueChild', "def isUniqueChild (h : NHeap α) (this : Addr) : Res Bool := do\n  if ← isFirstChild h this then isLastChild h this else pure false", "def isUniqueChild (h : NHeap α) (this : Addr) : Res Bool := do\n  if ← isFirstChild h this then pure true else isLastChild h this", 'C49', '|| instead of &&', 'a first child with siblings is unique')
M('M261', 'NodeQuery', 'Binary.isLastChild', "| some p => do pure ((← last h p) == some this)", "| some p => do pure ((← h.read p).right == some this)", 'C49', 'a lone left child is not the last', 'is_unique_child is wrong')
M('M262', 'NodeQuery', 'Binary.isFirstChild', "| some p => do pure ((← first h p) == some this)\n  | none => pure false", "| some p => do pure ((← first h p) == some this)\n  | none => pure true", 'C49', 'the root counts as first child', 'equivalent for is_unique_child, since is_last_child is false')
M('M263', 'NodeMove', 'Nary.adoptLoop', "adoptLoop this fuel h (← h.read child).next", "pure h", 'C50', 'only the first child is adopted', 'other children keep the old parent')
M('M264', 'NodeMove', 'Nary.moveNode', "first := none, last := none })\n", "last := none })\n", 'C50', 'the old node keeps its first child', 'two owners of the children')
M('M265', 'NodeMove', 'Nary.moveNode', "o.next, o.first, o.last⟩", "o.next, o.first, none⟩", 'C50', 'last_child not taken over', 'the new root has no last child')
M('M266', 'NodeMove', 'Binary.moveNode', "let h ← match (← h.read this).right with\n    | some r => h.modify r (fun m => { m with parent := some this })", "let h ← match (← h.read this).right with\n    | some r => h.modify r (fun m => { m with parent := m.parent })", 'C50', 'the right child is not adopted', 'the right child keeps the old parent')
M('M267', 'NodeMove', 'Binary.moveNode', "⟨o.value, none, o.left, o.right⟩", "⟨o.value, none, o.right, o.left⟩", 'C50', 'children swapped', 'the shape changes')
M('M268', 'NodeMove', 'Binary.moveNode', "{ m with parent := none, left := none, right := none }", "{ m with parent := none, left := none }", 'C50', 'the old node keeps its right child', 'two owners')
M('M269', 'Multi', 'Multi.callOn', "| none => pure none\n  | some a => call a", "| none => call 0\n  | some a => call a", 'C51', 'null is dereferenced', 'a null pointer does not stay null')
M('M270', 'Multi', 'Multi.callAll', "    let q ← callOn call p\n    pure (q :: (← callAll call ps))", "    let q ← callOn call p\n    pure (q :: (← if q.isSome then callAll call ps else pure ps))", 'C51', 'the others stop when the master is null', 'pointers do not stay together')
M('M271', 'Multi', 'Nary.step', "  | .next, a => do pure (← h.read a).next\n  | .first, a => do pure (← h.read a).first", "  | .next, a => do pure (← h.read a).next\n  | .first, a => do pure (← h.read a).last", 'C51', 'first calls last', 'get_first_child is wrong')
M('M272', 'Multi', 'Binary.step', "  | .last, a => Binary.last h a\n  | .left, a => do pure (← h.read a).left", "  | .last, a => Binary.last h a\n  | .left, a => Binary.first h a", 'C51', 'left calls first', 'get_left_child is wrong')
M('M273', 'Multi', 'Multi.assignPointer', "m.assigned.set i true⟩", "m.assigned⟩", 'C51', 'flag not set', 'is_pointer_assigned is wrong')
M('M274', 'Multi', 'Multi.go', "do pure (of (← callAll (step mv) m.ptrs))", "do pure ⟨← callAll (step mv) m.ptrs, m.assigned⟩", 'C51', 'flags kept', 'a move does not clear the flags')
M('M275', 'Multi', 'Multi.allValid', "m.ptrs.all Option.isSome", "m.ptrs.any Option.isSome", 'C51', 'any instead of all', 'all_valid() is true although a pointer is null')
M('M276', 'Multi', 'Multi.eq', "m.master == n.master", "m.ptrs.getLast? == n.ptrs.getLast?", 'C51', 'compares the last pointer', 'equality on different trees')
M('M277', 'Matcher', 'Wanted.matchValue', "artifact == getter x", "artifact != getter x", 'C52', 'having negated', 'having(a, f) accepts other values')
M('M278', 'Matcher', 'Label.matchValue', "  | .opt _ w => w.matchValue", "  | .opt _ _ => fun _ => true", 'C52', 'opt(v) accepts everything', 'opt(v) accepts other values')
M('M279', 'Matcher', 'SNode.pats', "l.matchValue (pats f (i + 1)) :: pats n (i + 1 + f.objects)", "l.matchValue (pats f (i + 1)) :: pats n (i + 1)", 'C52', 'siblings share identities with children', 'two matchers are one object')
M('M280', 'Matcher', 'SNode.callMatcher', "nodes.foldr (fun element accumulated => do checked (element.withNext (← accumulated)))", "nodes.foldl (fun accumulated element => do checked (element.withNext (← accumulated)))", 'C52', 'arguments folded from the left', 'arguments are in the wrong order')
M('M281', 'Matcher', 'SNode.clash', "c != [] && (!f.isEmpty", "(!f.isEmpty", 'C52', 'captures without a name are checked', 'two captures without a name do not compile')
M('M282', 'Matcher', 'SNode.captureNames', "(captureNames f ++ captureNames n)", "captureNames n", 'C52', 'captures below are not looked at', 'names that should not pass the check')
M('M283', 'Matcher', 'PExpr.eval', "(← eval e) .empty)\n  | .call", "(SNode.withFirst (← eval e) .empty) .empty)\n  | .call", 'C52', 'the captured pattern loses its arguments', 'cpt(e) is not e')
M('M284', 'Matcher', 'PExpr.eval', "  | .star q w => some (SNode.make (some (.star q w)) .empty .empty)", "  | .star q w => some (SNode.make (some (.star .default w)) .empty .empty)", 'C52', 'quantifier dropped', 'star<q> has another quantifier')
M('M285', 'Matcher', 'SNode.nameOf', "s.labels[i]?", "s.labels[i + 1]?", 'C52', 'off by one', 'names of other captures')
M('M286', 'Typed', 'Session.search', "if ok then some t.nodeType else s.nodeType", "if ok then some t.nodeType else none", 'C53', 'a failed search forgets the type', 'assigning after a failed search')
M('M287', 'Typed', 'Session.search', "if ok then some t.nodeType else s.nodeType", "some t.nodeType", 'C53', 'a failed search sets the type', 'assigning after a failed search')
M('M288', 'Typed', 'Target.nodeType', "⟨t.isBinary, t.isView⟩", "⟨t.isBinary, false⟩", 'C53', 'views have the type of trees', 'result of a view search can be assigned')
M('M289', 'Typed', 'Target.nodeType', "⟨t.isBinary, t.isView⟩", "⟨false, t.isView⟩", 'C53', 'nary and binary nodes not distinguished', 'wrong kind is not refused')
M('M290', 'Typed', 'Session.assignNary', "if s.nodeType ≠ some (Target.naryTree y).nodeType then pure (false, S)", "if s.nodeType = none then pure (false, S)", 'C53', 'only checks that something matched', 'wrong kind is not refused')
M('M291', 'Typed', 'Session.assignBinary', "pure (true, { S with binary := W })", "pure (false, { S with binary := W })", 'C53', 'reports an exception', 'the right kind is refused')
M('M292', 'Tree', 'TreeOps.addChild', "  | none => do\n    let h ← K.dealloc h.fuel h node\n    pure (h, r, .threw)\n  | some a => do\n    if ← K.full h a then do", "  | none => do\n    pure (h, r, .threw)\n  | some a => do\n    if ← K.full h a then do", 'C54', 'node not freed when add_child throws at the end', 'a failing insert_child leaks')
M('M293', 'Tree', 'TreeOps.modifySubtree', "    | some _ => pure (h, r, .threw)\n\n/-- tree.hpp 341-375", "    | some _ => do\n      let h ← K.dealloc h.fuel h node\n      pure (h, r, .threw)\n\n/-- tree.hpp 341-375", 'C54', 'insert_over at the end frees the node', 'insert_over at the end of a non-empty tree works')
M('M294', 'NaryNode', 'Nary.replaceWith', "      let b ← deref back\n      let h ← h.modify b (fun m => { m with next := n.next })\n", "      let h ← match back with\n        | some b => h.modify b (fun m => { m with next := n.next })\n        | none => h.modify p (fun m => { m with first := n.next })\n", 'C54', 'erasing a first child repaired', 'erasing a first child breaks')
M('M295', 'Tree', 'World.insertOver', "  | .moveOf y => if x = y then pure (W, .threw) else do\n      let (W, p, rs, ra) ← overNode", "  | .moveOf y => if x = y then pure (W, .ret pos) else do\n      let (W, p, rs, ra) ← overNode", 'C54', 'moving a tree over a node of itself returns instead of throwing', 'the call does not throw')
M('M296', 'Tree', 'TreeOps.eraseSubtree', "    | some _ => pure (h, r, .threw)\n    | none => pure (h, r, .ret ())", "    | some _ => Res.ub\n    | none => pure (h, r, .ret ())", 'C54', 'erase at the end is undefined', 'erase(end()) does not work')
M('M297', 'Pattern', 'Search.all', "let it ← otherNode nav val fuel s it (s.marks p.id)", "let it ← pure it", 'C55', 'giving up does not go back to the node', 'a match is missed')
M('M298', 'Pattern', 'Search.all', "all ps ack rem (s.reset (p :: ps)) it\n", "all ps ack rem s it\n", 'C55', 'no reset when giving up', 'stale nodes in the result; a match may be missed')
M('M299', 'Pattern', 'Search.all', "else if p.matchesNull && (s.marks p.id).isSome then do", "else if false && (s.marks p.id).isSome then do", 'C55', 'nothing is given up', 'a match is missed')
M('M300', 'Pattern', 'Search.loop', "| none => if null then pure (true, s, begin_) else pure (false, s, it)", "| none => if null then pure (true, s, it) else pure (false, s, it)", 'C55', 'a skipped matcher consumes the siblings', 'a match is missed')
M('M301', 'Pattern', 'Search.loop', "else loop step i ack null begin_ n s (← next nav val fuel s it a)", "else loop step i ack null begin_ n s it", 'C36', 'iterator not advanced', 'the search does not end')
M('M302', 'Pattern', 'Pat.matchesNull', "  | node _ _ _ ps => allNull ps", "  | node _ _ _ ps => ps.isEmpty", 'C55', 'opt(v)(opt(w)) cannot match nothing', 'a match is missed')
M('M303', 'Pattern', 'Pat.prefersNull', "  | node i (.opt q) f ps => matchesNull (node i (.opt q) f ps) && q == .reluctant", "  | node i (.opt q) f ps => matchesNull (node i (.opt q) f ps) && q == .possessive", 'C37', 'possessive takes nothing, reluctant takes', 'results')
M('M304', 'Pattern', 'Search.this', "        let (ok, s, _) ← all ps none none s (← childIt nav it a)\n        if !ok && q != .possessive && childMaySteal ps then do", "        let (ok, s, _) ← all ps none none s (← childIt nav it a)\n        if !ok && childMaySteal ps then do", 'C55', 'a possessive opt gives way to its child', 'results')
M('M305', 'Pattern', 'Search.childIt', "← (nav (some root)).first a, []⟩", "← (nav (some root)).last a, []⟩", 'C55', 'search of the children starts at the last', 'a match is missed')
M('M306', 'Pattern', 'Search.loop', "let s := acknowledge ack (s.mark i (some a)) a\n", "let s := acknowledge ack s a\n", 'C55', 'node not remembered', 'nothing can be given back')
M('M307', 'Pattern', 'Search.search', "all nav val fuel [p] none none (s.reset [p])", "all nav val fuel [p] none none s", 'C55', 'no reset before a search', 'the answer depends on earlier searches')
M('M308', 'Pattern', 'Search.this', "    loop nav val fuel (fun s it a => do\n      if !test (← val a) then pure (false, s)", "    loop nav val fuel (fun s it a => do\n      if test (← val a) then pure (false, s)", 'C55', 'value test of one inverted', 'a match is missed')
M('M309', 'Tree', 'World.updateCounts', "{ r with size := 0, arity := 0 }))", "{ r with size := 0 }))", 'C56', 'arity not forgotten', 'arity() still wrong')
M('M310', 'Tree', 'World.updateCounts', "{ r with size := 0, arity := 0 }))", "{ r with arity := 0 }))", 'C56', 'size not forgotten', 'size() still wrong')
M('M311', 'Tree', 'World.updateCounts', "{ r with size := 0, arity := 0 }))", "{ r with size := 1, arity := 0 }))", 'C56', 'size set to 1', 'size() wrong')
M('M312', 'Tree', 'World.updateCounts', "{ r with size := 0, arity := 0 }))", "{ r with size := 0, arity := 0, navRoot := none }))", 'C56', 'navigator forgets its root', 'iterators made later are wrong')
M('M313', 'Tree', 'TreeOps.sizeQ', "    if r.size == 0 then do", "    if r.size == 1 then do", 'C56', 'wrong sentinel', 'size() 0 after update_size_arity()')
M('M314', 'Tree', 'TreeOps.arityQ', "    if r.arity == 0 then do", "    if r.arity == 1 then do", 'C56', 'wrong sentinel', 'arity() 0 after update_size_arity()')
M('M315', 'Reverse', 'Reverse.deref', "  let tmp ← dec P nav fuel r.base\n  _root_.deref tmp.cur", "  _root_.deref r.base.cur", 'C07', 'dereferences the base', '*rbegin() is undefined')
M('M316', 'Reverse', 'Reverse.rend', "⟨← begin_ P nav fuel⟩", "⟨← end_ P nav fuel⟩", 'C07', 'rend wraps end()', 'reverse loops are empty')
M('M317', 'Reverse', 'Reverse.move', "| .dec => do pure ⟨← inc P nav fuel r.base⟩", "| .dec => do pure ⟨← dec P nav fuel r.base⟩", 'C07', '-- does the same as ++', '-- goes forward')
M('M318', 'Reverse', 'Reverse.eq', "r.base.cur == q.base.cur", "r.base == q.base", 'C07', 'compares the whole policy object', 'comparison with rend() depends on the stack')
M('M319', 'Tree', 'Nary.kind', "  setValue n v := { n with value := v }", "  setValue n v := { n with value := v, next := none }", 'C81', 'the assignment resets a link', 'writing a value loses the siblings')
M('M320', 'Tree', 'Binary.kind', "  setValue n v := { n with value := v }", "  setValue n v := { n with value := n.value }", 'C81', 'the value is not assigned', 'a written value cannot be read back', nth=1)
M('M321', 'Tree', 'World.write', "  match pos.st.cur with\n  | none => Res.ub\n  | some a => do pure (W.setHeap (← W.heap.modify a (K.setValue · v)))", "  match pos.root with\n  | none => Res.ub\n  | some a => do pure (W.setHeap (← W.heap.modify a (K.setValue · v)))", 'C81', 'writes to the root of the navigator', 'the wrong node is written')
M('M322', 'Access', 'World.transformFrom', "      let W ← W.write K ⟨s, root⟩ (f v)\n      let s ← Iter.inc P (K.nav W.heap root) W.heap.fuel s", "      let s ← Iter.inc P (K.nav W.heap root) W.heap.fuel s\n      let W ← W.write K ⟨s, root⟩ (f v)", 'C82', 'moves before writing', 'the loop writes through the end')
M('M323', 'Access', 'World.transformFrom', "(f v)", "v", 'C82', 'writes the old value', 'the loop changes nothing')
M('M324', 'Access', 'Iter.postInc', "  let it := s\n  let s ← inc P nav fuel s\n  pure (it, s)", "  let s ← inc P nav fuel s\n  let it := s\n  pure (it, s)", 'C83', 'copies after moving', 'it++ gives the next node')
M('M325', 'Access', 'Iter.postDec', "  let s ← dec P nav fuel s", "  let s ← inc P nav fuel s", 'C83', 'wrong direction', 'it-- goes forward')
M('M326', 'Access', 'Iter.toBool', "s.cur.isSome", "s.cur.isSome && s.aux.isEmpty", 'C83', 'also looks at the state of the policy', 'a breadth_first iterator on a node converts to false')
M('M327', 'Access', 'World.transform', "Iter.begin_ P (K.nav W.heap r.navRoot) W.heap.fuel", "Iter.end_ P (K.nav W.heap r.navRoot) W.heap.fuel", 'C82', 'starts at the end', 'the loop changes nothing')
M('M328', 'Access', 'World.deref', "  match pos.st.cur with", "  match pos.root with", 'C82', 'reads the root of the navigator', 'the loop writes f of the value of the root everywhere')
M('M329', 'Print', 'printRest', "pure ([.text \",\\n\".toList] ++ o ++ o', limit)", "pure ([.text \"\\n\".toList] ++ o ++ o', limit)", 'C84', 'comma between siblings dropped', 'the text is no expression')
M('M330', 'Print', 'printNode', "pure (head ++ o ++ o' ++ [.text \")\".toList], limit)", "pure (head ++ o ++ o', limit)", 'C84', 'closing parenthesis dropped', 'the text is no expression and different trees print the same')
M('M331', 'Print', 'printNode', "let gap ← if bin then nav.isRight c else pure false", "let gap ← pure false", 'C84', 'n() not printed for an empty left slot', 'a left child and a right child print the same')
M('M332', 'Print', 'stringText', "'\"' :: s.toList ++ ['\"']", "s.toList", 'C84', 'strings printed without quotes', 'strings with parentheses make the text ambiguous')
M('M333', 'Print', 'charText', "['\\'', c, '\\'']", "[c]", 'C84', 'characters printed without quotes', 'a value that is a closing parenthesis reads as n()')
M('M334', 'Print', 'printLabel', "else pure [.value v]", "else pure [.hex, .value v]", 'C86', 'std::hex without addresses', 'numbers are printed in hexadecimal, the stream is changed')
M('M335', 'Print', 'printLabel', "(pos a &&& ((1 <<< (4 * digits)) - 1))]", "(pos a &&& ((1 <<< digits) - 1))]", 'C30', 'mask of digits bits instead of 4 * digits', 'the address shown has too few digits')
M('M336', 'Print', 'render', "(List.leftpad w '0' (Nat.toDigits (if hex then 16 else 10) n)", "(Nat.toDigits (if hex then 16 else 10) n", 'C30', 'width ignored', 'addresses are not padded')
M('M337', 'Print', 'printTree', "| none => pure (render disp hex [.text \"n()\".toList])", "| none => pure (render disp hex [])", 'C30', 'nothing printed for an empty tree', 'an empty tree prints n()')
M('M338', 'Print', 'intText', "'-' :: Nat.toDigits 10 i.natAbs else", "Nat.toDigits 10 i.natAbs else", 'C84', 'sign dropped', '1 and -1 print the same')
M('M339', 'Print', 'printRest', "else pure ([.text \",\\n\".toList, .text (spaces ind), .text \"...\".toList], limit)", "else pure ([], limit)", 'C84', 'no ... when siblings are cut', 'a cut tree prints like a smaller one')
M('M340', 'Print', 'printNode', "[.text (spaces ind), .text \"n(\".toList] ++ name ++ [.text \")\".toList]", "[.text \"n(\".toList] ++ name ++ [.text \")\".toList]", 'C30', 'no indentation', 'layout')
M('M341', 'Tree', 'World.childNode', "    if front then pure (W.setHeap h, some a, 1, 0)\n    else pure (W.setHeap h, some a, K.litSize l, K.litArity l)", "    pure (W.setHeap h, some a, K.litSize l, K.litArity l)", 'C87', 'insert_child_front(literal) passes the true counts', 'the rule for insert_child_front of a literal')
M('M342', 'Tree', 'World.childNode', "    pure (W, p, 1, 0)", "    let (W, s) ← size K W y\n    pure (W, p, s, 0)", 'C87', 'insert_child(tree) passes other.size()', 'the rule for inserting a copy as child')
M('M343', 'Tree', 'TreeOps.replaceNode', "size := wadd r.size (wsub rs 1), arity := 0", "size := wadd r.size rs, arity := 0", 'C87', 'replaced leaf not subtracted', 'size after replacing a leaf')
M('M344', 'Tree', 'TreeOps.replaceNode', "| some _ => pure (h, { r with size := 0, arity := 0 }, some a)", "| some _ => pure (h, { r with size := 0 }, some a)", 'C87', 'arity kept when an inner node is replaced', 'arity after replacing an inner node')
M('M345', 'Tree', 'TreeOps.addChild', "arity := max ra (max r.arity loc)", "arity := max r.arity loc", 'C87', 'arity of the inserted tree ignored', 'arity after inserting a tree with more children than the target')
M('M346', 'Tree', 'TreeOps.addChild', "| none => pure 1\n", "| none => pure 0\n", 'C87', 'no child gives 0', 'arity after inserting an empty tree below a leaf')
M('M347', 'Tree', 'World.overNode', "| .value v => pure (W.setHeap (W.heap.alloc (K.leaf v)).1, some (W.heap.alloc (K.leaf v)).2, 1, 0)", "| .value v => pure (W.setHeap (W.heap.alloc (K.leaf v)).1, some (W.heap.alloc (K.leaf v)).2, 1, 1)", 'C87', 'insert_over(value) passes arity 1', 'arity after replacing the root by a value')
M('M348', 'Tree', 'World.takeNodes', "  let (s1, r) ← if sb then pure (s0, r) else TreeOps.sizeQ K h r", "  let (s1, r) ← if sb then pure (s0, r) else pure (0, r)", 'C87', 'size after release taken as 0', 'the count passed on by insert_over(std::move(other)) when size() is evaluated last')
M('M349', 'Tree', 'World.swap', "  pure ((W.put x (some ry)).put y (some rx))", "  pure ((W.put x (some { ry with size := rx.size })).put y (some { rx with size := ry.size }))", 'C87', 'swap does not swap the remembered sizes', 'size() after swap')
M('M350', 'Tree', 'World.newMove', ".put y (some TreeRec.empty))", ".put y (some { TreeRec.empty with size := r.size }))", 'C88', 'the moved-from tree keeps its size', 'an empty tree with size() > 0')
M('M351', 'Tree', 'TreeOps.clear', "assign K h r none 0 0", "assign K h r none r.size 0", 'C88', 'clear keeps the size', 'a cleared tree with size() > 0')
M('M352', 'Access', 'World.isEmpty', "pure (r.root == none)", "pure (r.size == 0)", 'C88', 'empty() looks at the remembered size', 'empty() of a tree whose size is not known')
M('M353', 'Access', 'World.rootIt', "⟨⟨r.root, r.root.toList⟩, r.navRoot⟩", "⟨⟨none, []⟩, r.navRoot⟩", 'C88', 'root() makes an end iterator', 'root() of a tree with nodes')
M('M354', 'Access', 'World.beginIt', "pure ⟨← Iter.begin_ P", "pure ⟨← Iter.end_ P", 'C88', 'begin() is end()', 'begin() == end() for a tree with nodes')
M('M355', 'Tree', 'World.insertOver', "      | .ret it => pure (W.put y (some TreeRec.empty), .ret it)", "      | .ret it => pure (W.put y (some { TreeRec.empty with arity := ra }), .ret it)", 'C88', 'the source keeps its arity', 'arity() of an empty tree')
M('M356', 'Tree', 'World.assignCopy', "(← W.get x) p ry.size ry.arity", "(← W.get x) p ry.size 0", 'C87', 'assignment forgets the arity', 'what is remembered after a copy assignment')
M('M357', 'Tree', 'TreeOps.eraseSubtree', "replaceNode K h r (some a) none 0 0", "replaceNode K h r (some a) none 1 0", 'C87', 'erasing a leaf counts as replacing it', 'size after erase')
M('M358', 'Tree', 'TreeOps.modifySubtree', "      let (h, r, old) ← replaceNode K h r (some a) node rs ra", "      let (h, r, old) ← replaceNode K h r (some a) node 1 ra", 'C87', 'the inserted count is always 1', 'size after replacing a leaf by a tree')
M('M359', 'Faults', 'Fa.alloc', "  | 1 => .ok (.threw (h.alloc n).1)", "  | 1 => .ok (.threw h)", 'C90', 'allocate gives the block back when the construction throws', 'a failed construction leaks')
M('M360', 'Faults', 'Fa.alloc', "  | 0 => .ok (.threw h)", "  | 0 => .ok (.threw (h.alloc n).1)", 'C90', 'a refused request obtains a block', 'a call whose first request fails leaks nothing')
M('M361', 'Faults', 'Nary.copyF', "        Fa.modify this (fun m => { m with next := some a })", "        pure ()", 'C89', 'copy with a failing allocator forgets to link the next sibling', 'a call in which nothing throws is the plain call')
M('M362', 'Faults', 'Nary.ofLitsF', "parent, ts.length, prev", "parent, 0, prev", 'C89', 'literal constructor counts no following siblings', 'a call in which nothing throws is the plain call')
M('M363', 'Faults', 'Binary.copyF', "        Fa.modify this (fun m => { m with right := some a })", "        Fa.modify this (fun m => { m with left := some a })", 'C89', 'the copy of the right child becomes the left one', 'a call in which nothing throws is the plain call')
M('M364', 'Faults', 'World.newCopyF', "  | .threw h => pure (W.setHeap h, none)", "  | .threw h => pure ((W.setHeap h).put x (some TreeRec.empty), none)", 'C89', 'a failed copy construction leaves an object', 'objects after a constructor that throws')
M('M365', 'Faults', 'World.assignCopyF', "  | .threw h => pure (W.setHeap h, none)", "  | .threw h => do pure ((W.setHeap (← K.dealloc h.fuel h (← W.get x).root)).put x (some TreeRec.empty), none)", 'C89', 'the assignment clears the target before it copies', 'the target of an assignment that throws', nth=2)
M('M366', 'Faults', 'World.insertOverF', "      | (W, none) => pure (W, none)", "      | (W, none) => pure (W.put x none, none)", 'C89', 'the tree is gone after an insertion that throws', 'objects after an insertion that throws')
M('M367', 'Faults', 'World.childNodeF', "    | .threw h => pure (W.setHeap h, none)", "    | .threw _ => pure (W, none)", 'C90', 'insert_child(value) leaks nothing', 'a failed construction leaks', nth=3)
M('M368', 'Faults', 'World.overNodeF', "      let (W, a) ← W.arity K y\n      pure (W, some (p, s, a))", "      let (W, a) ← W.arity K y\n      pure (W, some (p, a, s))", 'C89', 'size and arity swapped', 'a call in which nothing throws is the plain call')
M('M369', 'Faults', 'World.insertOverQ', "    | .inside => pure W\n  match src with", "    | .inside => pure (W.setHeap (← K.dealloc W.heap.fuel W.heap p))\n  match src with", 'C91', 'the node is released only after update', 'the new nodes leak; a moved tree is unharmed')
M('M370', 'Faults', 'World.insertOverQ', "    | .copy => pure (W.setHeap (← K.dealloc W.heap.fuel W.heap p))\n    | .inside => pure W\n", "    | .copy => pure W\n    | .inside => pure W\n", 'C91', 'nobody owns the node while the position is copied', 'new nodes are given back, a moved tree dangles')
M('M371', 'Faults', 'World.insertChildQ', "      pure ((W.setHeap h).put x (some r))\n", "      pure (W.setHeap h)\n", 'C91', 'the record of the tree is not updated', 'the child stays, with the counts')
M('M372', 'Faults', 'World.insertChildQ', "let (h, r, _) ← TreeOps.addChild K front P W.heap", "let (h, r, _) ← TreeOps.addChild K (!front) P W.heap", 'C91', 'child at the wrong end', 'which child stays')
M('M373', 'Faults', 'Binary.ofLitF\'', "        | _ :: c :: _ => (match c.label with", "        | c :: _ :: _ => (match c.label with", 'C89', 'the right child is read from the first slot', 'a call in which nothing throws is the plain call')
M('M374', 'Faults', 'World.stepF', "  | .newLit x l => newLitF M k W x l", "  | .newLit x l => newLitF M (k + 1) W x l", 'C90', 'the first event of a constructor never throws', 'which event throws')
M('M375', 'Faults', 'World.call', "  | some k => W.stepF M k op", "  | some k => W.stepF M (2 * k) op", 'C89', 'every event counted twice', 'which event throws')
M('M376', 'Alloc', 'Op.allocators', "  | .assignMove x y => upd al x (al y)", "  | .assignMove _ _ => al", 'C93', 'move assignment keeps the own allocator', 'which moves respect the allocators')
M('M377', 'Alloc', 'Op.allocators', "  | .newMove x y => upd al x (al y)", "  | .newMove x _ => upd al x 0", 'C92', 'move construction makes a default allocator', 'move construction takes the allocator over')
M('M378', 'Alloc', 'Op.allocators', "  | .newMove x y => upd al x (al y)", "  | .newMove x y => upd al x (al y)\n  | .swap x y => upd (upd al x (al y)) y (al x)", 'C93', 'swap exchanges the allocators too', 'swap of trees with different allocators')
M('M379', 'Alloc', 'Op.beforeLifetime', "  | .newLit _ _ => true", "  | .newLit _ _ => false", 'C93', 'literals are built after the allocator exists', 'construction from a literal')
M('M380', 'Alloc', 'Op.beforeLifetime', "    | some r => r.root.isSome", "    | some r => r.root.isNone", 'C92', 'only copies of empty trees allocate early', 'copy construction')
M('M381', 'Alloc', 'Op.target', "  | .assignCopy x _ => x", "  | .assignCopy _ y => y", 'C92', 'the copies are made with the allocator of the source', 'copy assignment')
M('M382', 'Alloc', 'Op.target', "  | .insertOver _ _ _ x _ _ => x", "  | .insertOver _ _ _ x _ (.copyOf y) => y\n  | .insertOver _ _ _ x _ _ => x", 'C92', 'insert_over copies with the allocator of the source', 'insertion of a copy')
M('M383', 'Alloc', 'AWorld.step', "A.origin a == al op.target)", "A.origin a == A.al op.target)", 'C93', 'the old nodes are freed before the allocator is taken over', 'move assignment to a tree with nodes')
M('M384', 'Alloc', 'AWorld.step', "then al op.target else A.origin a⟩", "then 0 else A.origin a⟩", 'C92', 'all nodes come from the default allocator', 'nodes come from the allocator of their tree')
M('M385', 'Alloc', 'AWorld.step', "    pure (⟨W, upd A.al x i, A.origin⟩, o)", "    pure (⟨W, A.al, A.origin⟩, o)", 'C92', 'the constructor ignores the allocator it is given', 'a tree constructed with an allocator holds it')
M('M386', 'Alloc', 'AWorld.step', "(W.heap.cells a).isSome || A.origin a == al op.target)", "(W.heap.cells a).isSome || true)", 'C93', 'freeing with another allocator is not noticed', 'destruction of a tree with strange nodes')
M('M387', 'Alloc', 'Op.allocators', "  | .newEmpty x => upd al x 0", "  | .newEmpty _ => al", 'C92', 'a new tree inherits an old allocator', 'the allocator of a new tree')
M('M388', 'Alloc', 'AWorld.getAllocator', "(_ : AWorld ν) (_ : Nat) : Nat := 0", "(A : AWorld ν) (x : Nat) : Nat := A.al x", 'C93', 'get_allocator answers the allocator in use', 'get_allocator')
M('M389', 'Threads', 'Threads.size', "        if s == 0 then\n          (nodes (fun h => K.calcSize", "        if true then\n          (nodes (fun h => K.calcSize", 'C94', 'size() counts and writes every time', 'readers of trees that remember their counts do not race')
M('M390', 'Threads', 'Threads.size', "(write (x, .size) n).bind fun _ => read (x, .size)", "(write (x, .size) n).bind fun _ => done n", 'C95', 'size() answers the number it counted without reading the member again', 'size() can answer 0 beside update_size_arity()')
M('M391', 'Threads', 'Threads.size', "(write (x, .size) n).bind fun _ => read (x, .size)", "read (x, .size)", 'C94', 'size() does not write what it counted', 'alone it does what size() does')
M('M392', 'Threads', 'Threads.arity', "(write (x, .arity) n).bind fun _ => read (x, .arity)", "(write (x, .size) n).bind fun _ => read (x, .arity)", 'C94', 'arity() writes the size', 'alone it does what arity() does')
M('M393', 'Threads', 'Threads.arity', "            | none => read (x, .arity)", "            | none => (write (x, .arity) 0).bind fun _ => read (x, .arity)", 'C94', 'arity() writes 0 for a root without children', 'readers of trees that remember their counts do not race')
M('M394', 'Threads', 'Threads.forget', "(write (x, .size) 0).bind fun _ => write (x, .arity) 0", "write (x, .arity) 0", 'C95', 'update_size_arity() forgets the arity only', 'update_size_arity() races with size()')
M('M395', 'Threads', 'Threads.eq', "  else (size K x).bind fun s => (size K y).bind fun s' =>", "  else (size K x).bind fun s => (size K x).bind fun s' =>", 'C94', '== compares the size of the left tree with itself', 'alone it does what == does')
M('M396', 'Threads', 'Threads.eqWith', "  if s != size' then done false", "  if s == size' then done false", 'C94', '== with a literal is false when the sizes agree', 'alone it does what == does')
M('M397', 'Threads', 'Threads.copied', "  (read (x, .size)).bind fun s => (read (x, .arity)).bind fun a => done (b, s, a)", "  (read (x, .size)).bind fun s => (read (x, .arity)).bind fun a => (write (x, .size) s).bind fun _ => done (b, s, a)", 'C94', 'copying writes the size back', 'readers of trees that remember their counts do not race')
M('M398', 'Threads', 'Threads.thread', "(call K c).bind fun a => (thread cs).bind fun as => done (a :: as)", "(thread cs).bind fun as => (call K c).bind fun a => done (a :: as)", 'C94', 'the calls of a thread are made in the opposite order', 'alone it does what the functions do')
M('M399', 'Threads', 'Prog.step', "  | get l k => (c, k (c l))", "  | get l k => (c, k (c (l.1, .size)))", 'C94', 'a read of the arity gives the size', 'every thread is told what it would be told alone')
M('M400', 'Threads', 'Running.step', "if j = i then ((R.threads i).step e R.cells).2 else R.threads j", "if j = i then ((R.threads i).step e R.cells).2 else ((R.threads j).step e R.cells).2", 'C94', 'one step moves all threads', 'every thread is told what it would be told alone')
M('M401', 'Threads', 'Running.Race', "(w || w') = true", "(w && w') = true", 'C94', 'only two writes are a race', 'a race iff a conflict')
M('M402', 'Threads', 'Running.Race', "i ≠ j ∧ ", "", 'C94', 'a thread races with itself', 'readers do not race')
M('M403', 'Threads', 'Prog.step', "  | set l v k => ((fun m => if m = l then v else c m), k)", "  | set l _ k => ((fun m => if m = l then c m + 1 else c m), k)", 'C95', 'a write increments', 'answers in single steps')
M('M404', 'Depth', 'Nary.sizeCalls', "h loop n.first 1", "h loop n.first 0", 'C96', 'calculate_size does not count the node itself', 'size() answers the size')
M('M405', 'Depth', 'Nary.eachChild', "eachChild f op h n m.next (op acc v)", "eachChild f op h n m.first (op acc v)", 'C96', 'the loop goes on with the first child', 'size() needs the height')
M('M406', 'Depth', 'Nary.arityCalls', "pure ((← h.read c).following + 1)", "pure (← h.read c).following", 'C96', 'calculate_arity counts the following siblings only', 'arity() answers the arity')
M('M407', 'Depth', 'Nary.sizeCalls', "    let n ← h.read a\n    eachChild (sizeCalls loop h d) (· + ·) h loop n.first 1", "    let n ← h.read a\n    eachChild (fun c => match d with | 0 => Res.ok 1 | e + 1 => sizeCalls loop h e c) (· + ·) h loop n.first 1", 'C96', 'calls nest half as deep', 'size() needs the height')
M('M408', 'BinaryNode', 'Binary.copy', "        let (h, a) ← copy fuel h r\n", "        let (h, a) ← match fuel with | 0 => Res.diverge | f + 1 => copy f h r\n", 'C96', 'copying the right subtree nests two calls', 'the depth of copying a binary tree')
M('M409','Policy','preInc',"  | some c => pure (some c)\n  | none =>\n    let result ← climb nav fuel (fun c => do pure (!(← nav.isLast c)))","  | some c => do\n    let _ ← climb nav fuel (fun c => do pure (!(← nav.isLast c))) (fun c => nav.next c) cur\n    pure (some c)\n  | none =>\n    let result ← climb nav fuel (fun c => do pure (!(← nav.isLast c)))",'C98','pre_order ++ climbs for the next sibling before it looks for a child','a pre-order walk makes exactly n rounds')
M('M410','Policy','inInc',"  | some r => do pure (some (← keepCalling nav.left fuel r))\n","  | some r => do\n    let _ ← keepCalling nav.parent fuel cur\n    pure (some (← keepCalling nav.left fuel r))\n",'C98','in_order ++ walks up to the root before it goes down','an in-order walk makes exactly 2n rounds')
M('M411','Policy','postInc',"    | none => nav.parent cur\n    | some p => do pure (some (← keepCalling nav.first fuel p))","    | none => do\n      let _ ← keepCalling nav.parent fuel cur\n      nav.parent cur\n    | some p => do pure (some (← keepCalling nav.first fuel p))",'C98','post_order ++ walks up to the root before it returns the parent','a post-order walk makes exactly n rounds')
M('M412','Compare','World.assignBinary',"  let (h, r) ← TreeOps.assign (Nary.kind α) W.heap (← W.get x) p s a\n  pure ((W.setHeap h).put x (some r), B)","  let _ ← W.get x\n  pure (W.put x (some ⟨p, s, a, p⟩), B)",'C100','assigning a binary tree does not free the old nodes','no node is left when all trees are gone')
M('M413','Compare','World.fromBinary',"  let (B, s) ← B.size (Binary.kind α) y\n","  let s := (← B.get y).size\n",'C100','the remembered size of the binary tree is copied even if unknown','size() of a tree converted from a binary tree after any program')
M('M414','Compare','World.eqBinary',"      let (B, a') ← B.arity (Binary.kind α) y\n      if a != a'","      let a' := (← B.get y).arity\n      if a != a'",'C100','== uses the remembered arity of the binary tree even if unknown','every comparison of a program answers the truth')
M('M415','Compare','World.eq',"      let (W, a') ← W.arity K y\n","      let (W, a') ← W.arity K x\n",'C100','== compares the arity of x with itself','== answers by the sizes, the arities and the values')
M('M417','Generative','Gen.nextLoop',"nextLoop h n (← G.plain root h .next x g)","nextLoop h n (← G.plain root h .next x (some root))",'C101','while rejected siblings are skipped, the second pointer is taken from the root','pairs stay at the same position')
M('M418','Generative','Gen.generate',"  | (some x, some g) => pure (h, some (x, g))\n  | (some x, none) => do","  | (some x, _) => do",'C101','makes a new node although there is one already','the copy has each visited node once')
M('M419','Generative','Gen.plain',"if x = root then pure (none, none) else","if x = root ∧ False then pure (none, none) else",'C101','get_parent and siblings do not stop at the root','the walk stays below the starting node')
M('M420','Generative','Gen.move',"let beside : Res Addr := do deref (← G.step h .parent g)","let beside : Res Addr := pure g",'C101','a new sibling is attached below the current generated node','the copy has the positions of the target')
M('M421','Generative','Gen.getFirst',"else G.getNext test root h y p\n","else (do let _ ← G.getNext test root h y p; pure (none, none))\n",'C101','get_first_child gives up if the first child is rejected','the first accepted child is found')
M('M422','Generative','Gen.getSide',"if ← G.accepts test h y then pure (some y, p) else pure (none, none)","if ← G.accepts test h y then pure (some y, p) else pure (some y, p)",'C101','get_left/right_child do not ask the predicate','only accepted nodes are copied')
M('M423','Generative','Gen.move',"| .last => do G.generate h (pure g) (← G.getLast","| .last => do G.generate h (pure g) (← G.getFirst",'C101','get_last_child answers the first child','both pointers are at the position of the walk')
M('M424','Generative','Gen.generate',"let h ← G.builder.attach h (← above) g x\n","let _ ← G.builder.attach h (← above) g x\n",'C101','the new node is not attached','the copy has the visited nodes')
M('M425','Generative','Gen.getLast',"G.getPrev test root h y p","G.getNext test root h y p",'C101','get_last_child looks for next siblings of a rejected last child','the last accepted child is found')
M('M426','Pattern','Search.this',"""      else do
        let (ok, s, _) ← all ps none none s (← childIt nav it a)
        if !ok && q != .possessive && childMaySteal ps then do
          let (ok, s, _) ← all ps none none s (fixedIt it a)
          pure (ok, s)
        else pure (ok, s)) i ack (matchesNull (Pat.node i (.opt q) test ps)) it fuel s it""","""      else do
        let (ok, s, _) ← if q != .possessive && childMaySteal ps then all ps none none s (fixedIt it a) else pure (false, s, it)
        if ok then pure (true, s)
        else do
          let (ok, s, _) ← all ps none none s (← childIt nav it a)
          pure (ok, s)) i ack (matchesNull (Pat.node i (.opt q) test ps)) it fuel s it""",'C105','an opt tries to be missing first','an opt is missing only if it has to')
M('M427','Pattern','Search.this',"""        let (ok, s, _) ← all ps (some i) (if q = .possessive then none else some i) s (← targetIt nav val fuel i q test s a)
        if !ok && q != .possessive && childMaySteal ps then do
          let (ok, s, _) ← all ps none none s (fixedIt it a)
          pure (ok, s)
        else pure (ok, s)) i ack (matchesNull (Pat.node i (.star q) test ps)) it fuel s it""","""        let (ok, s, _) ← if q != .possessive && childMaySteal ps then all ps none none s (fixedIt it a) else pure (false, s, it)
        if ok then pure (true, s)
        else do
          let (ok, s, _) ← all ps (some i) (if q = .possessive then none else some i) s (← targetIt nav val fuel i q test s a)
          pure (ok, s)) i ack (matchesNull (Pat.node i (.star q) test ps)) it fuel s it""",'C105','a star tries its argument in its own place first','a new star looks below the node first')
M('M428','Pattern','Search.next',"| .siblings => do pure { it with cur := ← (nav it.root).next a }","| .siblings => do\n    match ← (nav it.root).next a with\n    | some b => match ← (nav it.root).next b with\n      | some c => pure { it with cur := some c }\n      | none => pure { it with cur := some b }\n    | none => pure { it with cur := none }",'C105','the search of siblings steps over every second one unless it is the last','the first match is taken')
M('M429','Pattern','Search.targetIt',"pure ⟨.pre i test, some a, ← Policy.preInc (navOf nav val fuel s (.pre i test) (some a)) fuel a, []⟩","pure ⟨.pre i test, some a, ← (do match ← (navOf nav val fuel s (.pre i test) (some a)).last a with | some b => pure (some b) | none => Policy.preInc (navOf nav val fuel s (.pre i test) (some a)) fuel a), []⟩",'C105','the walk of a star starts at the last child','the first match in pre-order is taken')
M('M430','Pattern','Search.loop',"let s := acknowledge ack (s.mark i (some a)) a\n","let s := acknowledge ack (s.mark i (some a)) a\n        let s := acknowledge ack s (begin_.cur.getD a)\n",'C105','a star remembers where its search began as subtree_cut','a later search of the tree finds what is there')
M('M431','Filter','PredNav.next',"  nextLoop nav p fuel (← nav.next a)","  nextLoop nav p fuel (some a)",'C69','the next sibling of an accepted node is the node itself','iteration with a predicate navigator ends')
M('M432','Policy','Policy.bfsUpdate',"      pure s.aux.dropLast\n    | none => pure s.aux\n  let open_ ← match r with","      pure s.aux\n    | none => pure s.aux\n  let open_ ← match r with",'C67','the first child of the replaced node stays in the queue','the iterator does not visit released nodes')
M('M433','Policy','Policy.bfsInc',"| some fc => pure ⟨some result, open_ ++ [fc]⟩\n    | none => pure ⟨some result, open_⟩","| some fc => pure ⟨some result, rest ++ [fc]⟩\n    | none => pure ⟨some result, open_⟩",'C04','the next sibling is not queued when the node has children','every node is visited')
M('M434','View','View.update',"{ v with size := 0, arity := 0 }","{ v with size := 0 }",'C71','the view keeps its arity','a refreshed view counts again')
M('M435','Policy','Policy.bfsScan',"let acc ← bfsChild nav a acc\n        bfsScan","let acc ← bfsChild nav a []\n        bfsScan",'C08','the queue is emptied while it is built','++ from a converted breadth_first iterator')
M('M436','Compare','Nary.litNeTree',"def litNeTree (W : World (NNode α)) (l : Lit α) (x : Nat) : Res (World (NNode α) × Bool) := do\n  let (W, b) ← treeEqLit eqv W x l\n  pure (W, !b)","def litNeTree (W : World (NNode α)) (l : Lit α) (x : Nat) : Res (World (NNode α) × Bool) := do\n  let (W, b) ← treeEqLit eqv W x l\n  pure (W, b)",'C107','literal != tree is not negated','!= is the opposite of ==')
M('M437','Compare','World.binaryNe',"  let (W, B, b) ← eqBinary eqv W B x y\n  pure (W, B, !b)","  let (W, B, b) ← eqBinary eqv W B y x\n  pure (W, B, !b)",'C107','binary != nary compares the other two objects','swapping the operands keeps the answer',nth=1)
M('M438','Compare','World.neNone',"  let b ← W.eqNone x\n  pure !b","  let b ← W.eqNone x\n  pure b",'C107','tree != n() answers whether it is empty','!= is the opposite of ==',nth=0)
M('M439','View','View.ne',"  let (v, w, b) ← eq K eqv h v w\n  pure (v, w, !b)","  let (v, w, b) ← eq K eqv h v v\n  pure (v, w, !b)",'C107','view != view compares the left operand with itself','!= is the opposite of ==')
M('M440','Compare','World.eqWith',"  if s != size then pure (W, false)","  if s != size then pure (W, s > size)",'C107','a tree with more nodes than the literal is equal to it','== is right when the counts are')
M('M441','Compare','World.eqBinary',"      let (B, a') ← B.arity (Binary.kind α) y\n      if a != a' then pure (W, B, false)","      let (B, a') ← B.arity (Binary.kind α) y\n      if a == a' then pure (W, B, false)",'C107','trees of the same arity are different','== is right when the counts are')
M('M442','View','View.binaryEq',"(w v : TreeRec) : Res (TreeRec × TreeRec × Bool) :=\n  eqBinary eqv h hb v w","(w v : TreeRec) : Res (TreeRec × TreeRec × Bool) :=\n  eqBinary eqv h hb v (if v.size = 0 then w else v)",'C107','binary view == nary view looks at the wrong view once the size is known','swapping the operands keeps the answer')
M('M443','Navigator','Policy.fixRoot',"  | none => pure cur","  | none => pure none",'C108','a navigator without root is left without root','the iterator never leaves the subtree')
M('M444','Navigator','Policy.siblingsFixRoot',"    | some p => pure (some p)","    | some _ => pure (some a)",'C108','siblings takes the node itself as root','the iterator goes on to the siblings')
M('M445','Navigator','Policy.siblingsFixRoot',"    | none => pure (some a)","    | none => pure none",'C108','a root is not taken as root by siblings','a siblings iterator at a root goes to end()')
M('M446','Navigator','Iter.otherNavigator',"  let s ← P.make (nav r) fuel s.cur","  let s ← P.make (nav root) fuel s.cur",'C108','the policy makes its state before the root is fixed','breadth_first goes on along the subtree')
M('M447','Navigator','Iter.otherNavigator',"  let s ← P.make (nav r) fuel s.cur","  let s ← pure s",'C108','the policy keeps the state it had with the old navigator','breadth_first never leaves the subtree')
M('M448','Navigator','Policy.fixRoot',"  | some r => pure (some r)","  | some r => pure (if cur.isSome then cur else some r)",'C108','the current node always becomes the root','the whole subtree is walked')
M('M449','Navigator','FilterIter.Obj.otherNavigator',"    make P (nav r) fuel p s","    make P (nav r) fuel (fun _ => Res.ok true) s",'C108','the filtered iterator loses its predicate','it visits the elements that satisfy the predicate')
M('M450','Navigator','FilterIter.Obj.otherNavigator',"    make P (nav r) fuel p s","    make P o.nav fuel p s",'C108','the filtered iterator keeps its old navigator','it never leaves the subtree')
