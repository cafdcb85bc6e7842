import Verif.Green
import Verif.Res
/-!
# Cursors, read-only part — model of `src/cursor.rs`

In this file a cursor handle is a value: the chain of its parents with the index in each of them.
(`Verif/Heap.lean` models the same code again with `NodeData` objects in a heap.)  A mutable tree is
modelled here as a snapshot between two mutations.

Simplifications: child indices are `Nat` (the code casts `usize` to `u32`, i.e. nodes have fewer
than 2^32 children); text sizes are `Nat` (C04).
-/
namespace Rowan

/-- A node handle.  `root`: a `NodeData` without parent (its `index` is 0 for new roots, but may be
anything after `detach`); `child`: one with a parent — src/cursor.rs:112-130, 146-148. -/
inductive SNode where
  | root (mutable : Bool) (index : Nat) (green : GNode)
  | child (parent : SNode) (index : Nat) (offset : Nat) (green : GNode)

/-- A token handle — src/cursor.rs:167-170.  A detached token is a root. -/
inductive SToken where
  | root (mutable : Bool) (index : Nat) (green : GToken)
  | child (parent : SNode) (index : Nat) (offset : Nat) (green : GToken)

/-- src/cursor.rs:144. -/
abbrev SElem := NodeOrToken SNode SToken

namespace SNode

/-- src/cursor.rs:571 (`mutable` is inherited from the parent), 576-578. -/
def mutable : SNode → Bool
  | root m _ _ => m
  | child p _ _ _ => p.mutable
/-- src/cursor.rs:341-343, 643-645. -/
def index : SNode → Nat
  | root _ i _ => i
  | child _ i _ _ => i
/-- `green_ref` / `green` — src/cursor.rs:653-663. -/
def green : SNode → GNode
  | root _ _ g => g
  | child _ _ _ g => g
/-- src/cursor.rs:310-321, 665-668. -/
def parent : SNode → Option SNode
  | root _ _ _ => none
  | child p _ _ _ => some p

/-- The offset of the child at `index` under `parent`, for mutable trees: one round of the loop in
`offset_mut`; `none` is the `unwrap` panic — src/cursor.rs:355-359. -/
def relOffsetMut (parent : SNode) (index : Nat) : Option Nat :=
  (parent.green.slice[index]?).map GChild.relOffset

/-- `offset_mut` — src/cursor.rs:351-362 (the loop towards the root, as recursion). -/
def offsetMut? : SNode → Option Nat
  | root _ _ _ => some 0
  | child p i _ _ => do
    let r ← p.relOffsetMut i
    let o ← p.offsetMut?
    some (r + o)

/-- `NodeData::offset` — src/cursor.rs:346-348.  (`offsetMut?` is never `none` for valid handles,
`SNode.Valid.offsetMut_isSome`.) -/
def offset (n : SNode) : Nat :=
  if n.mutable then n.offsetMut?.getD 0
  else match n with
    | root _ _ _ => 0
    | child _ _ o _ => o

/-- src/cursor.rs:372-374, 628-630. -/
def kind (n : SNode) : SyntaxKind := n.green.kind
/-- src/cursor.rs:365-369, 638-640. -/
def textRange (n : SNode) : TextRange := TextRange.at_ n.offset n.green.textLen

/-- `new_root` — src/cursor.rs:553-557. -/
def newRoot (g : GNode) : SNode := root false 0 g
/-- `new_root_mut` — src/cursor.rs:559-563. -/
def newRootMut (g : GNode) : SNode := root true 0 g

/-- `new_child` — src/cursor.rs:565-574. -/
def newChild (green : GNode) (parent : SNode) (index offset : Nat) : SNode :=
  child parent index offset green

end SNode

namespace SToken
/-- `is_mutable` of a node, token or element: the field `mutable`, src/cursor.rs:121, :576. -/
def mutable : SToken → Bool
  | root m _ _ => m
  | child p _ _ _ => p.mutable
/-- src/cursor.rs:1027-1029. -/
def index : SToken → Nat
  | root _ i _ => i
  | child _ i _ _ => i
/-- src/cursor.rs:1047-1049. -/
def green : SToken → GToken
  | root _ _ g => g
  | child _ _ _ g => g
/-- src/cursor.rs:1052-1054. -/
def parent : SToken → Option SNode
  | root _ _ _ => none
  | child p _ _ _ => some p
/-- src/cursor.rs:351-362. -/
def offsetMut? : SToken → Option Nat
  | root _ _ _ => some 0
  | child p i _ _ => do
    let r ← p.relOffsetMut i
    let o ← p.offsetMut?
    some (r + o)
/-- src/cursor.rs:346-348. -/
def offset (t : SToken) : Nat :=
  if t.mutable then t.offsetMut?.getD 0
  else match t with
    | root _ _ _ => 0
    | child _ _ o _ => o
/-- src/cursor.rs:1017-1019. -/
def kind (t : SToken) : SyntaxKind := t.green.kind
/-- src/cursor.rs:1032-1044. -/
def text (t : SToken) : List Char := t.green.text
/-- src/cursor.rs:1022-1024. -/
def textRange (t : SToken) : TextRange := TextRange.at_ t.offset t.green.textLen
end SToken

namespace SElem
/-- `is_mutable` of a node, token or element: the field `mutable`, src/cursor.rs:121, :576. -/
def mutable : SElem → Bool | .node n => n.mutable | .token t => t.mutable
/-- src/cursor.rs:1135-1140. -/
def index : SElem → Nat | .node n => n.index | .token t => t.index
/-- src/cursor.rs:323-328. -/
def green : SElem → GElem | .node n => .node n.green | .token t => .token t.green
/-- src/cursor.rs:1151-1156. -/
def parent : SElem → Option SNode | .node n => n.parent | .token t => t.parent
/-- `NodeData::offset`, src/cursor.rs:346-349. -/
def offset : SElem → Nat | .node n => n.offset | .token t => t.offset
/-- src/cursor.rs:1143-1148. -/
def kind : SElem → SyntaxKind | .node n => n.kind | .token t => t.kind
/-- src/cursor.rs:1127-1132. -/
def textRange : SElem → TextRange | .node n => n.textRange | .token t => t.textRange

/-- `SyntaxElement::new`, `SyntaxToken::new` — src/cursor.rs:977-986, 1114-1124. -/
def new (g : GElem) (parent : SNode) (index offset : Nat) : SElem :=
  match g with
  | .node n => .node (SNode.newChild n parent index offset)
  | .token t => .token (.child parent index offset t)

/-- `green_siblings` — src/cursor.rs:330-339 (parents are always nodes). -/
def greenSiblings (e : SElem) : List GChild :=
  match e.parent with
  | some p => p.green.slice
  | none => []

/-! `NodeData` navigation, shared by nodes and tokens. -/

/-- src/cursor.rs:376-387. -/
def nextSibling (e : SElem) : Option SNode :=
  (e.greenSiblings.zipIdx.drop (e.index + 1)).findSome? fun (c, i) =>
    c.asRef.asNode.bind fun g => do
      let p ← e.parent
      some (SNode.newChild g p i (p.offset + c.relOffset))

/-- src/cursor.rs:389-403. -/
def nextSiblingByKind (m : SyntaxKind → Bool) (e : SElem) : Option SNode :=
  (e.greenSiblings.zipIdx.drop (e.index + 1)).findSome? fun (c, i) =>
    if !m c.asRef.kind then none
    else c.asRef.asNode.bind fun g => do
      let p ← e.parent
      some (SNode.newChild g p i (p.offset + c.relOffset))

/-- src/cursor.rs:405-416. -/
def prevSibling (e : SElem) : Option SNode :=
  if e.index ≤ e.greenSiblings.length then
    (e.greenSiblings.zipIdx.reverse.drop (e.greenSiblings.length - e.index)).findSome? fun (c, i) =>
      c.asRef.asNode.bind fun g => do
        let p ← e.parent
        some (SNode.newChild g p i (p.offset + c.relOffset))
  else none

/-- src/cursor.rs:418-427, 1180-1185. -/
def nextSiblingOrToken (e : SElem) : Option SElem :=
  (e.greenSiblings.zipIdx[e.index + 1]?).bind fun (c, i) => do
    let p ← e.parent
    some (SElem.new c.asRef p i (p.offset + c.relOffset))

/-- src/cursor.rs:429-444, 1243-1251. -/
def nextSiblingOrTokenByKind (m : SyntaxKind → Bool) (e : SElem) : Option SElem :=
  (e.greenSiblings.zipIdx.drop (e.index + 1)).findSome? fun (c, i) =>
    if !m c.asRef.kind then none
    else do
      let p ← e.parent
      some (SElem.new c.asRef p i (p.offset + c.relOffset))

/-- src/cursor.rs:446-455, 1253-1258. -/
def prevSiblingOrToken (e : SElem) : Option SElem :=
  match e.index with
  | 0 => none
  | i + 1 =>
    (e.greenSiblings.zipIdx[i]?).bind fun (c, i) => do
      let p ← e.parent
      some (SElem.new c.asRef p i (p.offset + c.relOffset))

end SElem

namespace SNode

/-- src/cursor.rs:685-696. -/
def firstChild (n : SNode) : Option SNode :=
  n.green.slice.zipIdx.findSome? fun (c, i) =>
    c.asRef.asNode.map fun g => newChild g n i (n.offset + c.relOffset)

/-- src/cursor.rs:698-712. -/
def firstChildByKind (m : SyntaxKind → Bool) (n : SNode) : Option SNode :=
  n.green.slice.zipIdx.findSome? fun (c, i) =>
    if !m c.asRef.kind then none
    else c.asRef.asNode.map fun g => newChild g n i (n.offset + c.relOffset)

/-- src/cursor.rs:714-725. -/
def lastChild (n : SNode) : Option SNode :=
  n.green.slice.zipIdx.reverse.findSome? fun (c, i) =>
    c.asRef.asNode.map fun g => newChild g n i (n.offset + c.relOffset)

/-- src/cursor.rs:727-731. -/
def firstChildOrToken (n : SNode) : Option SElem :=
  n.green.slice.head?.map fun c => SElem.new c.asRef n 0 (n.offset + c.relOffset)

/-- src/cursor.rs:733-748. -/
def firstChildOrTokenByKind (m : SyntaxKind → Bool) (n : SNode) : Option SElem :=
  n.green.slice.zipIdx.findSome? fun (c, i) =>
    if !m c.asRef.kind then none
    else some (SElem.new c.asRef n i (n.offset + c.relOffset))

/-- src/cursor.rs:750-759. -/
def lastChildOrToken (n : SNode) : Option SElem :=
  n.green.slice.zipIdx.getLast?.map fun (c, i) => SElem.new c.asRef n i (n.offset + c.relOffset)

/-- src/cursor.rs:796-824. -/
def nextSibling (n : SNode) : Option SNode := SElem.nextSibling (.node n)
/-- src/cursor.rs:800-805. -/
def nextSiblingByKind (m : SyntaxKind → Bool) (n : SNode) : Option SNode :=
  SElem.nextSiblingByKind m (.node n)
/-- src/cursor.rs:807-809. -/
def prevSibling (n : SNode) : Option SNode := SElem.prevSibling (.node n)
/-- src/cursor.rs:811-813. -/
def nextSiblingOrToken (n : SNode) : Option SElem := SElem.nextSiblingOrToken (.node n)
/-- src/cursor.rs:815-820 (nodes), :1065-1070 (tokens). -/
def nextSiblingOrTokenByKind (m : SyntaxKind → Bool) (n : SNode) : Option SElem :=
  SElem.nextSiblingOrTokenByKind m (.node n)
/-- src/cursor.rs:822-824 (nodes), :1072-1074 (tokens). -/
def prevSiblingOrToken (n : SNode) : Option SElem := SElem.prevSiblingOrToken (.node n)

/-- `to_next_sibling`: if the handle is unshared and the tree immutable, the `NodeData` is re-pointed
in place (same parent, new index, offset and green) — src/cursor.rs:763-794.  `unshared` says
whether the reference count is 1. -/
def toNextSibling (unshared : Bool) (n : SNode) : Option SNode :=
  if !(unshared && !n.mutable) then n.nextSibling
  else do
    let p ← n.parent
    (p.green.slice.zipIdx.drop (n.index + 1)).findSome? fun (c, i) =>
      c.asRef.asNode.map fun g => child p i (p.offset + c.relOffset) g

/-- `ancestors`: `successors(Some(self), parent)` — src/cursor.rs:671-673. -/
def ancestors : SNode → List SNode
  | root m i g => [root m i g]
  | child p i o g => child p i o g :: p.ancestors

end SNode

namespace SToken
/-- src/cursor.rs:1061-1074. -/
def nextSiblingOrToken (t : SToken) : Option SElem := SElem.nextSiblingOrToken (.token t)
/-- src/cursor.rs:815-820 (nodes), :1065-1070 (tokens). -/
def nextSiblingOrTokenByKind (m : SyntaxKind → Bool) (t : SToken) : Option SElem :=
  SElem.nextSiblingOrTokenByKind m (.token t)
/-- src/cursor.rs:822-824 (nodes), :1072-1074 (tokens). -/
def prevSiblingOrToken (t : SToken) : Option SElem := SElem.prevSiblingOrToken (.token t)
/-- src/cursor.rs:1057-1059. -/
def ancestors (t : SToken) : List SNode :=
  match t.parent with
  | some p => p.ancestors
  | none => []
end SToken

namespace SElem
/-- src/cursor.rs:1159-1165. -/
def ancestors : SElem → List SNode
  | .node n => n.ancestors
  | .token t => t.ancestors

/-- `to_next_sibling_or_token` — src/cursor.rs:1203-1241. -/
def toNextSiblingOrToken (unshared : Bool) (e : SElem) : Option SElem :=
  if !(unshared && !e.mutable) then e.nextSiblingOrToken
  else do
    let p ← e.parent
    match (p.green.slice.zipIdx.drop (e.index + 1)).head? with
    | none => none
    | some (c, i) =>
      match c.asRef with
      | .node g => some (.node (.child p i (p.offset + c.relOffset) g))
      | .token g => some (.token (.child p i (p.offset + c.relOffset) g))
end SElem

/-- The `k`-th element yielded by `iter::successors(first, f)`: each call yields the stored element
and stores `f` of it. (Standard library, used at src/cursor.rs:672, :835, :847, :1058, :1082, :1164.) -/
def successors {α : Type} (f : α → Option α) (first : Option α) : Nat → Option α
  | 0 => first
  | k + 1 => (successors f first k).bind f

/-- `Direction` — src/utility_types.rs:61-65. -/
inductive Direction where
  | next
  | prev
deriving DecidableEq, Repr

/-- One step of `siblings` — src/cursor.rs:834-839. -/
def SNode.siblingStep (d : Direction) (n : SNode) : Option SNode :=
  match d with
  | .next => n.nextSibling
  | .prev => n.prevSibling

/-- One step of `siblings_with_tokens` — src/cursor.rs:842-851, 1077-1086. -/
def SElem.siblingStep (d : Direction) (e : SElem) : Option SElem :=
  match d with
  | .next => e.nextSiblingOrToken
  | .prev => e.prevSiblingOrToken

/-! ### Child iterators -/

/-- `SyntaxNodeChildren` — src/cursor.rs:1356-1366. -/
structure NodeChildren where
  parent : SNode
  next : Option SNode := none
  initialized : Bool := false

/-- `Iterator::next` of `SyntaxNodeChildren`; `unshared` says whether the handle kept inside the
iterator is the only one (i.e. the caller dropped the yielded clone) — src/cursor.rs:1386-1398. -/
def NodeChildren.step (unshared : Bool) (it : NodeChildren) : Option SNode × NodeChildren :=
  let next := if !it.initialized then it.parent.firstChild
    else it.next.bind (·.toNextSibling unshared)
  (next, { it with next := next, initialized := true })

/-- `SyntaxElementChildren` — src/cursor.rs:1415-1425. -/
structure ElemChildren where
  parent : SNode
  next : Option SElem := none
  initialized : Bool := false

/-- src/cursor.rs:1448-1460. -/
def ElemChildren.step (unshared : Bool) (it : ElemChildren) : Option SElem × ElemChildren :=
  let next := if !it.initialized then it.parent.firstChildOrToken
    else it.next.bind (·.toNextSiblingOrToken unshared)
  (next, { it with next := next, initialized := true })

/-- `SyntaxNodeChildren::by_kind`: the first element of the filtered iterator —
src/cursor.rs:1368-1383. -/
def NodeChildren.byKind (m : SyntaxKind → Bool) (it : NodeChildren) : Option SNode :=
  if !it.initialized then it.parent.firstChildByKind m
  else it.next.bind fun n => if m n.kind then some n else n.nextSiblingByKind m

/-- `SyntaxNodeChildrenByKind::next`: yields `next`, then advances — src/cursor.rs:1406-1413. -/
def byKindStep (m : SyntaxKind → Bool) (next : Option SNode) : Option SNode × Option SNode :=
  (next, next.bind (SNode.nextSiblingByKind m))

/-- src/cursor.rs:1427-1445. -/
def ElemChildren.byKind (m : SyntaxKind → Bool) (it : ElemChildren) : Option SElem :=
  if !it.initialized then it.parent.firstChildOrTokenByKind m
  else it.next.bind fun e => if m e.kind then some e else e.nextSiblingOrTokenByKind m

/-- src/cursor.rs:1468-1475. -/
def elemByKindStep (m : SyntaxKind → Bool) (next : Option SElem) : Option SElem × Option SElem :=
  (next, next.bind (SElem.nextSiblingOrTokenByKind m))

/-- The state of the iterator after `k` calls; `u i` tells whether the handle is unshared at the
`i`-th call. (Repeated calls of src/cursor.rs:1386-1398.) -/
def NodeChildren.after (u : Nat → Bool) (it : NodeChildren) : Nat → NodeChildren
  | 0 => it
  | k + 1 => ((it.after u k).step (u k)).2
/-- What the `k`-th call returns. (src/cursor.rs:1386-1398.) -/
def NodeChildren.nth (u : Nat → Bool) (it : NodeChildren) (k : Nat) : Option SNode :=
  ((it.after u k).step (u k)).1

/-- The state after `k` calls, repeated calls of src/cursor.rs:1448-1460. -/
def ElemChildren.after (u : Nat → Bool) (it : ElemChildren) : Nat → ElemChildren
  | 0 => it
  | k + 1 => ((it.after u k).step (u k)).2
/-- What the `k`-th call returns, src/cursor.rs:1448-1460. -/
def ElemChildren.nth (u : Nat → Bool) (it : ElemChildren) (k : Nat) : Option SElem :=
  ((it.after u k).step (u k)).1

/-- The state of a `by_kind` iterator after `k` calls, and what the `k`-th call returns. (src/cursor.rs:1406-1412.) -/
def byKindAfter (m : SyntaxKind → Bool) (first : Option SNode) : Nat → Option SNode
  | 0 => first
  | k + 1 => (byKindStep m (byKindAfter m first k)).2
/-- What the `k`-th call returns, src/cursor.rs:1406-1412. -/
def byKindNth (m : SyntaxKind → Bool) (first : Option SNode) (k : Nat) : Option SNode :=
  (byKindStep m (byKindAfter m first k)).1
/-- The state after `k` calls, src/cursor.rs:1468-1474. -/
def elemByKindAfter (m : SyntaxKind → Bool) (first : Option SElem) : Nat → Option SElem
  | 0 => first
  | k + 1 => (elemByKindStep m (elemByKindAfter m first k)).2
/-- What the `k`-th call returns, src/cursor.rs:1468-1474. -/
def elemByKindNth (m : SyntaxKind → Bool) (first : Option SElem) (k : Nat) : Option SElem :=
  (elemByKindStep m (elemByKindAfter m first k)).1

/-! ### Identity -/

/-- `NodeData::key` — src/cursor.rs:301-307. -/
def SElem.key (e : SElem) : Nat × Nat := (e.green.addr, e.offset)
/-- src/cursor.rs:301-308. -/
def SNode.key (n : SNode) : Nat × Nat := SElem.key (.node n)
/-- src/cursor.rs:301-308. -/
def SToken.key (t : SToken) : Nat × Nat := SElem.key (.token t)

/-- `PartialEq for SyntaxNode` / `SyntaxToken`, derived for `SyntaxElement` —
src/cursor.rs:1279-1284, 1316-1321. -/
def SNode.eq (a b : SNode) : Bool := a.key == b.key
/-- src/cursor.rs:1316-1322. -/
def SToken.eq (a b : SToken) : Bool := a.key == b.key
/-- Derived `PartialEq` of `NodeOrToken`, src/utility_types.rs:7-11, on src/cursor.rs:1279-1322. -/
def SElem.eq : SElem → SElem → Bool
  | .node a, .node b => a.eq b
  | .token a, .token b => a.eq b
  | _, _ => false

/-! ### Preorder -/

/-- `WalkEvent` — src/utility_types.rs:69-74. -/
inductive WalkEvent (α : Type) where
  | enter (a : α)
  | leave (a : α)
deriving DecidableEq, Repr

/-- src/utility_types.rs:77-82. -/
def WalkEvent.map {α β : Type} (f : α → β) : WalkEvent α → WalkEvent β
  | enter a => enter (f a)
  | leave a => leave (f a)

/-- `Preorder` — src/cursor.rs:1477-1481. -/
structure Preorder where
  start : SNode
  next : Option (WalkEvent SNode)
  skip : Bool := false

/-- src/cursor.rs:1484-1487. -/
def Preorder.new (start : SNode) : Preorder := { start, next := some (.enter start) }
/-- src/cursor.rs:1489-1491. -/
def Preorder.skipSubtree (it : Preorder) : Preorder := { it with skip := true }

/-- `do_skip`; the `unwrap` is an explicit panic — src/cursor.rs:1494-1499. -/
def Preorder.doSkip (it : Preorder) : Res Preorder :=
  match it.next with
  | none => .ok it
  | some (.enter c) => do
    let p ← Res.ofOption c.parent
    .ok { it with next := some (.leave p) }
  | some (.leave p) => .ok { it with next := some (.leave p) }

/-- The event after `ev` — src/cursor.rs:1511-1527. -/
def Preorder.succ (start : SNode) : WalkEvent SNode → Option (WalkEvent SNode)
  | .enter n =>
    match n.firstChild with
    | some c => some (.enter c)
    | none => some (.leave n)
  | .leave n =>
    if n.eq start then none
    else match n.nextSibling with
      | some s => some (.enter s)
      | none => n.parent.map .leave

/-- `Iterator::next for Preorder` — src/cursor.rs:1505-1529. -/
def Preorder.step (it : Preorder) : Res (Option (WalkEvent SNode) × Preorder) := do
  let it ← if it.skip then it.doSkip else .ok it
  .ok (it.next, { it with next := it.next.bind (Preorder.succ it.start), skip := false })

/-- `PreorderWithTokens` — src/cursor.rs:1532-1536. -/
structure PreorderT where
  start : SElem
  next : Option (WalkEvent SElem)
  skip : Bool := false

/-- src/cursor.rs:1539-1542. -/
def PreorderT.new (start : SNode) : PreorderT :=
  { start := .node start, next := some (.enter (.node start)) }
/-- src/cursor.rs:1544-1546. -/
def PreorderT.skipSubtree (it : PreorderT) : PreorderT := { it with skip := true }

/-- src/cursor.rs:1549-1554. -/
def PreorderT.doSkip (it : PreorderT) : Res PreorderT :=
  match it.next with
  | none => .ok it
  | some (.enter c) => do
    let p ← Res.ofOption c.parent
    .ok { it with next := some (.leave (.node p)) }
  | some (.leave p) => .ok { it with next := some (.leave p) }

/-- src/cursor.rs:1566-1581. -/
def PreorderT.succ (start : SElem) : WalkEvent SElem → Option (WalkEvent SElem)
  | .enter (.node n) =>
    match n.firstChildOrToken with
    | some c => some (.enter c)
    | none => some (.leave (.node n))
  | .enter (.token t) => some (.leave (.token t))
  | .leave e =>
    if e.eq start then none
    else match e.nextSiblingOrToken with
      | some s => some (.enter s)
      | none => e.parent.map fun p => .leave (.node p)

/-- src/cursor.rs:1560-1583. -/
def PreorderT.step (it : PreorderT) : Res (Option (WalkEvent SElem) × PreorderT) := do
  let it ← if it.skip then it.doSkip else .ok it
  .ok (it.next, { it with next := it.next.bind (PreorderT.succ it.start), skip := false })

/-! ### Cloning and replacing -/

/-- `clone_subtree` — src/cursor.rs:591-593. -/
def SNode.cloneSubtree (n : SNode) : SNode := newRoot n.green

/-- `clone_for_update`; panics on a mutable tree — src/cursor.rs:580-589. -/
def SNode.cloneForUpdate : SNode → Res SNode
  | root m i g => if (root m i g).mutable then .panic else .ok (newRootMut g)
  | child p i o g =>
    if (child p i o g).mutable then .panic
    else do
      let p' ← p.cloneForUpdate
      .ok (newChild g p' i (child p i o g).offset)

/-- `SyntaxNode::replace_with`; `next` supplies addresses for the new green nodes —
src/cursor.rs:614-625. -/
def SNode.replaceWith (next : Nat) (n : SNode) (g : GNode) : Res GNode :=
  match n with
  | root _ _ old => if old.kind == g.kind then .ok g else .panic
  | child p i _ old =>
    if old.kind == g.kind then p.replaceWith (next + 1) (p.green.replaceChild next i (.node g))
    else .panic

/-- `SyntaxToken::replace_with` — src/cursor.rs:1007-1014. -/
def SToken.replaceWith (next : Nat) (t : SToken) (g : GToken) : Res GNode :=
  if t.kind == g.kind then
    match t.parent with
    | none => .panic
    | some p => p.replaceWith (next + 1) (p.green.replaceChild next t.index (.token g))
  else .panic

end Rowan
