import Verif.Sll
/-!
# The cursor heap — model of the pointer code in `src/cursor.rs`

Every handle (`SyntaxNode`, `SyntaxToken`) is the address of a `NodeData` and owns one unit of its
reference count.  Functions taking a handle by value consume that unit, functions returning a handle
produce one.  Pure code built from these calls (traversals, searches, formatting) is modelled on
immutable snapshots in `Verif.Cursor` and is not repeated here.
-/
namespace Rowan

namespace HSt
/-- Some strong reference keeps the green object at address `a` alive.
(The reference counts of src/arc.rs:24-39 seen from the cursor heap; not in the code as a function.) -/
def holds (s : HSt) (a : Nat) : Bool := s.owned.any fun o => o.subs.any fun x => x.addr == a
end HSt

namespace H
/-- Dereference a raw pointer to green data. (src/cursor.rs:323-328 (`ptr.as_ref()` of the green pointer).) -/
def derefG (g : GElem) : H Unit := fun s => if s.holds g.addr then .ok () s else .ub
/-- `GreenNode::into_raw` / `GreenToken::into_raw` (and `mem::forget`): a strong reference is now held
by a raw pointer.
(src/green/node.rs:235-240, src/green/token.rs:118-122; called at src/cursor.rs:472-475, :542, :554, :560.) -/
def own (g : GElem) : H Unit := modify fun s => { s with owned := g :: s.owned }
/-- `GreenNode::from_raw` / `GreenToken::from_raw` followed by a drop or a move: the strong reference
is no longer held by a raw pointer.  Taking one that is not there is undefined behaviour.
(src/green/node.rs:242-249, src/green/token.rs:134-140; called at src/cursor.rs:211-215, :514-515, :543.) -/
def release (g : GElem) : H Unit := fun s =>
  if s.owned.any (·.addr == g.addr) then
    .ok () { s with owned := s.owned.eraseP (·.addr == g.addr) }
  else .ub
/-- The address of a new green allocation.
(The allocation of src/arc.rs:346; simplification: addresses are never reused.) -/
def freshG : H Nat := fun s => .ok s.gtop { s with gtop := s.gtop + 1 }
/-- `Option::unwrap`. (Used at src/cursor.rs:356-357, :662, :1009, :1048 (standard library).) -/
def unwrap {α : Type} : Option α → H α
  | some a => pure a
  | none => panic .assert
end H

namespace Cur

/-- `u32::MAX`. (The bound of `Cell<u32>` and `checked_add`, src/cursor.rs:285-292.) -/
def rcMax : Nat := 2 ^ 32 - 1

/-- `inc_rc`: abort on overflow — src/cursor.rs:285-291. -/
def incRc (p : Nat) : H Unit := do
  let rc ← H.rd p HSt.rc
  if rc = rcMax then H.abort else H.wr p (·.setRc p (rc + 1))

/-- `dec_rc` — src/cursor.rs:294-298. -/
def decRc (p : Nat) : H Bool := do
  let rc ← H.rd p HSt.rc
  H.dbg (0 < rc)
  H.wr p (·.setRc p (rc - 1))
  pure (rc - 1 == 0)

/-- The end of the scope of `Box::from_raw(..)` — src/cursor.rs:195. -/
def dealloc (p : Nat) : H Unit := H.wr p fun s => { s with live := upd s.live p false }

/-- `if node.mutable { sll::unlink(..) }` — src/cursor.rs:199-201. -/
def unlinkIf (m : Bool) (q p : Nat) : H Unit := if m then Sll.unlink q p else pure ()

/-- The loop of `free` — src/cursor.rs:189-222. -/
def freeLoop : Nat → Nat → H Unit
  | 0, _ => H.diverge
  | fuel + 1, p => do
    H.dbg ((← H.rd p HSt.rc) == 0)
    H.dbg (← H.rd p HSt.first).isNone
    match ← H.rd p HSt.parent with
    | some q => do
      H.wr p (·.setParent p none)
      H.dbg (0 < (← H.rd q HSt.rc))
      unlinkIf (← H.rd p HSt.mutable) q p
      let last ← decRc q
      dealloc p
      if last then freeLoop fuel q else pure ()
    | none => do
      H.release (← H.rd p HSt.green)
      dealloc p

/-- `free` — src/cursor.rs:189-222. -/
def free (p : Nat) : H Unit := H.loop fun fuel => freeLoop fuel p

/-- `Drop for SyntaxNode` / `SyntaxToken` — src/cursor.rs:158-165, 180-187. -/
def drop (p : Nat) : H Unit := do
  let last ← decRc p
  if last then free p else pure ()

/-- Drop several handles. (`Drop`, src/cursor.rs:158-165, :180-187, run by drop glue.) -/
def dropAll : List Nat → H Unit
  | [] => pure ()
  | p :: ps => do drop p; dropAll ps

/-- `Clone for SyntaxNode` / `SyntaxToken` — src/cursor.rs:150-156, 172-178. -/
def clone (p : Nat) : H Nat := do incRc p; pure p

/-- `Box::into_raw(Box::new(res))` of a fresh `NodeData` — src/cursor.rs:235-247, 273. -/
def alloc (parent : Option Nat) (index offset : Nat) (green : GElem) (mutable : Bool) : H Nat :=
  fun s => .ok s.top
    { s with
      live := upd s.live s.top true
      rc := upd s.rc s.top 1
      parent := upd s.parent s.top parent
      index := upd s.index s.top index
      green := upd s.green s.top green
      mutable := upd s.mutable s.top mutable
      offset := upd s.offset s.top offset
      first := upd s.first s.top none
      next := upd s.next s.top none
      prev := upd s.prev s.top none
      top := s.top + 1 }

/-- `ManuallyDrop::into_inner(parent)`: the handle is dropped — src/cursor.rs:269. -/
def dropOpt : Option Nat → H Unit
  | some q => drop q
  | none => pure ()

/-- Both green pointers are nodes or both are tokens, at the same address — src/cursor.rs:255-266. -/
def sameGreen : GElem → GElem → Bool
  | .node a, .node b => a.addr == b.addr
  | .token a, .token b => a.addr == b.addr
  | _, _ => false

/-- `NodeData::new`; consumes the handle `parent` — src/cursor.rs:226-282. -/
def newData (parent : Option Nat) (index offset : Nat) (green : GElem) (mutable : Bool) : H Nat :=
  if mutable then do
    match ← Sll.init parent index with
    | .alreadyInSll node => do
      H.dbg ((← H.rd node HSt.index) == index)
      let g ← H.rd node HSt.green
      H.derefG g
      H.derefG green
      H.dbg (sameGreen g green)
      dropOpt parent
      incRc node
      pure node
    | it => do
      let p ← alloc parent index offset green mutable
      it.addToSll p
      pure p
  else alloc parent index offset green mutable

/-- `parent_node` — src/cursor.rs:310-315. -/
def parentNode (p : Nat) : H (Option Nat) := do
  match ← H.rd p HSt.parent with
  | none => pure none
  | some q => do
    H.dbg (← H.rd q HSt.green).asNode.isSome
    incRc q
    pure (some q)

/-- `green` — src/cursor.rs:323-328. -/
def green (p : Nat) : H GElem := do
  let g ← H.rd p HSt.green
  H.derefG g
  pure g

/-- `green_ref` — src/cursor.rs:661-663. -/
def greenRef (p : Nat) : H GNode := do H.unwrap (← green p).asNode

/-- `green_siblings` — src/cursor.rs:330-339. -/
def greenSiblings (p : Nat) : H (List GChild) := do
  match ← H.rd p HSt.parent with
  | none => pure []
  | some q =>
    match ← H.rd q HSt.green with
    | .node n => do
      H.derefG (.node n)
      pure n.slice
    | .token _ => H.ub

/-- The loop of `offset_mut` — src/cursor.rs:351-362. -/
def offsetMut : Nat → Nat → Nat → H Nat
  | 0, _, _ => H.diverge
  | fuel + 1, p, res => do
    match ← H.rd p HSt.parent with
    | none => pure res
    | some q => do
      let n ← greenRef q
      let c ← H.unwrap n.slice[(← H.rd p HSt.index)]?
      offsetMut fuel q (res + c.relOffset)

/-- `offset` — src/cursor.rs:346-348. -/
def offset (p : Nat) : H Nat := do
  let m ← H.rd p HSt.mutable
  if m then H.loop fun fuel => offsetMut fuel p 0 else H.rd p HSt.offset

/-- `kind` — src/cursor.rs:372-374. -/
def kind (p : Nat) : H SyntaxKind := do pure (← green p).kind

/-- `text_range` — src/cursor.rs:365-369. -/
def textRange (p : Nat) : H TextRange := do
  let off ← offset p
  pure (TextRange.at_ off (← green p).textLen)

/-- `index` — src/cursor.rs:341-343. -/
def index (p : Nat) : H Nat := H.rd p HSt.index

/-- `SyntaxNode::new_child`, `SyntaxToken::new`, `SyntaxElement::new`; consumes the handle `parent` —
src/cursor.rs:565-574, 977-986, 1114-1124. -/
def newChild (green : GElem) (parent index offset : Nat) : H Nat := do
  let m ← H.rd parent HSt.mutable
  newData (some parent) index offset green m

/-- The common tail of the sibling functions, given the sibling found and its index.  (In the code
this is the closure passed to `find_map`/`and_then`; siblings exist only if there is a parent.)
(src/cursor.rs:376-454). -/
def viaParent (p : Nat) : Option (GChild × Nat) → H (Option Nat)
  | none => pure none
  | some (c, i) => do
    match ← parentNode p with
    | none => pure none
    | some q => do
      let off ← offset q
      let r ← newChild c.asRef q i (off + c.relOffset)
      pure (some r)

/-- The common tail of the child functions. (src/cursor.rs:685-760.) -/
def viaSelf (p : Nat) : Option (GChild × Nat) → H (Option Nat)
  | none => pure none
  | some (c, i) => do
    incRc p
    let off ← offset p
    let r ← newChild c.asRef p i (off + c.relOffset)
    pure (some r)

/-- `child.as_ref().into_node().is_some()`. (src/cursor.rs:381, :410, :687, :716.) -/
def isNode (x : GChild × Nat) : Bool := x.1.asRef.asNode.isSome
/-- `matcher(child.as_ref().kind())`. (src/cursor.rs:389-403, :429-444, :698-712, :733-748.) -/
def kindOk (m : SyntaxKind → Bool) (x : GChild × Nat) : Bool := m x.1.asRef.kind

/-- src/cursor.rs:376-387. -/
def nextSibling (p : Nat) : H (Option Nat) := do
  let sib ← greenSiblings p
  let i ← index p
  viaParent p ((sib.zipIdx.drop (i + 1)).find? isNode)

/-- src/cursor.rs:389-403. -/
def nextSiblingByKind (m : SyntaxKind → Bool) (p : Nat) : H (Option Nat) := do
  let sib ← greenSiblings p
  let i ← index p
  viaParent p ((sib.zipIdx.drop (i + 1)).find? fun x => kindOk m x && isNode x)

/-- src/cursor.rs:405-416. -/
def prevSibling (p : Nat) : H (Option Nat) := do
  let sib ← greenSiblings p
  let i ← index p
  if sib.length < i then pure none
  else viaParent p ((sib.zipIdx.reverse.drop (sib.length - i)).find? isNode)

/-- src/cursor.rs:418-427. -/
def nextSiblingOrToken (p : Nat) : H (Option Nat) := do
  let sib ← greenSiblings p
  let i ← index p
  viaParent p sib.zipIdx[i + 1]?

/-- src/cursor.rs:429-444. -/
def nextSiblingOrTokenByKind (m : SyntaxKind → Bool) (p : Nat) : H (Option Nat) := do
  let sib ← greenSiblings p
  let i ← index p
  viaParent p ((sib.zipIdx.drop (i + 1)).find? (kindOk m))

/-- src/cursor.rs:446-455. -/
def prevSiblingOrToken (p : Nat) : H (Option Nat) := do
  let sib ← greenSiblings p
  let i ← index p
  if i = 0 then pure none else viaParent p sib.zipIdx[i - 1]?

/-- src/cursor.rs:685-696. -/
def firstChild (p : Nat) : H (Option Nat) := do
  let g ← greenRef p
  viaSelf p (g.slice.zipIdx.find? isNode)

/-- src/cursor.rs:698-712. -/
def firstChildByKind (m : SyntaxKind → Bool) (p : Nat) : H (Option Nat) := do
  let g ← greenRef p
  viaSelf p (g.slice.zipIdx.find? fun x => kindOk m x && isNode x)

/-- src/cursor.rs:714-725. -/
def lastChild (p : Nat) : H (Option Nat) := do
  let g ← greenRef p
  viaSelf p (g.slice.zipIdx.reverse.find? isNode)

/-- src/cursor.rs:727-731. -/
def firstChildOrToken (p : Nat) : H (Option Nat) := do
  let g ← greenRef p
  viaSelf p g.slice.zipIdx.head?

/-- src/cursor.rs:733-748. -/
def firstChildOrTokenByKind (m : SyntaxKind → Bool) (p : Nat) : H (Option Nat) := do
  let g ← greenRef p
  viaSelf p (g.slice.zipIdx.find? (kindOk m))

/-- src/cursor.rs:750-759. -/
def lastChildOrToken (p : Nat) : H (Option Nat) := do
  let g ← greenRef p
  viaSelf p g.slice.zipIdx.getLast?

/-- The child with index `i`, as `child_or_token_at_range` makes it once it has found the index —
src/cursor.rs:935-940. -/
def childAt (i : Nat) (p : Nat) : H (Option Nat) := do
  let g ← greenRef p
  viaSelf p g.slice.zipIdx[i]?

/-- `SyntaxNode::parent`, `SyntaxToken::parent` — src/cursor.rs:665-668, 1045-1048. -/
def parent (p : Nat) : H (Option Nat) := parentNode p

/-- `can_take_ptr` — src/cursor.rs:600-602, 994-996, 1188-1193. -/
def canTakePtr (p : Nat) : H Bool := do
  let rc ← H.rd p HSt.rc
  let m ← H.rd p HSt.mutable
  pure (rc == 1 && !m)

/-- The in-place part of `to_next_sibling[_or_token]`: `p` has been taken out of its handle, `parent`
is an owned handle of its parent, `found` the sibling to move to — src/cursor.rs:780-793, 1221-1240. -/
def advance (p q parentOffset : Nat) : Option (GChild × Nat) → H (Option Nat)
  | some (c, i) => do
    H.wr p (·.setIndex p i)
    H.wr p (·.setOffset p (parentOffset + c.relOffset))
    H.wr p (·.setGreen p c.asRef)
    drop q
    pure (some p)
  | none => do
    let _ ← decRc p
    free p
    drop q
    pure none

/-- The unshared branch: `data.parent_node()?` returns early without giving `p` back —
src/cursor.rs:769-793, 1209-1240. -/
def takeNext (sel : List (GChild × Nat) → Option (GChild × Nat)) (p : Nat) : H (Option Nat) := do
  match ← parentNode p with
  | none => pure none
  | some q => do
    let off ← offset q
    let g ← greenRef q
    let i ← index p
    advance p q off (sel (g.slice.zipIdx.drop (i + 1)))

/-- `to_next_sibling`; consumes the handle — src/cursor.rs:763-794. -/
def toNextSibling (p : Nat) : H (Option Nat) := do
  let take ← canTakePtr p
  if take then takeNext (·.find? isNode) p
  else do
    let r ← nextSibling p
    drop p
    pure r

/-- `to_next_sibling_or_token`; consumes the handle — src/cursor.rs:1203-1241. -/
def toNextSiblingOrToken (p : Nat) : H (Option Nat) := do
  let take ← canTakePtr p
  if take then takeNext (·.head?) p
  else do
    let r ← nextSiblingOrToken p
    drop p
    pure r

/-- `new_root` — src/cursor.rs:553-557. -/
def newRoot (g : GNode) : H Nat := do
  H.own (.node g)
  newData none 0 0 (.node g) false

/-- `new_root_mut` — src/cursor.rs:559-563. -/
def newRootMut (g : GNode) : H Nat := do
  H.own (.node g)
  newData none 0 0 (.node g) true

/-- `clone_subtree` (`to_owned` of the green node takes a strong reference) — src/cursor.rs:591-593. -/
def cloneSubtree (p : Nat) : H Nat := do
  let g ← greenRef p
  newRoot g

/-- `clone_for_update` — src/cursor.rs:580-589. -/
def cloneForUpdateLoop : Nat → Nat → H Nat
  | 0, _ => H.diverge
  | fuel + 1, p => do
    H.assert (!(← H.rd p HSt.mutable))
    match ← parentNode p with
    | some q => do
      let q' ← cloneForUpdateLoop fuel q
      let g ← greenRef p
      let i ← index p
      let off ← offset p
      let r ← newChild (.node g) q' i off
      drop q
      pure r
    | none => do
      let g ← greenRef p
      newRootMut g

/-- The whole of `clone_for_update`, src/cursor.rs:580-589. -/
def cloneForUpdate (p : Nat) : H Nat := H.loop fun fuel => cloneForUpdateLoop fuel p

/-- The loop of `respine`.  The strong reference in the local variable `new_green` is in `owned`: it
moves into the new parent's green node (`replace_child`), and at the root it is forgotten, that is,
it becomes the reference held by the root — src/cursor.rs:524-549. -/
def respine : Nat → Nat → GNode → H Unit
  | 0, _, _ => H.diverge
  | fuel + 1, node, newGreen => do
    let old ← H.rd node HSt.green
    let _ ← H.unwrap old.asNode
    H.wr node (·.setGreen node (.node newGreen))
    match ← H.rd node HSt.parent with
    | some parent => do
      let pg ← greenRef parent
      let i ← index node
      let a ← H.freshG
      H.own (.node (pg.replaceChild a i (.node newGreen)))
      H.release (.node newGreen)
      respine fuel parent (pg.replaceChild a i (.node newGreen))
    | none => H.release old

/-- `NodeData::detach` — src/cursor.rs:457-490. -/
def detachData (p : Nat) : H Unit := do
  H.assert (← H.rd p HSt.mutable)
  H.assert (0 < (← H.rd p HSt.rc))
  match ← H.rd p HSt.parent with
  | none => pure ()
  | some q => do
    H.wr p (·.setParent p none)
    let i ← index p
    Sll.adjust p (i + 1) (.sub 1)
    Sll.unlink q p
    let g ← green p
    H.own g
    let pg ← greenRef q
    let i ← index p
    let a ← H.freshG
    let ng ← H.unwrap (pg.removeChild a i)
    H.own (.node ng)
    H.loop fun fuel => respine fuel q ng
    let last ← decRc q
    if last then free q else pure ()

/-- `detach` of nodes, tokens, elements — src/cursor.rs:960-963, 1107-1110, 1268-1273. -/
def detach (p : Nat) : H Unit := do
  H.assert (← H.rd p HSt.mutable)
  detachData p

/-- `sll::adjust(first, index, Add(1))` if there is a first child — src/cursor.rs:499-501. -/
def shiftFrom (q i : Nat) : H Unit := do
  match ← H.rd q HSt.first with
  | none => pure ()
  | some f => Sll.adjust f i (.add 1)

/-- The linking part of `attach_child` — src/cursor.rs:503-508. -/
def linkChild (q p : Nat) : H Unit := do
  match ← Sll.link q (← index p) with
  | .alreadyInSll _ => H.panic .assert
  | it => it.addToSll p

/-- `insert_child(index, green)`: the reference to `e` moves into the new green node.  Out of range
`Vec::splice` panics, and unwinding drops the reference — src/cursor.rs:512-518,
src/green/node.rs:167-170. -/
def insertGreen (g : GNode) (a i : Nat) (e : GElem) : H GNode :=
  match g.insertChild a i e with
  | some g' => do
    H.own (.node g')
    H.release e
    pure g'
  | none => do
    H.release e
    H.panic .range

/-- `index as u32` for an index below the node `q`.  For a node with fewer than 2^32 children this is `i % 2^32`
(`HSt.asU32_eq`); nodes with more children are outside the model — src/cursor.rs:495, 500. -/
def _root_.Rowan.HSt.asU32 (s : HSt) (q i : Nat) : Nat :=
  match s.green q with
  | .node g => if i ≤ g.slice.length then i else i % 2 ^ 32
  | .token _ => i % 2 ^ 32

/-- `NodeData::attach_child`.  The child's index is cut to 32 bits, the index for the green tree is not —
src/cursor.rs:491-523. -/
def attachData (q i p : Nat) : H Unit := do
  H.assert ((← H.rd q HSt.mutable) && (← H.rd p HSt.mutable) && (← H.rd p HSt.parent).isNone)
  H.assert (0 < (← H.rd q HSt.rc) && 0 < (← H.rd p HSt.rc))
  let k ← H.rd q fun s q => s.asU32 q i
  H.wr p (·.setIndex p k)
  H.wr p (·.setParent p (some q))
  incRc q
  shiftFrom q k
  linkChild q p
  let qg ← greenRef q
  let pg ← H.rd p HSt.green
  let a ← H.freshG
  let ng ← insertGreen qg a i pg
  H.loop fun fuel => respine fuel q ng

/-- `SyntaxNode::attach_child`, without the final drop of `child` — src/cursor.rs:965-973. -/
def attach (q i p : Nat) : H Unit := do
  H.assert (← H.rd q HSt.mutable)
  detach p
  attachData q i p

/-- `SyntaxNodeChildren` (`nodes := true`) and `SyntaxElementChildren` (`nodes := false`) —
src/cursor.rs:1356-1361, 1415-1420. -/
structure Children where
  nodes : Bool := false
  parent : Nat
  next : Option Nat := none
  init : Bool := false

/-- `first_child` / `first_child_or_token`. (src/cursor.rs:685-697, :727-732.) -/
def firstOf (nodes : Bool) (p : Nat) : H (Option Nat) :=
  if nodes then firstChild p else firstChildOrToken p

/-- `to_next_sibling` / `to_next_sibling_or_token`. (src/cursor.rs:763-794, :1203-1240.) -/
def toNextOf (nodes : Bool) (p : Nat) : H (Option Nat) :=
  if nodes then toNextSibling p else toNextSiblingOrToken p

/-- The update of the `next` field in `next()` — src/cursor.rs:1389-1394, 1451-1456. -/
def Children.advance (it : Children) : H (Option Nat) :=
  if !it.init then firstOf it.nodes it.parent
  else
    match it.next with
    | none => pure none
    | some e => toNextOf it.nodes e

/-- `self.next.clone()`. (src/cursor.rs:1396, :1458.) -/
def cloneOpt : Option Nat → H (Option Nat)
  | none => pure none
  | some e => do incRc e; pure (some e)

/-- `SyntaxNodeChildren::next`, `SyntaxElementChildren::next` — src/cursor.rs:1386-1398, 1448-1460. -/
def Children.step (it : Children) : H (Option Nat × Children) := do
  let n ← it.advance
  let r ← cloneOpt n
  pure (r, { it with next := n, init := true })

/-- Dropping the iterator. (Drop glue of the structs at src/cursor.rs:1357-1361, :1416-1420.) -/
def Children.drop (it : Children) : H Unit := do
  Cur.drop it.parent
  dropOpt it.next

/-- The body of the deletion loop — src/cursor.rs:948-950. -/
def detachIf (b : Bool) (e : Nat) : H Unit := if b then detach e else pure ()

/-- The deletion loop of `splice_children`; `i` counts the elements seen — src/cursor.rs:947-951. -/
def spliceDelete (a b : Nat) : Nat → Nat → Children → H Unit
  | 0, _, _ => H.diverge
  | fuel + 1, i, it => do
    let (r, it) ← it.step
    match r with
    | none => it.drop
    | some e => do
      detachIf (decide (a ≤ i) && decide (i < b)) e
      drop e
      spliceDelete a b fuel (i + 1) it

/-- The insertion loop of `splice_children`.  `child` is dropped at the end of `attach_child`; when it
panics, `child` and the rest of the iterator are dropped — src/cursor.rs:953-957. -/
def spliceInsert (q : Nat) : Nat → List Nat → H Unit
  | _, [] => pure ()
  | i, e :: es => do
    H.onPanic (attach q i e) (dropAll (e :: es))
    drop e
    spliceInsert q (i + 1) es

/-- The deletion half. The step bound is the number of green children plus one. (src/cursor.rs:942-952.) -/
def spliceDeleteAll (q a b : Nat) : H Unit := do
  let g ← greenRef q
  incRc q
  spliceDelete a b (g.slice.length + 1) 0 { parent := q }

/-- `splice_children(a..b, ins)`; consumes the handles in `ins` — src/cursor.rs:942-958. -/
def splice (q a b : Nat) (ins : List Nat) : H Unit := do
  let m ← H.rd q HSt.mutable
  H.onPanic (H.assert m) (dropAll ins)
  spliceDeleteAll q a b
  spliceInsert q a ins

/-- The user program `for c in q.children() { c.detach() }` or, with `nodes := false`, the same with
`children_with_tokens()`.  The step bound is the number of green children plus one.
(A client of src/cursor.rs:1357-1398, :960; not itself in the code.) -/
def detachEach (nodes : Bool) (q : Nat) : H Unit := do
  let g ← greenRef q
  incRc q
  spliceDelete 0 (g.slice.length + 1) (g.slice.length + 1) 0 { nodes, parent := q }

/-- `SyntaxNodeChildrenByKind` (`nodes := true`) and `SyntaxElementChildrenByKind` —
src/cursor.rs:1400-1404, 1462-1466. -/
structure ByKind where
  nodes : Bool
  next : Option Nat

/-- `first_child_by_kind` / `first_child_or_token_by_kind`. (src/cursor.rs:698-712, :733-748.) -/
def firstByKind (nodes : Bool) (m : SyntaxKind → Bool) (p : Nat) : H (Option Nat) :=
  if nodes then firstChildByKind m p else firstChildOrTokenByKind m p

/-- `next_sibling_by_kind` / `next_sibling_or_token_by_kind`. (src/cursor.rs:389-403, :429-444.) -/
def nextByKind (nodes : Bool) (m : SyntaxKind → Bool) (p : Nat) : H (Option Nat) :=
  if nodes then nextSiblingByKind m p else nextSiblingOrTokenByKind m p

/-- `self.next = next.next_sibling_by_kind(..)` in `next()`. (src/cursor.rs:1406-1412, :1468-1474.) -/
def ByKind.advance (m : SyntaxKind → Bool) (it : ByKind) : H (Option Nat) :=
  match it.next with
  | none => pure none
  | some e => nextByKind it.nodes m e

/-- `SyntaxNodeChildrenByKind::next`, `SyntaxElementChildrenByKind::next`: the handle in `next` is
given to the caller — src/cursor.rs:1406-1413, 1468-1475. -/
def ByKind.step (m : SyntaxKind → Bool) (it : ByKind) : H (Option Nat × ByKind) := do
  let n ← it.advance m
  pure (it.next, { it with next := n })

/-- The user program `for c in q.children().by_kind(m) { c.detach() }` (or with tokens), `fuel` bounding
the number of steps. (A client of src/cursor.rs:1401-1413, :1463-1475; not itself in the code.) -/
def detachByKindLoop (m : SyntaxKind → Bool) : Nat → ByKind → H Unit
  | 0, _ => H.diverge
  | fuel + 1, it => do
    let (r, it) ← it.step m
    match r with
    | none => pure ()
    | some e => do
      detach e
      drop e
      detachByKindLoop m fuel it

/-- The user program over the `by_kind` iterators of src/cursor.rs:1368-1383, :1427-1445; not itself in the code. -/
def detachByKind (nodes : Bool) (m : SyntaxKind → Bool) (q : Nat) : H Unit := do
  let g ← greenRef q
  let n ← firstByKind nodes m q
  detachByKindLoop m (g.slice.length + 1) { nodes, next := n }

end Cur
end Rowan
