import Verif.HeapApi
/-!
# Edits in builds with overflow checks

`GreenNode::new` adds up the lengths of the children in a `TextSize`, that is, in 32 bits
(src/green/node.rs:208-216).  In builds with overflow checks the addition panics when the text gets longer than
`u32::MAX` bytes.  The edits of mutable trees call `GreenNode::new`: through `remove_child` and `insert_child`, and
through `replace_child` for every ancestor.  `Verif/Heap.lean` models them without this panic.  Here are the same
functions with it.

Unwinding out of `GreenNode::new` leaks the allocation, with the children already written into it: "any panics here
(i.e. from the iterator) are safe, since we'll just leak the uninitialized memory" (src/arc.rs:366-367).  All other
children, and the one whose length did not fit, are dropped.

In builds without overflow checks the lengths wrap around (C04), but nothing in these functions depends on them.
-/
namespace Rowan
namespace Cur

/-- The first of the elements at which the sum of the lengths, starting with `acc`, does not fit into 32 bits —
src/green/node.rs:208-211. -/
def overflowAt (acc : Nat) : List GElem → Option Nat
  | [] => none
  | e :: es => if acc + e.textLen < 2 ^ 32 then (overflowAt (acc + e.textLen) es).map (· + 1) else some 0

/-- References that are never released.
(Compiler-inserted unwinding over src/cursor.rs:614-634; modelling vocabulary.) -/
def leak : List GElem → H Unit
  | [] => pure ()
  | e :: es => do
    H.own e
    leak es

/-- `GreenNode::new` for the new node `g`.  The reference `moved`, if any, is the only one among the children that the
caller gave away; those to the other children are clones.  The panic is a failed check, so it is a `Why.assert` —
src/green/node.rs:203-232, src/arc.rs:364-380. -/
def build (g : GNode) (moved : Option GElem) : H Unit :=
  match overflowAt 0 g.children with
  | none => do
    H.own (.node g)
    moved.elim (pure ()) H.release
  | some j => do
    leak (g.children.take j)
    moved.elim (pure ()) H.release
    H.panic .assert

/-- `respine` — src/cursor.rs:524-549. -/
def respineC : Nat → Nat → GNode → H Unit
  | 0, _, _ => H.diverge
  | fuel + 1, node, newGreen => do
    let old ← H.rd node HSt.green
    let _ ← H.unwrap old.asNode
    H.wr node (·.setGreen node (.node newGreen))
    match ← H.rd node HSt.parent with
    | some parent => do
      let pg ← greenRef parent
      let i ← index node
      let a ← H.freshG
      build (pg.replaceChild a i (.node newGreen)) (some (.node newGreen))
      respineC fuel parent (pg.replaceChild a i (.node newGreen))
    | none => H.release old

/-- `NodeData::detach` — src/cursor.rs:457-490. -/
def detachDataC (p : Nat) : H Unit := do
  H.assert (← H.rd p HSt.mutable)
  H.assert (0 < (← H.rd p HSt.rc))
  match ← H.rd p HSt.parent with
  | none => pure ()
  | some q => do
    H.wr p (·.setParent p none)
    let i ← index p
    Sll.adjust p (i + 1) (.sub 1)
    Sll.unlink q p
    let g ← green p
    H.own g
    let pg ← greenRef q
    let i ← index p
    let a ← H.freshG
    let ng ← H.unwrap (pg.removeChild a i)
    build ng none
    H.loop fun fuel => respineC fuel q ng
    let last ← decRc q
    if last then free q else pure ()

/-- `detach` of nodes, tokens, elements — src/cursor.rs:960-963, 1107-1110, 1268-1273. -/
def detachC (p : Nat) : H Unit := do
  H.assert (← H.rd p HSt.mutable)
  detachDataC p

/-- `insert_child(index, green)` — src/cursor.rs:512-518, src/green/node.rs:167-170. -/
def insertGreenC (g : GNode) (a i : Nat) (e : GElem) : H GNode :=
  match g.insertChild a i e with
  | some g' => do
    build g' (some e)
    pure g'
  | none => do
    H.release e
    H.panic .range

/-- `NodeData::attach_child` — src/cursor.rs:491-523. -/
def attachDataC (q i p : Nat) : H Unit := do
  H.assert ((← H.rd q HSt.mutable) && (← H.rd p HSt.mutable) && (← H.rd p HSt.parent).isNone)
  H.assert (0 < (← H.rd q HSt.rc) && 0 < (← H.rd p HSt.rc))
  let k ← H.rd q fun s q => s.asU32 q i
  H.wr p (·.setIndex p k)
  H.wr p (·.setParent p (some q))
  incRc q
  shiftFrom q k
  linkChild q p
  let qg ← greenRef q
  let pg ← H.rd p HSt.green
  let a ← H.freshG
  let ng ← insertGreenC qg a i pg
  H.loop fun fuel => respineC fuel q ng

/-- `SyntaxNode::attach_child`, without the final drop of `child` — src/cursor.rs:965-973. -/
def attachC (q i p : Nat) : H Unit := do
  H.assert (← H.rd q HSt.mutable)
  detachC p
  attachDataC q i p

/-- The body of the deletion loop — src/cursor.rs:948-950. -/
def detachIfC (b : Bool) (e : Nat) : H Unit := if b then detachC e else pure ()

/-- The deletion loop of `splice_children`; unwinding drops the element and the iterator — src/cursor.rs:947-951. -/
def spliceDeleteC (a b : Nat) : Nat → Nat → Children → H Unit
  | 0, _, _ => H.diverge
  | fuel + 1, i, it => do
    let (r, it) ← it.step
    match r with
    | none => it.drop
    | some e => do
      H.onPanic (detachIfC (decide (a ≤ i) && decide (i < b)) e) (do
        drop e
        it.drop)
      drop e
      spliceDeleteC a b fuel (i + 1) it

/-- The insertion loop of `splice_children` — src/cursor.rs:953-957. -/
def spliceInsertC (q : Nat) : Nat → List Nat → H Unit
  | _, [] => pure ()
  | i, e :: es => do
    H.onPanic (attachC q i e) (dropAll (e :: es))
    drop e
    spliceInsertC q (i + 1) es

/-- The deletion half. (src/cursor.rs:942-952.) -/
def spliceDeleteAllC (q a b : Nat) : H Unit := do
  let g ← greenRef q
  incRc q
  spliceDeleteC a b (g.slice.length + 1) 0 { parent := q }

/-- `splice_children(a..b, ins)` — src/cursor.rs:942-958. -/
def spliceC (q a b : Nat) (ins : List Nat) : H Unit := do
  let m ← H.rd q HSt.mutable
  H.onPanic (H.assert m) (dropAll ins)
  H.onPanic (spliceDeleteAllC q a b) (dropAll ins)
  spliceInsertC q a ins

end Cur

/-- The length of the texts of all trees that elements in memory belong to.
(Specification vocabulary; compare src/cursor.rs:365-370.) -/
def HSt.total (s : HSt) : Nat := (s.owned.map GElem.textLen).sum

/-- Run the call in a build with overflow checks. (src/cursor.rs:552-1260.) -/
def Call.execChecked : Call → H (List Nat)
  | detach h => do
    Cur.detachC h
    pure []
  | splice q a b ins => do
    Cur.spliceC q a b ins
    pure []
  | attach q i p => do
    Cur.spliceInsertC q i [p]
    pure []
  | c => c.exec

end Rowan
