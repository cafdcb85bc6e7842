import Verif.Cursor
/-!
# The work of walking a tree

The functions of `Cursor.lean` again, each together with the number of child slots it looks at (the
calls of the closure given to `find_map`).  Skipping the first elements of a slice iterator is one
step of pointer arithmetic and is not counted.
-/
namespace Rowan

/-- `Iterator::find_map` on a slice iterator, with the number of elements it looks at: all elements
up to and including the first for which `f` gives something — src/cursor.rs:380, 686, 771. -/
def findMapC {α β : Type} (f : α → Option β) : List α → Option β × Nat
  | [] => (none, 0)
  | x :: xs =>
    match f x with
    | some y => (some y, 1)
    | none => ((findMapC f xs).1, 1 + (findMapC f xs).2)

/-- src/cursor.rs:376-387. -/
def SElem.nextSiblingC (e : SElem) : Option SNode × Nat :=
  findMapC (fun (c, i) =>
    c.asRef.asNode.bind fun g => do
      let p ← e.parent
      some (SNode.newChild g p i (p.offset + c.relOffset)))
    (e.greenSiblings.zipIdx.drop (e.index + 1))

namespace SNode

/-- src/cursor.rs:685-696. -/
def firstChildC (n : SNode) : Option SNode × Nat :=
  findMapC (fun (c, i) => c.asRef.asNode.map fun g => newChild g n i (n.offset + c.relOffset))
    n.green.slice.zipIdx

/-- src/cursor.rs:796-798. -/
def nextSiblingC (n : SNode) : Option SNode × Nat := SElem.nextSiblingC (.node n)

/-- src/cursor.rs:763-794. -/
def toNextSiblingC (unshared : Bool) (n : SNode) : Option SNode × Nat :=
  if !(unshared && !n.mutable) then n.nextSiblingC
  else match n.parent with
    | none => (none, 0)
    | some p =>
      findMapC (fun (c, i) => c.asRef.asNode.map fun g => child p i (p.offset + c.relOffset) g)
        (p.green.slice.zipIdx.drop (n.index + 1))

end SNode

/-- `Iterator::next` of `SyntaxNodeChildren` — src/cursor.rs:1386-1398. -/
def NodeChildren.stepC (unshared : Bool) (it : NodeChildren) :
    (Option SNode × NodeChildren) × Nat :=
  let r := if !it.initialized then it.parent.firstChildC
    else match it.next with
      | none => (none, 0)
      | some n => n.toNextSiblingC unshared
  ((r.1, { it with next := r.1, initialized := true }), r.2)

/-- The event after `ev` — src/cursor.rs:1511-1527. -/
def Preorder.succC (start : SNode) : WalkEvent SNode → Option (WalkEvent SNode) × Nat
  | .enter n =>
    match n.firstChildC with
    | (some c, w) => (some (.enter c), w)
    | (none, w) => (some (.leave n), w)
  | .leave n =>
    if n.eq start then (none, 0)
    else match n.nextSiblingC with
      | (some s, w) => (some (.enter s), w)
      | (none, w) => (n.parent.map .leave, w)

/-- `Iterator::next for Preorder` — src/cursor.rs:1505-1529. -/
def Preorder.stepC (it : Preorder) : Res ((Option (WalkEvent SNode) × Preorder) × Nat) := do
  let it ← if it.skip then it.doSkip else .ok it
  let r := match it.next with
    | none => (none, 0)
    | some ev => Preorder.succC it.start ev
  .ok ((it.next, { it with next := r.1, skip := false }), r.2)

end Rowan
