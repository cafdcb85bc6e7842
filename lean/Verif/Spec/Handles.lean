import Verif.Cursor
import Verif.Spec.Nav
/-!
# Specification vocabulary: which handles exist and where they point

`Reach r e`: `e` is a handle a program can obtain by navigating in the tree `r`.
-/
namespace Rowan

/-- A tree as a cursor sees it: its top element, whether it is mutable, and the (meaningless) index
stored in the top element's `NodeData`. -/
structure Root where
  mutable : Bool
  index : Nat
  green : GElem

/-- The handle of the top element. -/
def Root.handle (r : Root) : SElem :=
  match r.green with
  | .node g => .node (.root r.mutable r.index g)
  | .token g => .token (.root r.mutable r.index g)

/-- The plain tree. -/
def Root.tree (r : Root) : Tree := r.green.tree

def SNode.rootOf : SNode → Root
  | .root m i g => ⟨m, i, .node g⟩
  | .child p _ _ _ => p.rootOf
def SToken.rootOf : SToken → Root
  | .root m i g => ⟨m, i, .token g⟩
  | .child p _ _ _ => p.rootOf
/-- The tree a handle points into. -/
def SElem.rootOf : SElem → Root
  | .node n => n.rootOf
  | .token t => t.rootOf

def SNode.path : SNode → List Nat
  | .root _ _ _ => []
  | .child p i _ _ => p.path ++ [i]
def SToken.path : SToken → List Nat
  | .root _ _ _ => []
  | .child p i _ _ => p.path ++ [i]
/-- The position a handle points at. -/
def SElem.path : SElem → List Nat
  | .node n => n.path
  | .token t => t.path

/-- The handles obtainable from the top element of a tree by any sequence of navigation calls. -/
inductive Reach (r : Root) : SElem → Prop
  | top (hw : r.green.WF) : Reach r r.handle
  | parent {e p} : Reach r e → e.parent = some p → Reach r (.node p)
  | ancestor {e a} : Reach r e → a ∈ e.ancestors → Reach r (.node a)
  | firstChild {n c} : Reach r (.node n) → n.firstChild = some c → Reach r (.node c)
  | firstChildByKind {n c} (m) : Reach r (.node n) → n.firstChildByKind m = some c → Reach r (.node c)
  | lastChild {n c} : Reach r (.node n) → n.lastChild = some c → Reach r (.node c)
  | firstChildOrToken {n c} : Reach r (.node n) → n.firstChildOrToken = some c → Reach r c
  | firstChildOrTokenByKind {n c} (m) : Reach r (.node n) →
      n.firstChildOrTokenByKind m = some c → Reach r c
  | lastChildOrToken {n c} : Reach r (.node n) → n.lastChildOrToken = some c → Reach r c
  | nextSibling {e s} : Reach r e → e.nextSibling = some s → Reach r (.node s)
  | nextSiblingByKind {e s} (m) : Reach r e → e.nextSiblingByKind m = some s → Reach r (.node s)
  | prevSibling {e s} : Reach r e → e.prevSibling = some s → Reach r (.node s)
  | nextSiblingOrToken {e s} : Reach r e → e.nextSiblingOrToken = some s → Reach r s
  | nextSiblingOrTokenByKind {e s} (m) : Reach r e →
      e.nextSiblingOrTokenByKind m = some s → Reach r s
  | prevSiblingOrToken {e s} : Reach r e → e.prevSiblingOrToken = some s → Reach r s
  | toNextSibling {n s} (unshared) : Reach r (.node n) → n.toNextSibling unshared = some s →
      Reach r (.node s)
  | toNextSiblingOrToken {e s} (unshared) : Reach r e →
      e.toNextSiblingOrToken unshared = some s → Reach r s

/-- The returned handle (if any) is a handle into tree `r` at the given position (if any). -/
def PointsTo (r : Root) (o : Option SElem) (q : Option (List Nat)) : Prop :=
  o.map SElem.path = q ∧ ∀ e, o = some e → Reach r e

/-- The same for a list of handles. -/
def PointsToAll (r : Root) (l : List SElem) (qs : List (List Nat)) : Prop :=
  l.map SElem.path = qs ∧ ∀ e ∈ l, Reach r e

end Rowan
