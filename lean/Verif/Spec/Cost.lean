import Verif.Spec.Tree
/-!
# Specification vocabulary: depth and width of trees
-/
namespace Rowan

/-- No element is deeper than `d`: the root is at depth 0. -/
def Tree.Deep (t : Tree) (d : Nat) : Prop := ∀ p s, t.at? p = some s → p.length ≤ d

/-- No element has more than `w` children. -/
def Tree.Wide (t : Tree) (w : Nat) : Prop := ∀ p s, t.at? p = some s → s.children.length ≤ w

/-- The number of children of the element at a position. -/
def Tree.widthAt (t : Tree) (p : List Nat) : Nat :=
  match t.at? p with
  | some s => s.children.length
  | none => 0

/-- The numbers of children of the elements strictly above the position `p`, together. -/
def Tree.widthsAbove (t : Tree) (p : List Nat) : Nat := ((List.range p.length).map fun i => t.widthAt (p.take i)).sum

end Rowan
