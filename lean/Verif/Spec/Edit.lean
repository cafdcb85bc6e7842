import Verif.Spec.Nav
/-!
# Specification vocabulary: editing plain trees, and where positions go
-/
namespace Rowan
namespace Tree

/-- The tree with the children of the element at `P` edited by `f`. -/
def editKids (t : Tree) (P : List Nat) (f : List Tree → List Tree) : Tree :=
  match t.at? P with
  | some (node k cs) => t.set P (node k (f cs))
  | _ => t

/-- The tree without child `i` of the element at `P`. -/
def removeAt (t : Tree) (P : List Nat) (i : Nat) : Tree := t.editKids P (·.eraseIdx i)

/-- The tree with `u` put in front of child `i` of the element at `P` (at the end if there are only `i`
children). -/
def insertAt (t : Tree) (P : List Nat) (i : Nat) (u : Tree) : Tree :=
  t.editKids P fun cs => cs.take i ++ u :: cs.drop i

/-- Where an element is after a subtree was cut out: still in the tree at a position, or at a position
of the subtree. -/
inductive Place where
  | stays (Q : List Nat)
  | cut (R : List Nat)
deriving DecidableEq, Repr

/-- The element at position `Q` after child `i` of the element at `P` was cut out: elements below that
child went with it, elements below later siblings moved one to the left. -/
def afterCut : (P : List Nat) → (i : Nat) → (Q : List Nat) → Place
  | [], i, j :: R => if j = i then .cut R else if i < j then .stays ((j - 1) :: R) else .stays (j :: R)
  | a :: P, i, b :: R =>
    if a = b then
      match afterCut P i R with
      | .stays Q => .stays (b :: Q)
      | .cut Q => .cut Q
    else .stays (b :: R)
  | _, _, [] => .stays []

/-- The element at position `Q` after something was put in front of child `i` of the element at `P`:
elements below child `i` and its later siblings moved one to the right. -/
def afterInsert : (P : List Nat) → (i : Nat) → (Q : List Nat) → List Nat
  | [], i, j :: R => if i ≤ j then (j + 1) :: R else j :: R
  | a :: P, i, b :: R => if a = b then b :: afterInsert P i R else b :: R
  | _, _, [] => []

end Tree
end Rowan
