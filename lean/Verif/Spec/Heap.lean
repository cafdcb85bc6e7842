import Verif.Heap
import Verif.Spec.Nav
/-!
# Specification vocabulary: where a handle points

What a program can see of a handle `p` through `parent()` and `index()`: the top element `r` of the tree
it is in, and its position there.  The content of the tree is the plain tree `s.tree r`.
-/
namespace Rowan

/-- `p` denotes the element at position `path` of the tree whose top element is `r`: following `parent()`
from `p` leads to `r`, and the `index()`es passed on the way are `path` (from the top down). -/
inductive HSt.Loc (s : HSt) : Nat → Nat → List Nat → Prop
  | root {p} : s.live p = true → s.parent p = none → Loc s p p []
  | child {p q r path} : s.live p = true → s.parent p = some q → Loc s q r path →
      Loc s p r (path ++ [s.index p])

/-- Following `parent()` from `x` any number of times leads to the very object `p`. -/
inductive HSt.Up (s : HSt) : Nat → Nat → Prop
  | refl {p} : Up s p p
  | step {x y p} : s.parent x = some y → Up s y p → Up s x p

/-- The content of the element `p`. -/
def HSt.tree (s : HSt) (p : Nat) : Tree := (s.green p).tree

/-- The parent of `p` is `y`, but `y` has no child at the index of `p`. -/
def HSt.Stray (s : HSt) (p y : Nat) : Prop :=
  s.live p = true ∧ s.parent p = some y ∧ (s.tree y).children.length ≤ s.index p

/-- An optional handle denotes an optional position. -/
def HSt.LocO (s : HSt) (o : Option Nat) (r : Nat) (q : Option (List Nat)) : Prop :=
  match o, q with
  | some p, some path => s.Loc p r path
  | none, none => True
  | _, _ => False

end Rowan
