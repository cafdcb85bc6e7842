import Verif.Spec.Heap
import Verif.Spec.Edit
/-!
# Specification vocabulary: what the handles of a program denote

A `View` says, for every handle, which tree it is in and at which position, and, for every tree, what it
contains.  Trees are named by their top element.  Edits act on views in the obvious way.
-/
namespace Rowan

/-- Where the element at position `Q` of tree `r0` goes when child `i` of position `P` in tree `r` is cut
out as a tree of its own with top element `p`. -/
def cutLoc (r p : Nat) (P : List Nat) (i : Nat) (r0 : Nat) (Q : List Nat) : Nat × List Nat :=
  if r0 = r then
    match Tree.afterCut P i Q with
    | .stays Q' => (r, Q')
    | .cut R => (p, R)
  else (r0, Q)

/-- Where the element at position `Q` of tree `r0` goes when tree `p` is put in front of child `i` of
position `P` in tree `r`. -/
def joinLoc (r p : Nat) (P : List Nat) (i : Nat) (r0 : Nat) (Q : List Nat) : Nat × List Nat :=
  if r0 = p then (r, P ++ i :: Q)
  else if r0 = r then (r, Tree.afterInsert P i Q)
  else (r0, Q)

/-- `pos x` is the tree and position of the element that handle `x` denotes, `mutable x` whether it is in
a mutable tree, `tree r` the content of the tree with top element `r`. -/
structure View where
  pos : Nat → Nat × List Nat
  tree : Nat → Tree
  mutable : Nat → Bool

/-- `v` describes the handles counted by `hc`. -/
def HSt.Views (s : HSt) (hc : Nat → Nat) (v : View) : Prop :=
  ∀ x, 0 < hc x → s.Loc x (v.pos x).1 (v.pos x).2 ∧ s.tree (v.pos x).1 = v.tree (v.pos x).1 ∧
    s.mutable x = v.mutable x

namespace View

/-- The content of the element `x`. -/
def sub (v : View) (x : Nat) : Option Tree := (v.tree (v.pos x).1).at? (v.pos x).2

/-- The number of children of the element `x`. -/
def width (v : View) (x : Nat) : Nat :=
  match v.sub x with
  | some t => t.children.length
  | none => 0

/-- The element at position `P` of tree `r`, which is not the top one, is called `e`: it is what the handles on
it, if there are any, denote, and no tree is named `e`. -/
def IsAt (v : View) (hc : Nat → Nat) (e r : Nat) (P : List Nat) : Prop :=
  e ≠ r ∧ ∀ x, 0 < hc x → (x = e ↔ v.pos x = (r, P)) ∧ (v.pos x).1 ≠ e

/-- Cut child `i` of position `P` out of tree `r`; the new tree's top element is `p`. -/
def cutAt (v : View) (p r : Nat) (P : List Nat) (i : Nat) : View where
  pos x := cutLoc r p P i (v.pos x).1 (v.pos x).2
  tree y :=
    if y = p then ((v.tree r).at? (P ++ [i])).getD (v.tree y)
    else if y = r then (v.tree r).removeAt P i
    else v.tree y
  mutable := v.mutable

/-- Cut the element `p` out of its tree; nothing happens if it is a top element. -/
def cut (v : View) (p : Nat) : View :=
  match (v.pos p).2.getLast? with
  | none => v
  | some i => v.cutAt p (v.pos p).1 (v.pos p).2.dropLast i

/-- Put tree `p` in front of child `i` of the element `q`. -/
def join (v : View) (q i p : Nat) : View where
  pos x := joinLoc (v.pos q).1 p (v.pos q).2 i (v.pos x).1 (v.pos x).2
  tree y := if y = (v.pos q).1 then (v.tree y).insertAt (v.pos q).2 i (v.tree p) else v.tree y
  mutable := v.mutable

/-- How an edit ends. -/
inductive Outcome where
  /-- It returns. -/
  | done (v : View)
  /-- It panics because an immutable element is involved. -/
  | refused (v : View)
  /-- It panics because the index `i` is too large; `p` has been cut out of its tree before. -/
  | outOfRange (v : View) (p i : Nat)
  /-- It never returns. -/
  | loops
  /-- It panics because the index `i` is too large, and leaves a tree that contains itself: `p` hangs below its own
  descendant `q`. -/
  | tangled (q p i : Nat)

/-- Move the elements, one after the other, in front of children `i`, `i + 1`, … of `q`. -/
def insertAll (v : View) (q : Nat) : Nat → List Nat → Outcome
  | _, [] => .done v
  | i, p :: ps =>
    if v.mutable p = false then .refused v
    else if ((v.cut p).pos q).1 = p then
      if i ≤ (v.cut p).width q then .loops else .tangled q p i
    else if i ≤ (v.cut p).width q then ((v.cut p).join q i p).insertAll q (i + 1) ps
    else .outOfRange (v.cut p) p i

/-- What `splice_children(a..b, ..)` really deletes: only child `a`, whatever `b` is; `e` is the handle of
that child. -/
def deleted (v : View) (e q a b : Nat) : View :=
  if a < b ∧ a < v.width q then v.cutAt e (v.pos q).1 (v.pos q).2 a else v

/-- `e` is the child that `splice_children(a..b, ..)` deletes. -/
def Victim (v : View) (hc : Nat → Nat) (e q a b : Nat) : Prop :=
  v.mutable q = true → a < b → a < v.width q → v.IsAt hc e (v.pos q).1 ((v.pos q).2 ++ [a])

/-- What `q.splice_children(a..b, ins)` really does. -/
def splice (v : View) (e q a b : Nat) (ins : List Nat) : Outcome :=
  if v.mutable q = false then .refused v else (v.deleted e q a b).insertAll q a ins

/-- Child `j` of the element `q` is the first one with property `ok`. -/
def firstKid (v : View) (ok : Tree → Bool) (q j : Nat) : Prop :=
  ∃ t c, v.sub q = some t ∧ t.children[j]? = some c ∧ ok c = true ∧
    ∀ j' < j, ∀ c', t.children[j']? = some c' → ok c' = false

/-- `w` is `v` with every child of `q` that has property `ok` cut out, each as a tree of its own. -/
inductive CutKids (hc : Nat → Nat) (ok : Tree → Bool) (q : Nat) : View → View → Prop
  | done {v} : (∀ j, ¬ v.firstKid ok q j) → CutKids hc ok q v v
  | cut {v w e j} : v.firstKid ok q j → v.IsAt hc e (v.pos q).1 ((v.pos q).2 ++ [j]) →
      CutKids hc ok q (v.cutAt e (v.pos q).1 (v.pos q).2 j) w → CutKids hc ok q v w

end View
end Rowan
