import Verif.HeapApi
import Verif.Spec.View
/-!
# Specification vocabulary: what programs over the cursor API see
-/
namespace Rowan

/-- The position in tree `t` that a navigation function leads to from position `P`. -/
def Nav.target (t : Tree) (P : List Nat) : Nav → Option (List Nat)
  | parent => if P = [] then none else some P.dropLast
  | nextSibling => (t.later P).find? (t.sat Tree.isNode)
  | nextSiblingByKind m => (t.later P).find? (t.sat (Tree.nodeOf m))
  | prevSibling => (t.earlier P).find? (t.sat Tree.isNode)
  | nextSiblingOrToken => (t.later P).head?
  | nextSiblingOrTokenByKind m => (t.later P).find? (t.sat (Tree.ofKind m))
  | prevSiblingOrToken => (t.earlier P).head?
  | firstChild => (t.kids P).find? (t.sat Tree.isNode)
  | firstChildByKind m => (t.kids P).find? (t.sat (Tree.nodeOf m))
  | lastChild => (t.kids P).reverse.find? (t.sat Tree.isNode)
  | firstChildOrToken => (t.kids P).head?
  | firstChildOrTokenByKind m => (t.kids P).find? (t.sat (Tree.ofKind m))
  | lastChildOrToken => (t.kids P).getLast?
  | childAt i => (t.kids P)[i]?

/-- `p` is `q` or an ancestor of `q`. -/
def View.Above (v : View) (p q : Nat) : Prop :=
  (v.pos p).1 = (v.pos q).1 ∧ (v.pos p).2 <+: (v.pos q).2

/-- Handle `x` now denotes the element at position `P` of tree `r`. -/
def View.put (v : View) (x r : Nat) (P : List Nat) (m : Bool) : View where
  pos y := if y = x then (r, P) else v.pos y
  tree := v.tree
  mutable y := if y = x then m else v.mutable y

/-- There is a new tree `r` with content `t`. -/
def View.plant (v : View) (r : Nat) (t : Tree) : View where
  pos := v.pos
  tree y := if y = r then t else v.tree y
  mutable := v.mutable

/-- `x` is not one of the handles `hs`, and `r` is not the tree of one of them. -/
def View.Fresh (v : View) (hs : List Nat) (x r : Nat) : Prop := x ∉ hs ∧ ∀ h ∈ hs, (v.pos h).1 ≠ r

/-- A function has returned the handle (or none) for the position (or none) of tree `r`.  The handle denotes
no other element already; in a mutable tree it is the same as every other handle for that position. -/
def View.Found (v : View) (hs : List Nat) (r : Nat) (m : Bool) (o : Option (List Nat)) (new : List Nat)
    (v' : View) : Prop :=
  match o with
  | none => new = [] ∧ v' = v
  | some Q => ∃ x, new = [x] ∧ v' = v.put x r Q m ∧
      (x ∈ hs → v.pos x = (r, Q) ∧ v.mutable x = m) ∧ (m = true → ∀ h ∈ hs, v.pos h = (r, Q) → h = x)

/-- How a call that returns the handles `new` changes the view `v`; `hs` are the other handles. -/
def Call.Shows (v : View) (hs new : List Nat) (v' : View) : Call → Prop
  | newRoot m g => ∃ x, new = [x] ∧ v.Fresh hs x x ∧ v' = (v.plant x g.tree).put x x [] m
  | clone h => new = [h] ∧ v' = v
  | drop _ | forget _ | read _ => new = [] ∧ v' = v
  | nav f h => v.Found hs (v.pos h).1 (v.mutable h) (f.target (v.tree (v.pos h).1) (v.pos h).2) new v'
  | toNext nodes h =>
    v.Found hs (v.pos h).1 (v.mutable h)
      ((if nodes then Nav.nextSibling else Nav.nextSiblingOrToken).target (v.tree (v.pos h).1) (v.pos h).2)
      new v'
  | cloneSubtree h =>
    ∃ x t, new = [x] ∧ v.Fresh hs x x ∧ v.sub h = some t ∧ v' = (v.plant x t).put x x [] false
  | cloneForUpdate h =>
    ∃ x r, new = [x] ∧ v.Fresh hs x r ∧
      v' = (v.plant r (v.tree (v.pos h).1)).put x r (v.pos h).2 true
  | detach h => new = [] ∧ v' = v.cut h
  | splice q a b ins => new = [] ∧ ∃ e, v.Victim (cnt (ins ++ hs)) e q a b ∧ v.splice e q a b ins = .done v'
  | attach q i p => new = [] ∧ v.mutable q = true ∧ v.insertAll q i [p] = .done v'

/-- Calls that change a tree. -/
def Call.edits : Call → Bool
  | detach _ | splice .. | attach .. => true
  | _ => false

end Rowan
