import Verif.EditProg
import Verif.Spec.Api
/-!
# Specification vocabulary: editing programs on plain trees

`EProg.run` runs a program on a forest: numbered plain trees, each mutable or not, and for each handle the number of the
tree and the position in it.  There are no pointers, no reference counts, no cursor objects and no green nodes.
-/
namespace Rowan

/-- A forest and the places that the handles of a program denote.  The trees have numbers below `fresh`.  If a handle may
have been lost (`mem::forget`, C39), `leaked` is set. -/
structure Forest where
  env : Env (Nat × List Nat)
  tree : Nat → Tree
  mutable : Nat → Bool
  fresh : Nat
  leaked : Bool

def Env.map {X Y : Type} (v : Env X) (f : X → Y) : Env Y := ⟨v.next, v.held.map fun p => (p.1, f p.2)⟩

namespace Forest

/-- The content of the element at a place. -/
def sub (F : Forest) (x : Nat × List Nat) : Option Tree := (F.tree x.1).at? x.2

/-- Is there a node at this place? -/
def isNode (F : Forest) (x : Nat × List Nat) : Bool :=
  match F.sub x with
  | some t => t.isNode
  | none => false

/-- The number of children of the element at a place. -/
def width (F : Forest) (x : Nat × List Nat) : Nat :=
  match F.sub x with
  | some t => t.children.length
  | none => 0

/-- A new tree. -/
def plant (F : Forest) (m : Bool) (t : Tree) : Forest where
  env := F.env
  tree n := if n = F.fresh then t else F.tree n
  mutable n := if n = F.fresh then m else F.mutable n
  fresh := F.fresh + 1
  leaked := F.leaked

/-- Child `i` of position `P` of tree `r` becomes a tree of its own. -/
def cutAt (F : Forest) (r : Nat) (P : List Nat) (i : Nat) : Forest where
  env := F.env.map fun x => cutLoc r F.fresh P i x.1 x.2
  tree n :=
    if n = F.fresh then ((F.tree r).at? (P ++ [i])).getD (F.tree n)
    else if n = r then (F.tree r).removeAt P i
    else F.tree n
  mutable n := if n = F.fresh then F.mutable r else F.mutable n
  fresh := F.fresh + 1
  leaked := F.leaked

/-- The element at place `x` becomes a tree of its own, if it is not the top element of one already. -/
def cut (F : Forest) (x : Nat × List Nat) : Forest :=
  match x.2.getLast? with
  | none => F
  | some i => F.cutAt x.1 x.2.dropLast i

/-- Tree `r` is put in front of child `i` of the node at place `x`. -/
def join (F : Forest) (x : Nat × List Nat) (i r : Nat) : Forest where
  env := F.env.map fun y => joinLoc x.1 r x.2 i y.1 y.2
  tree n := if n = x.1 then (F.tree n).insertAt x.2 i (F.tree r) else F.tree n
  mutable := F.mutable
  fresh := F.fresh
  leaked := F.leaked

/-- Some handles are given up. -/
def dels (F : Forest) (hs : List Nat) : Forest := { F with env := F.env.dels hs }

/-- A handle may have been lost, if `b`. -/
def leak (F : Forest) (b : Bool) : Forest := { F with leaked := F.leaked || b }

/-- A new handle. -/
def add (F : Forest) (x : Nat × List Nat) : Forest := { F with env := F.env.add x }

end Forest

/-- How a step or a run ends.

* `panic F`: it panics, and leaves the forest `F`, with the handles that the program then holds; those passed by value to
  the step that panicked are gone.
* `broken`: a step panics and leaves an element that hangs in no tree (C38).  The program does not catch this panic.
* `wild`: the program catches a panic as in `broken`, and goes on; or it compares with `==` two different elements of the
  same content that stand at the same distance from the start of their trees, and whether they are equal depends on
  whether they share their memory (C24).  Nothing is said about what it sees then.
* `misuse`: the use of a handle that is not held, or passed by value and used otherwise in the same call, or of a token
  where a node is needed.  The type system of Rust excludes it. -/
inductive FOut (β : Type) where
  | ok (b : β)
  | panic (F : Forest)
  | broken
  | wild
  | diverge
  | misuse

namespace Forest

/-- Nobody has a handle in tree `n`, apart from those given up. -/
def deserted (F : Forest) (n : Nat) (gone : List Nat) : Bool :=
  !F.leaked && F.env.held.all fun x => gone.contains x.1 || x.2.1 != n

/-- Move the elements of the handles `ps`, one after the other, in front of children `i`, `i + 1`, … of the node of
handle `q`: each is cut out of its tree first.  An immutable element is refused.  If `q` is inside what was cut out, the
call loops or panics.  If the index is too large the call panics, too.  The element is then freed, if nobody has a handle
on it or inside it, apart from those passed by value (`gone`); otherwise it is neither in its old tree nor the top of a
new one. -/
def insertAll (F : Forest) (q : Nat) (gone : List Nat) : Nat → List Nat → FOut Forest
  | _, [] => .ok F
  | i, p :: ps =>
    match F.env.get p with
    | none => .misuse
    | some x =>
      if F.mutable x.1 = false then .panic F
      else
        match (F.cut x).env.get p, (F.cut x).env.get q with
        | some y, some z =>
          if z.1 = y.1 then
            if i ≤ (F.cut x).width z then .diverge else .broken
          else if i ≤ (F.cut x).width z then ((F.cut x).join z i y.1).insertAll q gone (i + 1) ps
          else if i + ps.length < 2 ^ 32 ∧ (F.cut x).deserted y.1 gone = true then .panic (F.cut x)
          else .broken
        | _, _ => .misuse

/-- `splice_children(a..b, ins)`; of the range only child `a` is deleted (C34). -/
def splice (F : Forest) (q a b : Nat) (ins : List Nat) : FOut Forest :=
  match F.env.get q with
  | none => .misuse
  | some x =>
    if F.isNode x = true ∧ (F.env.gets ins).isSome ∧ ins.Nodup ∧ q ∉ ins then
      if F.mutable x.1 = false then .panic (F.dels ins)
      else
        match (if a < b ∧ a < F.width x then F.cutAt x.1 x.2 a else F).insertAll q ins a ins with
        | .ok F' => .ok (F'.dels ins)
        | .panic F' => .panic (F'.dels ins)
        | o => o
    else .misuse

end Forest

/-- A step on a forest; the result is the place of the handle returned, and the forest afterwards, without the handles
passed by value. -/
def Req.on (F : Forest) : Req → FOut (Option (Nat × List Nat) × Forest)
  | plant m k ts => .ok (some (F.fresh, []), F.plant m (.node k ts))
  | clone h =>
    match F.env.get h with
    | none => .misuse
    | some x => .ok (some x, F)
  | drop h =>
    match F.env.get h with
    | none => .misuse
    | some _ => .ok (none, F.dels [h])
  | forget h =>
    match F.env.get h with
    | none => .misuse
    | some _ => .ok (none, (F.dels [h]).leak true)
  | nav f h =>
    match F.env.get h with
    | none => .misuse
    | some x =>
      if f.onNodes = true ∧ F.isNode x = false then .misuse
      else .ok ((f.target (F.tree x.1) x.2).map fun P => (x.1, P), F)
  | toNext nodes h =>
    match F.env.get h with
    | none => .misuse
    | some x =>
      .ok (((if nodes then Nav.nextSibling else Nav.nextSiblingOrToken).target (F.tree x.1) x.2).map fun P => (x.1, P),
        (F.dels [h]).leak x.2.isEmpty)
  | cloneSubtree h =>
    match F.env.get h with
    | none => .misuse
    | some x =>
      match F.sub x with
      | some (.node k ts) => .ok (some (F.fresh, []), F.plant false (.node k ts))
      | _ => .misuse
  | cloneForUpdate h =>
    match F.env.get h with
    | none => .misuse
    | some x =>
      if F.isNode x = false then .misuse
      else if F.mutable x.1 = true then .panic F
      else .ok (some (F.fresh, x.2), F.plant true (F.tree x.1))
  | detach h =>
    match F.env.get h with
    | none => .misuse
    | some x => if F.mutable x.1 = true then .ok (none, F.cut x) else .panic F
  | splice q a b ins =>
    match F.splice q a b ins with
    | .ok F' => .ok (none, F')
    | .panic F' => .panic F'
    | .broken => .broken
    | .wild => .wild
    | .diverge => .diverge
    | .misuse => .misuse
  | attach q i p =>
    match F.splice q i i [p] with
    | .ok F' => .ok (none, F')
    | .panic F' => .panic F'
    | .broken => .broken
    | .wild => .wild
    | .diverge => .diverge
    | .misuse => .misuse

/-- What one sees of the element at a place. -/
def Forest.sight (F : Forest) (x : Nat × List Nat) : Option Sight :=
  (F.sub x).map fun t =>
    ⟨t.kind, TextRange.at_ (blen ((F.tree x.1).before x.2)) (blen t.text), F.mutable x.1, x.2.getLast?, t⟩

/-- `==` on the elements at two places.  It is not known for different elements of the same content in the same range. -/
def Forest.eq (F : Forest) (x y : Nat × List Nat) : Option Bool :=
  if x = y then some true
  else
    match F.sight x, F.sight y with
    | some a, some b => if a.content = b.content ∧ a.range = b.range then none else some false
    | _, _ => none

/-- Does the program do nothing but panic? -/
def EProg.gaveUp {α : Type} : EProg α → Bool
  | panic => true
  | _ => false

/-- The run on a forest. -/
def EProg.run {α : Type} : EProg α → Forest → FOut (α × Forest)
  | ret a, F => .ok (a, F)
  | panic, F => .panic F
  | diverge, _ => .diverge
  | req r k, F =>
    match r.on F with
    | .ok (none, F') => (k (.done none)).run F'
    | .ok (some x, F') => (k (.done (some F.env.next))).run (F'.add x)
    | .panic F' => (k .panicked).run F'
    | .broken => if (k .panicked).gaveUp then .broken else .wild
    | .wild => .wild
    | .diverge => .diverge
    | .misuse => .misuse
  | look h k, F =>
    match F.env.get h with
    | none => .misuse
    | some x =>
      match F.sight x with
      | none => .misuse
      | some o => (k o).run F
  | same h h' k, F =>
    match F.env.get h, F.env.get h' with
    | some x, some y =>
      match F.eq x y with
      | none => .wild
      | some o => (k o).run F
    | _, _ => .misuse

/-! ### How many handles exist -/

/-- How often a step increments a reference count, at most. -/
def Req.cost (F : Forest) : Req → Nat
  | clone _ => 1
  | nav .. | toNext .. => 2
  | cloneForUpdate h =>
    match F.env.get h with
    | some x => 2 * (x.2.length + 1)
    | none => 0
  | splice q _ _ ins =>
    match F.env.get q with
    | some x => 3 * (F.width x + 1) + 1 + ins.length
    | none => 0
  | attach .. => 1
  | _ => 0

/-- How many handles a step loses, at most: `to_next_sibling` on a top element can lose its handle (C39). -/
def Req.lost (F : Forest) : Req → Nat
  | forget _ => 1
  | toNext _ h =>
    match F.env.get h with
    | some (_, []) => 1
    | _ => 0
  | _ => 0

/-- How many handles a run loses, at most. -/
def EProg.lost {α : Type} : EProg α → Forest → Nat
  | ret _, _ | panic, _ | diverge, _ => 0
  | req r k, F =>
    match r.on F with
    | .ok (none, F') => r.lost F + (k (.done none)).lost F'
    | .ok (some x, F') => r.lost F + (k (.done (some F.env.next))).lost (F'.add x)
    | .panic F' => (k .panicked).lost F'
    | _ => 0
  | look h k, F =>
    match F.env.get h with
    | none => 0
    | some x =>
      match F.sight x with
      | none => 0
      | some o => (k o).lost F
  | same h h' k, F =>
    match F.env.get h, F.env.get h' with
    | some x, some y =>
      match F.eq x y with
      | none => 0
      | some o => (k o).lost F
    | _, _ => 0

/-- A bound on the number of handles that exist in a run, those that were lost and those of the API itself included. -/
def EProg.peak {α : Type} : EProg α → Forest → Nat
  | ret _, _ | panic, _ | diverge, _ => 0
  | req r k, F =>
    max (F.env.held.length + r.cost F)
      (match r.on F with
       | .ok (none, F') => (k (.done none)).peak F' + r.lost F
       | .ok (some x, F') => (k (.done (some F.env.next))).peak (F'.add x) + r.lost F
       | .panic F' => (k .panicked).peak F'
       | _ => 0)
  | look h k, F =>
    match F.env.get h with
    | none => 0
    | some x =>
      match F.sight x with
      | none => 0
      | some o => (k o).peak F
  | same h h' k, F =>
    match F.env.get h, F.env.get h' with
    | some x, some y =>
      match F.eq x y with
      | none => 0
      | some o => (k o).peak F
    | _, _ => 0

/-! ### Forests that a heap stands for -/

/-- A handle: its number, the object in the heap, the number of its tree and its position in the tree. -/
structure Item where
  id : Nat
  obj : Nat
  tree : Nat
  path : List Nat

/-- The handles as the heap run sees them, and as the run on the forest sees them. -/
def Item.objs (J : List Item) : List (Nat × Nat) := J.map fun j => (j.id, j.obj)
def Item.places (J : List Item) : List (Nat × Nat × List Nat) := J.map fun j => (j.id, j.tree, j.path)

/-- The heap `s`, with the handles `w`, stands for the forest `F`: each handle denotes the same position, in a tree of the
same content and mutability; `top n` is the top element of tree `n`, and different trees have different ones.  A program
can be in this state, when it holds the handles `w` and the green nodes and tokens `gs`, and has lost the handles `lk`. -/
structure Tracks (s : HSt) (gs : List GElem) (lk : List Nat) (F : Forest) (w : Env Nat) : Prop where
  reach : HReach s gs (w.held.map Prod.snd) lk
  next : F.env.next = w.next
  leak : lk ≠ [] → F.leaked = true
  same : ∃ (J : List Item) (top : Nat → Nat), w.held = Item.objs J ∧ F.env.held = Item.places J ∧
    (J.map Item.id).Nodup ∧ (∀ j ∈ J, j.id < w.next) ∧
    (∀ j ∈ J, s.Loc j.obj (top j.tree) j.path ∧ s.tree (top j.tree) = F.tree j.tree ∧
      s.mutable j.obj = F.mutable j.tree ∧ j.tree < F.fresh) ∧
    ∀ i ∈ J, ∀ j ∈ J, top i.tree = top j.tree → i.tree = j.tree

/-- The handles can be dropped: any of them, in any order. -/
def Droppable (s : HSt) (hs : List Nat) : Prop := ∀ ds keep, hs.Perm (ds ++ keep) → ∃ s', Cur.dropAll ds s = .ok () s'

end Rowan
