import Verif.Program
/-!
# Programs that read and edit

A program that builds trees, navigates, looks at elements and edits; what it does next can depend on everything it has
seen, and on which calls panicked.  It names its handles by numbers, as in `Verif/Program.lean`.  Here the program is run on the heap of
`Verif/Heap.lean`; `Verif/Spec/Forest.lean` runs the same programs on plain trees.
-/
namespace Rowan

/-- One step of a program; `h`, `q`, `p` and `ins` are numbers of handles. (Calls of src/cursor.rs:552-1110.) -/
inductive Req where
  /-- builds the green nodes and tokens bottom-up (`GreenToken::new`, `GreenNode::new`), calls `SyntaxNode::new_root` or
  `SyntaxNode::new_root_mut`, and drops the green nodes and tokens -/
  | plant (mutable : Bool) (kind : SyntaxKind) (children : List Tree)
  | clone (h : Nat)
  | drop (h : Nat)
  /-- `mem::forget` -/
  | forget (h : Nat)
  | nav (f : Nav) (h : Nat)
  | toNext (nodes : Bool) (h : Nat)
  | cloneSubtree (h : Nat)
  | cloneForUpdate (h : Nat)
  | detach (h : Nat)
  /-- `q.splice_children(a..b, ins)` -/
  | splice (q a b : Nat) (ins : List Nat)
  /-- a round of the second loop of `splice_children`, see `Call.attach` -/
  | attach (q i p : Nat)

/-- What one sees of an element: `kind()`, `text_range()`, `is_mutable()`, the content of `green()`, and `index()` if the
element has a parent.  The addresses that `Hash` uses are left out, and so is `index()` of an element
without parent, which says nothing (C36). (src/cursor.rs:341-374, :576, :653.) -/
structure Sight where
  kind : SyntaxKind
  range : TextRange
  mutable : Bool
  index : Option Nat
  content : Tree
  deriving DecidableEq

/-- How a step ends: with the number of the handle returned, or with a panic. (src/cursor.rs:552-1110.) -/
inductive Reply where
  | done (h : Option Nat)
  | panicked

/-- A program with result `α`; every step says how it goes on.  A program that lets a panic of a step pass goes on with
`panic`; one that catches it (`catch_unwind`) goes on otherwise, having dropped what the unwinding drops. (A client of
src/cursor.rs.) -/
inductive EProg (α : Type) : Type where
  | ret (a : α)
  /-- `unwrap`, `assert!`, … -/
  | panic
  /-- the step bound of a loop is used up -/
  | diverge
  | req (r : Req) (k : Reply → EProg α)
  | look (h : Nat) (k : Sight → EProg α)
  /-- `==` -/
  | same (h h' : Nat) (k : Bool → EProg α)

namespace EProg
/-- Sequencing. (Sequencing in a client of src/cursor.rs; not itself in the code.) -/
protected def bind {α β : Type} : EProg α → (α → EProg β) → EProg β
  | ret a, f => f a
  | panic, _ => panic
  | diverge, _ => diverge
  | req r k, f => req r fun o => (k o).bind f
  | look h k, f => look h fun o => (k o).bind f
  | same h h' k, f => same h h' fun o => (k o).bind f

instance : Monad EProg where
  pure := ret
  bind := EProg.bind
end EProg

/-- The numbers of the handles passed by value. (The signatures in src/cursor.rs:942-970.) -/
def Req.takes : Req → List Nat
  | drop h | forget h | toNext _ h => [h]
  | splice _ _ _ ins => ins
  | attach _ _ p => [p]
  | _ => []

/-- Handles given up. (A client's variables; not in src/cursor.rs.) -/
def Env.dels {X : Type} (v : Env X) (hs : List Nat) : Env X := { v with held := v.held.filter fun p => !hs.contains p.1 }

/-- The objects that all these handles point to. (A client's variables; not in src/cursor.rs.) -/
def Env.gets {X : Type} (v : Env X) : List Nat → Option (List X)
  | [] => some []
  | h :: hs =>
    match v.get h, v.gets hs with
    | some x, some xs => some (x :: xs)
    | _, _ => none

/-- The call of the cursor API. (src/cursor.rs:552-1110.) -/
def Req.call (w : Env Nat) : Req → Option Call
  | plant .. => none
  | clone h => (w.get h).map .clone
  | drop h => (w.get h).map .drop
  | forget h => (w.get h).map .forget
  | nav f h => (w.get h).map (.nav f)
  | toNext nodes h => (w.get h).map (.toNext nodes)
  | cloneSubtree h => (w.get h).map .cloneSubtree
  | cloneForUpdate h => (w.get h).map .cloneForUpdate
  | detach h => (w.get h).map .detach
  | splice q a b ins =>
    match w.get q, w.gets ins with
    | some y, some xs => some (.splice y a b xs)
    | _, _ => none
  | attach q i p =>
    match w.get q, w.get p with
    | some y, some x => some (.attach y i x)
    | _, _ => none

mutual
/-- Build the green node or token of a tree: `GreenToken::new` — src/green/token.rs:112, `GreenNode::new` —
src/green/node.rs:203. -/
def Cur.grow : Tree → H GElem
  | .token k text => do
    let a ← H.freshG
    pure (.token ⟨a, k, text⟩)
  | .node k cs => do
    let es ← Cur.growAll cs
    let a ← H.freshG
    pure (.node (GNode.new a k es))
/-- Build the green trees in order: src/green/node.rs:203-232, src/green/token.rs:112-116. -/
def Cur.growAll : List Tree → H (List GElem)
  | [] => pure []
  | t :: ts => do
    let e ← Cur.grow t
    let es ← Cur.growAll ts
    pure (e :: es)
end

/-- Make the step on the heap.  The result is the handle returned; there is none at all if a number is not that of a
handle. (src/cursor.rs:552-1110.) -/
def Req.exec (w : Env Nat) : Req → H (Option (Option Nat))
  | plant m k ts => do
    let es ← Cur.growAll ts
    let a ← H.freshG
    let new ← (Call.newRoot m (GNode.new a k es)).exec
    pure (some new.head?)
  | r =>
    match r.call w with
    | none => pure none
    | some c => do
      let new ← c.exec
      pure (some new.head?)

/-- Look at an element. (src/cursor.rs:341-374, :576, :653.) -/
def Cur.sight (p : Nat) : H Sight := do
  let o ← Cur.look p
  let q ← H.rd p HSt.parent
  pure ⟨o.kind, o.range, o.mutable, q.map fun _ => o.index, o.green.tree⟩

/-- `==` on elements — src/cursor.rs:301-307, 1279-1284, 1316-1321, src/utility_types.rs:4-8 (derived). -/
def Cur.eq (p q : Nat) : H Bool := do
  let a ← Cur.look p
  let b ← Cur.look q
  pure (match a.green, b.green with
    | .node _, .node _ => a.key == b.key
    | .token _, .token _ => a.key == b.key
    | _, _ => false)

/-- How a run on the heap ends; the handles are those that the program then holds.  Unwinding will drop them after a
panic.  `misuse` is the use of a number that is not that of a handle. (A client of src/cursor.rs.) -/
inductive EOut (α : Type) where
  | ok (a : α) (w : Env Nat)
  | panic (w : Env Nat)
  | misuse

/-- Run, and say whether there was a panic. (`catch_unwind`; not in src/cursor.rs.) -/
def H.caught {α : Type} (m : H α) : H (Option α) := fun s =>
  match m s with
  | .ok a s' => .ok (some a) s'
  | .panic _ s' => .ok none s'
  | .abort => .abort
  | .ub => .ub
  | .diverge => .diverge

/-- The run on the heap.  The handles passed by value to a step that panics are dropped by the step, see `Cur.splice`. (A
client of src/cursor.rs:552-1110.) -/
def EProg.exec {α : Type} : EProg α → Env Nat → H (EOut α)
  | ret a, w => pure (.ok a w)
  | panic, w => pure (.panic w)
  | diverge, _ => H.diverge
  | req r k, w => do
    match ← H.caught (r.exec w) with
    | none => (k .panicked).exec (w.dels r.takes)
    | some none => pure .misuse
    | some (some none) => (k (.done none)).exec (w.dels r.takes)
    | some (some (some x)) => (k (.done (some w.next))).exec ((w.dels r.takes).add x)
  | look h k, w =>
    match w.get h with
    | none => pure .misuse
    | some p => do
      let o ← Cur.sight p
      (k o).exec w
  | same h h' k, w =>
    match w.get h, w.get h' with
    | some p, some q => do
      let o ← Cur.eq p q
      (k o).exec w
    | _, _ => pure .misuse

end Rowan
