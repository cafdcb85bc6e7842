import Verif.Arc
import Verif.Green
/-!
# Green trees in memory — model of how src/green and src/arc.rs own memory

The allocations behind green nodes and tokens, with their reference counts, shared by any number of threads.  A node owns
one reference to each of its children, so allocations form a graph.  Threads hold references (`GreenNode`, `GreenToken`,
also inside a `NodeCache`, a builder or a cursor tree), follow borrows into the trees, clone what they find and drop
references; dropping the last reference of a node runs the destructor of its children, which may free whole subtrees and
may interleave with everything the other threads do.

Simplifications.  Steps are interleaved atomically; the memory orderings for one allocation are the subject of `Verif/Arc.lean`.
When the counter is found too large, the process is aborted at once (there: other threads can run on until then).
Allocations are named by the order in which they were made, so a name is never used again although an address may be.  The
headers' `text_len` and the children's `rel_offset` are in `Verif/Green.lean`.
-/
namespace Rowan

/-- An allocation `ArcInner<HeaderSlice<…>>` of a node or a token (`text`) — src/arc.rs:22-27, src/green/node.rs:18-37,
src/green/token.rs:16-27. -/
structure GObj where
  count : Nat
  kind : SyntaxKind
  text : Option (List Char)
  kids : List Nat
  /-- the memory has been given back -/
  freed : Bool := false
deriving DecidableEq, Repr

/-- A reference held by the program: its owner, or the threads that have borrowed it — src/arc.rs:38-45. -/
structure GRef where
  id : Nat
  obj : Nat
  holders : List Nat
deriving DecidableEq, Repr

/-- A thread is in the destructor of a node: the children in `rest` are still to be dropped, then the memory is freed —
src/arc.rs:79-83. -/
structure GFrame where
  thread : Nat
  obj : Nat
  rest : List Nat
deriving DecidableEq, Repr

/-- The green allocations, the references of the program, and the destructors that are running: src/arc.rs:24-42, src/green/node.rs:26-53. -/
structure GMem where
  objs : List GObj := []
  refs : List GRef := []
  nextRef : Nat := 0
  /-- the destructors that are running; those of one thread are nested, the innermost first -/
  stack : List GFrame := []
  /-- freed memory was accessed or freed again -/
  ub : Bool := false
  /-- the process has been aborted -/
  dead : Bool := false
deriving DecidableEq, Repr

namespace GMem

/-- Bookkeeping: look up a reference of the program (an `Arc`, src/arc.rs:39-42). -/
def ref? (s : GMem) (r : Nat) : Option GRef := s.refs.find? fun x => x.id = r

/-- Is the memory of the allocation still there? (the allocation of src/arc.rs:346, freed at src/arc.rs:79-83). -/
def alive (s : GMem) (o : Nat) : Bool :=
  match s.objs[o]? with
  | some x => !x.freed
  | none => false

/-- The allocations are accessed. (Memory semantics, not in src/arc.rs.) -/
def hit (s : GMem) (os : List Nat) : GMem := { s with ub := s.ub || !os.all s.alive }

/-- `count`, src/arc.rs:25, written at :111 and :167. -/
def setCount (s : GMem) (o c : Nat) : GMem := { s with objs := s.objs.modify o fun x => { x with count := c } }

/-- Is no destructor running in thread `t`? (bookkeeping for src/arc.rs:79-83). -/
def idle (s : GMem) (t : Nat) : Bool := s.stack.all fun f => f.thread ≠ t

/-- From a node, follow the child indices of a path: the allocation at the end — src/green/node.rs:138-140, 253-258. -/
def at? (s : GMem) : Nat → List Nat → Option Nat
  | o, [] => some o
  | o, i :: p => do
    let x ← s.objs[o]?
    let c ← x.kids[i]?
    s.at? c p

/-- The allocations that are accessed on the way. (src/green/node.rs:138-140, src/arc.rs:393-400.) -/
def trail (s : GMem) : Nat → List Nat → List Nat
  | o, [] => [o]
  | o, i :: p =>
    match s.objs[o]? with
    | none => [o]
    | some x =>
      match x.kids[i]? with
      | none => [o]
      | some c => o :: s.trail c p

/-- `Arc::drop` up to the start of the destructor — src/arc.rs:162-197, 409-414. -/
def dropRef (s : GMem) (t o : Nat) : GMem :=
  match s.objs[o]? with
  | none => { s with ub := true }
  | some y =>
    let s' := (s.hit [o]).setCount o ((y.count + word - 1) % word)
    if y.count ≠ 1 then s' else { s' with stack := ⟨t, o, y.kids⟩ :: s'.stack }

/-- Take out the innermost destructor of thread `t`. (Bookkeeping for src/arc.rs:79-83.) -/
def popFrame (t : Nat) : List GFrame → Option (GFrame × List GFrame)
  | [] => none
  | f :: fs => if f.thread = t then some (f, fs) else do
    let (g, fs) ← popFrame t fs
    some (g, f :: fs)

/-- Take a reference away from its owner `t`. (A move out of a variable; the borrow checker, not in src/arc.rs.) -/
def popRef (t r : Nat) : List GRef → Option (GRef × List GRef)
  | [] => none
  | x :: xs => if x.id = r then (if x.holders = [t] then some (x, xs) else none) else do
    let (y, xs) ← popRef t r xs
    some (y, x :: xs)

/-- Take several references: their allocations, in order. (The arguments of src/green/node.rs:203-232.) -/
def popRefs (t : Nat) : List Nat → List GRef → Option (List Nat × List GRef)
  | [], xs => some ([], xs)
  | r :: rs, xs => do
    let (x, xs) ← popRef t r xs
    let (os, xs) ← popRefs t rs xs
    some (x.obj :: os, xs)

/-- A new allocation, with one reference for thread `t` — src/arc.rs:321-390. -/
def alloc (s : GMem) (t : Nat) (kind : SyntaxKind) (text : Option (List Char)) (kids : List Nat) : GMem :=
  { s with
    objs := s.objs ++ [⟨1, kind, text, kids, false⟩]
    refs := ⟨s.nextRef, s.objs.length, [t]⟩ :: s.refs
    nextRef := s.nextRef + 1 }

/-- Borrows of a reference; the borrow checker, not in src/arc.rs. -/
def setHolders (s : GMem) (r : Nat) (f : List Nat → List Nat) : GMem :=
  { s with refs := s.refs.map fun x => if x.id = r then { x with holders := f x.holders } else x }

end GMem

/-- Steps of threads. (src/arc.rs:79-197, src/green/node.rs:203-256, src/green/token.rs:112-140.) -/
inductive GOp where
  /-- `GreenToken::new` — src/green/token.rs:112-116 -/
  | newToken (t : Nat) (kind : SyntaxKind) (text : List Char)
  /-- `GreenNode::new`, which takes the children over — src/green/node.rs:203-232 -/
  | newNode (t : Nat) (kind : SyntaxKind) (rs : List Nat)
  /-- read the element at a position below reference `r` — src/green/node.rs:113-140, src/green/token.rs:89-107 -/
  | read (t r : Nat) (path : List Nat)
  /-- `to_owned` of what is found there; `clone` for the empty path — src/green/node.rs:55-64, src/green/token.rs:42-51,
  src/green/element.rs:48-55, src/arc.rs:97-127, 402-407 -/
  | clone (t r : Nat) (path : List Nat)
  /-- drop a reference; starts the destructor if it was the last one — src/arc.rs:162-197, 409-414 -/
  | drop (t r : Nat)
  /-- the next step of the innermost destructor of the thread: drop the next child, or free the memory —
  src/arc.rs:79-83 -/
  | glue (t : Nat)
  /-- `a` gives (a borrow of) `r` to `t` -/
  | lend (a t r : Nat)
  /-- `t` is done with `r` and hands back to `a` -/
  | giveBack (t a r : Nat)
deriving DecidableEq, Repr

/-- One step; `none`: the step is not possible (borrow rules, no such position, or the thread is elsewhere).
(src/arc.rs:79-197, src/green/node.rs:203-256, src/green/token.rs:112-140.) -/
def GMem.step (s : GMem) (op : GOp) : Option GMem :=
  if s.dead then none
  else match op with
  | .newToken t kind text => do
    guard (s.idle t)
    some (s.alloc t kind (some text) [])
  | .newNode t kind rs => do
    guard (s.idle t)
    let (os, refs) ← popRefs t rs s.refs
    some (({ s.hit os with refs := refs } : GMem).alloc t kind none os)
  | .read t r path => do
    let x ← s.ref? r
    guard (t ∈ x.holders ∧ s.idle t)
    let _ ← s.at? x.obj path
    some (s.hit (s.trail x.obj path))
  | .clone t r path => do
    let x ← s.ref? r
    guard (t ∈ x.holders ∧ s.idle t)
    let o ← s.at? x.obj path
    let y ← s.objs[o]?
    let s' := s.hit (s.trail x.obj path)
    if y.count > maxRefcount then some { s' with dead := true }
    else
      let s'' := s'.setCount o ((y.count + 1) % word)
      some { s'' with refs := ⟨s.nextRef, o, [t]⟩ :: s.refs, nextRef := s.nextRef + 1 }
  | .drop t r => do
    guard (s.idle t)
    let (x, refs) ← popRef t r s.refs
    some (({ s with refs := refs } : GMem).dropRef t x.obj)
  | .glue t => do
    let (f, fs) ← popFrame t s.stack
    match f.rest with
    | k :: ks => some (({ s with stack := ⟨t, f.obj, ks⟩ :: fs } : GMem).dropRef t k)
    | [] =>
      let s' := s.hit [f.obj]
      some { s' with objs := s'.objs.modify f.obj fun x => { x with freed := true }, stack := fs }
  | .lend a t r => do
    let x ← s.ref? r
    guard (a ∈ x.holders ∧ s.idle a ∧ t ∉ x.holders)
    some (s.setHolders r fun h => t :: h)
  | .giveBack t a r => do
    let x ← s.ref? r
    guard (t ∈ x.holders ∧ a ∈ x.holders ∧ t ≠ a ∧ s.idle t)
    some (s.setHolders r fun h => h.filter (· ≠ t))

/-- The states reachable from the empty memory, by any interleaving of any steps.
(Clients of src/green and src/arc.rs; not itself in the code.) -/
inductive GMem.Reach : GMem → Prop
  | init : Reach {}
  | step {s s'} (op : GOp) : Reach s → s.step op = some s' → Reach s'

/-- Any number of further steps. (Clients of src/green and src/arc.rs; not itself in the code.) -/
inductive GMem.Steps : GMem → GMem → Prop
  | refl (s) : Steps s s
  | step {s s' s''} (op : GOp) : Steps s s' → s'.step op = some s'' → Steps s s''

end Rowan
