import Verif.GreenMem
/-!
# Model: a green node is built from an iterator of the user, which may run code and panic

`GMem.step (.newNode …)` of `Verif.GreenMem` makes a node in one step.  Here the loop of `ThinArc::from_header_and_iter` is
taken apart: the length is asked for first, the elements arrive one by one, and in between the iterator (of any thread)
may do whatever `GMem.step` allows, and build other nodes.  Each construction ends in one of four ways: the iterator ends
in time (and says so twice, if there were elements), too early, too late, or panics.  After a panic the elements that were moved into the buffer are lost: nobody drops
them.

Simplifications: the buffer becomes an allocation of the model when the construction ends, in either way, and an abandoned one
is an allocation with the elements that had been written and with one reference that belongs to nobody.  Elements that
the iterator still owns when it panics stay with its thread, which drops them by ordinary steps; so does an element that the
iterator yields beyond its length.  The text length of a debug build overflows (src/green/node.rs:211) as a panic of the iterator.
-/
namespace Rowan

/-- A running call of `from_header_and_iter` — src/arc.rs:321-390. -/
structure GBuild where
  thread : Nat
  kind : SyntaxKind
  /-- `num_items`, src/arc.rs:327 -/
  len : Nat
  /-- the references that have been written to the buffer, in order — src/arc.rs:373-379 -/
  taken : List Nat
  /-- the iterator has said that it is at its end, src/arc.rs:380 -/
  checked : Bool := false
deriving DecidableEq, Repr

/-- The memory of green trees and the constructions that are running. (src/arc.rs:24-42, 321-390.) -/
structure PMem where
  mem : GMem := {}
  /-- those of one thread are nested, the innermost first -/
  builds : List GBuild := []
  /-- the references to abandoned buffers, which nobody has — src/arc.rs:366-367 -/
  lost : List Nat := []
deriving DecidableEq, Repr

/-- Steps of threads, with constructions taken apart. (src/arc.rs:79-197, 321-390, src/green/node.rs:203-256.) -/
inductive POp where
  /-- anything else -/
  | other (op : GOp)
  /-- `GreenNode::new` is called with an iterator that says it has `len` elements — src/green/node.rs:203-222, src/arc.rs:321-371 -/
  | start (t : Nat) (kind : SyntaxKind) (len : Nat)
  /-- `items.next()` returns the reference `r` — src/arc.rs:376, 380, 385 -/
  | yield (t r : Nat)
  /-- `items.next()` returns `None` — src/arc.rs:376, 380, 385 -/
  | stop (t : Nat)
  /-- `items.next()` panics — src/arc.rs:366-367 -/
  | fail (t : Nat)
deriving DecidableEq, Repr

/-- What becomes of the innermost construction. (src/arc.rs:373-389.) -/
inductive POut where
  | goesOn
  | returned (r : Nat)
  | panicked
deriving DecidableEq, Repr

namespace PMem

/-- Take out the innermost construction of thread `t`. (The call stack of src/arc.rs:321-390.) -/
def popBuild (t : Nat) : List GBuild → Option (GBuild × List GBuild)
  | [] => none
  | f :: fs => if f.thread = t then some (f, fs) else do
    let (g, fs) ← popBuild t fs
    some (g, f :: fs)

/-- The buffer becomes an allocation, with a reference for thread `t` — src/arc.rs:389. -/
def finish (m : GMem) (b : GBuild) : Option GMem :=
  (b.taken.foldl (fun m r => m.setHolders r fun _ => [b.thread]) m).step (.newNode b.thread b.kind b.taken)

/-- The buffer is left behind, with what has been written — src/arc.rs:366-367. -/
def abandon (s : PMem) (b : GBuild) (bs : List GBuild) : Option PMem := do
  let m ← finish s.mem b
  some ⟨m.setHolders s.mem.nextRef fun _ => [], bs, s.mem.nextRef :: s.lost⟩

/-- One step; `none`: the step is not possible. (src/arc.rs:79-197, 321-390, src/green/node.rs:203-256.) -/
def step (s : PMem) : POp → Option (PMem × POut)
  | .other op => do
    let m ← s.mem.step op
    some (⟨m, s.builds, s.lost⟩, .goesOn)
  | .start t kind len => do
    guard (s.mem.idle t)
    some (⟨s.mem, ⟨t, kind, len, [], false⟩ :: s.builds, s.lost⟩, .goesOn)
  | .yield t r => do
    guard (s.mem.idle t)
    let (b, bs) ← popBuild t s.builds
    let x ← s.mem.ref? r
    guard (x.holders = [t])
    if b.taken.length < b.len then
      some (⟨s.mem.setHolders r fun _ => [], { b with taken := b.taken ++ [r] } :: bs, s.lost⟩, .goesOn)
    else do
      let s' ← s.abandon b bs
      some (s', .panicked)
  | .stop t => do
    let (b, bs) ← popBuild t s.builds
    if b.taken.length < b.len then do
      let s' ← s.abandon b bs
      some (s', .panicked)
    else if b.len ≠ 0 ∧ b.checked = false then
      some (⟨s.mem, { b with checked := true } :: bs, s.lost⟩, .goesOn)
    else do
      let m ← finish s.mem b
      some (⟨m, bs, s.lost⟩, .returned s.mem.nextRef)
  | .fail t => do
    let (b, bs) ← popBuild t s.builds
    let s' ← s.abandon b bs
    some (s', .panicked)

/-- The states reachable from the empty memory, by any interleaving of any steps.
(Clients of src/green and src/arc.rs; not itself in the code.) -/
inductive Reach : PMem → Prop
  | init : Reach {}
  | step {s s' out} (op : POp) : Reach s → s.step op = some (s', out) → Reach s'

/-- Any number of further steps. (Clients of src/green and src/arc.rs; not itself in the code.) -/
inductive Steps : PMem → PMem → Prop
  | refl (s) : Steps s s
  | step {s s' s'' out} (op : POp) : Steps s s' → s'.step op = some (s'', out) → Steps s s''

end PMem
end Rowan
