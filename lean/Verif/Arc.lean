import Verif.Res
/-!
# `Arc` — model of the reference counting in src/arc.rs

One allocation, any number of threads.  The memory model is the view-based operational form of the
release/acquire fragment of C11 (RC11): every write of the counter is a message in its modification
order; a thread's view says which messages it can no longer ignore (`idx`) and which accesses to the
payload happen before its next action (`acc`).  All writes of the counter are read-modify-writes, so
a new message always follows the last one, and it continues the release sequence: it carries the
view of its predecessor, and, if the operation is `Release`, also the view of the thread.  A plain
load may read any message not older than the thread's `idx`, i.e. it may be stale.

References are what safe Rust code holds.  `holders` are the threads that can use a reference: its
owner, and threads that have borrowed it (`Arc: Sync`).  Handing a reference to another thread, or
handing a borrow back, is a synchronisation.  `mem::forget` needs no step: the reference is simply
never used again.

Accesses to the payload are numbered; `ub` is set when an access races with an earlier one, or hits
freed memory, or the allocation is freed twice.
-/
namespace Rowan

/-- `usize` has 64 bits. (The type of the counter, src/arc.rs:24-27.) -/
def word : Nat := 2 ^ 64
/-- `isize::MAX as usize` — src/arc.rs:20. -/
def maxRefcount : Nat := 2 ^ 63 - 1

/-- What a thread (or a message) knows. (C11 memory model of the atomics in src/arc.rs:97-197; not in the code.) -/
structure AView where
  idx : Nat := 0
  acc : Nat → Bool := fun _ => false

/-- Synchronisation: both know what either knew; C11 memory model, not in src/arc.rs. -/
def AView.join (a b : AView) : AView := ⟨max a.idx b.idx, fun e => a.acc e || b.acc e⟩

/-- A write of the counter. (The atomic `count`, src/arc.rs:25.) -/
structure AMsg where
  val : Nat
  view : AView

/-- A reference in the program. (Values of type `Arc`, src/arc.rs:39-42, and `&Arc`.) -/
structure ARef where
  id : Nat
  holders : List Nat

/-- Where a thread is: anywhere in the program; in `drop`, after it has brought the counter to 0;
after the `Acquire` load that follows; in `clone`, on its way to `abort()`. (src/arc.rs:97-128, :162-197.) -/
inductive APhase where
  | running
  | deleting
  | loaded
  | aborting
deriving DecidableEq, Repr

/-- All threads, the counter and the payload of one allocation, src/arc.rs:24-42. -/
structure ArcSt where
  msgs : List AMsg
  refs : List ARef
  nextRef : Nat
  views : Nat → AView
  /-- the accesses so far; `true`: exclusive access (a write) -/
  events : List Bool
  phase : Nat → APhase
  freed : Nat
  ub : Bool
  /-- the process has been aborted -/
  dead : Bool

namespace ArcSt

/-- A fresh allocation made by thread `t`: counter 1, payload written (access 0) —
src/arc.rs:362-390. -/
def init (t : Nat) : ArcSt where
  msgs := [⟨1, ⟨0, fun _ => false⟩⟩]
  refs := [⟨0, [t]⟩]
  nextRef := 1
  views := fun u => if u = t then ⟨0, fun e => e == 0⟩ else {}
  events := [true]
  phase := fun _ => .running
  freed := 0
  ub := false
  dead := false

/-- The last message of the modification order. (The atomic `count`, src/arc.rs:25.) -/
def last (s : ArcSt) : AMsg := s.msgs.getLastD ⟨0, {}⟩

/-- Bookkeeping of the memory model; not in src/arc.rs. -/
def setView (s : ArcSt) (t : Nat) (v : AView) : ArcSt :=
  { s with views := fun u => if u = t then v else s.views u }

/-- Bookkeeping: where a thread is within src/arc.rs:97-197. -/
def setPhase (s : ArcSt) (t : Nat) (p : APhase) : ArcSt :=
  { s with phase := fun u => if u = t then p else s.phase u }

/-- Thread `t` does a read-modify-write that stores `val`.
(`fetch_add`, src/arc.rs:111; `fetch_sub`, src/arc.rs:167.) -/
def rmw (s : ArcSt) (t : Nat) (val : Nat) (release : Bool) : ArcSt :=
  let n := s.msgs.length
  let tv : AView := { s.views t with idx := n }
  let mv : AView := if release then s.last.view.join tv else { s.last.view with idx := n }
  { s.setView t tv with msgs := s.msgs ++ [⟨val, mv⟩] }

/-- Thread `t` does an `Acquire` load that reads message `m`. (src/arc.rs:158, :191.) -/
def acquire (s : ArcSt) (t i : Nat) (m : AMsg) : ArcSt :=
  s.setView t (((s.views t).join m.view).join { idx := i })

/-- Are all accesses (all exclusive accesses, if `exclusive` is false) known to thread `t`?
(happens-before of the C11 memory model; not in src/arc.rs). -/
def knows (s : ArcSt) (t : Nat) (exclusive : Bool) : Bool :=
  s.events.zipIdx.all fun (w, e) => !(exclusive || w) || (s.views t).acc e

/-- Thread `t` accesses the payload.
(`deref`, src/arc.rs:130-137; `get_mut`, src/arc.rs:142-152; `drop_slow`, src/arc.rs:79-83.) -/
def access (s : ArcSt) (t : Nat) (exclusive : Bool) : ArcSt :=
  let e := s.events.length
  { s with
    ub := s.ub || !(s.freed == 0) || !s.knows t exclusive
    events := s.events ++ [exclusive]
    views := fun u =>
      if u = t then { s.views t with acc := fun x => x == e || (s.views t).acc x } else s.views u }

/-- Borrows of a reference; the borrow checker, not in src/arc.rs. -/
def setHolders (s : ArcSt) (r : Nat) (f : List Nat → List Nat) : ArcSt :=
  { s with refs := s.refs.map fun x => if x.id = r then { x with holders := f x.holders } else x }

/-- Bookkeeping: look up a value of type `Arc`, src/arc.rs:39-42. -/
def ref? (s : ArcSt) (r : Nat) : Option ARef := s.refs.find? fun x => x.id = r

end ArcSt

/-- Atomic steps of threads. (src/arc.rs:79-197.) -/
inductive AOp where
  /-- read the payload through reference `r` — src/arc.rs:130-137, 290-297, 393-400 -/
  | use (t r : Nat)
  /-- `get_mut`, the load reading message `i` — src/arc.rs:142-159 -/
  | getMut (t r i : Nat)
  /-- `s` gives (a borrow of) `r` to `t` -/
  | lend (s t r : Nat)
  /-- `t` is done with `r` and hands back to `s` -/
  | giveBack (t s r : Nat)
  /-- any other synchronisation from `s` to `t` -/
  | sync (s t : Nat)
  /-- `clone`: `fetch_add(1, Relaxed)` and the test of the old value — src/arc.rs:99-127, 402-407 -/
  | clone (t r : Nat)
  /-- `drop`: `fetch_sub(1, Release)` and the test of the old value — src/arc.rs:164-169, 409-414 -/
  | drop (t r : Nat)
  /-- the `Acquire` load in `drop`, reading message `i` — src/arc.rs:191 -/
  | load (t i : Nat)
  /-- `drop_slow` — src/arc.rs:79-83, 193-195 -/
  | free (t : Nat)
  /-- `std::process::abort()` — src/arc.rs:123 -/
  | abort (t : Nat)
deriving DecidableEq, Repr

/-- One step; `none`: the step is not possible (borrow rules, or the thread is elsewhere).
`T` is the number of threads. (src/arc.rs:79-197.) -/
def ArcSt.step (T : Nat) (s : ArcSt) (op : AOp) : Option ArcSt :=
  if s.dead then none
  else match op with
  | .use t r => do
    let x ← s.ref? r
    guard (t ∈ x.holders ∧ t < T ∧ s.phase t = .running)
    some (s.access t false)
  | .getMut t r i => do
    let x ← s.ref? r
    guard (x.holders = [t] ∧ t < T ∧ s.phase t = .running ∧ (s.views t).idx ≤ i)
    let m ← s.msgs[i]?
    let s' := s.acquire t i m
    if m.val = 1 then some (s'.access t true) else some s'
  | .lend a t r => do
    let x ← s.ref? r
    guard (a ∈ x.holders ∧ a < T ∧ t < T ∧ s.phase a = .running ∧ t ∉ x.holders)
    some ((s.setView t ((s.views t).join (s.views a))).setHolders r fun h => t :: h)
  | .giveBack t a r => do
    let x ← s.ref? r
    guard (t ∈ x.holders ∧ a ∈ x.holders ∧ t ≠ a ∧ t < T ∧ a < T ∧ s.phase t = .running)
    some ((s.setView a ((s.views a).join (s.views t))).setHolders r fun h => h.filter (· ≠ t))
  | .sync a t => some (s.setView t ((s.views t).join (s.views a)))
  | .clone t r => do
    let x ← s.ref? r
    guard (t ∈ x.holders ∧ t < T ∧ s.phase t = .running)
    let old := s.last.val
    let s' := s.rmw t ((old + 1) % word) false
    if old > maxRefcount then some (s'.setPhase t .aborting)
    else some { s' with refs := ⟨s.nextRef, [t]⟩ :: s'.refs, nextRef := s.nextRef + 1 }
  | .drop t r => do
    let x ← s.ref? r
    guard (x.holders = [t] ∧ t < T ∧ s.phase t = .running)
    let old := s.last.val
    let s' := s.rmw t ((old + word - 1) % word) true
    let s' := { s' with refs := s'.refs.filter fun x => x.id ≠ r }
    if old ≠ 1 then some s' else some (s'.setPhase t .deleting)
  | .load t i => do
    guard (s.phase t = .deleting ∧ (s.views t).idx ≤ i)
    let m ← s.msgs[i]?
    some ((s.acquire t i m).setPhase t .loaded)
  | .free t => do
    guard (s.phase t = .loaded)
    let s' := s.access t true
    some { s'.setPhase t .running with freed := s.freed + 1 }
  | .abort t => do
    guard (s.phase t = .aborting)
    some { s with dead := true }

/-- The states reachable from a fresh allocation made by thread `t0` of `T` threads, by any
interleaving of any steps.
(Executions of clients of src/arc.rs; the initial state is `from_header_and_iter`, src/arc.rs:321-390.) -/
inductive ArcReach (T t0 : Nat) : ArcSt → Prop
  | init : ArcReach T t0 (.init t0)
  | step {s s'} (op : AOp) : ArcReach T t0 s → s.step T op = some s' → ArcReach T t0 s'

end Rowan
