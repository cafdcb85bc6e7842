import Verif.GreenMem
/-!
# Green memory under the C11 memory model — the memory orderings of src/arc.rs, for all allocations together

The steps of `Verif/GreenMem.lean`, with the bookkeeping of the view-based operational form of the release/acquire fragment
of C11 (RC11), as in `Verif/Arc.lean`, but for any number of allocations: every write of a counter is a message in the
modification order of that counter.  All writes of counters are read-modify-writes, which read the latest message, so the
values are the ones in `GMem`, and a message only has to record a view: what happened before.  It continues the release
sequence: it carries the view of its predecessor, and, if the operation is `Release`, also the view of the thread.  A plain
load may read any message that is not older than what the thread knows of.

Every access to an allocation is an event, also those to its counter.  An event is exclusive if it writes the payload or
runs or ends the destructor.  Each event records what happened before it: the view of its thread.
-/
namespace Rowan

/-- The orderings used by `Drop for Arc`: is `fetch_sub` a release, is the load an acquire? — src/arc.rs:167, :191. -/
structure ArcOrders where
  release : Bool
  acquire : Bool
deriving DecidableEq, Repr

/-- The orderings in the code: `fetch_sub(1, Release)`, `load(Acquire)` — src/arc.rs:167, :191. -/
def arcOrders : ArcOrders := ⟨true, true⟩

/-- What a thread (or a message) knows: for each counter the latest message it cannot ignore, and the events that happened
before. (C11 memory model of the atomics in src/arc.rs:97-197; not in the code.) -/
structure GView where
  idx : Nat → Nat := fun _ => 0
  acc : Nat → Bool := fun _ => false

/-- Synchronisation: both know what either knew; C11 memory model, not in src/arc.rs. -/
def GView.join (a b : GView) : GView := ⟨fun o => max (a.idx o) (b.idx o), fun e => a.acc e || b.acc e⟩

/-- An access of a thread to an allocation, and the events (numbered in the order of the list of events) that happened
before it. (C11 memory model of the accesses in src/arc.rs:79-197; not in the code.) -/
structure GEvent where
  thread : Nat
  obj : Nat
  exclusive : Bool
  before : Nat → Bool

/-- The green allocations with the views of threads and messages: src/arc.rs:24-42. -/
structure GWeak where
  mem : GMem := {}
  views : Nat → GView := fun _ => {}
  /-- the messages of the counter of each allocation, in modification order -/
  msgs : Nat → List GView := fun _ => []
  /-- the allocations whose counter has been brought to 0 by a thread that has not yet done the load after it -/
  unloaded : Nat → Bool := fun _ => false
  /-- the events so far -/
  events : List GEvent := []

namespace GWeak

/-- The latest message of a counter. (The atomic `count`, src/arc.rs:25.) -/
def last (w : GWeak) (o : Nat) : GView := (w.msgs o).getLastD {}

/-- Bookkeeping of the memory model; not in src/arc.rs. -/
def setView (w : GWeak) (t : Nat) (v : GView) : GWeak :=
  { w with views := fun u => if u = t then v else w.views u }

/-- Thread `t` accesses allocation `o`. (`deref`, src/arc.rs:130-137; the counter, src/arc.rs:111, :167; `drop_slow`,
src/arc.rs:79-83.) -/
def access (w : GWeak) (t o : Nat) (exclusive : Bool) : GWeak :=
  { w with
    events := w.events ++ [⟨t, o, exclusive, (w.views t).acc⟩]
    views := fun u =>
      if u = t then { w.views t with acc := fun x => x == w.events.length || (w.views t).acc x } else w.views u }

/-- Thread `t` accesses several allocations. (The way to a position in a tree, src/green/node.rs:138-140.) -/
def accesses (w : GWeak) (t : Nat) : List Nat → GWeak
  | [] => w
  | o :: os => (w.access t o false).accesses t os

/-- Thread `t` does a read-modify-write of the counter of `o`. (`fetch_add`, src/arc.rs:111; `fetch_sub`, src/arc.rs:167.) -/
def rmw (w : GWeak) (t o : Nat) (release : Bool) : GWeak :=
  let n := (w.msgs o).length
  let tv : GView := { w.views t with idx := fun p => if p = o then n else (w.views t).idx p }
  let mv : GView := if release then (w.last o).join tv
    else { w.last o with idx := fun p => if p = o then n else (w.last o).idx p }
  { w.setView t tv with msgs := fun p => if p = o then w.msgs o ++ [mv] else w.msgs p }

/-- Thread `t` loads the counter of `o` and reads message `i`, which is `m`. (src/arc.rs:191.) -/
def load (w : GWeak) (acquire : Bool) (t o i : Nat) (m : GView) : GWeak :=
  let tv : GView := { w.views t with idx := fun p => if p = o then i else (w.views t).idx p }
  w.setView t (if acquire then tv.join m else tv)

/-- A new allocation `o` made by thread `t`: its counter is initialised without an atomic operation, the payload is written.
(The load and the second write of `get_mut` in `GreenNode::new` are done by the same thread at once.) — src/arc.rs:321-390. -/
def fresh (w : GWeak) (t o : Nat) : GWeak :=
  let w := w.access t o true
  { w with msgs := fun p => if p = o then [{}] else w.msgs p }

/-- Is the counter of `o` 1? (the test of the old value, src/arc.rs:167.) -/
def isLast (w : GWeak) (o : Nat) : Bool :=
  match w.mem.objs[o]? with
  | some x => x.count == 1
  | none => false

/-- `Arc::drop` up to the load: thread `t` drops a reference to `o` — src/arc.rs:162-169. -/
def dropRef (ord : ArcOrders) (w : GWeak) (t o : Nat) : GWeak :=
  let w' := (w.access t o false).rmw t o ord.release
  { w' with unloaded := if w.isLast o then fun p => if p = o then true else w.unloaded p else w.unloaded }

end GWeak

/-- Steps of threads. (src/arc.rs:79-197, src/green/node.rs:203-256, src/green/token.rs:112-140.) -/
inductive GWOp where
  /-- a step of `Verif/GreenMem.lean` -/
  | mem (op : GOp)
  /-- the load in the `drop` that has started the innermost destructor of thread `t`; it reads message `i` —
  src/arc.rs:191 -/
  | load (t i : Nat)
  /-- any other synchronisation from `a` to `t` -/
  | sync (a t : Nat)
deriving DecidableEq, Repr

namespace GWeak

/-- The events, messages and views of a step of `Verif/GreenMem.lean`, in the state before it; `none`: the step has to wait
for the load. (src/arc.rs:79-197, src/green/node.rs:203-256, src/green/token.rs:112-140.) -/
def track (ord : ArcOrders) (w : GWeak) : GOp → Option GWeak
  | .newToken t _ _ => some (w.fresh t w.mem.objs.length)
  | .newNode t _ rs => do
    let (os, _) ← GMem.popRefs t rs w.mem.refs
    some ((w.accesses t os).fresh t w.mem.objs.length)
  | .read t r path => do
    let x ← w.mem.ref? r
    some (w.accesses t (w.mem.trail x.obj path))
  | .clone t r path => do
    let x ← w.mem.ref? r
    let o ← w.mem.at? x.obj path
    some ((w.accesses t (w.mem.trail x.obj path)).rmw t o false)
  | .drop t r => do
    let (x, _) ← GMem.popRef t r w.mem.refs
    some (w.dropRef ord t x.obj)
  | .glue t => do
    let (f, _) ← GMem.popFrame t w.mem.stack
    guard (w.unloaded f.obj = false)
    let w' := w.access t f.obj true
    match f.rest with
    | k :: _ => some (w'.dropRef ord t k)
    | [] => some w'
  | .lend a t _ => some (w.setView t ((w.views t).join (w.views a)))
  | .giveBack t a _ => some (w.setView a ((w.views a).join (w.views t)))

/-- One step; `none`: the step is not possible.
(src/arc.rs:79-197, src/green/node.rs:203-256, src/green/token.rs:112-140.) -/
def step (ord : ArcOrders) (w : GWeak) : GWOp → Option GWeak
  | .mem op => do
    let m ← w.mem.step op
    let w' ← w.track ord op
    some { w' with mem := m }
  | .load t i => do
    let (f, _) ← GMem.popFrame t w.mem.stack
    guard (w.unloaded f.obj = true ∧ (w.views t).idx f.obj ≤ i ∧ w.mem.dead = false)
    let m ← (w.msgs f.obj)[i]?
    let w' := w.load ord.acquire t f.obj i m
    some { w' with unloaded := fun p => if p = f.obj then false else w.unloaded p }
  | .sync a t => some (w.setView t ((w.views t).join (w.views a)))

/-- The states reachable from the empty memory, by any interleaving of any steps, any load reading any message it may read.
(Clients of src/green and src/arc.rs; not itself in the code.) -/
inductive Reach (ord : ArcOrders) : GWeak → Prop
  | init : Reach ord {}
  | step {w w'} (op : GWOp) : Reach ord w → w.step ord op = some w' → Reach ord w'

end GWeak
end Rowan
