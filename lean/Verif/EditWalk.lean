import Verif.EditProg
import Verif.Cursor
/-!
# Walks in programs that edit — model of src/cursor.rs

`preorder()` and `preorder_with_tokens()` as editing programs (`Verif/EditProg.lean`): the same steps as in
`Verif/Traverse.lean`, but other steps of the program, which may edit the tree, can come between two calls of `next`.
-/
namespace Rowan
namespace EProg

/-- A call of one of the functions of src/cursor.rs:685-1105 that return an optional handle; a panic is not caught. -/
def nav (f : Nav) (h : Nat) : EProg (Option Nat) :=
  .req (.nav f h) fun
    | .done o => .ret o
    | .panicked => .panic
/-- `Clone`, src/cursor.rs:150-156, :172-178. -/
def clone (h : Nat) : EProg Nat :=
  .req (.clone h) fun
    | .done (some n) => .ret n
    | _ => .panic
/-- `Drop`, src/cursor.rs:158-165, :180-187. -/
def drop (h : Nat) : EProg Unit :=
  .req (.drop h) fun
    | .done _ => .ret ()
    | .panicked => .panic
/-- `detach` — src/cursor.rs:960-963, 1107-1110, 1268-1273; a panic is not caught. -/
def detach (h : Nat) : EProg Unit :=
  .req (.detach h) fun
    | .done _ => .ret ()
    | .panicked => .panic
/-- `kind`, `text_range` and the like, src/cursor.rs:365-374, :637-663. -/
def see (h : Nat) : EProg Sight := .look h .ret
/-- `==`, src/cursor.rs:301-307. -/
def eq (h h' : Nat) : EProg Bool := .same h h' .ret

/-- `Preorder`, `PreorderWithTokens` — src/cursor.rs:1477-1481, 1532-1536. -/
structure Walk where
  start : Nat
  next : Option (WalkEvent Nat)
  skip : Bool := false

/-- `preorder()`, `preorder_with_tokens()` — src/cursor.rs:870-877, 1484-1487, 1539-1542. -/
def walk (h : Nat) : EProg Walk := do
  let start ← clone h
  let first ← clone start
  pure { start, next := some (.enter first) }

/-- `skip_subtree` — src/cursor.rs:1489-1491, 1544-1546. -/
def Walk.skipSubtree (it : Walk) : Walk := { it with skip := true }

/-- `do_skip` — src/cursor.rs:1494-1499, 1549-1554. -/
def doSkip (it : Walk) : EProg Walk :=
  match it.next with
  | none => pure it
  | some (.enter c) => do
    match ← nav .parent c with
    | none => .panic
    | some p => do
      drop c
      pure { it with next := some (.leave p) }
  | some (.leave p) => pure { it with next := some (.leave p) }

/-- The event after `ev`, which is only borrowed — src/cursor.rs:1511-1527 (`nodes`), 1566-1581. -/
def walkSucc (nodes : Bool) (start : Nat) : WalkEvent Nat → EProg (Option (WalkEvent Nat))
  | .enter h => do
    if (← see h).content.isNode then
      match ← nav (if nodes then .firstChild else .firstChildOrToken) h with
      | some c => pure (some (.enter c))
      | none => do pure (some (.leave (← clone h)))
    else do pure (some (.leave (← clone h)))
  | .leave h => do
    if ← eq h start then pure none
    else
      match ← nav (if nodes then .nextSibling else .nextSiblingOrToken) h with
      | some s => pure (some (.enter s))
      | none =>
        match ← nav .parent h with
        | some p => pure (some (.leave p))
        | none => pure none

/-- The new value of the field `next` — src/cursor.rs:1511-1527 (`nodes`), 1566-1581. -/
def walkMove (nodes : Bool) (it : Walk) : EProg (Option (WalkEvent Nat)) :=
  match it.next with
  | none => pure none
  | some ev => walkSucc nodes it.start ev

/-- `Iterator::next` — src/cursor.rs:1505-1529 (`nodes`), 1560-1583. -/
def walkNext (nodes : Bool) (it : Walk) : EProg (Option (WalkEvent Nat) × Walk) := do
  let it ← if it.skip then doSkip it else pure it
  let next ← walkMove nodes it
  pure (it.next, { it with next := next, skip := false })

/-- The iterator is dropped. (Drop glue of src/cursor.rs:1477-1481, :1532-1536.) -/
def walkDrop (it : Walk) : EProg Unit := do
  drop it.start
  match it.next with
  | none => pure ()
  | some (.enter h) => drop h
  | some (.leave h) => drop h

/-- The handle in an event. (src/utility_types.rs:69-74.) -/
def handle : WalkEvent Nat → Nat
  | .enter h => h
  | .leave h => h

/-- A loop of a client: `for ev in walk { body }`, which looks at the element of each event before it runs the body;
the element is dropped at the end of the body.  The result lists what was seen.  `k` bounds the number of rounds.
(src/cursor.rs:1505-1529, 1560-1583, in a loop of a client.) -/
def walkEach (nodes : Bool) (body : WalkEvent Nat → Sight → EProg Unit) : Nat → Walk → EProg (List (WalkEvent Sight))
  | 0, _ => .diverge
  | k + 1, it => do
    match ← walkNext nodes it with
    | (none, it) => do
      walkDrop it
      pure []
    | (some ev, it) => do
      let o ← see (handle ev)
      body ev o
      drop (handle ev)
      let l ← walkEach nodes body k it
      pure (ev.map (fun _ => o) :: l)

/-- The body of a loop that detaches some of the elements that it leaves. (A client of src/cursor.rs:960-963, :1107-1110.) -/
def pruneBody (del : Tree → Bool) : WalkEvent Nat → Sight → EProg Unit
  | .enter _, _ => pure ()
  | .leave h, o => if del o.content then detach h else pure ()

/-- The body of a loop that detaches some of the elements that it enters. (A client of src/cursor.rs:960-963, :1107-1110.) -/
def enterBody (del : Tree → Bool) : WalkEvent Nat → Sight → EProg Unit
  | .enter h, o => if del o.content then detach h else pure ()
  | .leave _, _ => pure ()

/-- `for ev in h.preorder() { body }` (`nodes`), `for ev in h.preorder_with_tokens() { body }`.
(A client of src/cursor.rs:870-877.) -/
def forWalk (nodes : Bool) (body : WalkEvent Nat → Sight → EProg Unit) (k h : Nat) : EProg (List (WalkEvent Sight)) := do
  let it ← walk h
  walkEach nodes body k it

/-- `while let Some(c) = h.first_child_or_token() { c.detach() }`; `k` bounds the number of rounds.
(A client of src/cursor.rs:727-731, :1268-1273.) -/
def clear : Nat → Nat → EProg Unit
  | 0, _ => .diverge
  | k + 1, h => do
    match ← nav .firstChildOrToken h with
    | none => pure ()
    | some c => do
      detach c
      drop c
      clear k h

end EProg
end Rowan
