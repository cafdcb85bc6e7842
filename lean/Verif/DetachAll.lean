import Verif.EditWalk
/-!
# Collecting elements, and then detaching them — clients of src/cursor.rs
-/
namespace Rowan
namespace EProg

/-- `for e in elements.iter() { e.detach() }`, where the elements were collected before. (A client of src/cursor.rs:960-963,
1107-1110, 1268-1273; a panic is not caught.) -/
def detachAll : List Nat → EProg Unit
  | [] => pure ()
  | h :: hs => do
    detach h
    detachAll hs

/-- The elements are dropped. (Drop glue of a `Vec` of a client; src/cursor.rs:158-165, :180-187.) -/
def dropAll : List Nat → EProg Unit
  | [] => pure ()
  | h :: hs => do
    drop h
    dropAll hs

/-- `to_next_sibling` (`nodes`), `to_next_sibling_or_token` — src/cursor.rs:761-793, :1201-1231. -/
def toNext (nodes : Bool) (h : Nat) : EProg (Option Nat) :=
  .req (.toNext nodes h) fun
    | .done o => .ret o
    | .panicked => .panic

/-- The rest of `children().filter(sel).collect()` (`nodes`), or of `children_with_tokens().filter(sel).collect()`, from the
moment where the field `next` of the iterator has just got a new value, of which a clone is handed out.  `k` bounds the number
of rounds.  (src/cursor.rs:1388-1397, 1450-1459, in a client.) -/
def collect (nodes : Bool) (sel : Tree → Bool) : Nat → Option Nat → EProg (List Nat)
  | _, none => pure []
  | 0, some _ => .diverge
  | k + 1, some n => do
    let c ← clone n
    let o ← see c
    if sel o.content then do
      let n' ← toNext nodes n
      let l ← collect nodes sel k n'
      pure (c :: l)
    else do
      drop c
      let n' ← toNext nodes n
      collect nodes sel k n'

/-- `q.children().filter(sel).collect()` (`nodes`), `q.children_with_tokens().filter(sel).collect()`. (A client of
src/cursor.rs:676-683, 1357-1397, 1416-1459.) -/
def collectKids (nodes : Bool) (sel : Tree → Bool) (k q : Nat) : EProg (List Nat) := do
  let p ← clone q
  let n ← nav (if nodes then .firstChild else .firstChildOrToken) p
  let l ← collect nodes sel k n
  drop p
  pure l

/-- Collect, detach, drop: `for e in q.children_with_tokens().filter(sel).collect::<Vec<_>>().iter() { e.detach() }`. (A client
of src/cursor.rs:676-683, 960-963, 1107-1110.) -/
def detachKids (nodes : Bool) (sel : Tree → Bool) (k q : Nat) : EProg Unit := do
  let l ← collectKids nodes sel k q
  detachAll l
  dropAll l

end EProg
end Rowan
