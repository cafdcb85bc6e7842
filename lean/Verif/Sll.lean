import Verif.HeapState
/-!
# The sorted intrusive list — model of `src/sll.rs`

The generic `Elem` is instantiated with `NodeData` (src/cursor.rs:132-142), its only implementor; the
list head cell is always the `first` field of a `NodeData`, so a head is named by the address of that
object.
-/
namespace Rowan
namespace Sll

/-- `AddToSllResult` — src/sll.rs:21-27.  `head` is the object whose `first` field is the head. -/
inductive AddRes where
  | noHead
  | emptyHead (head : Nat)
  | smallerThanHead (head : Nat)
  | smallerThanNotHead (curr : Nat)
  | alreadyInSll (curr : Nat)
deriving DecidableEq, Repr

/-- `add_to_sll` — src/sll.rs:30-59. -/
def AddRes.addToSll (r : AddRes) (elem : Nat) : H Unit := do
  H.wr elem (·.setPrev elem (some elem))
  H.wr elem (·.setNext elem (some elem))
  match r with
  | .emptyHead head => H.wr head (·.setFirst head (some elem))
  | .smallerThanHead head => do
    let oldHead ← H.nonNull (← H.rd head HSt.first)
    let prev ← H.nonNull (← H.rd oldHead HSt.prev)
    H.wr oldHead (·.setPrev oldHead (some elem))
    H.wr prev (·.setNext prev (some elem))
    H.wr elem (·.setNext elem (some oldHead))
    H.wr elem (·.setPrev elem (some prev))
    H.wr head (·.setFirst head (some elem))
  | .smallerThanNotHead curr => do
    let next ← H.nonNull (← H.rd curr HSt.next)
    H.wr curr (·.setNext curr (some elem))
    H.wr next (·.setPrev next (some elem))
    H.wr elem (·.setPrev elem (some curr))
    H.wr elem (·.setNext elem (some next))
  | .noHead => pure ()
  | .alreadyInSll _ => pure ()

/-- The backward search of `link` — src/sll.rs:106-112. -/
def linkLoop : Nat → Nat → Nat → H AddRes
  | 0, _, _ => H.diverge
  | fuel + 1, curr, key => do
    let k ← H.rd curr HSt.index
    if k < key then pure (.smallerThanNotHead curr)
    else if k = key then pure (.alreadyInSll curr)
    else do
      let p ← H.nonNull (← H.rd curr HSt.prev)
      linkLoop fuel p key

/-- `link(&head.first, elem)`; of `elem` only the key is used — src/sll.rs:91-114. -/
def link (head key : Nat) : H AddRes := do
  match ← H.rd head HSt.first with
  | none => pure (.emptyHead head)
  | some oldHead => do
    let hk ← H.rd oldHead HSt.index
    if key < hk then pure (.smallerThanHead head)
    else do
      let curr ← H.nonNull (← H.rd oldHead HSt.prev)
      H.loop fun fuel => linkLoop fuel curr key

/-- `init` — src/sll.rs:63-68. -/
def init (head : Option Nat) (key : Nat) : H AddRes :=
  match head with
  | some q => link q key
  | none => pure .noHead

/-- `unlink(&head.first, elem)` — src/sll.rs:71-88. -/
def unlink (head elem : Nat) : H Unit := do
  H.dbg (← H.rd head HSt.first).isSome
  let prev ← H.rd elem HSt.prev
  H.wr elem (·.setPrev elem (some elem))
  let next ← H.rd elem HSt.next
  H.wr elem (·.setNext elem (some elem))
  let prev ← H.nonNull prev
  let next ← H.nonNull next
  H.dbg ((← H.rd prev HSt.next) == some elem)
  H.dbg ((← H.rd next HSt.prev) == some elem)
  H.wr prev (·.setNext prev (some next))
  H.wr next (·.setPrev next (some prev))
  if (← H.rd head HSt.first) == some elem then
    H.wr head (·.setFirst head (if next == elem then none else some next))
  else pure ()

/-- `Delta` applied to a key — src/utility_types.rs:161-179. -/
inductive Delta where
  | add (n : Nat)
  | sub (n : Nat)
deriving DecidableEq, Repr

/-- `AddAssign`/`add` of a delta, src/utility_types.rs:161-180, used at src/sll.rs:116-133. -/
def Delta.apply : Delta → Nat → Nat
  | .add n, k => k + n
  | .sub n, k => k - n

/-- The subtraction does not underflow (a debug build panics on underflow). (src/utility_types.rs:161-180.) -/
def Delta.fits : Delta → Nat → Bool
  | .add _, _ => true
  | .sub n, k => n ≤ k

/-- One key update of `adjust` — src/sll.rs:122-126. -/
def adjustKey (curr start : Nat) (by_ : Delta) : H Unit := do
  let key ← H.rd curr HSt.index
  if start ≤ key then do
    H.dbg (by_.fits key)
    H.wr curr (·.setIndex curr (by_.apply key))
  else pure ()

/-- The loop of `adjust` — src/sll.rs:120-131. -/
def adjustLoop : Nat → Nat → Nat → Nat → Delta → H Unit
  | 0, _, _, _, _ => H.diverge
  | fuel + 1, elem, curr, start, by_ => do
    adjustKey curr start by_
    let curr ← H.nonNull (← H.rd curr HSt.next)
    if curr == elem then pure () else adjustLoop fuel elem curr start by_

/-- `adjust(elem, from, by)` — src/sll.rs:116-133. -/
def adjust (elem start : Nat) (by_ : Delta) : H Unit :=
  H.loop fun fuel => adjustLoop fuel elem elem start by_

end Sll
end Rowan
