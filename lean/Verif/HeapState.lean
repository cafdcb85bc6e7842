import Verif.Builder
/-!
# The cursor heap: state and outcomes

`NodeData` objects (src/cursor.rs:113-130) live in a heap.  The heap is stored field by field: each
field is a function of the object's address.  `live p` says that the box at `p` is allocated and not
yet freed; reading or writing a field of an object that is not live is undefined behaviour (`ub`).
Null pointers are `none`.

`owned` is the list of strong references to green objects that cursors hold through raw pointers
(`GreenNode::into_raw` without a matching `from_raw`).  A green object is alive as long as a strong
reference to it, or to an object containing it, exists.  References held by the user are not in the
list: the cursors must not rely on them.

Simplifications: addresses are never reused after a free; `u32` indices and text sizes are `Nat`;
the reference count `rc` is bounded by `u32::MAX` as in the code.
-/
namespace Rowan

/-- All `NodeData` objects, field by field — src/cursor.rs:113-130 — and the green references. -/
structure HSt where
  live : Nat → Bool
  rc : Nat → Nat
  parent : Nat → Option Nat
  index : Nat → Nat
  green : Nat → GElem
  mutable : Nat → Bool
  offset : Nat → Nat
  first : Nat → Option Nat
  next : Nat → Option Nat
  prev : Nat → Option Nat
  /-- addresses from `top` on have never been allocated -/
  top : Nat
  /-- green addresses from `gtop` on have never been used -/
  gtop : Nat
  owned : List GElem
  /-- extra steps granted to every loop, see `H.loop` -/
  slack : Nat := 0

/-- No object, no reference. (The state before any function of src/cursor.rs has run.) -/
def HSt.empty (gtop : Nat) : HSt where
  live _ := false
  rc _ := 0
  parent _ := none
  index _ := 0
  green _ := .token ⟨0, 0, []⟩
  mutable _ := false
  offset _ := 0
  first _ := none
  next _ := none
  prev _ := none
  top := 0
  gtop := gtop
  owned := []

/-- Why a call panicked: a failed `assert!`/`unwrap`/`unreachable!`, or `Vec::splice` with a range
out of bounds.
(The panics of src/cursor.rs:458-493 (`assert!`), :356-357 (`unwrap`), :484, :521-539 (`unreachable!`) and src/green/node.rs:182 (`splice`).) -/
inductive Why where
  | assert
  | range
deriving DecidableEq, Repr

/-- Outcome of a call.  A panic carries the heap it leaves behind, because it can be caught.
(How the functions of src/cursor.rs:105-1585 can end; modelling vocabulary.) -/
inductive HOut (α : Type) where
  | ok (a : α) (s : HSt)
  | panic (w : Why) (s : HSt)
  | abort
  | ub
  | diverge

/-- A computation on the heap. (The functions of src/cursor.rs:105-1585 are modelled as such computations.) -/
def H (α : Type) := HSt → HOut α

namespace H
variable {α β : Type}

/-- Sequencing of statements in src/cursor.rs; modelling vocabulary. -/
@[inline] protected def bind (m : H α) (f : α → H β) : H β := fun s =>
  match m s with
  | .ok a s' => f a s'
  | .panic w s' => .panic w s'
  | .abort => .abort
  | .ub => .ub
  | .diverge => .diverge

instance : Monad H where
  pure a := fun s => .ok a s
  bind := H.bind

/-- Stop with a panic. (src/cursor.rs:458-493 and the other `assert!`s and `unwrap`s of that file.) -/
def panic (w : Why) : H α := fun s => .panic w s
/-- Undefined behaviour. (What the `unsafe` blocks of src/cursor.rs:190-360 must avoid; not in the code.) -/
def ub : H α := fun _ => .ub
/-- A loop ran out of its step bound. (Not in the code: bounds the loops of src/cursor.rs:192, :355, :527.) -/
def diverge : H α := fun _ => .diverge
/-- `std::process::abort()`. (src/cursor.rs:288.) -/
def abort : H α := fun _ => .abort
/-- `assert!(b)`. (src/cursor.rs:458-459, :492-493, :581, :771.) -/
def assert (b : Bool) : H Unit := if b then pure () else panic .assert
/-- `debug_assert!(b)`: a violation is reported as `ub`, so that proving "never `ub`" also proves
that no debug assertion fires. (src/cursor.rs:193-198, :253-260, :312, :334.) -/
def dbg (b : Bool) : H Unit := if b then pure () else ub
/-- Read a field of the object at `p`. (Reads through `NonNull<NodeData>`, src/cursor.rs:112-131.) -/
def rd (p : Nat) (f : HSt → Nat → α) : H α := fun s => if s.live p then .ok (f s p) s else .ub
/-- Write to the object at `p`. (Writes through the cells of `NodeData`, src/cursor.rs:112-131.) -/
def wr (p : Nat) (f : HSt → HSt) : H Unit := fun s => if s.live p then .ok () (f s) else .ub
/-- Change the state. (Modelling vocabulary for the bookkeeping fields of `HSt`; not in src/cursor.rs.) -/
def modify (f : HSt → HSt) : H Unit := fun s => .ok () (f s)
/-- Dereference a raw pointer that may be null. (src/sll.rs:71-88, :116-133, src/cursor.rs:247-276.) -/
def nonNull : Option Nat → H Nat
  | some p => pure p
  | none => ub
/-- Run a loop with a step bound exceeding the number of objects ever allocated.  The bound can be made
as large as one likes with `slack`: a loop that is `diverge` for every `slack` does not terminate.
(src/cursor.rs:192, :355, :527, :580-589 (the code has no bound).) -/
def loop (f : Nat → H α) : H α := fun s => f (s.top + s.slack + 1) s
/-- Unwinding: if `m` panics, run `cleanup` (the drops of the live locals), then go on panicking.
(The compiler's drop glue for the locals of src/cursor.rs functions.) -/
def onPanic (m : H α) (cleanup : H Unit) : H α := fun s =>
  match m s with
  | .panic w s' =>
    match cleanup s' with
    | .ok _ s'' => .panic w s''
    | .panic _ _ => .abort
    | .abort => .abort
    | .ub => .ub
    | .diverge => .diverge
  | o => o

end H

/-- Function update. (Modelling vocabulary; not in src/cursor.rs.) -/
def upd {α : Type} (f : Nat → α) (p : Nat) (v : α) : Nat → α := fun x => if x = p then v else f x

namespace HSt
/-- `cell.set(..)` for each field. (`rc: Cell<u32>`, src/cursor.rs:115.) -/
def setRc (s : HSt) (p : Nat) (v : Nat) : HSt := { s with rc := upd s.rc p v }
/-- `parent: Cell<Option<NonNull<NodeData>>>`, src/cursor.rs:116. -/
def setParent (s : HSt) (p : Nat) (v : Option Nat) : HSt := { s with parent := upd s.parent p v }
/-- `index: Cell<u32>`, src/cursor.rs:117. -/
def setIndex (s : HSt) (p : Nat) (v : Nat) : HSt := { s with index := upd s.index p v }
/-- `green: Green` with `ptr: Cell<..>`, src/cursor.rs:105-109, :118. -/
def setGreen (s : HSt) (p : Nat) (v : GElem) : HSt := { s with green := upd s.green p v }
/-- `offset: TextSize`, src/cursor.rs:123, written at :785, :1221. -/
def setOffset (s : HSt) (p : Nat) (v : Nat) : HSt := { s with offset := upd s.offset p v }
/-- `first: Cell<*const NodeData>`, src/cursor.rs:125. -/
def setFirst (s : HSt) (p : Nat) (v : Option Nat) : HSt := { s with first := upd s.first p v }
/-- `next: Cell<*const NodeData>`, src/cursor.rs:127. -/
def setNext (s : HSt) (p : Nat) (v : Option Nat) : HSt := { s with next := upd s.next p v }
/-- `prev: Cell<*const NodeData>`, src/cursor.rs:129. -/
def setPrev (s : HSt) (p : Nat) (v : Option Nat) : HSt := { s with prev := upd s.prev p v }
end HSt

end Rowan
