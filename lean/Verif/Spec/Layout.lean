/-!
# The layout of `#[repr(C)]` structs

The algorithm of the Rust reference ("The C Representation"), over unbounded numbers.
-/
namespace Rowan

/-- Size and alignment of a type. -/
structure Lay where
  size : Nat
  align : Nat
deriving DecidableEq, Repr

/-- What Rust guarantees of every type: the alignment is a power of two (at most 2^29) and divides
the size. -/
def Lay.Valid (l : Lay) : Prop := (∃ k, k ≤ 29 ∧ l.align = 2 ^ k) ∧ l.size % l.align = 0

/-- The least multiple of `a` that is at least `x`. -/
def roundUp (x a : Nat) : Nat := (x + (a - 1)) / a * a

/-- Place the fields one after the other, from offset `o` on: the offsets, the end, the alignment. -/
def place : Nat → List Lay → List Nat × Nat × Nat
  | o, [] => ([], o, 1)
  | o, f :: fs =>
    let at_ := roundUp o f.align
    let (os, e, a) := place (at_ + f.size) fs
    (at_ :: os, e, max f.align a)

/-- The layout of a `#[repr(C)]` struct with these fields. -/
def reprC (fields : List Lay) : Lay :=
  let (_, e, a) := place 0 fields
  ⟨roundUp e a, a⟩

/-- The offset of field `i`. -/
def offsetOf (fields : List Lay) (i : Nat) : Nat := (place 0 fields).1.getD i 0

/-- `usize` (and `AtomicUsize`). -/
def Lay.usize : Lay := ⟨8, 8⟩
/-- `[T; n]`, and a `[T]` of `n` elements. -/
def Lay.array (t : Lay) (n : Nat) : Lay := ⟨t.size * n, t.align⟩

/-- The fields of `HeaderSlice<H, [T]>` with `n` elements (or `[T; n]`) — src/arc.rs:241-247. -/
def headerSlice (h t : Lay) (n : Nat) : List Lay := [h, .usize, t.array n]
/-- The fields of `ArcInner<X>` — src/arc.rs:22-27. -/
def arcInner (x : Lay) : List Lay := [.usize, x]

/-- The layout of the whole allocation with `n` elements. -/
def fatLay (h t : Lay) (n : Nat) : Lay := reprC (arcInner (reprC (headerSlice h t n)))

end Rowan
