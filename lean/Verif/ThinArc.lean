import Verif.Res
import Verif.Arc
import Verif.Spec.Layout
/-!
# `ThinArc` — model of the allocation in src/arc.rs

The size computation is done in 64-bit arithmetic.  Memory is a partial map from byte offsets to
typed values; a write outside the allocation or at a misaligned offset is `ub`, and a write destroys
every value whose bytes it overlaps.
-/
namespace Rowan

/-! ## 64-bit arithmetic -/

/-- `usize::checked_mul(..).expect(..)` (standard library), used at src/arc.rs:335. -/
def checkedMul (a b : Nat) : Res Nat := if a * b < word then .ok (a * b) else .panic
/-- `usize::checked_add(..).expect(..)` (standard library), used at src/arc.rs:336. -/
def checkedAdd (a b : Nat) : Res Nat := if a + b < word then .ok (a + b) else .panic
/-- `usize::wrapping_add` (standard library), used at src/arc.rs:340. -/
def wrappingAdd (a b : Nat) : Nat := (a + b) % word
/-- `!x` on `usize`. (Used at src/arc.rs:340.) -/
def notWord (x : Nat) : Nat := word - 1 - x

/-- `Layout::from_size_align` of the standard library: the alignment is a power of two and the size,
rounded up, is at most `isize::MAX`. (Used at src/arc.rs:342.) -/
def layoutFromSizeAlign (size align : Nat) : Res Lay :=
  if size ≤ 2 ^ 63 - align then .ok ⟨size, align⟩ else .panic

/-- `offset_of!(ArcInner<HeaderSlice<H, [T; 0]>>, data)` — src/arc.rs:330. -/
def innerToData (h t : Lay) : Nat := offsetOf (arcInner (reprC (headerSlice h t 0))) 1
/-- `offset_of!(HeaderSlice<H, [T; 0]>, slice)` — src/arc.rs:331. -/
def dataToSlice (h t : Lay) : Nat := offsetOf (headerSlice h t 0) 2
/-- src/arc.rs:332. -/
def sliceOffset (h t : Lay) : Nat := innerToData h t + dataToSlice h t
/-- `align_of::<ArcInner<HeaderSlice<H, [T; 0]>>>()` — src/arc.rs:339. -/
def thinAlign (h t : Lay) : Nat := (fatLay h t 0).align

/-- The layout to allocate — src/arc.rs:325-342. -/
def allocLayout (h t : Lay) (n : Nat) : Res Lay := do
  if t.size = 0 then .panic else
  let sliceSize ← checkedMul t.size n
  let usable ← checkedAdd (sliceOffset h t) sliceSize
  let align := thinAlign h t
  let size := wrappingAdd usable (align - 1) &&& notWord (align - 1)
  if size < usable then .panic else
  layoutFromSizeAlign size align

/-! ## Memory -/

/-- A value in the allocation. (The fields of `ArcInner` and `HeaderSlice`, src/arc.rs:24-27, :243-247.) -/
inductive TCell (α β : Type) where
  | count (n : Nat)
  | header (a : α)
  | length (n : Nat)
  | item (b : β)
deriving DecidableEq, Repr

/-- The layout of a value in the allocation, from src/arc.rs:24-27, :243-247. -/
def TCell.lay {α β : Type} (h t : Lay) : TCell α β → Lay
  | .count _ => .usize
  | .header _ => h
  | .length _ => .usize
  | .item _ => t

/-- One allocation. (The buffer of src/arc.rs:346.) -/
structure TMem (α β : Type) where
  lay : Lay
  cells : Nat → Option (TCell α β)

/-- The effect of a write on the memory. (Memory semantics behind `ptr::write`, src/arc.rs:368-378.) -/
def TMem.put {α β : Type} (h t : Lay) (m : TMem α β) (off : Nat) (c : TCell α β) : TMem α β :=
  { m with cells := fun o =>
      if o = off then some c
      else match m.cells o with
        | some d => if o < off + (c.lay h t).size ∧ off < o + (d.lay h t).size then none else some d
        | none => none }

/-- `ptr::write`. (Used at src/arc.rs:368-378.) -/
def TMem.write {α β : Type} (h t : Lay) (m : TMem α β) (off : Nat) (c : TCell α β) :
    Res (TMem α β) :=
  let l := c.lay h t
  if off + l.size ≤ m.lay.size ∧ off % l.align = 0 ∧ m.lay.align % l.align = 0 then
    .ok (m.put h t off c)
  else .ub

/-! ## Construction -/

/-- An `ExactSizeIterator`: what `len` reports, and what `next` does (it may panic, and it may have
lied about its length). (The parameter `I` of src/arc.rs:321-324.) -/
structure TIter (σ β : Type) where
  len : σ → Nat
  next : σ → Res (Option β × σ)

/-- Offset of the field `header` in the allocation. (src/arc.rs:369.) -/
def headerOff (h t : Lay) : Nat := innerToData h t + offsetOf (headerSlice h t 0) 0
/-- Offset of the field `length` in the allocation. (src/arc.rs:370.) -/
def lengthOff (h t : Lay) : Nat := innerToData h t + offsetOf (headerSlice h t 0) 1

/-- The loop that writes the items — src/arc.rs:371-378. -/
def fillLoop {σ α β : Type} (h t : Lay) (it : TIter σ β) : Nat → Nat → σ → TMem α β →
    Res (σ × TMem α β)
  | 0, _, s, m => .ok (s, m)
  | k + 1, current, s, m => do
    let (x, s) ← it.next s
    let x ← Res.ofOption x
    let m ← m.write h t current (.item x)
    fillLoop h t it k (current + t.size) s m

/-- `assert!(items.next().is_none(), ..)`. (src/arc.rs:381, :386.) -/
def assertDone {σ β : Type} (it : TIter σ β) (s : σ) : Res σ := do
  let (x, s) ← it.next s
  if x.isSome then .panic else .ok s

/-- `ThinArc::from_header_and_iter` — src/arc.rs:321-390.  The allocator is assumed to succeed
(otherwise the process is aborted); fresh memory holds no values.  The result is the allocation and
the final state of the iterator (which its owner may inspect: `GreenNode::new` does). -/
def fromHeaderAndIter {σ α β : Type} (h t : Lay) (header : α) (it : TIter σ β) (s : σ) :
    Res (TMem α β × σ) := do
  let n := it.len s
  let lay ← allocLayout h t n
  let m : TMem α β := ⟨lay, fun _ => none⟩
  let m ← m.write h t 0 (.count 1)
  let m ← m.write h t (headerOff h t) (.header header)
  let m ← m.write h t (lengthOff h t) (.length n)
  if n ≠ 0 then do
    let (s, m) ← fillLoop h t it n (sliceOffset h t) s m
    let s ← assertDone it s
    let s ← assertDone it s
    .ok (m, s)
  else do
    let s ← assertDone it s
    .ok (m, s)

/-! ## Thin and thick pointers -/

/-- A pointer to an allocation with slice metadata. (`*mut ArcInner<HeaderSlice<H, [T]>>`, src/arc.rs:290-298.) -/
structure ThickPtr where
  addr : Nat
  len : Nat
deriving DecidableEq, Repr

/-- The heap: allocations by address. (The allocations made at src/arc.rs:346.) -/
abbrev THeap (α β : Type) := Nat → Option (TMem α β)

/-- Read the field `length`; `ub` if there is no such value. (src/arc.rs:293-294.) -/
def readLength {α β : Type} (h t : Lay) (H : THeap α β) (p : Nat) : Res Nat :=
  match H p with
  | some m => match m.cells (lengthOff h t) with
    | some (.length n) => .ok n
    | _ => .ub
  | none => .ub

/-- `thin_to_thick`, `Arc::from_thin`, `with_arc` — src/arc.rs:290-317, 436-440. -/
def thinToThick {α β : Type} (h t : Lay) (H : THeap α β) (p : Nat) : Res ThickPtr := do
  let n ← readLength h t H p
  .ok ⟨p, n⟩

/-- `Arc::into_thin` — src/arc.rs:420-431. -/
def intoThin {α β : Type} (h t : Lay) (H : THeap α β) (q : ThickPtr) : Res Nat := do
  let n ← readLength h t H q.addr
  if n ≠ q.len then .panic else .ok q.addr

/-- The header and the slice behind a thick pointer — src/arc.rs:249-253, 256-263, 393-400. -/
def readItems {α β : Type} (t : Lay) (m : TMem α β) : Nat → Nat → Res (List β)
  | 0, _ => .ok []
  | k + 1, off => do
    match m.cells off with
    | some (.item b) =>
      let r ← readItems t m k (off + t.size)
      .ok (b :: r)
    | _ => .ub

/-- `Deref`, reading header and slice through a thick pointer, src/arc.rs:393-400. -/
def derefThick {α β : Type} (h t : Lay) (H : THeap α β) (q : ThickPtr) : Res (α × List β) :=
  match H q.addr with
  | some m => match m.cells (headerOff h t) with
    | some (.header a) => do
      let r ← readItems t m q.len (sliceOffset h t)
      .ok (a, r)
    | _ => .ub
  | none => .ub

/-- `Box::from_raw` and its drop — src/arc.rs:79-83: the memory is given back with the layout of the
value behind the thick pointer; giving it back with another layout than it was allocated with is
`ub`. -/
def dealloc {α β : Type} (h t : Lay) (H : THeap α β) (q : ThickPtr) : Res (THeap α β) :=
  match H q.addr with
  | some m => if m.lay = fatLay h t q.len then .ok fun p => if p = q.addr then none else H p else .ub
  | none => .ub

/-- `GreenNode::into_raw`, `GreenToken::into_raw` — src/green/node.rs:234-239, token.rs:117-122,
through `Deref` (src/arc.rs:393-400): the address of the field `data` of the thick object. -/
def intoRaw {α β : Type} (h t : Lay) (H : THeap α β) (p : Nat) : Res Nat := do
  let q ← thinToThick h t H p
  .ok (q.addr + offsetOf (arcInner (reprC (headerSlice h t q.len))) 1)

/-- `Arc::from_raw` — src/arc.rs:48-62, used at src/green/node.rs:242-248, token.rs:134-140. -/
def fromRaw (h t : Lay) (d : Nat) : Nat := d - innerToData h t

end Rowan
