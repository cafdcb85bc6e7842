import Verif.SyntaxText
import Verif.Position
import Verif.Props.Green32
/-!
# Cursors and texts with 32-bit offsets

The functions of `Cursor.lean`, `Position.lean` and `SyntaxText.lean` that compute with offsets, again,
with `TextSize` as a 32-bit word.  `ck = true` is a build with overflow checks (an overflowing `+` or
`-` panics), `ck = false` one without (it wraps).  The assertions and `checked_sub`s of the code and
of the `text-size` crate are there in both.

Everything that is not arithmetic is the same as in those files; a handle's stored offset is not used,
it is computed again as the code did when it made the handle.
-/
namespace Rowan

/-- A `TextSize` read from memory: the fields `text_len` and `rel_offset` of green objects
(src/green/node.rs:19-30; that these are exact is C04), and lengths of `str`s that fit. -/
def u32 (n : Nat) : UInt32 := UInt32.ofNat n

/-- `-` on `u32`. (In `text-size`, used at src/syntax_text.rs:113-114.) -/
def sub32 (checks : Bool) (a b : UInt32) : Option UInt32 :=
  if checks && decide (a.toNat < b.toNat) then none else some (a - b)

/-- `text_size::TextRange`: the constructor asserts `start <= end`.
(`text-size` crate, used at src/cursor.rs:365-370.) -/
@[ext] structure TextRange32 where
  start : UInt32
  stop : UInt32
  le : start.toNat ≤ stop.toNat
deriving DecidableEq

namespace TextRange32

/-- `TextRange::new`. (`text-size` crate, used at src/syntax_text.rs:72.) -/
def new (start stop : UInt32) : Option TextRange32 :=
  if h : start.toNat ≤ stop.toNat then some ⟨start, stop, h⟩ else none

/-- `TextRange::at(offset, len)` is `TextRange::new(offset, offset + len)`.
(`text-size` crate, used at src/cursor.rs:368, src/green/node.rs:270.) -/
def at_ (ck : Bool) (offset len : UInt32) : Option TextRange32 := do
  let stop ← add32 ck offset len
  new offset stop

/-- `TextRange::len`: a subtraction of the raw values. (`text-size` crate, used at src/syntax_text.rs:20-22.) -/
def len (ck : Bool) (r : TextRange32) : Option UInt32 := sub32 ck r.stop r.start

/-- `TextRange::is_empty`. (`text-size` crate, used at src/cursor.rs:890, src/syntax_text.rs:24-26.) -/
def isEmpty (r : TextRange32) : Bool := r.start == r.stop

/-- `TextRange::contains_range`.
(`text-size` crate, used at src/cursor.rs:920, src/green/node.rs:154, src/syntax_text.rs:74.) -/
def containsRange (r other : TextRange32) : Bool :=
  decide (r.start.toNat ≤ other.start.toNat) && decide (other.stop.toNat ≤ r.stop.toNat)

/-- `cmp::max` and `cmp::min` on `TextSize`.
(Standard library, used inside `text-size`'s `intersect`, called at src/syntax_text.rs:113.) -/
def maxSize (a b : UInt32) : UInt32 := if a.toNat ≤ b.toNat then b else a
/-- `cmp::min` on `TextSize`; standard library, used inside `text-size`'s `intersect`, called at src/syntax_text.rs:113. -/
def minSize (a b : UInt32) : UInt32 := if a.toNat ≤ b.toNat then a else b

/-- `TextRange::intersect`. (`text-size` crate, used at src/syntax_text.rs:113.) -/
def intersect (r other : TextRange32) : Option TextRange32 :=
  let start := maxSize r.start other.start
  let stop := minSize r.stop other.stop
  if h : stop.toNat < start.toNat then none else some ⟨start, stop, by omega⟩

/-- `TextRange::ordering`. (`text-size` crate, used at src/green/node.rs:150.) -/
def ordering (r1 r2 : TextRange32) : Ordering :=
  if r1.stop.toNat ≤ r2.start.toNat then .lt
  else if r2.stop.toNat ≤ r1.start.toNat then .gt
  else .eq

/-- `range - offset`: `checked_sub` of both ends and `expect`, in every build.
(`text-size` crate, used at src/cursor.rs:936, src/syntax_text.rs:114.) -/
def sub? (r : TextRange32) (off : UInt32) : Option TextRange32 :=
  if off.toNat ≤ r.start.toNat ∧ off.toNat ≤ r.stop.toNat then new (r.start - off) (r.stop - off)
  else none

/-- The range as numbers. (Abstraction map, not in the code (compare src/cursor.rs:365-370).) -/
def toNat (r : TextRange32) : TextRange := ⟨r.start.toNat, r.stop.toNat, r.le⟩

end TextRange32

/-- The loop of `offset_mut`, from the node towards the root; `acc` is `res` — src/cursor.rs:351-362. -/
def SNode.offsetMut32 (ck : Bool) : UInt32 → SNode → Option UInt32
  | acc, .root _ _ _ => some acc
  | acc, .child p i _ _ => do
    let r ← p.relOffsetMut i
    let acc ← add32 ck acc (u32 r)
    SNode.offsetMut32 ck acc p

/-- The `offset` field of an immutable node: when the handle was made, the offset of the parent plus
the relative offset of the child — src/cursor.rs:383, 399, 412, 424, 441, 452, 692, 708, 721, 729, 745,
756, 785, 938. -/
def SNode.offsetImm32 (ck : Bool) : SNode → Option UInt32
  | .root _ _ _ => some 0
  | .child p i _ _ => do
    let o ← SNode.offsetImm32 ck p
    let r ← p.relOffsetMut i
    add32 ck o (u32 r)

/-- `offset` — src/cursor.rs:346-348. -/
def SNode.offset32 (ck : Bool) (n : SNode) : Option UInt32 :=
  if n.mutable then n.offsetMut32 ck 0 else n.offsetImm32 ck

/-- `offset` of a token — src/cursor.rs:346-362, 977-986. -/
def SToken.offset32 (ck : Bool) : SToken → Option UInt32
  | .root _ _ _ => some 0
  | .child p i _ _ =>
    if p.mutable then do
      let r ← p.relOffsetMut i
      let acc ← add32 ck 0 (u32 r)
      p.offsetMut32 ck acc
    else do
      let o ← p.offsetImm32 ck
      let r ← p.relOffsetMut i
      add32 ck o (u32 r)

/-- `NodeData::offset` on 32 bits, src/cursor.rs:346-363. -/
def SElem.offset32 (ck : Bool) : SElem → Option UInt32
  | .node n => n.offset32 ck
  | .token t => t.offset32 ck

/-- `text_range` — src/cursor.rs:365-369. -/
def SElem.textRange32 (ck : Bool) (e : SElem) : Option TextRange32 := do
  let offset ← e.offset32 ck
  let len := u32 e.green.textLen
  TextRange32.at_ ck offset len

/-! ### Positions -/

/-- `GreenChild::rel_range` — src/green/node.rs:268-271. -/
def GChild.relRange32 (ck : Bool) (c : GChild) : Option TextRange32 :=
  TextRange32.at_ ck (u32 c.relOffset) (u32 c.asRef.textLen)

/-- `child_at_range`; the closure given to the binary search panics if `rel_range` does (it is
evaluated at every position here, which it is not in the code: it never panics,
`C56_positions`) — src/green/node.rs:142-156. -/
def GNode.childAtRange32 (ck : Bool) (bs : BinarySearch) (n : GNode) (rel : TextRange32) :
    Res (Option (Nat × UInt32 × GElem)) := do
  let ranges ← Res.ofOption (n.slice.mapM (GChild.relRange32 ck))
  let cmp := fun i => match ranges[i]? with
    | some r => TextRange32.ordering r rel
    | none => .eq
  let idx := match bs n.slice.length cmp with
    | .ok i => i
    | .err i => i - 1
  match n.slice[idx]?, ranges[idx]? with
  | some child, some r =>
    .ok (if r.containsRange rel then some (idx, u32 child.relOffset, child.asRef) else none)
  | _, _ => .ok none

/-- `child_or_token_at_range` — src/cursor.rs:935-940. -/
def SNode.childOrTokenAtRange32 (ck : Bool) (bs : BinarySearch) (n : SNode) (range : TextRange32) :
    Res (Option SElem) := do
  let offset ← Res.ofOption (n.offset32 ck)
  let rel ← Res.ofOption (range.sub? offset)
  match ← n.green.childAtRange32 ck bs rel with
  | none => .ok none
  | some (index, relOffset, green) => do
    let offset ← Res.ofOption (add32 ck offset relOffset)
    .ok (some (SElem.new green n index offset.toNat))

/-- The loop of `covering_element` — src/cursor.rs:918-932. -/
def coverLoop32 (ck : Bool) (bs : BinarySearch) (range : TextRange32) : Nat → SElem → Res SElem
  | 0, _ => .diverge
  | k + 1, res => do
    let r ← Res.ofOption (res.textRange32 ck)
    if !r.containsRange range then .panic
    else match res with
      | .token t => .ok (.token t)
      | .node n => do
        match ← n.childOrTokenAtRange32 ck bs range with
        | some it => coverLoop32 ck bs range k it
        | none => .ok (.node n)

/-- `covering_element` — src/cursor.rs:916-933. -/
def SNode.coveringElement32 (ck : Bool) (bs : BinarySearch) (n : SNode) (range : TextRange32) :
    Res SElem :=
  coverLoop32 ck bs range (GNode.subs n.green).length (.node n)

/-- `token_at_offset` — src/cursor.rs:879-914, 1260-1266. -/
def tokenAtOffsetLoop32 (ck : Bool) (offset : UInt32) : Nat → SElem → Res (TokenAtOffset SToken)
  | 0, _ => .diverge
  | k + 1, e => do
    let r ← Res.ofOption (e.textRange32 ck)
    if !(decide (r.start.toNat ≤ offset.toNat) && decide (offset.toNat ≤ r.stop.toNat)) then .panic
    else match e with
      | .token t => .ok (.single t)
      | .node n =>
        if r.isEmpty then .ok .none
        else do
          let ranges ← Res.ofOption (n.childrenWithTokens.mapM fun c =>
            (SElem.textRange32 ck c).map fun r => (c, r))
          let children := (ranges.filter fun x => !x.2.isEmpty &&
            (decide (x.2.start.toNat ≤ offset.toNat) && decide (offset.toNat ≤ x.2.stop.toNat))).map
            Prod.fst
          match children with
          | [] => .panic
          | [left] => tokenAtOffsetLoop32 ck offset k left
          | [left, right] => do
            let a ← tokenAtOffsetLoop32 ck offset k left
            let b ← tokenAtOffsetLoop32 ck offset k right
            match a, b with
            | .single l, .single r => .ok (.between l r)
            | _, _ => .panic
          | _ => .panic

/-- `token_at_offset` — src/cursor.rs:879-914. -/
def SNode.tokenAtOffset32 (ck : Bool) (n : SNode) (offset : UInt32) : Res (TokenAtOffset SToken) :=
  tokenAtOffsetLoop32 ck offset (GNode.subs n.green).length (.node n)

/-! ### Texts -/

/-- `SyntaxText` — src/syntax_text.rs:8-12. -/
structure SyntaxText32 where
  node : SNode
  range : TextRange32

/-- A range argument — src/syntax_text.rs:213-267. -/
structure RangeArg32 where
  start : Option UInt32
  stop : Option UInt32

/-- The argument as numbers. (Abstraction map, not in the code (compare src/syntax_text.rs:219-263).) -/
def RangeArg32.toNat (a : RangeArg32) : RangeArg :=
  ⟨a.start.map UInt32.toNat, a.stop.map UInt32.toNat⟩

namespace SyntaxText32

/-- The text as numbers. (Abstraction map, not in the code (compare src/cursor.rs:365-370).) -/
def toNat (t : SyntaxText32) : SyntaxText := ⟨t.node, t.range.toNat⟩

/-- `SyntaxText::new` — src/syntax_text.rs:15-18. -/
def new (ck : Bool) (n : SNode) : Res SyntaxText32 := do
  let range ← Res.ofOption (SElem.textRange32 ck (.node n))
  .ok ⟨n, range⟩

/-- `len` — src/syntax_text.rs:20-22. -/
def len (ck : Bool) (t : SyntaxText32) : Option UInt32 := t.range.len ck

/-- `is_empty` — src/syntax_text.rs:24-26. -/
def isEmpty (t : SyntaxText32) : Bool := t.range.isEmpty

/-- `slice`; `range.end().unwrap_or(self.len())` evaluates `len` in any case —
src/syntax_text.rs:59-80. -/
def slice (ck : Bool) (t : SyntaxText32) (arg : RangeArg32) : Res SyntaxText32 := do
  let start := arg.start.getD 0
  let l ← Res.ofOption (t.len ck)
  let stop := arg.stop.getD l
  if start.toNat ≤ stop.toNat then
    let len ← Res.ofOption (sub32 ck stop start)
    let start ← Res.ofOption (add32 ck t.range.start start)
    let stop ← Res.ofOption (add32 ck start len)
    if start.toNat ≤ stop.toNat then
      let range ← Res.ofOption (TextRange32.new start stop)
      if t.range.containsRange range then .ok ⟨t.node, range⟩ else .panic
    else .panic
  else .panic

/-- The second `filter_map` of `tokens_with_ranges` — src/syntax_text.rs:110-116. -/
def withRanges (ck : Bool) (range : TextRange32) : List SToken → Res (List (SToken × TextRange32))
  | [] => .ok []
  | tok :: toks => do
    let tokenRange ← Res.ofOption (SElem.textRange32 ck (.token tok))
    match range.intersect tokenRange with
    | none => withRanges ck range toks
    | some r => do
      let r ← Res.ofOption (r.sub? tokenRange.start)
      let rest ← withRanges ck range toks
      .ok ((tok, r) :: rest)

/-- `tokens_with_ranges` — src/syntax_text.rs:108-117. -/
def tokensWithRanges (ck : Bool) (t : SyntaxText32) : Res (List (SToken × TextRange32)) := do
  let toks ← t.node.tokens
  withRanges ck t.range toks

/-- `try_fold_chunks`; indexing a `str` with a range converts it to `usize` —
src/syntax_text.rs:82-88. -/
def tryFoldChunks {T E : Type} (ck : Bool) (t : SyntaxText32) (init : T)
    (f : T → List Char → Res (Except E T)) : Res (Except E T) := do
  let toks ← t.tokensWithRanges ck
  SyntaxText.foldChunks f init (toks.map fun x => (x.1, x.2.toNat))

/-- `find_char`; `pos as u32` truncates — src/syntax_text.rs:32-43. -/
def findChar (ck : Bool) (t : SyntaxText32) (c : Char) : Res (Option UInt32) := do
  let res ← t.tryFoldChunks (E := UInt32) ck (0 : UInt32) fun acc chunk =>
    match strFind c chunk with
    | some pos => do
      let r ← Res.ofOption (add32 ck acc (u32 pos))
      .ok (.error r)
    | none => do
      let l ← Res.ofOption (ofStr32 chunk)
      let acc ← Res.ofOption (add32 ck acc l)
      .ok (.ok acc)
  .ok (SyntaxText.found res)

/-- `char_at` — src/syntax_text.rs:45-57. -/
def charAt (ck : Bool) (t : SyntaxText32) (offset : UInt32) : Res (Option Char) := do
  let res ← t.tryFoldChunks (E := Char) ck (0 : UInt32) fun start chunk => do
    let l ← Res.ofOption (ofStr32 chunk)
    let stop ← Res.ofOption (add32 ck start l)
    if start.toNat ≤ offset.toNat ∧ offset.toNat < stop.toNat then
      let off ← Res.ofOption (sub32 ck offset start)
      let rest ← Res.ofOption (bslice chunk off.toNat (blen chunk))
      let c ← Res.ofOption rest.head?
      .ok (.error c)
    else .ok (.ok stop)
  .ok (SyntaxText.found res)

/-- `while x.1.is_empty() { x = xs.next()?; }` — src/syntax_text.rs:194-199. -/
def skipEmpty : SToken × TextRange32 → List (SToken × TextRange32) →
    Option (SToken × TextRange32) × List (SToken × TextRange32)
  | x, [] => if x.2.isEmpty then (none, []) else (some x, [])
  | x, y :: ys => if x.2.isEmpty then skipEmpty y ys else (some x, y :: ys)

/-- The loop of `zip_texts` — src/syntax_text.rs:193-208. -/
def zipLoop (ck : Bool) : Nat → SToken × TextRange32 → List (SToken × TextRange32) →
    SToken × TextRange32 → List (SToken × TextRange32) →
    Res (Option Unit × List (SToken × TextRange32) × List (SToken × TextRange32))
  | 0, _, _, _, _ => .diverge
  | k + 1, x, xs, y, ys =>
    match skipEmpty x xs with
    | (none, xs) => .ok (none, xs, ys)
    | (some x, xs) =>
      match skipEmpty y ys with
      | (none, ys) => .ok (none, xs, ys)
      | (some y, ys) => do
        let xText ← sliceText x.1.text x.2.toNat
        let yText ← sliceText y.1.text y.2.toNat
        if !(yText.isPrefixOf xText || xText.isPrefixOf yText) then .ok (some (), xs, ys)
        else
          let xl ← Res.ofOption (x.2.len ck)
          let yl ← Res.ofOption (y.2.len ck)
          let advance := TextRange32.minSize xl yl
          let xs' ← Res.ofOption (add32 ck x.2.start advance)
          let xr ← Res.ofOption (TextRange32.new xs' x.2.stop)
          let ys' ← Res.ofOption (add32 ck y.2.start advance)
          let yr ← Res.ofOption (TextRange32.new ys' y.2.stop)
          zipLoop ck k (x.1, xr) xs (y.1, yr) ys

/-- `zip_texts` — src/syntax_text.rs:190-209. -/
def zipTexts (ck : Bool) (fuel : Nat) : List (SToken × TextRange32) → List (SToken × TextRange32) →
    Res (Option Unit × List (SToken × TextRange32) × List (SToken × TextRange32))
  | [], ys => .ok (none, [], ys)
  | _ :: xs, [] => .ok (none, xs, [])
  | x :: xs, y :: ys => zipLoop ck fuel x xs y ys

/-- `PartialEq` — src/syntax_text.rs:177-188. -/
def eq (ck : Bool) (a b : SyntaxText32) : Res Bool := do
  let la ← Res.ofOption (a.range.len ck)
  let lb ← Res.ofOption (b.range.len ck)
  if la ≠ lb then .ok false
  else
    let lhs ← a.tokensWithRanges ck
    let rhs ← b.tokensWithRanges ck
    let (r, lhs, rhs) ← zipTexts ck (la.toNat + 1) lhs rhs
    .ok (r.isNone && lhs.all (fun it => it.2.isEmpty) && rhs.all (fun it => it.2.isEmpty))

end SyntaxText32
end Rowan
