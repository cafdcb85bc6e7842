import Verif.Green
import Verif.Spec.ThinArc
/-!
# Green objects in memory, and the iterator over green children

`GreenToken::new` and `GreenNode::new` on top of the allocation model of `Verif/ThinArc.lean`
(src/green/token.rs, src/green/node.rs), and the double-ended iterator `Children`
(src/green/node.rs:275-358).
-/
namespace Rowan

/-! ## Tokens: text as bytes -/

/-- `str::bytes` — used at src/green/token.rs:114: the UTF-8 encoding. -/
def strBytes (s : List Char) : List UInt8 := s.flatMap String.utf8EncodeChar

/-- `std::str::from_utf8_unchecked` — used at src/green/token.rs:99: undefined behaviour on bytes that
are not UTF-8. -/
def fromUtf8Unchecked (bs : List UInt8) : Res (List Char) :=
  match bs.toByteArray.utf8Decode? with
  | some cs => .ok cs.toList
  | none => .ub

/-- Layout of `GreenTokenHead` — src/green/token.rs:16-20 (`kind: u16`; `Count` has no size). -/
def tokenHeadLay : Lay := ⟨2, 2⟩
/-- Layout of `u8`. (The element type of src/green/token.rs:22.) -/
def byteLay : Lay := ⟨1, 1⟩

/-- `GreenToken::new` — src/green/token.rs:111-116. -/
def greenTokenNew (kind : SyntaxKind) (text : List Char) : Res (TMem SyntaxKind UInt8) := do
  let (m, _) ← fromHeaderAndIter tokenHeadLay byteLay kind (TIter.ofList UInt8) (strBytes text)
  .ok m

/-- `Deref for GreenToken`, `GreenTokenData::data.slice()` — src/green/token.rs:143-154,
src/arc.rs:249-253, 393-400. -/
def tokenRepr (H : THeap SyntaxKind UInt8) (p : Nat) : Res (SyntaxKind × List UInt8) := do
  let q ← thinToThick tokenHeadLay byteLay H p
  derefThick tokenHeadLay byteLay H q

/-- `GreenTokenData::kind` — src/green/token.rs:91-93. -/
def tokenKind (H : THeap SyntaxKind UInt8) (p : Nat) : Res SyntaxKind := do
  let r ← tokenRepr H p
  .ok r.1

/-- `GreenTokenData::text` — src/green/token.rs:97-99. -/
def tokenText (H : THeap SyntaxKind UInt8) (p : Nat) : Res (List Char) := do
  let r ← tokenRepr H p
  fromUtf8Unchecked r.2

/-- `GreenTokenData::text_len` — src/green/token.rs:103-105: `str::len`, the number of bytes. -/
def tokenTextLen (H : THeap SyntaxKind UInt8) (p : Nat) : Res Nat := do
  let r ← tokenRepr H p
  .ok r.2.length

/-- `PartialEq for GreenToken` (derived), `ThinArc`, `HeaderSlice` (derived) — src/green/token.rs:36,
src/arc.rs:443-448, 241-247: header, length, bytes. -/
def tokenEq (H : THeap SyntaxKind UInt8) (p p' : Nat) : Res Bool := do
  let r ← tokenRepr H p
  let r' ← tokenRepr H p'
  .ok (r.1 == r'.1 && r.2.length == r'.2.length && r.2 == r'.2)

/-! ## Nodes -/

/-- Layout of `GreenNodeHead` — src/green/node.rs:18-23 (`kind: u16`, `text_len: u32`). -/
def nodeHeadLay : Lay := ⟨8, 4⟩
/-- Layout of `GreenChild` — src/green/node.rs:25-32 (two words, by the static assertion). -/
def childLay : Lay := ⟨16, 8⟩

/-- `children.into_iter().map(|el| ..)` — src/green/node.rs:208-216.  The state carries `text_len`,
which the closure captures. -/
def greenNodeIter {σ : Type} (it : TIter σ GElem) : TIter (σ × Nat) GChild where
  len := fun s => it.len s.1
  next := fun s => do
    let (x, s1) ← it.next s.1
    match x with
    | none => .ok (none, (s1, s.2))
    | some e => .ok (some (GChild.ofElem s.2 e), (s1, s.2 + e.textLen))

/-- `Arc::get_mut(..).unwrap()`: succeeds if the count is 1 — src/arc.rs:139-159. -/
def getMutUnwrap {α β : Type} (m : TMem α β) : Res Unit :=
  match m.cells 0 with
  | some (.count n) => if n = 1 then .ok () else .panic
  | _ => .ub

/-- `.header.text_len = text_len` — src/green/node.rs:227. -/
def setTextLen (m : TMem (SyntaxKind × Nat) GChild) (l : Nat) : Res (TMem (SyntaxKind × Nat) GChild) :=
  match m.cells (headerOff nodeHeadLay childLay) with
  | some (.header (k, _)) => m.write nodeHeadLay childLay (headerOff nodeHeadLay childLay) (.header (k, l))
  | _ => .ub

/-- `GreenNode::new` — src/green/node.rs:202-232, for any iterator; the allocation lies at `p`. -/
def greenNodeNew {σ : Type} (p : Nat) (kind : SyntaxKind) (it : TIter σ GElem) (s : σ) :
    Res (TMem (SyntaxKind × Nat) GChild) := do
  let (m, s) ← fromHeaderAndIter nodeHeadLay childLay (kind, 0) (greenNodeIter it) (s, 0)
  let q ← thinToThick nodeHeadLay childLay (fun a => if a = p then some m else none) p
  let _ ← getMutUnwrap m
  let m ← setTextLen m s.2
  let _ ← intoThin nodeHeadLay childLay (fun a => if a = p then some m else none) q
  .ok m

/-- `Deref for GreenNode`, `header()`, `slice()` — src/green/node.rs:113-122, 188-198. -/
def nodeRepr (H : THeap (SyntaxKind × Nat) GChild) (p : Nat) :
    Res ((SyntaxKind × Nat) × List GChild) := do
  let q ← thinToThick nodeHeadLay childLay H p
  derefThick nodeHeadLay childLay H q

/-! ## The iterator over children -/

/-- `slice::Iter`: the elements between two pointers into a slice (standard library).
(The field `raw` of src/green/node.rs:275-278.) -/
structure SliceIter (α : Type) where
  items : List α
  lo : Nat
  hi : Nat

namespace SliceIter
variable {α : Type}
/-- `<[T]>::iter`. (Used at src/green/node.rs:138-140.) -/
def new (items : List α) : SliceIter α := ⟨items, 0, items.length⟩
/-- `ExactSizeIterator::len`. (Used at src/green/node.rs:282-284.) -/
def len (s : SliceIter α) : Nat := s.hi - s.lo
/-- `Iterator::next`. (Used at src/green/node.rs:291-293.) -/
def next (s : SliceIter α) : Option α × SliceIter α :=
  if s.lo < s.hi then (s.items[s.lo]?, { s with lo := s.lo + 1 }) else (none, s)
/-- `DoubleEndedIterator::next_back`. (Used at src/green/node.rs:336-338.) -/
def nextBack (s : SliceIter α) : Option α × SliceIter α :=
  if s.lo < s.hi then (s.items[s.hi - 1]?, { s with hi := s.hi - 1 }) else (none, s)
/-- `Iterator::nth` of `slice::Iter`: past the end it exhausts the iterator. (Used at src/green/node.rs:309-311.) -/
def nth (s : SliceIter α) (n : Nat) : Option α × SliceIter α :=
  if n < s.len then (s.items[s.lo + n]?, { s with lo := s.lo + n + 1 }) else (none, { s with lo := s.hi })
/-- `DoubleEndedIterator::nth_back` of `slice::Iter`. (Used at src/green/node.rs:341-343.) -/
def nthBack (s : SliceIter α) (n : Nat) : Option α × SliceIter α :=
  if n < s.len then (s.items[s.hi - 1 - n]?, { s with hi := s.hi - 1 - n })
  else (none, { s with hi := s.lo })
end SliceIter

/-- `Children` — src/green/node.rs:275-278. -/
structure Children where
  raw : SliceIter GChild

/-- `GreenNodeData::children` — src/green/node.rs:138-140. -/
def GNode.childrenIter (n : GNode) : Children := ⟨.new n.slice⟩

namespace Children

/-- src/green/node.rs:283-285. -/
def len (c : Children) : Nat := c.raw.len

/-- src/green/node.rs:291-294. -/
def next (c : Children) : Option GElem × Children :=
  let (x, r) := c.raw.next
  (x.map GChild.asRef, ⟨r⟩)

/-- src/green/node.rs:296-299. -/
def sizeHint (c : Children) : Nat × Option Nat := (c.raw.len, some c.raw.len)

/-- src/green/node.rs:301-307. -/
def count (c : Children) : Nat := c.raw.len

/-- src/green/node.rs:309-312. -/
def nth (c : Children) (n : Nat) : Option GElem × Children :=
  let (x, r) := c.raw.nth n
  (x.map GChild.asRef, ⟨r⟩)

/-- src/green/node.rs:336-338. -/
def nextBack (c : Children) : Option GElem × Children :=
  let (x, r) := c.raw.nextBack
  (x.map GChild.asRef, ⟨r⟩)

/-- src/green/node.rs:341-343. -/
def nthBack (c : Children) (n : Nat) : Option GElem × Children :=
  let (x, r) := c.raw.nthBack n
  (x.map GChild.asRef, ⟨r⟩)

/-- src/green/node.rs:314-320. -/
def last (c : Children) : Option GElem := c.nextBack.1

/-- The loop of `fold`, with a bound on the number of turns. (src/green/node.rs:322-331.) -/
def foldLoop {A : Type} (f : A → GElem → A) : Nat → Children → A → Option A
  | 0, _, _ => none
  | k + 1, c, acc =>
    match c.next with
    | (some x, c) => foldLoop f k c (f acc x)
    | (none, _) => some acc

/-- `fold`: `for x in self { accum = f(accum, x) }` — src/green/node.rs:322-331.  `none` would be a
loop that runs more often than there are children left. -/
def fold {A : Type} (c : Children) (init : A) (f : A → GElem → A) : Option A :=
  foldLoop f (c.len + 1) c init

/-- The loop of `rfold`. (src/green/node.rs:346-355.) -/
def rfoldLoop {A : Type} (f : A → GElem → A) : Nat → Children → A → Option A
  | 0, _, _ => none
  | k + 1, c, acc =>
    match c.nextBack with
    | (some x, c) => rfoldLoop f k c (f acc x)
    | (none, _) => some acc

/-- `rfold` — src/green/node.rs:346-355. -/
def rfold {A : Type} (c : Children) (init : A) (f : A → GElem → A) : Option A :=
  rfoldLoop f (c.len + 1) c init

end Children

/-- A call on an iterator that is kept. (src/green/node.rs:280-356.) -/
inductive IterOp where
  | next | nextBack | nth (n : Nat) | nthBack (n : Nat) | len | sizeHint
deriving DecidableEq, Repr

/-- What such a call returns. (src/green/node.rs:280-356.) -/
inductive IterOut (α : Type) where
  | item (x : Option α)
  | len (n : Nat)
  | hint (lo : Nat) (hi : Option Nat)
deriving DecidableEq, Repr

/-- One call. (src/green/node.rs:280-356.) -/
def Children.call (c : Children) : IterOp → IterOut GElem × Children
  | .next => let (x, c) := c.next; (.item x, c)
  | .nextBack => let (x, c) := c.nextBack; (.item x, c)
  | .nth n => let (x, c) := c.nth n; (.item x, c)
  | .nthBack n => let (x, c) := c.nthBack n; (.item x, c)
  | .len => (.len c.len, c)
  | .sizeHint => (.hint c.sizeHint.1 c.sizeHint.2, c)

/-- A sequence of calls. (A client of src/green/node.rs:280-356.) -/
def Children.calls (c : Children) : List IterOp → List (IterOut GElem) × Children
  | [] => ([], c)
  | op :: ops =>
    let (r, c) := c.call op
    let (rs, c) := Children.calls c ops
    (r :: rs, c)

end Rowan
