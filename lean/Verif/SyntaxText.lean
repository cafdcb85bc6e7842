import Verif.Debug
/-!
# `SyntaxText` — model of src/syntax_text.rs

Closures passed by callers become functions with explicit state; `Result` is `Except`.  The lazy
iterator `tokens_with_ranges` is evaluated eagerly: its closure has no effect, and it is shown
(`SyntaxText.tokensWithRanges_ok`) that it cannot panic, so the difference is not observable.
-/
namespace Rowan

/-- `TextRange::new(start, end)`: asserts `start <= end`. (`text-size` crate, used at src/syntax_text.rs:72.) -/
def TextRange.new? (start stop : Nat) : Option TextRange :=
  if h : start ≤ stop then some ⟨start, stop, h⟩ else none

/-- `&text[range]`. (Standard library with `text-size`'s `Index`, used at src/syntax_text.rs:87, :200-201.) -/
def sliceText (text : List Char) (r : TextRange) : Res (List Char) :=
  Res.ofOption (bslice text r.start r.stop)

/-- `str::find(char)`: byte offset of the first occurrence (standard library, trusted).
(Used at src/syntax_text.rs:35.) -/
def strFind (c : Char) : List Char → Option Nat
  | [] => none
  | d :: s => if d = c then some 0 else (strFind c s).map (d.utf8Size + ·)

/-- The tokens among `descendants_with_tokens()` — src/cursor.rs:861-867, src/syntax_text.rs:108-112. -/
def SNode.tokens (n : SNode) : Res (List SToken) := do
  let evs ← n.walkEvents
  .ok ((evs.filterMap fun
    | .enter e => some e
    | .leave _ => none).filterMap NodeOrToken.asToken)

/-- `SyntaxText` — src/syntax_text.rs:8-12. -/
structure SyntaxText where
  node : SNode
  range : TextRange

/-- A range argument of `slice`: the `private::SyntaxTextRange` trait has an optional start and an
optional end — src/syntax_text.rs:213-267. -/
structure RangeArg where
  start : Option Nat
  stop : Option Nat

namespace RangeArg
/-- src/syntax_text.rs:223-230. -/
def ofRange (r : TextRange) : RangeArg := ⟨some r.start, some r.stop⟩
/-- `a..b` — src/syntax_text.rs:232-239. -/
def between (a b : Nat) : RangeArg := ⟨some a, some b⟩
/-- `a..` — src/syntax_text.rs:241-248. -/
def from_ (a : Nat) : RangeArg := ⟨some a, none⟩
/-- `..b` — src/syntax_text.rs:250-257. -/
def to (b : Nat) : RangeArg := ⟨none, some b⟩
/-- `..` — src/syntax_text.rs:259-266. -/
def full : RangeArg := ⟨none, none⟩
end RangeArg

namespace SyntaxText

/-- `SyntaxText::new` — src/syntax_text.rs:15-18; `SyntaxNode::text` — src/cursor.rs:648-650. -/
def new (n : SNode) : SyntaxText := ⟨n, n.textRange⟩

/-- src/syntax_text.rs:20-22. -/
def len (t : SyntaxText) : Nat := t.range.len

/-- src/syntax_text.rs:24-26. -/
def isEmpty (t : SyntaxText) : Bool := t.range.isEmpty

/-- `tokens_with_ranges` — src/syntax_text.rs:108-117. -/
def withRanges (range : TextRange) : List SToken → Res (List (SToken × TextRange))
  | [] => .ok []
  | tok :: toks =>
    match range.intersect tok.textRange with
    | none => withRanges range toks
    | some r => do
      let r ← Res.ofOption (r.sub? tok.textRange.start)
      let rest ← withRanges range toks
      .ok ((tok, r) :: rest)

/-- src/syntax_text.rs:108-117. -/
def tokensWithRanges (t : SyntaxText) : Res (List (SToken × TextRange)) := do
  let toks ← t.node.tokens
  withRanges t.range toks

/-- `Iterator::try_fold` with the closure of `try_fold_chunks` — src/syntax_text.rs:82-88. -/
def foldChunks {T E : Type} (f : T → List Char → Res (Except E T)) :
    T → List (SToken × TextRange) → Res (Except E T)
  | acc, [] => .ok (.ok acc)
  | acc, (tok, r) :: rest => do
    let chunk ← sliceText tok.text r
    match ← f acc chunk with
    | .ok acc => foldChunks f acc rest
    | .error e => .ok (.error e)

/-- `try_fold_chunks` — src/syntax_text.rs:82-88. -/
def tryFoldChunks {T E : Type} (t : SyntaxText) (init : T) (f : T → List Char → Res (Except E T)) :
    Res (Except E T) := do
  let toks ← t.tokensWithRanges
  foldChunks f init toks

/-- `try_for_each_chunk`, the variables captured by the closure being the fold state `T`; on an error
they are no longer read by any caller — src/syntax_text.rs:90-95. -/
def tryForEachChunk {T E : Type} (t : SyntaxText) (captured : T)
    (f : T → List Char → Res (Except E T)) : Res (Except E T) := t.tryFoldChunks captured f

/-- `for_each_chunk` — src/syntax_text.rs:97-106. -/
def forEachChunk {T : Type} (t : SyntaxText) (captured : T) (f : T → List Char → T) : Res T := do
  match ← t.tryForEachChunk (E := Empty) captured (fun s chunk => .ok (.ok (f s chunk))) with
  | .ok s => .ok s
  | .error e => nomatch e

/-- `contains_char` — src/syntax_text.rs:28-30. -/
def containsChar (t : SyntaxText) (c : Char) : Res Bool := do
  let res ← t.tryForEachChunk () fun _ chunk =>
    .ok (if c ∈ chunk then Except.error () else .ok ())
  .ok (match res with
    | .error _ => true
    | .ok _ => false)

/-- `found` — src/syntax_text.rs:120-125. -/
def found {T E : Type} : Except E T → Option E
  | .ok _ => none
  | .error e => some e

/-- `find_char` — src/syntax_text.rs:32-43. -/
def findChar (t : SyntaxText) (c : Char) : Res (Option Nat) := do
  let res ← t.tryForEachChunk (E := Nat) (0 : Nat) fun acc chunk =>
    match strFind c chunk with
    | some pos => .ok (.error (acc + pos))
    | none => .ok (.ok (acc + blen chunk))
  .ok (found res)

/-- `char_at` — src/syntax_text.rs:45-57. -/
def charAt (t : SyntaxText) (offset : Nat) : Res (Option Char) := do
  let res ← t.tryForEachChunk (E := Char) (0 : Nat) fun start chunk => do
    let stop := start + blen chunk
    if start ≤ offset ∧ offset < stop then
      let rest ← Res.ofOption (bslice chunk (offset - start) (blen chunk))
      let c ← Res.ofOption rest.head?
      .ok (.error c)
    else .ok (.ok stop)
  .ok (found res)

/-- `slice` — src/syntax_text.rs:59-80. -/
def slice (t : SyntaxText) (arg : RangeArg) : Res SyntaxText := do
  let start := arg.start.getD 0
  let stop := arg.stop.getD t.len
  if start ≤ stop then
    let len := stop - start
    let start := t.range.start + start
    let stop := start + len
    if h : start ≤ stop then
      let range : TextRange := ⟨start, stop, h⟩
      if t.range.containsRange range then .ok ⟨t.node, range⟩ else .panic
    else .panic
  else .panic

/-- `Display`, `to_string`, `String::from` — src/syntax_text.rs:127-143. -/
def display (t : SyntaxText) : Res (List Char) := do
  match ← t.tryForEachChunk (E := Empty) ([] : List Char) (fun out chunk => .ok (.ok (out ++ chunk))) with
  | .ok out => .ok out
  | .error e => nomatch e

/-- `PartialEq<str>`; the three other mixed impls delegate to it — src/syntax_text.rs:145-175. -/
def eqStr (t : SyntaxText) (rhs : List Char) : Res Bool := do
  let res ← t.tryForEachChunk (E := Unit) rhs fun rhs chunk =>
    if chunk.isPrefixOf rhs then do
      let rhs ← Res.ofOption (bslice rhs (blen chunk) (blen rhs))
      .ok (.ok rhs)
    else .ok (.error ())
  .ok (match res with
    | .ok rhs => rhs.isEmpty
    | .error _ => false)

/-- `while x.1.is_empty() { x = xs.next()?; }` — src/syntax_text.rs:194-199. -/
def skipEmpty : SToken × TextRange → List (SToken × TextRange) →
    Option (SToken × TextRange) × List (SToken × TextRange)
  | x, [] => if x.2.isEmpty then (none, []) else (some x, [])
  | x, y :: ys => if x.2.isEmpty then skipEmpty y ys else (some x, y :: ys)

/-- The loop of `zip_texts`; the result includes what is left of both iterators —
src/syntax_text.rs:193-208. -/
def zipLoop : Nat → SToken × TextRange → List (SToken × TextRange) → SToken × TextRange →
    List (SToken × TextRange) →
    Res (Option Unit × List (SToken × TextRange) × List (SToken × TextRange))
  | 0, _, _, _, _ => .diverge
  | k + 1, x, xs, y, ys =>
    match skipEmpty x xs with
    | (none, xs) => .ok (none, xs, ys)
    | (some x, xs) =>
      match skipEmpty y ys with
      | (none, ys) => .ok (none, xs, ys)
      | (some y, ys) => do
        let xText ← sliceText x.1.text x.2
        let yText ← sliceText y.1.text y.2
        if !(yText.isPrefixOf xText || xText.isPrefixOf yText) then .ok (some (), xs, ys)
        else
          let advance := min x.2.len y.2.len
          let xr ← Res.ofOption (TextRange.new? (x.2.start + advance) x.2.stop)
          let yr ← Res.ofOption (TextRange.new? (y.2.start + advance) y.2.stop)
          zipLoop k (x.1, xr) xs (y.1, yr) ys

/-- `zip_texts` — src/syntax_text.rs:190-209. -/
def zipTexts (fuel : Nat) : List (SToken × TextRange) → List (SToken × TextRange) →
    Res (Option Unit × List (SToken × TextRange) × List (SToken × TextRange))
  | [], ys => .ok (none, [], ys)
  | _ :: xs, [] => .ok (none, xs, [])
  | x :: xs, y :: ys => zipLoop fuel x xs y ys

/-- `PartialEq` — src/syntax_text.rs:177-188. -/
def eq (a b : SyntaxText) : Res Bool := do
  if a.range.len ≠ b.range.len then .ok false
  else
    let lhs ← a.tokensWithRanges
    let rhs ← b.tokensWithRanges
    let (r, lhs, rhs) ← zipTexts (a.range.len + 1) lhs rhs
    .ok (r.isNone && lhs.all (fun it => it.2.isEmpty) && rhs.all (fun it => it.2.isEmpty))

end SyntaxText
end Rowan
