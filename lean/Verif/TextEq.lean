import Verif.StaleText
/-!
# Comparing texts on live trees — model of src/syntax_text.rs

`==` of two `SyntaxText`s takes the tokens of both nodes from two walks, in turns, and holds a token of each meanwhile.
`Verif/SyntaxText.lean` models the same functions on values, with the tokens as lists.  `K` bounds the number of events of a
walk.
-/
namespace Rowan
namespace Prog
open RProg

/-- `Iterator::next` of `tokens_with_ranges` — src/syntax_text.rs:108-117. -/
def piecesNext (range : TextRange) : Nat → Walk → RProg (Option (Nat × TextRange) × Walk)
  | 0, _ => .diverge
  | k + 1, it => do
    match ← walkNext false it with
    | (none, it) => pure (none, it)
    | (some (.leave h), it) => do
      drop h
      piecesNext range k it
    | (some (.enter h), it) => do
      let o ← look h
      match o.green with
      | .node _ => do
        drop h
        piecesNext range k it
      | .token _ =>
        match range.intersect o.range with
        | none => do
          drop h
          piecesNext range k it
        | some r => do
          let r ← ofRes (Res.ofOption (r.sub? o.range.start))
          pure (some (h, r), it)

/-- `while x.1.is_empty() { x = xs.next()?; }`; at the end of the tokens `x` is dropped, in the code when `zip_texts`
returns — src/syntax_text.rs:194-199. -/
def skipPieces (range : TextRange) (K : Nat) : Nat → Nat × TextRange → Walk → RProg (Option (Nat × TextRange) × Walk)
  | 0, _, _ => .diverge
  | k + 1, x, it =>
    if x.2.isEmpty then do
      match ← piecesNext range K it with
      | (none, it) => do
        drop x.1
        pure (none, it)
      | (some y, it) => do
        drop x.1
        skipPieces range K k y it
    else pure (some x, it)

/-- `&x.0.text()[x.1]` — src/syntax_text.rs:200-201; `SyntaxToken::text`, src/cursor.rs:1032-1044; the arm for a node fails its assertion. -/
def pieceText (x : Nat × TextRange) : RProg (List Char) := do
  match (← look x.1).green with
  | .node _ => .panic
  | .token g => ofRes (sliceText g.text x.2)

/-- The loop of `zip_texts` — src/syntax_text.rs:193-208. -/
def zipPieces (a b : TextRange) (Ka Kb : Nat) : Nat → Nat × TextRange → Walk → Nat × TextRange → Walk →
    RProg (Option Unit × Walk × Walk)
  | 0, _, _, _, _ => .diverge
  | k + 1, x, xs, y, ys => do
    match ← skipPieces a Ka (Ka + 1) x xs with
    | (none, xs) => do
      drop y.1
      pure (none, xs, ys)
    | (some x, xs) => do
      match ← skipPieces b Kb (Kb + 1) y ys with
      | (none, ys) => do
        drop x.1
        pure (none, xs, ys)
      | (some y, ys) => do
        let xText ← pieceText x
        let yText ← pieceText y
        if !(yText.isPrefixOf xText || xText.isPrefixOf yText) then do
          drop y.1
          drop x.1
          pure (some (), xs, ys)
        else do
          let xr ← ofRes (Res.ofOption (TextRange.new? (x.2.start + min x.2.len y.2.len) x.2.stop))
          let yr ← ofRes (Res.ofOption (TextRange.new? (y.2.start + min x.2.len y.2.len) y.2.stop))
          zipPieces a b Ka Kb k (x.1, xr) xs (y.1, yr) ys

/-- `zip_texts` — src/syntax_text.rs:190-209. -/
def zipTexts (a b : TextRange) (Ka Kb k : Nat) (xs ys : Walk) : RProg (Option Unit × Walk × Walk) := do
  match ← piecesNext a Ka xs with
  | (none, xs) => pure (none, xs, ys)
  | (some x, xs) => do
    match ← piecesNext b Kb ys with
    | (none, ys) => do
      drop x.1
      pure (none, xs, ys)
    | (some y, ys) => zipPieces a b Ka Kb k x xs y ys

/-- `all(|it| it.1.is_empty())` — src/syntax_text.rs:185-186. -/
def allEmpty (range : TextRange) (K : Nat) : Nat → Walk → RProg (Bool × Walk)
  | 0, _ => .diverge
  | k + 1, it => do
    match ← piecesNext range K it with
    | (none, it) => pure (true, it)
    | (some x, it) => do
      drop x.1
      if x.2.isEmpty then allEmpty range K k it else pure (false, it)

/-- The two calls of `all`, the second only if it is needed — src/syntax_text.rs:184-186. -/
def restEmpty (a b : TextRange) (Ka Kb : Nat) : Option Unit × Walk × Walk → RProg (Bool × Walk × Walk)
  | (some _, xs, ys) => pure (false, xs, ys)
  | (none, xs, ys) => do
    match ← allEmpty a Ka (Ka + 1) xs with
    | (false, xs) => pure (false, xs, ys)
    | (true, xs) => do
      match ← allEmpty b Kb (Kb + 1) ys with
      | (e, ys) => pure (e, xs, ys)

/-- `PartialEq` — src/syntax_text.rs:177-188. -/
def Text.eq (a b : Text) : RProg Bool :=
  if a.range.len ≠ b.range.len then pure false
  else do
    let o ← look a.node
    let xs ← walk a.node
    let o' ← look b.node
    let ys ← walk b.node
    let r ← zipTexts a.range b.range (2 * o.green.subs.length + 1) (2 * o'.green.subs.length + 1) (a.range.len + 1) xs ys
    let r ← restEmpty a.range b.range (2 * o.green.subs.length + 1) (2 * o'.green.subs.length + 1) r
    walkDrop r.2.2
    walkDrop r.2.1
    pure r.1

end Prog
end Rowan
