import Verif.StaleText
/-!
# Searching the texts of live trees — model of src/syntax_text.rs

`Verif/SyntaxText.lean` models the same functions on values.
-/
namespace Rowan
namespace Prog
open RProg

/-- `contains_char` — src/syntax_text.rs:28-30. -/
def Text.containsChar (t : Text) (c : Char) : RProg Bool := do
  let res ← tryFoldChunks t.range t.node () fun _ chunk => .ok (if c ∈ chunk then Except.error () else .ok ())
  pure (match res with
    | .error _ => true
    | .ok _ => false)

/-- `find_char`, `found` — src/syntax_text.rs:32-43, 120-125. -/
def Text.findChar (t : Text) (c : Char) : RProg (Option Nat) := do
  let res ← tryFoldChunks t.range t.node 0 fun acc chunk =>
    match strFind c chunk with
    | some pos => .ok (Except.error (acc + pos))
    | none => .ok (.ok (acc + blen chunk))
  pure (match res with
    | .error o => some o
    | .ok _ => none)

/-- `char_at` — src/syntax_text.rs:45-57. -/
def Text.charAt (t : Text) (offset : Nat) : RProg (Option Char) := do
  let res ← tryFoldChunks t.range t.node 0 fun start chunk => do
    let stop := start + blen chunk
    if start ≤ offset ∧ offset < stop then
      let rest ← Res.ofOption (bslice chunk (offset - start) (blen chunk))
      let c ← Res.ofOption rest.head?
      .ok (Except.error c)
    else .ok (.ok stop)
  pure (match res with
    | .error c => some c
    | .ok _ => none)

/-- `PartialEq<str>`; the three other mixed impls delegate to it — src/syntax_text.rs:145-175. -/
def Text.eqStr (t : Text) (rhs : List Char) : RProg Bool := do
  let res ← tryFoldChunks t.range t.node rhs fun rhs chunk =>
    if chunk.isPrefixOf rhs then do
      let rhs ← Res.ofOption (bslice rhs (blen chunk) (blen rhs))
      .ok (Except.ok rhs)
    else .ok (.error ())
  pure (match res with
    | .ok rhs => rhs.isEmpty
    | .error _ => false)

end Prog
end Rowan
