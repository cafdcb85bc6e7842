import Verif.HeapHistory
/-!
# Borrowing green data from handles

`SyntaxToken::text`, `SyntaxToken::green` and, in immutable trees, `SyntaxNode::green` return references into green
objects.  The borrow checker ties them to the handle: while the reference is in use the handle is neither dropped
nor moved.  Nothing else is excluded, in particular not edits of the tree through other handles.
-/
namespace Rowan
namespace Cur

/-- `SyntaxToken::green` — src/cursor.rs:1046-1049. -/
def tokenGreen (p : Nat) : H GToken := do H.unwrap (← green p).asToken

/-- `SyntaxToken::text` — src/cursor.rs:1031-1044. -/
def tokenText (p : Nat) : H (List Char) := do
  match (← green p).asToken with
  | some t => pure t.text
  | none => do
    H.dbg false
    pure []

/-- `Cow<'_, GreenNodeData>`. (Standard library, the result type of src/cursor.rs:653-660.) -/
inductive Cow where
  /-- a reference into the object -/
  | borrowed (g : GNode)
  /-- a strong reference of its own -/
  | owned (g : GNode)

/-- `SyntaxNode::green` — src/cursor.rs:652-659.  Simplified: the strong reference taken for `Cow::Owned` belongs to
the program; it is not added to a list here. -/
def nodeGreen (p : Nat) : H Cow := do
  let g ← greenRef p
  let m ← H.rd p HSt.mutable
  pure (if m then .owned g else .borrowed g)

end Cur

end Rowan
