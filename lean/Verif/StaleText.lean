import Verif.Traverse
/-!
# Texts that are kept while trees change

A `SyntaxText` is a handle on a node and the range that the node had when `text()` was called (or a part of it).  In a
mutable tree the range is not kept up to date.
-/
namespace Rowan
namespace Prog
open RProg

/-- `SyntaxText`; `node` is a handle of the program — src/syntax_text.rs:8-12. -/
structure Text where
  node : Nat
  range : TextRange

/-- `SyntaxText::len` — src/syntax_text.rs:20-22. -/
def Text.len (t : Text) : Nat := t.range.len

/-- `to_string`, `String::from` — src/syntax_text.rs:133-143. -/
def Text.toString (t : Text) : RProg (Except Empty (List Char)) :=
  tryFoldChunks t.range t.node ([] : List Char) fun out chunk => .ok (.ok (out ++ chunk))

end Prog
end Rowan
