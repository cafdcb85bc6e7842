import Verif.StaleText
/-!
# Slicing the texts of live trees — model of src/syntax_text.rs:59-80

`Verif/SyntaxText.lean` models the same function on values.
-/
namespace Rowan
namespace Prog
open RProg

/-- `slice` — src/syntax_text.rs:59-80. -/
def Text.slice (t : Text) (arg : RangeArg) : RProg Text :=
  let start := arg.start.getD 0
  let stop := arg.stop.getD t.len
  if start ≤ stop then
    let len := stop - start
    let start := t.range.start + start
    let stop := start + len
    if h : start ≤ stop then
      let range : TextRange := ⟨start, stop, h⟩
      if t.range.containsRange range then do
        let node ← clone t.node
        pure ⟨node, range⟩
      else .panic
    else .panic
  else .panic

/-- The expression `t.slice(arg).to_string()`; the slice is dropped when its string has been made.
(A client of src/syntax_text.rs:59-80, 133-137; not itself in the code.) -/
def Text.sliceToString (t : Text) (arg : RangeArg) : RProg (Except Empty (List Char)) := do
  let u ← t.slice arg
  let x ← u.toString
  drop u.node
  pure x

end Prog
end Rowan
