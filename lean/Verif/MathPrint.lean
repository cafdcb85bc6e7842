import Verif.Math
import Verif.Traverse
/-!
# Printing the tree of an expression — model of `examples/math.rs`, lines 45-55 and 114-127

The program walks over the tree with typed handles; it is a reading program (`Verif/Program.lean`).  What it prints is its
result; what has been printed before a panic is not modelled.  The `Debug` output of `str` is a parameter.
-/
namespace Rowan.Math
open Prog

/-- `kind_from_raw`: `assert!(raw.0 <= ROOT as u16)`, then a `transmute` — examples/math.rs:48-51. -/
def Kind.ofRaw (raw : SyntaxKind) : Option Kind :=
  [whitespace, add, sub, mul, div, number, error, operation, root].find? (·.raw = raw)

/-- `derive(Debug)`: the name of the variant — examples/math.rs:19-34. -/
def Kind.name : Kind → List Char
  | whitespace => "WHITESPACE".toList
  | add => "ADD".toList
  | sub => "SUB".toList
  | mul => "MUL".toList
  | div => "DIV".toList
  | number => "NUMBER".toList
  | error => "ERROR".toList
  | operation => "OPERATION".toList
  | root => "ROOT".toList

/-- `for child in node.children_with_tokens() { print(indent + 2, child) }` — examples/math.rs:120-122.  `body` is the call of
`print`; `k` bounds the number of rounds. -/
def printKids (body : Nat → RProg (List Char)) : Nat → Kids → RProg (List Char)
  | 0, _ => .diverge
  | k + 1, it => do
    match ← kidsNext false it with
    | (none, it) => do
      kidsDrop it
      pure []
    | (some c, it) => do
      let out ← body c
      let outs ← printKids body k it
      pure (out ++ outs)

/-- `print`; takes the handle — examples/math.rs:114-127.  `print!("{:indent$}", "", indent = indent)` prints `indent`
spaces. -/
def print (dbg : List Char → List Char) : Nat → Nat → Nat → RProg (List Char)
  | 0, _, _ => .diverge
  | fuel + 1, indent, h => do
    let o ← look h
    match Kind.ofRaw o.kind with
    | none => .panic
    | some kind =>
      match o.green with
      | .node _ => do
        let it ← kids h
        let out ← printKids (print dbg fuel (indent + 2)) (fuel + 1) it
        drop h
        pure (List.replicate indent ' ' ++ ('-' :: ' ' :: kind.name ++ ['\n']) ++ out)
      | .token t => do
        drop h
        pure (List.replicate indent ' ' ++ ('-' :: ' ' :: dbg t.text ++ ' ' :: kind.name ++ ['\n']))

end Rowan.Math
