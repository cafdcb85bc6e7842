import Verif.BProg
/-!
# The parser of arithmetic expressions — model of `examples/math.rs`, lines 19-112
-/
namespace Rowan.Math

/-- `enum SyntaxKind` — examples/math.rs:19-34. -/
inductive Kind where
  | whitespace | add | sub | mul | div | number | error | operation | root
deriving DecidableEq, Repr

/-- `From<SyntaxKind> for rowan::SyntaxKind`: `kind as u16` — examples/math.rs:38-42. -/
def Kind.raw : Kind → SyntaxKind
  | whitespace => 0
  | add => 1
  | sub => 2
  | mul => 3
  | div => 4
  | number => 5
  | error => 6
  | operation => 7
  | root => 8

/-- A token: kind and text. (examples/math.rs:63-67.) -/
abbrev Tok := Kind × List Char

/-- Code with `&mut self`.  The state of `struct Parser` without the builder: the tokens that the iterator has not yet
returned, finitely many — examples/math.rs:63-66. -/
abbrev P (α : Type) := List Tok → BProg (α × List Tok)

/-- `bump` — examples/math.rs:74-78. -/
def bump : P Unit
  | [] => .ret ((), [])
  | (kind, text) :: rest => .call (.token kind.raw text) (.ret ((), rest))

/-- `peek` — examples/math.rs:68-73.  The loop calls `bump` while there is white space; here it is a recursion over the
remaining tokens. -/
def peek : P (Option Kind)
  | (.whitespace, text) :: rest => .call (.token Kind.whitespace.raw text) (peek rest)
  | [] => .ret (none, [])
  | (kind, text) :: rest => .ret (some kind, (kind, text) :: rest)

/-- `parse_val` — examples/math.rs:79-88. -/
def parseVal : P Unit := fun ts => do
  let (t, ts) ← peek ts
  match t with
  | some .number => bump ts
  | _ => .call (.startNode Kind.error.raw) do
    let (_, ts) ← bump ts
    .call .finishNode (.ret ((), ts))

/-- The loop of `handle_operation` — examples/math.rs:92-97. -/
def handleLoop (tokens : List Kind) (next : P Unit) (checkpoint : Nat) : Nat → P Unit
  | 0, _ => .diverge
  | fuel + 1, ts => do
    let (t, ts) ← peek ts
    if (t.map tokens.contains).getD false then .call (.startNodeAt checkpoint Kind.operation.raw) do
      let (_, ts) ← bump ts
      let (_, ts) ← next ts
      .call .finishNode (handleLoop tokens next checkpoint fuel ts)
    else .ret ((), ts)

/-- `handle_operation` — examples/math.rs:89-98. -/
def handleOperation (fuel : Nat) (tokens : List Kind) (next : P Unit) : P Unit := fun ts =>
  .checkpoint fun checkpoint => do
    let (_, ts) ← next ts
    handleLoop tokens next checkpoint fuel ts

/-- `parse_mul` — examples/math.rs:99-101. -/
def parseMul (fuel : Nat) : P Unit := handleOperation fuel [.mul, .div] parseVal

/-- `parse_add` — examples/math.rs:102-104. -/
def parseAdd (fuel : Nat) : P Unit := handleOperation fuel [.add, .sub] (parseMul fuel)

/-- `parse`; returns the tokens that the iterator still had — examples/math.rs:105-111. -/
def parse (fuel : Nat) (ts : List Tok) : BProg (List Tok) := .call (.startNode Kind.root.raw) do
  let (_, ts) ← parseAdd fuel ts
  .call .finishNode (.call .finish (.ret ts))

end Rowan.Math
