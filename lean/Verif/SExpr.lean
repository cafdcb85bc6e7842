import Verif.BProg
/-!
# The S-expression parser — model of `examples/s_expressions.rs`, lines 17-188 and 386-423
-/
namespace Rowan.SExpr

/-- `enum SyntaxKind` — examples/s_expressions.rs:17-28. -/
inductive Kind where
  | lParen | rParen | word | whitespace | error | list | atom | root
deriving DecidableEq, Repr

/-- `From<SyntaxKind> for rowan::SyntaxKind`: `kind as u16` — examples/s_expressions.rs:36-40. -/
def Kind.raw : Kind → SyntaxKind
  | lParen => 0
  | rParen => 1
  | word => 2
  | whitespace => 3
  | error => 4
  | list => 5
  | atom => 6
  | root => 7

/-- The tokens of the lexer — examples/s_expressions.rs:392-401. -/
def Kind.isLexed : Kind → Bool
  | lParen | rParen | word | whitespace | error => true
  | _ => false

/-- A token: kind and text. (examples/s_expressions.rs:83, :388.) -/
abbrev Tok := Kind × List Char

/-! ### The lexer -/

/-- `\s` of the `regex` crate: the Unicode property White_Space. (Used at examples/s_expressions.rs:408-409.) -/
def isSpace (c : Char) : Bool :=
  let n := c.toNat
  (9 ≤ n && n ≤ 13) || n == 0x20 || n == 0x85 || n == 0xA0 || n == 0x1680 || (0x2000 ≤ n && n ≤ 0x200A) ||
    n == 0x2028 || n == 0x2029 || n == 0x202F || n == 0x205F || n == 0x3000

/-- `[^\s()]` — examples/s_expressions.rs:408. -/
def isWord (c : Char) : Bool := !isSpace c && c != '(' && c != ')'

/-- `lex` — examples/s_expressions.rs:388-423.  The crate `m_lexer` is not in the repository; from its documentation:
at every position the longest match of the four expressions is the next token, and if there is none, one character is
an error token.  (The classes of characters are disjoint and cover everything, so error tokens do not occur.)  The
bound is the number of characters. -/
def lexLoop : Nat → List Char → List Tok
  | 0, _ => []
  | _ + 1, [] => []
  | n + 1, c :: cs =>
    if c = '(' then (.lParen, [c]) :: lexLoop n cs
    else if c = ')' then (.rParen, [c]) :: lexLoop n cs
    else if isSpace c then (.whitespace, c :: cs.takeWhile isSpace) :: lexLoop n (cs.dropWhile isSpace)
    else (.word, c :: cs.takeWhile isWord) :: lexLoop n (cs.dropWhile isWord)

/-- `lex` — examples/s_expressions.rs:388-423. -/
def lex (text : List Char) : List Tok := lexLoop text.length text

/-! ### The parser -/

/-- The error messages — examples/s_expressions.rs:111, 134. -/
inductive Msg where
  | unmatched | expected
deriving DecidableEq, Repr

/-- `struct Parser` without the builder.  The vector of tokens is in reverse order in the code, here the next token is
the first — examples/s_expressions.rs:80-89. -/
structure Parser where
  tokens : List Tok
  errors : List Msg

/-- `enum SexpRes` — examples/s_expressions.rs:92-99. -/
inductive SexpRes where
  | ok | eof | rParen
deriving DecidableEq

/-- Code with `&mut self`. (examples/s_expressions.rs:101-190.) -/
abbrev P (α : Type) := Parser → BProg (α × Parser)

/-- `bump` — examples/s_expressions.rs:170-173. -/
def bump : P Unit := fun p =>
  match p.tokens with
  | [] => .panic
  | (kind, text) :: rest => .call (.token kind.raw text) (.ret ((), { p with tokens := rest }))

/-- `current` — examples/s_expressions.rs:175-177. -/
def current (p : Parser) : Option Kind := p.tokens.head?.map (·.1)

/-- `skip_ws` — examples/s_expressions.rs:178-182. -/
def skipWs : Nat → P Unit
  | 0, _ => .diverge
  | fuel + 1, p =>
    if current p = some .whitespace then do
      let (_, p) ← bump p
      skipWs fuel p
    else .ret ((), p)

mutual
/-- `list` — examples/s_expressions.rs:126-146. -/
def list : Nat → P Unit
  | 0, _ => .diverge
  | fuel + 1, p =>
    if current p = some .lParen then .call (.startNode Kind.list.raw) do
      let (_, p) ← bump p
      let (_, p) ← listLoop fuel p
      .call .finishNode (.ret ((), p))
    else .panic
/-- The loop of `list` — examples/s_expressions.rs:131-143. -/
def listLoop : Nat → P Unit
  | 0, _ => .diverge
  | fuel + 1, p => do
    let (r, p) ← sexp fuel p
    match r with
    | .eof => .ret ((), { p with errors := p.errors ++ [.expected] })
    | .rParen => bump p
    | .ok => listLoop fuel p
/-- `sexp` — examples/s_expressions.rs:147-168. -/
def sexp : Nat → P SexpRes
  | 0, _ => .diverge
  | fuel + 1, p => do
    let (_, p) ← skipWs fuel p
    match current p with
    | none => .ret (.eof, p)
    | some .rParen => .ret (.rParen, p)
    | some .lParen => do
      let (_, p) ← list fuel p
      .ret (.ok, p)
    | some .word => .call (.startNode Kind.atom.raw) do
      let (_, p) ← bump p
      .call .finishNode (.ret (.ok, p))
    | some .error => do
      let (_, p) ← bump p
      .ret (.ok, p)
    | some _ => .panic
end

/-- The loop of `parse` — examples/s_expressions.rs:106-117. -/
def parseLoop : Nat → P Unit
  | 0, _ => .diverge
  | fuel + 1, p => do
    let (r, p) ← sexp fuel p
    match r with
    | .eof => .ret ((), p)
    | .rParen => .call (.startNode Kind.error.raw) do
      let (_, p) ← bump { p with errors := p.errors ++ [.unmatched] }
      .call .finishNode (parseLoop fuel p)
    | .ok => parseLoop fuel p

/-- `Parser::parse` up to `self.builder.finish()` — examples/s_expressions.rs:102-122. -/
def parseTokens (fuel : Nat) : P Unit := fun p =>
  .call (.startNode Kind.root.raw) do
    let (_, p) ← parseLoop fuel p
    let (_, p) ← skipWs fuel p
    .call .finishNode (.ret ((), p))

/-- `Parser::parse` on a list of tokens: it returns the errors — examples/s_expressions.rs:102-125. -/
def parse' (fuel : Nat) (tokens : List Tok) : BProg (List Msg) := do
  let (_, p) ← parseTokens fuel { tokens, errors := [] }
  .call .finish (.ret p.errors)

/-- `fn parse(text)` — examples/s_expressions.rs:79-188. -/
def parse (fuel : Nat) (text : List Char) : BProg (List Msg) := parse' fuel (lex text)

end Rowan.SExpr
