import Verif.SExpr
import Verif.Spec.Leaves
/-!
# Specification: what S-expressions look like as trees

The kinds are those of `enum SyntaxKind` in `examples/s_expressions.rs`.
-/
namespace Rowan

namespace SExpr

/-- A complete element: white space, a token the lexer did not understand, an atom, or a list between parentheses. -/
inductive Closed : Tree → Prop
  | space (s) : Closed (.token Kind.whitespace.raw s)
  | junk (s) : Closed (.token Kind.error.raw s)
  | atom (s) : Closed (.node Kind.atom.raw [.token Kind.word.raw s])
  | list (s s' ts) : (∀ t ∈ ts, Closed t) →
      Closed (.node Kind.list.raw (.token Kind.lParen.raw s :: (ts ++ [.token Kind.rParen.raw s'])))

mutual
/-- Elements of which only the last may be incomplete; `n` closing parentheses are missing. -/
inductive Items : List Tree → Nat → Prop
  | closed (ts) : (∀ t ∈ ts, Closed t) → Items ts 0
  | unclosed (ts u n) : (∀ t ∈ ts, Closed t) → Unclosed u n → Items (ts ++ [u]) n
/-- A list without its closing parenthesis: `n` are missing in all. -/
inductive Unclosed : Tree → Nat → Prop
  | list (s ts n) : Items ts n → Unclosed (.node Kind.list.raw (.token Kind.lParen.raw s :: ts)) (n + 1)
end

/-- Complete elements and stray closing parentheses, which are `n`. -/
inductive Tops : List Tree → Nat → Prop
  | nil : Tops [] 0
  | closed {t ts n} : Closed t → Tops ts n → Tops (t :: ts) n
  | stray {ts n} (s) : Tops ts n → Tops (.node Kind.error.raw [.token Kind.rParen.raw s] :: ts) (n + 1)

/-- A file with `stray` closing parentheses too many, and `missing` ones missing at the end. -/
def IsFile (t : Tree) (stray missing : Nat) : Prop :=
  ∃ ts us, t = .node Kind.root.raw (ts ++ us) ∧ Tops ts stray ∧ Items us missing

/-- The parentheses are balanced: nowhere in the text have more been closed than opened, and at the end as many. -/
def Balanced (ts : List Tok) : Prop :=
  (∀ n, ((ts.take n).map (·.1)).count .rParen ≤ ((ts.take n).map (·.1)).count .lParen) ∧
    (ts.map (·.1)).count .rParen = (ts.map (·.1)).count .lParen

/-- What the lexer promises about a token of text `s`. -/
def Lexed : Tok → Prop
  | (.lParen, s) => s = ['(']
  | (.rParen, s) => s = [')']
  | (.whitespace, s) => s ≠ [] ∧ ∀ c ∈ s, isSpace c = true
  | (.word, s) => s ≠ [] ∧ ∀ c ∈ s, isWord c = true
  | _ => False

/-- Words and runs of white space are as long as possible: two of a kind are never next to each other. -/
def Maximal (l : List Tok) : Prop :=
  ∀ a b x y, l = a ++ x :: y :: b → x.1 = y.1 → x.1 ≠ .whitespace ∧ x.1 ≠ .word

end SExpr
end Rowan
