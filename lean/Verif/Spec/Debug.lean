import Verif.Debug
import Verif.Spec.Walk
/-!
# Specification vocabulary: printed forms
-/
namespace Rowan

/-- The shortest prefix of `x` with at least `n` bytes. -/
def atLeast : Nat → List Char → List Char
  | 0, _ => []
  | _ + 1, [] => []
  | n + 1, c :: cs => c :: atLeast (n + 1 - c.utf8Size) cs

/-- What is shown of a token text: all of it if it is short, else a prefix and dots. -/
def shownText (x : List Char) : List Char :=
  if blen x < 25 then x else atLeast 21 x ++ " ...".toList

/-- The line for the element at position `q` of tree `t`: kind, byte range and, for a token, its
(shortened) text. -/
def Tree.line (env : DebugEnv) (t : Tree) (q : List Nat) : List Char :=
  match t.at? q with
  | none => []
  | some s =>
    env.kind s.kind ++ '@' :: env.range (TextRange.at_ (blen (t.before q)) (blen s.text)) ++
      match s with
      | .node _ _ => []
      | .token _ x => ' ' :: env.str (shownText x)

/-- Two spaces per level. -/
def indent (level : Nat) : List Char := (List.replicate level [' ', ' ']).flatten

end Rowan
