import Verif.MathPrint
import Verif.Spec.Math
import Verif.Spec.Debug
/-!
# Specification: the printed form of the tree of an expression
-/
namespace Rowan.Math

/-- All elements have kinds of the language. -/
def Known (t : Tree) : Prop := ∀ q s, t.at? q = some s → ∃ k : Kind, s.kind = k.raw

/-- What is printed for an element, without indentation: a dash and the kind, for a token the text before the kind. -/
inductive Shows (dbg : List Char → List Char) : Tree → List Char → Prop
  | node (k : Kind) (ts) : Shows dbg (.node k.raw ts) (['-', ' '] ++ k.name)
  | token (k : Kind) (x) : Shows dbg (.token k.raw x) (['-', ' '] ++ dbg x ++ [' '] ++ k.name)

/-- The output `out` has one line per element of `t`, in document order; the line of an element at depth `d` begins with `2 * d`
spaces. -/
def Printed (dbg : List Char → List Char) (t : Tree) (out : List Char) : Prop :=
  ∃ line : List Nat → List Char, (∀ q s, t.at? q = some s → Shows dbg s (line q)) ∧
    out = (Tree.descend Tree.all t []).flatMap fun q => indent q.length ++ line q ++ ['\n']

/-- What is assumed of the `Debug` output of `str`: it begins with a quote, has no line break in it, and different strings
look different. -/
structure Quotes (dbg : List Char → List Char) : Prop where
  start : ∀ x, (dbg x).head? = some '"'
  line : ∀ x, '\n' ∉ dbg x
  inj : ∀ {x y}, dbg x = dbg y → x = y

end Rowan.Math
