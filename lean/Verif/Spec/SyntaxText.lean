import Verif.SyntaxText
import Verif.Spec.Handles
/-!
# Specification vocabulary: texts of nodes
-/
namespace Rowan

/-- The texts a program can obtain from the tree `r`: `node.text()` and slices of texts. -/
inductive SyntaxText.Of (r : Root) : SyntaxText → Prop
  | text {n} : Reach r (.node n) → Of r (SyntaxText.new n)
  | slice {t t'} (arg) : Of r t → t.slice arg = .ok t' → Of r t'

/-- The string a text stands for: the part of the whole tree's text in its byte range; `none` if the
range does not lie on character boundaries. -/
def SyntaxText.str (r : Root) (t : SyntaxText) : Option (List Char) :=
  bslice r.tree.text t.range.start t.range.stop

/-- A fold over a list of chunks which stops at the first error. -/
def tryFold {T E : Type} (f : T → List Char → Res (Except E T)) :
    T → List (List Char) → Res (Except E T)
  | acc, [] => .ok (.ok acc)
  | acc, c :: cs => do
    match ← f acc c with
    | .ok acc => tryFold f acc cs
    | .error e => .ok (.error e)

end Rowan
