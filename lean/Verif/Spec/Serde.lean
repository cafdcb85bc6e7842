import Verif.Serde
import Verif.Spec.Position
/-!
# Specification vocabulary: the serialized form of a plain tree
-/
namespace Rowan

mutual
/-- The serialized form of a tree whose text starts at byte `o`. -/
def Tree.ser (dk : SyntaxKind → List Char) : Tree → Nat → SerVal
  | .token k s, o =>
    .map [("kind", .str (dk k)), ("text_range", .range o (o + blen s)), ("text", .str s)]
  | .node k cs, o =>
    .map [("kind", .str (dk k)), ("text_range", .range o (o + blen (Tree.texts cs))),
      ("children", .seq (Tree.sers dk cs o))]
def Tree.sers (dk : SyntaxKind → List Char) : List Tree → Nat → List SerVal
  | [], _ => []
  | c :: cs, o => Tree.ser dk c o :: Tree.sers dk cs (o + c.len)
end

end Rowan
