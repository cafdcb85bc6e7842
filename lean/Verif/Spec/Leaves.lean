import Verif.Spec.Tree
/-!
# Specification vocabulary: the tokens of a tree
-/
namespace Rowan

mutual
/-- The tokens of a tree, from left to right. -/
def Tree.leaves : Tree → List (SyntaxKind × List Char)
  | .token k s => [(k, s)]
  | .node _ cs => Tree.leavess cs
def Tree.leavess : List Tree → List (SyntaxKind × List Char)
  | [] => []
  | t :: ts => t.leaves ++ Tree.leavess ts
end

end Rowan
