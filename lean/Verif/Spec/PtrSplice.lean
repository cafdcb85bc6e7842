import Verif.Spec.PtrStable
/-!
# Specification vocabulary: pointers kept while children are inserted and removed
-/
namespace Rowan

/-- The tree `t'` is `t` with the children `a..b` of the node at `P`, which has kind `k` and children `cs`, replaced by `xs`. -/
structure Tree.Spliced (t t' : Tree) (P : List Nat) (k : SyntaxKind) (cs : List Tree) (a b : Nat) (xs : List Tree) : Prop where
  here : t.at? P = some (.node k cs)
  le : a ≤ b
  inside : b ≤ cs.length
  eq : t' = t.set P (.node k (cs.take a ++ xs ++ cs.drop b))

/-- The length of the children `a..b`. -/
def goneLen (cs : List Tree) (a b : Nat) : Nat := blen (Tree.texts ((cs.take b).drop a))

/-- The element at `Q` is behind the children `a..b` of the node at `P`; when these are replaced by `n` others, it is at `Q'`. -/
inductive Behind (P : List Nat) (a b n : Nat) : List Nat → List Nat → Prop
  /-- in a later child of the same node, which is renumbered -/
  | inside (j : Nat) (U : List Nat) : Behind P a b n (P ++ (b + j) :: U) (P ++ (a + n + j) :: U)
  /-- behind the whole node -/
  | outside {Q : List Nat} : Earlier P Q → Behind P a b n Q Q

end Rowan
