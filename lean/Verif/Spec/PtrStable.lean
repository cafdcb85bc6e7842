import Verif.Spec.Ast
/-!
# Specification vocabulary: pointers kept while the tree is edited
-/
namespace Rowan

/-- In the order of the text the element at `Q` comes before the one at `P`, and neither is inside the
other: below some common ancestor `Q` goes to an earlier child than `P`. -/
def Earlier (Q P : List Nat) : Prop := ∃ C i j U V, i < j ∧ Q = C ++ i :: U ∧ P = C ++ j :: V

variable [Lang]

/-- The tree `t'` is `t` with the element `s` at `P` replaced by `x`. -/
def Tree.Swapped (t t' : Tree) (P : List Nat) (s x : Tree) : Prop := t.at? P = some s ∧ t' = t.set P x

/-- No node strictly above position `q` has kind `k`. -/
def Tree.OnlyBelow (t : Tree) (k : Lang.Kind) (q : List Nat) : Prop :=
  ∀ A raw cs, A <+: q → A ≠ q → t.at? A = some (.node raw cs) → Lang.fromRaw raw ≠ k

end Rowan
