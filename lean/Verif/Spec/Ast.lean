import Verif.Ast
import Verif.Spec.Position
/-!
# Specification vocabulary: typed AST
-/
namespace Rowan
variable [Lang]

/-- The element at position `q` is a node of (typed) kind `k` occupying exactly the byte range `R`. -/
def Tree.nodeAt (t : Tree) (k : Lang.Kind) (R : TextRange) (q : List Nat) : Prop :=
  ∃ raw cs, t.at? q = some (.node raw cs) ∧ Lang.fromRaw raw = k ∧ blen (t.before q) = R.start ∧
    blen (t.before q) + blen (Tree.texts cs) = R.stop

/-- Is it a token of (typed) kind `k`? -/
def Tree.tokenOf (k : Lang.Kind) (t : Tree) : Bool := !t.isNode && Lang.fromRaw t.kind == k

/-- The element has a kind that the matcher on typed kinds accepts. -/
def Tree.typed (m : Lang.Kind → Bool) (t : Tree) : Bool := m (Lang.fromRaw t.kind)
/-- It is a node, and has such a kind. -/
def Tree.typedNode (m : Lang.Kind → Bool) (t : Tree) : Bool := t.isNode && m (Lang.fromRaw t.kind)

/-- What an implementation of `AstNode` is expected to do: `cast` succeeds exactly for the kinds
`can_cast` accepts, and wraps the node it is given. -/
structure AstImpl.Lawful {N : Type} (A : AstImpl N) : Prop where
  cast_some : ∀ n, (A.cast n).isSome = A.canCast n.tkind
  syn_cast : ∀ n x, A.cast n = some x → A.syn x = n
  cast_syn : ∀ x, A.cast (A.syn x) = some x

end Rowan
