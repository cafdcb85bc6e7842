import Verif.Spec.History
/-!
# Specification vocabulary: predicates that run code of the program

The predicate given to `first_child_by_kind`, `next_sibling_by_kind` and the like is a closure of the program.  It can
capture handles and call the library itself.
-/
namespace Rowan

/-- A predicate on kinds that runs code: `M k C b C'` says that in state `C` of the program, asked about the kind `k`,
it can answer `b` and leave the program in state `C'`. -/
abbrev Matcher := SyntaxKind → Conf → Bool → Conf → Prop

/-- All that the predicate does is making calls with property `P`.  It does not drop the handle `p`, which is borrowed
during the search. -/
def Matcher.Does (M : Matcher) (P : HSt → Call → Prop) (p : Nat) : Prop :=
  ∀ k C b C', M k C b C' → C.Run P p C'

/-- The predicate only looks at the kind. -/
def Matcher.pure (m : SyntaxKind → Bool) : Matcher := fun k C b C' => b = m k ∧ C' = C

/-- The predicate is asked about the given elements, in this order, until one is accepted; with `nodes`, tokens are
not accepted even if the predicate says yes.  The result is the index of the accepted element. -/
inductive Matcher.Picks (M : Matcher) (nodes : Bool) : List Tree → Conf → Option Nat → Conf → Prop
  | none {C} : Picks M nodes [] C none C
  | here {t ts C C'} : M t.kind C true C' → (nodes = true → t.isNode = true) → Picks M nodes (t :: ts) C (some 0) C'
  | next {t ts b C C1 C2 o} : M t.kind C b C1 → (b = true → nodes = true ∧ t.isNode = false) →
      Picks M nodes ts C1 o C2 → Picks M nodes (t :: ts) C (o.map (· + 1)) C2

/-- `c` does not change the node `x`: `x` is immutable, or `c` is not an edit at or below `x`.  Edits of other trees, and
at other places of the tree of `x`, are allowed; so is moving `x` itself. -/
def Call.Calm (x : Nat) (s : HSt) (c : Call) : Prop := s.mutable x = true → ¬ c.Alters s x

end Rowan
