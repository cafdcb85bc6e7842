import Verif.Spec.Debug
/-!
# Specification: what a dump shows of a tree
-/
namespace Rowan

/-- What the code relies on in the `Debug` output of kinds, ranges and strings: different values are shown differently; a
kind does not begin with a space and has no `@` in it, a range has no space in it; none of them has a line break in it.
(`{:?}` of a string escapes line breaks.) -/
structure DebugEnv.Lawful (env : DebugEnv) : Prop where
  kind_inj : ∀ {k l}, env.kind k = env.kind l → k = l
  range_inj : ∀ {R S}, env.range R = env.range S → R = S
  str_inj : ∀ {x y}, env.str x = env.str y → x = y
  kind_start : ∀ k, (env.kind k).head? ≠ some ' '
  kind_at : ∀ k, '@' ∉ env.kind k
  kind_line : ∀ k, '\n' ∉ env.kind k
  range_space : ∀ R, ' ' ∉ env.range R
  range_line : ∀ R, '\n' ∉ env.range R
  str_line : ∀ x, '\n' ∉ env.str x

/-- What one line of a dump tells about an element, apart from where it is: node or token, kind, length, and (the
beginning of) the text of a token. -/
def Tree.glimpse : Tree → Bool × SyntaxKind × Nat × List Char
  | .node k ts => (true, k, blen (Tree.text (.node k ts)), [])
  | .token k x => (false, k, blen x, shownText x)

/-- At every position both trees have elements that look the same, or neither has one. -/
def Tree.LooksLike (t u : Tree) : Prop := ∀ q, (t.at? q).map Tree.glimpse = (u.at? q).map Tree.glimpse

/-- All tokens are shorter than 25 bytes. -/
def Tree.Short (t : Tree) : Prop := ∀ q k x, t.at? q = some (.token k x) → blen x < 25

end Rowan
