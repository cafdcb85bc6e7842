import Verif.Builder
/-!
# Specification: a builder without any cache

The builder a user has in mind: a stack of open nodes and a list of finished plain trees.
No hashes, no addresses, no interning.
-/
namespace Rowan

/-- Open nodes, innermost first, each with the number of finished trees when it was opened; and the
finished trees, oldest first. -/
structure SpecBuilder where
  parents : List (SyntaxKind × Nat) := []
  trees : List Tree := []
deriving DecidableEq

inductive SpecOut where
  | unit
  | root (t : Tree)
  | panic
deriving DecidableEq

namespace SpecBuilder

def step (b : SpecBuilder) : BOp → SpecBuilder × SpecOut
  | .token k s => ({ b with trees := b.trees ++ [.token k s] }, .unit)
  | .startNode k => ({ b with parents := (k, b.trees.length) :: b.parents }, .unit)
  | .finishNode =>
    match b.parents with
    | [] => (b, .panic)
    | (k, f) :: ps => ({ parents := ps, trees := b.trees.take f ++ [.node k (b.trees.drop f)] }, .unit)
  | .startNodeAt cp k =>
    if cp ≤ b.trees.length ∧ ∀ p ∈ b.parents.head?, p.2 ≤ cp then
      ({ b with parents := (k, cp) :: b.parents }, .unit)
    else (b, .panic)
  | .finish =>
    match b.trees with
    | [.node k cs] => ({}, .root (.node k cs))
    | _ => ({}, .panic)

def run (b : SpecBuilder) : List BOp → SpecBuilder × List SpecOut
  | [] => (b, [])
  | op :: ops =>
    let (b', o) := b.step op
    let (b'', os) := b'.run ops
    (b'', o :: os)

end SpecBuilder

mutual
/-- The calls that build a tree. -/
def Tree.events : Tree → List BOp
  | .token k s => [.token k s]
  | .node k cs => .startNode k :: (Tree.eventss cs ++ [.finishNode])
def Tree.eventss : List Tree → List BOp
  | [] => []
  | t :: ts => t.events ++ Tree.eventss ts
end

/-- What an outcome of the real builder looks like to someone who ignores addresses. -/
def BOut.spec : BOut → SpecOut
  | .unit => .unit
  | .root n => .root n.tree
  | .panic _ => .panic

end Rowan
