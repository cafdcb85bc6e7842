import Verif.Spec.Builder
/-!
# Specification vocabulary: the work of building trees
-/
namespace Rowan

mutual
/-- The number of nodes and tokens of a tree. -/
def Tree.count : Tree → Nat
  | .token _ _ => 1
  | .node _ cs => 1 + Tree.counts cs
/-- The number of nodes and tokens of a list of trees. -/
def Tree.counts : List Tree → Nat
  | [] => 0
  | t :: ts => t.count + Tree.counts ts
end

/-- How many calls of a program use the cache `c`. -/
def callsOn (cacheOf : Nat → Nat) (c : Nat) : List WOp → Nat
  | [] => 0
  | .call b _ _ :: ops => (if cacheOf b = c then 1 else 0) + callsOn cacheOf c ops
  | _ :: ops => callsOn cacheOf c ops

/-- The entries moved while a table gets its first `n` entries: all that it has, each time that it grows. -/
def moved (grow : Nat → Bool) : Nat → Nat
  | 0 => 0
  | n + 1 => moved grow n + if grow n then n else 0

/-- A table that grows so rarely that each entry is moved at most twice on average: it doubles. -/
def Doubling (grow : Nat → Bool) : Prop := ∀ n, moved grow n ≤ 2 * n

/-- When a table of hashbrown 0.15 with entries of the size of a pointer grows: it has room for 3, 7, 14, 28, … entries. -/
def stdGrow (n : Nat) : Bool := n == 0 || n == 3 || (List.range n).any (fun i => n == 7 * 2 ^ i)

/-- A token inside `n` nodes, one in the other. -/
def wrapped (k kt : SyntaxKind) (s : List Char) : Nat → Tree
  | 0 => .token kt s
  | n + 1 => .node k [wrapped k kt s n]

/-- The builder that a step calls, and the call. -/
def WOp.callee : WOp → Option (Nat × BOp)
  | .call b op _ => some (b, op)
  | _ => none

/-- The program consists of these calls of the builder `b`. -/
def JustCalls (b : Nat) (ops : List BOp) (l : List (WOp × BOut)) : Prop :=
  l.map (fun x => x.1.callee) = ops.map (fun op => some (b, op))

end Rowan
