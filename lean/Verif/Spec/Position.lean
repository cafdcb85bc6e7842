import Verif.Spec.Handles
import Verif.Position
/-!
# Specification vocabulary: positions and offsets
-/
namespace Rowan
namespace Tree

mutual
/-- The positions of the tokens of `t` (placed at `p`), left to right. -/
def tokenPaths : Tree → List Nat → List (List Nat)
  | token _ _, p => [p]
  | node _ cs, p => tokenPathss cs p 0
def tokenPathss : List Tree → List Nat → Nat → List (List Nat)
  | [], _, _ => []
  | c :: cs, p, i => tokenPaths c (p ++ [i]) ++ tokenPathss cs p (i + 1)
end

/-- Does the (closed) byte range of the element at position `q` contain the byte range `R`? -/
def covers (t : Tree) (R : TextRange) (q : List Nat) : Prop :=
  ∃ s, t.at? q = some s ∧ blen (t.before q) ≤ R.start ∧ R.stop ≤ blen (t.before q) + blen s.text

/-- Is the text of the element at position `q` non-empty and does its closed byte range contain the
offset `o`? -/
def touches (t : Tree) (o : Nat) (q : List Nat) : Bool :=
  match t.at? q with
  | some s => decide (s.text ≠ []) &&
      (decide (blen (t.before q) ≤ o) && decide (o ≤ blen (t.before q) + blen s.text))
  | none => false

mutual
/-- Every node of the tree has at least one child. -/
def Full : Tree → Prop
  | token _ _ => True
  | node _ cs => cs ≠ [] ∧ Fulls cs
def Fulls : List Tree → Prop
  | [] => True
  | c :: cs => c.Full ∧ Fulls cs
end

mutual
/-- Follow first children down from `t` (placed at `p`): the position reached, if it is a token. -/
def leftmost : Tree → List Nat → Option (List Nat)
  | token _ _, p => some p
  | node _ cs, p => leftmosts cs p
def leftmosts : List Tree → List Nat → Option (List Nat)
  | [], _ => none
  | c :: _, p => leftmost c (p ++ [0])
end

mutual
/-- Follow last children down. -/
def rightmost : Tree → List Nat → Option (List Nat)
  | token _ _, p => some p
  | node _ cs, p => rightmosts cs p 0
def rightmosts : List Tree → List Nat → Nat → Option (List Nat)
  | [], _, _ => none
  | [c], p, i => rightmost c (p ++ [i])
  | _ :: c :: cs, p, i => rightmosts (c :: cs) p (i + 1)
end

end Tree

/-- The tokens in a `TokenAtOffset`, left to right. -/
def TokenAtOffset.toList {α : Type} : TokenAtOffset α → List α
  | .none => []
  | .single a => [a]
  | .between a b => [a, b]

end Rowan
