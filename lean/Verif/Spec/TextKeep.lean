import Verif.Spec.History
import Verif.Spec.PtrStable
/-!
# Specification vocabulary: edits behind an element
-/
namespace Rowan

/-- If `x` and `p` are in one tree, then `x` is in front of `p`. -/
def HSt.InFront (s : HSt) (x p : Nat) : Prop := ∀ r P P', s.Loc x r P → s.Loc p r P' → Earlier P P'

/-- If `x` and `q` are in one tree, then `x` is in front of the place where child `a` of `q` begins. -/
def HSt.InFrontOf (s : HSt) (x q a : Nat) : Prop := ∀ r P P', s.Loc x r P → s.Loc q r P' → Earlier P (P' ++ [a])

/-- The call edits nothing in the tree of `x`, or only behind `x`: what it takes out, and the place where it puts
something, are in other trees or behind `x`. -/
def Call.Later (s : HSt) (x : Nat) : Call → Prop
  | detach p => s.InFront x p
  | splice q a _ ins => s.InFrontOf x q a ∧ ∀ p ∈ ins, s.InFront x p
  | attach q a p => s.InFrontOf x q a ∧ s.InFront x p
  | _ => True

end Rowan
