import Verif.Spec.Walk
import Verif.Spec.BuildCost
import Verif.WalkCost
/-!
# Specification vocabulary: slots looked at by a whole walk
-/
namespace Rowan

/-- The child slots looked at by the first `k` calls of `next` on a walk, by a caller that calls
`skip_subtree` right after each `Enter` of a position satisfying `skip`. -/
def Preorder.looked (skip : List Nat → Bool) (it : Preorder) : Nat → Nat
  | 0 => 0
  | k + 1 => it.looked skip k +
    match it.drive skip k with
    | .ok it' => match it'.stepC with
      | .ok r => r.2
      | _ => 0
    | _ => 0

/-- The child slots looked at by the first `k` calls of `next` on a child iterator; `u i` tells
whether the handle kept inside is the only one at the `i`-th call. -/
def NodeChildren.looked (u : Nat → Bool) (it : NodeChildren) : Nat → Nat
  | 0 => 0
  | k + 1 => it.looked u k + ((it.after u k).stepC (u k)).2

end Rowan
