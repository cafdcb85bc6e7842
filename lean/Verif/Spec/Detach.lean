import Verif.Spec.Forest
/-!
# Specification vocabulary: taking many elements out of a tree
-/
namespace Rowan
namespace Tree

mutual
/-- The tree without the elements at the positions `gone`, and what is below them.  The element itself stays. -/
def without (gone : List Nat → Bool) : Tree → Tree
  | token k x => token k x
  | node k cs => node k (withouts gone 0 cs)
def withouts (gone : List Nat → Bool) : Nat → List Tree → List Tree
  | _, [] => []
  | i, c :: cs =>
    if gone [i] then withouts gone (i + 1) cs
    else c.without (fun D => gone (i :: D)) :: withouts gone (i + 1) cs
end

/-- Where the element at a position is in the tree without the elements at the positions `gone`: nowhere, if it or one of the
elements above it has gone; otherwise each index is less by the number of earlier siblings that have gone. -/
def shift (gone : List Nat → Bool) : List Nat → Option (List Nat)
  | [] => some []
  | i :: D =>
    if gone [i] then none
    else (shift (fun E => gone (i :: E)) D).map (((List.range i).countP fun j => !gone [j]) :: ·)

end Tree

/-- Is there one of the handles `hs` at this place? -/
def Forest.picked (F : Forest) (hs : List Nat) (x : Nat × List Nat) : Bool := hs.any fun h => F.env.get h == some x

end Rowan
