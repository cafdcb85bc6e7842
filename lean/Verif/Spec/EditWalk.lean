import Verif.Spec.Forest
import Verif.Spec.Walk
/-!
# Specification vocabulary: walks during which the tree is edited
-/
namespace Rowan
namespace Tree

mutual
/-- The tree without the elements that satisfy `del`, from the bottom up: whether an element goes depends on what is left of
it.  Only children satisfying `sel` are looked at; the element itself stays. -/
def prune (sel del : Tree → Bool) : Tree → Tree
  | token k x => token k x
  | node k cs => node k (prunes sel del cs)
def prunes (sel del : Tree → Bool) : List Tree → List Tree
  | [] => []
  | c :: cs =>
    if sel c then
      if del (c.prune sel del) then prunes sel del cs else c.prune sel del :: prunes sel del cs
    else c :: prunes sel del cs
end

mutual
/-- The contents that the depth-first walk sees, if what satisfies `del` is removed when it is left: an element is
entered as it was, and left without what was removed below it. -/
def pruneSeen (sel del : Tree → Bool) : Tree → List (WalkEvent Tree)
  | token k x => [.enter (token k x), .leave (token k x)]
  | node k cs => .enter (node k cs) :: (pruneSeens sel del cs ++ [.leave (node k (prunes sel del cs))])
def pruneSeens (sel del : Tree → Bool) : List Tree → List (WalkEvent Tree)
  | [] => []
  | c :: cs => (if sel c then c.pruneSeen sel del else []) ++ pruneSeens sel del cs
end

end Tree

/-- What a loop over `preorder()` (`nodes`) or `preorder_with_tokens()` visits. -/
def visited (nodes : Bool) : Tree → Bool := if nodes then Tree.isNode else Tree.all

end Rowan
