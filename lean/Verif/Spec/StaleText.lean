import Verif.Text
/-!
# Specification vocabulary: the part of a node that an old range shows
-/
namespace Rowan

/-- What one sees of an element that now has the range `now` in a tree with the text `whole`, looking only at the bytes
in `old`: what the two ranges have in common, nothing if they have nothing in common, and `none` if that would cut a
character in two. -/
def shown (whole : List Char) (now old : TextRange) : Option (List Char) :=
  if max old.start now.start ≤ min old.stop now.stop then bslice whole (max old.start now.start) (min old.stop now.stop)
  else some []

end Rowan
