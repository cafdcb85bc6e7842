import Verif.Spec.Handles
/-!
# Specification vocabulary: ranges that tile
-/
namespace Rowan

/-- The ranges follow each other without gap or overlap, the first begins at `a` and the last ends at `b`. -/
def Tiles : Nat → List TextRange → Nat → Prop
  | a, [], b => a = b
  | a, x :: xs, b => x.start = a ∧ Tiles x.stop xs b

end Rowan
