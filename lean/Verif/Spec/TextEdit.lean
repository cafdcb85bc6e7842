import Verif.Spec.PtrStable
import Verif.HeapApi
/-!
# Specification vocabulary: edits seen as edits of the text
-/
namespace Rowan

/-- `text_range()` of the element `x` is the `n` bytes from `a`. -/
def HSt.Spans (s : HSt) (x a n : Nat) : Prop := Cur.textRange x s = .ok ⟨a, a + n, Nat.le_add_right ..⟩ s

end Rowan
