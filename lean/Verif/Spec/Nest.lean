import Verif.Spec.GreenMem
import Verif.Spec.Cost
/-!
# Specification vocabulary: nested destructors
-/
namespace Rowan
namespace GMem

/-- The allocations whose destructors thread `t` is in, the innermost call first.  Each of them is a frame on the stack of the
thread. -/
def nest (s : GMem) (t : Nat) : List Nat := (s.stack.filter fun f => f.thread == t).map GFrame.obj

/-- `a` is a child of the node `b`. -/
def Kid (s : GMem) (b a : Nat) : Prop := ∃ x, s.objs[b]? = some x ∧ a ∈ x.kids

/-- Any steps of any threads, during which thread `t` does not come out of the destructors it is in. -/
inductive Within (t : Nat) : GMem → GMem → Prop
  | refl (s) : Within t s s
  | step {s s' s''} (op : GOp) : Within t s s' → s'.step op = some s'' → s''.idle t = false → Within t s s''

/-- Steps that thread `t` takes alone, in destructors: `n` of them. -/
inductive Unwind (t : Nat) : Nat → GMem → GMem → Prop
  | refl (s) : Unwind t 0 s s
  | step {n s s' s''} : Unwind t n s s' → s'.step (.glue t) = some s'' → Unwind t (n + 1) s s''

/-- The elements on the way along path `p` from `o`, both ends included, have no reference but the one through which they are
reached (for `o`: one). -/
def Sole (s : GMem) : Nat → List Nat → Prop
  | o, [] => ∃ x, s.objs[o]? = some x ∧ x.count = 1
  | o, i :: p => ∃ x c, s.objs[o]? = some x ∧ x.count = 1 ∧ x.kids[i]? = some c ∧ s.Sole c p

end GMem
end Rowan
