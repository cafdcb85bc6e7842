import Verif.GreenPanic
import Verif.Spec.GreenMem
/-!
# Specification vocabulary: what a program, a construction, and nobody holds
-/
namespace Rowan
namespace PMem

/-- Some thread has a reference to a tree that `o` is part of. -/
def InUse (s : PMem) (o : Nat) : Prop := ∃ x ∈ s.mem.refs, x.holders ≠ [] ∧ s.mem.Below x.obj o

/-- `o` is part of an element that a running construction has taken over. -/
def Building (s : PMem) (o : Nat) : Prop := ∃ b ∈ s.builds, ∃ x ∈ s.mem.refs, x.id ∈ b.taken ∧ s.mem.Below x.obj o

/-- `o` is an abandoned buffer or part of an element in one. -/
def Leaked (s : PMem) (o : Nat) : Prop := ∃ x ∈ s.mem.refs, x.id ∈ s.lost ∧ s.mem.Below x.obj o

/-- The references `rs` are to the allocations `os`. -/
inductive Elems (m : GMem) : List Nat → List Nat → Prop
  | nil : Elems m [] []
  | cons {r o rs os} : (∃ x ∈ m.refs, x.id = r ∧ x.obj = o) → Elems m rs os → Elems m (r :: rs) (o :: os)

end PMem
end Rowan
