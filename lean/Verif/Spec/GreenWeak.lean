import Verif.GreenWeak
/-!
# Specification vocabulary: data races
-/
namespace Rowan
namespace GWeak

/-- The event with number `e` happens before the one with number `e'`. -/
def Before (w : GWeak) (e e' : Nat) : Prop := ∃ b, w.events[e']? = some b ∧ b.before e = true

/-- Two accesses to the same allocation, one of them exclusive, and the earlier one does not happen before the later one. -/
def Race (w : GWeak) : Prop :=
  ∃ (e e' : Nat) (a b : GEvent), e < e' ∧ w.events[e]? = some a ∧ w.events[e']? = some b ∧ a.obj = b.obj ∧
    (a.exclusive = true ∨ b.exclusive = true) ∧ ¬ w.Before e e'

end GWeak
end Rowan
