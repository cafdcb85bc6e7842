import Verif.Spec.History
/-!
# Specification: green objects that have not been freed
-/
namespace Rowan

/-- The green object `e` has not been freed, since a strong reference held by a tree or by the program keeps it. -/
def Conf.Holds (C : Conf) (e : GElem) : Prop := ∃ o ∈ C.s.owned ++ C.gs, e ∈ o.subs

end Rowan
