import Verif.GreenMem
import Verif.Spec.Tree
/-!
# Specification vocabulary: green trees in memory
-/
namespace Rowan
namespace GMem

/-- `c` is `o` or a descendant of `o`. -/
inductive Below (s : GMem) : Nat → Nat → Prop
  | refl (o) : Below s o o
  | step {o c d x} : Below s o c → s.objs[c]? = some x → d ∈ x.kids → Below s o d

/-- The program can get at `o`: it is part of a tree for which some thread has a reference. -/
def Held (s : GMem) (o : Nat) : Prop := ∃ x ∈ s.refs, s.Below x.obj o

/-- `o` is part of something that a running destructor has yet to drop. -/
def Pending (s : GMem) (o : Nat) : Prop := ∃ f ∈ s.stack, ∃ k ∈ f.rest, s.Below k o

/-- The destructor of `o` is running. -/
def Dying (s : GMem) (o : Nat) : Prop := ∃ f ∈ s.stack, f.obj = o

/-- The memory of `o` has been given back. -/
def Freed (s : GMem) (o : Nat) : Prop := ∃ x, s.objs[o]? = some x ∧ x.freed = true

mutual
/-- The tree stored at `o`. -/
inductive Shows (s : GMem) : Nat → Tree → Prop
  | token {o x text} : s.objs[o]? = some x → x.text = some text → x.kids = [] → Shows s o (.token x.kind text)
  | node {o x ts} : s.objs[o]? = some x → x.text = none → ShowsAll s x.kids ts → Shows s o (.node x.kind ts)
inductive ShowsAll (s : GMem) : List Nat → List Tree → Prop
  | nil : ShowsAll s [] []
  | cons {o os t ts} : Shows s o t → ShowsAll s os ts → ShowsAll s (o :: os) (t :: ts)
end

/-- `n` steps of running destructors, of any threads in any order. -/
inductive Glue : Nat → GMem → GMem → Prop
  | refl (s) : Glue 0 s s
  | step {n s s' s''} (t : Nat) : s.step (.glue t) = some s' → Glue n s' s'' → Glue (n + 1) s s''

end GMem
end Rowan
