import Verif.Spec.Forest
/-!
# Specification vocabulary: programs with the same effect
-/
namespace Rowan

/-- A run on the heap ends as this run on a forest ends: with the same result or a panic, and then the heap, with the handles that
are held, stands for the forest that is left; with a panic that leaves an element hanging in no tree; or never. -/
def FOut.Seen {α : Type} (gs : List GElem) : FOut (α × Forest) → HOut (EOut α) → Prop
  | .ok (a, G), .ok (.ok b w) s => a = b ∧ ∃ l, Tracks s gs l G w
  | .panic G, .ok (.panic w) s => ∃ l, Tracks s gs l G w
  | .broken, .ok (.panic _) _ => True
  | .diverge, .diverge => True
  | _, _ => False

/-- The programs `p` and `p'` end in the same way on the heap `s`, with the handles `w`: what the run of `p` on the forest `F`
says holds of both. -/
def SameEffect {α : Type} (gs : List GElem) (s : HSt) (w : Env Nat) (F : Forest) (p p' : EProg α) : Prop :=
  (p.run F).Seen gs (p.exec w s) ∧ (p.run F).Seen gs (p'.exec w s)

end Rowan
