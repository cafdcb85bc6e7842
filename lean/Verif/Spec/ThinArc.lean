import Verif.ThinArc
/-!
# What an iterator yields
-/
namespace Rowan

/-- Calling `next` yields the items `xs` one after the other, and leads from state `s` to `s'`. -/
inductive TIter.Yields {σ β : Type} (it : TIter σ β) : σ → List β → σ → Prop
  | nil (s) : it.Yields s [] s
  | cons {s s1 s2 x xs} : it.next s = .ok (some x, s1) → it.Yields s1 xs s2 →
      it.Yields s (x :: xs) s2

/-- An honest iterator over a list. -/
def TIter.ofList (β : Type) : TIter (List β) β where
  len := List.length
  next := fun
    | [] => .ok (none, [])
    | x :: xs => .ok (some x, xs)

/-- The allocator's limit: the rounded size is at most `isize::MAX`. -/
def Lay.Fits (l : Lay) : Prop := l.size + (l.align - 1) ≤ 2 ^ 63 - 1

end Rowan
