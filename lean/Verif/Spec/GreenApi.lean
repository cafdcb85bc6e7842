import Verif.GreenApi
/-!
# What an iterator over a list must do

The specification of a double-ended, exact-size iterator: the items still to come are a list; a call
takes from its front or its back.
-/
namespace Rowan

/-- `nth(n)` by its meaning: drop `n` items, then take the next one. -/
def takeNth {α : Type} (xs : List α) : Nat → Option α × List α
  | 0 => (xs.head?, xs.tail)
  | n + 1 => takeNth xs.tail n

/-- The answer to one call, and the items that remain. -/
def specCall {α : Type} (xs : List α) : IterOp → IterOut α × List α
  | .next => (.item xs.head?, xs.tail)
  | .nextBack => (.item xs.getLast?, xs.dropLast)
  | .nth n => (.item (takeNth xs n).1, (takeNth xs n).2)
  | .nthBack n => (.item (takeNth xs.reverse n).1, (takeNth xs.reverse n).2.reverse)
  | .len => (.len xs.length, xs)
  | .sizeHint => (.hint xs.length (some xs.length), xs)

/-- The answers to a sequence of calls, and the items that remain. -/
def specCalls {α : Type} (xs : List α) : List IterOp → List (IterOut α) × List α
  | [] => ([], xs)
  | op :: ops => ((specCall xs op).1 :: (specCalls (specCall xs op).2 ops).1,
      (specCalls (specCall xs op).2 ops).2)

/-- The total text length of some elements. -/
def lensOf (els : List GElem) : Nat := (els.map GElem.textLen).sum

end Rowan
