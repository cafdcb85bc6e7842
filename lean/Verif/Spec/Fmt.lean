import Verif.Fmt
import Verif.Spec.Debug
import Verif.Spec.Serde
/-!
# Specification vocabulary: sinks that can fail, padding
-/
namespace Rowan

/-- The sink is given the elements of a list in order.  It stops at the first one that is refused; the answer to that one is the answer. -/
def Sink.feed {ev ε σ : Type} (k : Sink ev ε σ) : List ev → σ → Except ε Unit × σ
  | [], s => (.ok (), s)
  | x :: xs, s =>
    match k.put s x with
    | (.ok (), s) => k.feed xs s
    | (.error e, s) => (.error e, s)

/-- Whatever the writer: it is given, in order, the pieces of `out`, for one way to divide `out` into pieces that does not depend on the
writer, up to the first one that it refuses; there is no panic, and nothing else. -/
def Writes (m : ∀ σ, Writer σ → Put Unit σ Unit) (out : List Char) : Prop :=
  ∃ pieces : List (List Char), pieces.flatten = out ∧ ∀ σ (k : Writer σ) (s : σ), m σ k s = .ok (k.feed pieces s)

/-- A text with options applied to it: cut to `precision` characters, then filled up to `width` characters. -/
def FmtSpec.padded (spec : FmtSpec) (x : List Char) : List Char :=
  let x := match spec.precision with
    | some m => x.take m
    | none => x
  let missing := (spec.width.getD 0) - x.length
  let before := match spec.align with
    | none | some .left => 0
    | some .center => missing / 2
    | some .right => missing
  List.replicate before spec.fill ++ x ++ List.replicate (missing - before) spec.fill

mutual
/-- The texts of the tokens of a tree, in order. -/
def Tree.tokenTexts : Tree → List (List Char)
  | .token _ x => [x]
  | .node _ cs => Tree.tokenTextss cs
def Tree.tokenTextss : List Tree → List (List Char)
  | [] => []
  | c :: cs => c.tokenTexts ++ Tree.tokenTextss cs
end

mutual
/-- A value as the calls that describe it. -/
def SerVal.calls : SerVal → List SerEv
  | .str x => [.str x]
  | .range a b => [.range a b]
  | .map es => .beginMap :: SerVal.entryCalls es ++ [.endMap]
  | .seq vs => .beginSeq :: SerVal.itemCalls vs ++ [.endSeq]
def SerVal.entryCalls : List (String × SerVal) → List SerEv
  | [] => []
  | (name, v) :: es => .key name :: v.calls ++ SerVal.entryCalls es
def SerVal.itemCalls : List SerVal → List SerEv
  | [] => []
  | v :: vs => v.calls ++ SerVal.itemCalls vs
end

end Rowan
