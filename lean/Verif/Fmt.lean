import Verif.Debug
import Verif.Serde
import Verif.SyntaxText
/-!
# Formatting and serializing into sinks that can fail

`Verif/Debug.lean`, `Verif/SyntaxText.lean` and `Verif/Serde.lean` model what is written.  Here the writer (the one behind a
`fmt::Formatter`) and the serializer are code of the user that can refuse at any point, and the formatter has options (`{:>8.3}`).

Simplifications: `write_char` is `write_str` with one character.  The `Debug` of kinds, ranges and strings fails only if the
writer does.  A serializer serializes a value when it is given the value, once (`serialize_entry`, `serialize_element`).
-/
namespace Rowan

/-- A writer or serializer: what it answers when it is given something, and its state afterwards.
(`fmt::Write`, `serde::Serializer`; used at src/api.rs:29-83, src/serde_impls.rs:26-66.) -/
structure Sink (ev ε σ : Type) where
  put : σ → ev → Except ε Unit × σ

/-- Code that writes into a sink with state `σ`, and can return early with an error. (`fmt::Result`, src/api.rs:30; `Result<S::Ok, S::Error>`,
src/serde_impls.rs:27.) -/
def Put (ε σ α : Type) := σ → Res (Except ε α × σ)

namespace Put
variable {ε σ α β ev : Type}

/-- Sequencing with `?`. (src/api.rs:37-41, src/serde_impls.rs:31-35.) -/
protected def bind (m : Put ε σ α) (f : α → Put ε σ β) : Put ε σ β := fun s => do
  match ← m s with
  | (.ok a, s) => f a s
  | (.error e, s) => .ok (.error e, s)

instance : Monad (Put ε σ) where
  pure a := fun s => .ok (.ok a, s)
  bind := Put.bind

/-- A computation that does not write. (Reading the tree, e.g. src/cursor.rs:1306.) -/
def lift (x : Res α) : Put ε σ α := fun s => do
  let a ← x
  .ok (.ok a, s)

/-- One call of the sink. (`write_str`, `serialize_…`.) -/
def put (k : Sink ev ε σ) (x : ev) : Put ε σ Unit := fun s => .ok (k.put s x)

/-- Several calls, one after the other. (The writes made by the `Debug` of a kind, a range or a string, src/api.rs:51, :64-72.) -/
def puts (k : Sink ev ε σ) : List ev → Put ε σ Unit
  | [] => pure ()
  | x :: xs => do put k x; puts k xs

end Put

/-! ### `fmt` -/

/-- `{:<8}`, `{:^8}`, `{:>8}`. (Options of the standard library's `fmt::Formatter`, passed on at src/cursor.rs:1311, :1334.) -/
inductive Align where
  | left | center | right
deriving DecidableEq, Repr

/-- The options of a formatter. (`fmt::Formatter`, passed on at src/cursor.rs:1311, :1334, src/syntax_text.rs:135; `write!` makes a
formatter with default options, src/green/node.rs:107.) -/
structure FmtSpec where
  fill : Char := ' '
  align : Option Align := none
  width : Option Nat := none
  precision : Option Nat := none
deriving DecidableEq, Repr

/-- A writer. (The one behind `fmt::Formatter`, src/api.rs:30.) -/
abbrev Writer (σ : Type) := Sink (List Char) Unit σ

section
variable {σ : Type}

/-- The text cut to the precision. (In the standard library's `Formatter::pad`, called through src/cursor.rs:1334.) -/
def FmtSpec.cut (spec : FmtSpec) (x : List Char) : List Char :=
  match spec.precision with
  | some m => x.take m
  | none => x

/-- How much of the padding comes before the text. (In the standard library's `Formatter::padding`, called through src/cursor.rs:1334.) -/
def FmtSpec.before (spec : FmtSpec) (padding : Nat) : Nat :=
  match spec.align with
  | none => 0
  | some .left => 0
  | some .center => padding / 2
  | some .right => padding

/-- `Formatter::pad` of the standard library (Rust 1.85), which is the `Display` of `str`. (Called through src/cursor.rs:1334,
src/syntax_text.rs:135, src/green/token.rs:85.) -/
def FmtSpec.pad (k : Writer σ) (spec : FmtSpec) (x : List Char) : Put Unit σ Unit :=
  match spec.width with
  | none => Put.put k (spec.cut x)
  | some w =>
    if (spec.cut x).length < w then do
      let padding := w - (spec.cut x).length
      Put.puts k (List.replicate (spec.before padding) [spec.fill])
      Put.put k (spec.cut x)
      Put.puts k (List.replicate (padding - spec.before padding) [spec.fill])
    else Put.put k (spec.cut x)

/-- `Display for SyntaxToken` — src/cursor.rs:1332-1336, src/api.rs:79-83. -/
def SToken.fmt (k : Writer σ) (spec : FmtSpec) (t : SToken) : Put Unit σ Unit := spec.pad k t.text

/-- The loop of `Display for SyntaxNode`; the first argument bounds the number of events — src/cursor.rs:1306-1311. -/
def displayLoopK (k : Writer σ) (spec : FmtSpec) : Nat → PreorderT → Put Unit σ Unit
  | 0, _ => Put.lift .diverge
  | fuel + 1, it => do
    match ← Put.lift it.step with
    | (none, _) => pure ()
    | (some (.enter (.token t)), it) => do
      t.fmt k spec
      displayLoopK k spec fuel it
    | (some _, it) => displayLoopK k spec fuel it

/-- `Display for SyntaxNode` — src/cursor.rs:1304-1313, src/api.rs:56-60. -/
def SNode.fmt (k : Writer σ) (spec : FmtSpec) (n : SNode) : Put Unit σ Unit :=
  displayLoopK k spec (2 * (GNode.subs n.green).length + 1) (PreorderT.new n)

/-- `Display for GreenToken` and `GreenTokenData`; `write!` ignores the options it is called with — src/green/token.rs:76-87. -/
def GToken.fmt (k : Writer σ) (_spec : FmtSpec) (t : GToken) : Put Unit σ Unit := FmtSpec.pad k {} t.text

mutual
/-- `Display for GreenNode` and `GreenNodeData` — src/green/node.rs:97-111. -/
def GNode.fmt (k : Writer σ) (_spec : FmtSpec) : GNode → Put Unit σ Unit
  | .mk _ _ _ cs => GChild.fmts k cs
/-- `Display for NodeOrToken` — src/utility_types.rs:52-59. -/
def GChild.fmt (k : Writer σ) (spec : FmtSpec) : GChild → Put Unit σ Unit
  | .node _ n => n.fmt k spec
  | .token _ t => t.fmt k spec
/-- The loop of `Display for GreenNodeData` — src/green/node.rs:106-109. -/
def GChild.fmts (k : Writer σ) : List GChild → Put Unit σ Unit
  | [] => pure ()
  | c :: cs => do c.fmt k {}; GChild.fmts k cs
end

/-- `|chunk| fmt::Display::fmt(chunk, f)`: the closure captures the formatter, and so the state of the writer — src/syntax_text.rs:135. -/
def FmtSpec.padChunk (k : Writer σ) (spec : FmtSpec) (s : σ) (chunk : List Char) : Res (Except (Unit × σ) σ) :=
  match spec.pad k chunk s with
  | .ok (.ok (), s) => .ok (.ok s)
  | .ok (.error e, s) => .ok (.error (e, s))
  | .panic => .panic
  | .ub => .ub
  | .diverge => .diverge

/-- `Display for SyntaxText` — src/syntax_text.rs:133-137. -/
def SyntaxText.fmt (k : Writer σ) (spec : FmtSpec) (t : SyntaxText) : Put Unit σ Unit := fun s =>
  match t.tryForEachChunk s (spec.padChunk k) with
  | .ok (.ok s) => .ok (.ok (), s)
  | .ok (.error (e, s)) => .ok (.error e, s)
  | .panic => .panic
  | .ub => .ub
  | .diverge => .diverge

/-- The pieces in which kinds, ranges and strings are written by `{:?}`.
(The `Debug` of `L::Kind`, `TextRange` and `str`, used at src/api.rs:40-51, :64-72.) -/
structure FmtEnv where
  kind : SyntaxKind → List (List Char)
  range : TextRange → List (List Char)
  str : List Char → List (List Char)

/-- The same without the division into pieces. (For `DebugEnv`, src/api.rs:40-51, :64-72.) -/
def FmtEnv.debug (env : FmtEnv) : DebugEnv :=
  ⟨fun x => (env.kind x).flatten, fun x => (env.range x).flatten, fun x => (env.str x).flatten⟩

/-- `Debug for SyntaxText` — src/syntax_text.rs:127-131. -/
def SyntaxText.fmtDebug (k : Writer σ) (env : FmtEnv) (t : SyntaxText) : Put Unit σ Unit := do
  let x ← Put.lift t.display
  Put.puts k (env.str x)

/-- `write!(f, "{:?}@{:?}", self.kind(), self.text_range())` — src/api.rs:51, :64. -/
def fmtHead (k : Writer σ) (env : FmtEnv) (kind : SyntaxKind) (range : TextRange) : Put Unit σ Unit := do
  Put.puts k (env.kind kind)
  Put.put k ['@']
  Put.puts k (env.range range)

/-- `Debug for SyntaxNode`, not alternate — src/api.rs:50-52. -/
def SNode.fmtDebug (k : Writer σ) (env : FmtEnv) (n : SNode) : Put Unit σ Unit := fmtHead k env n.kind n.textRange

/-- `Debug for SyntaxToken` — src/api.rs:62-77. -/
def SToken.fmtDebug (k : Writer σ) (env : FmtEnv) (t : SToken) : Put Unit σ Unit := do
  fmtHead k env t.kind t.textRange
  if blen t.text < 25 then do
    Put.put k [' ']
    Put.puts k (env.str t.text)
  else match [21, 22, 23, 24].find? fun idx => isCharBoundary t.text idx with
    | some idx => do
      let text ← Put.lift (Res.ofOption (bslice t.text 0 idx))
      Put.put k [' ']
      Put.puts k (env.str (text ++ " ...".toList))
    | none => Put.lift .panic

/-- `writeln!(f, "{:?}", …)` — src/api.rs:39-42. -/
def SElem.fmtLine (k : Writer σ) (env : FmtEnv) (e : SElem) : Put Unit σ Unit := do
  match e with
  | .node n => n.fmtDebug k env
  | .token t => t.fmtDebug k env
  Put.put k ['\n']

/-- The loop of the alternate form; `level` is an `i32`, modelled as an integer; the first argument bounds the number of
events — src/api.rs:32-48. -/
def dumpLoopK (k : Writer σ) (env : FmtEnv) : Nat → PreorderT → Int → Put Unit σ Unit
  | 0, _, _ => Put.lift .diverge
  | fuel + 1, it, level => do
    match ← Put.lift it.step with
    | (none, _) => if level = 0 then pure () else Put.lift .panic
    | (some (.enter e), it) => do
      Put.puts k (List.replicate level.toNat [' ', ' '])
      e.fmtLine k env
      dumpLoopK k env fuel it (level + 1)
    | (some (.leave _), it) => dumpLoopK k env fuel it (level - 1)

/-- `Debug for SyntaxNode`, alternate (`{:#?}`) — src/api.rs:30-49. -/
def SNode.fmtAlternate (k : Writer σ) (env : FmtEnv) (n : SNode) : Put Unit σ Unit :=
  dumpLoopK k env (2 * (GNode.subs n.green).length + 1) (PreorderT.new n) 0

end

/-! ### `serde` -/

/-- The calls a serializer gets. (src/serde_impls.rs:31-66.) -/
inductive SerEv where
  | beginMap
  | key (name : String)
  | str (x : List Char)
  | range (start stop : Nat)
  | beginSeq
  | endSeq
  | endMap
deriving DecidableEq, Repr

/-- A serializer. (`serde::Serializer`, src/serde_impls.rs:27-29.) -/
abbrev Serializer (ε σ : Type) := Sink SerEv ε σ

section
variable {ε σ : Type}

/-- Run `f` on each element in order. (`try_for_each`, src/serde_impls.rs:60-63.) -/
def Put.each {α : Type} (f : α → Put ε σ Unit) : List α → Put ε σ Unit
  | [] => pure ()
  | a :: as => do f a; Put.each f as

/-- `Serialize` for tokens (src/serde_impls.rs:39-50), nodes (26-37) and `Children` (54-66); `fuel` bounds the recursion depth. -/
def serElemK (k : Serializer ε σ) (dk : SyntaxKind → List Char) : Nat → SElem → Put ε σ Unit
  | 0, _ => Put.lift .diverge
  | _ + 1, .token t => do
    Put.put k .beginMap
    Put.put k (.key "kind")
    Put.put k (.str (dk t.kind))
    Put.put k (.key "text_range")
    Put.put k (.range t.textRange.start t.textRange.stop)
    Put.put k (.key "text")
    Put.put k (.str t.text)
    Put.put k .endMap
  | fuel + 1, .node n => do
    Put.put k .beginMap
    Put.put k (.key "kind")
    Put.put k (.str (dk n.kind))
    Put.put k (.key "text_range")
    Put.put k (.range n.textRange.start n.textRange.stop)
    Put.put k (.key "children")
    Put.put k .beginSeq
    Put.each (serElemK k dk fuel) n.childrenWithTokens
    Put.put k .endSeq
    Put.put k .endMap

/-- One element, src/serde_impls.rs:26-66. -/
def SElem.serializeTo (k : Serializer ε σ) (dk : SyntaxKind → List Char) (e : SElem) : Put ε σ Unit :=
  serElemK k dk e.green.subs.length e

end
end Rowan
