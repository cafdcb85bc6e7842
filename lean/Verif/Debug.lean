import Verif.Cursor
import Verif.Builder
/-!
# Formatting — model of the `Display` and `Debug` implementations

Output is collected in a list of characters; writing does not fail here (writers that fail: `Verif/Fmt.lean`).  The `Debug` output of
the user's kind type, of `TextRange` and of `str` are parameters.  A `for` loop over a preorder walk
is modelled as: collect all events (bounded by the number of elements), then go through them.
-/
namespace Rowan

/-- All remaining events of a walk; `k` bounds the number of calls.
(src/cursor.rs:1561-1585, in the loop of src/api.rs:33-45.) -/
def PreorderT.collect : Nat → PreorderT → Res (List (WalkEvent SElem))
  | 0, _ => .diverge
  | k + 1, it => do
    match ← it.step with
    | (none, _) => .ok []
    | (some ev, it) => do
      let evs ← PreorderT.collect k it
      .ok (ev :: evs)

/-- The events of `node.preorder_with_tokens()`. (src/cursor.rs:875-877.) -/
def SNode.walkEvents (n : SNode) : Res (List (WalkEvent SElem)) :=
  PreorderT.collect (2 * (GNode.subs n.green).length + 1) (PreorderT.new n)

/-- `Display for SyntaxToken` — src/cursor.rs:1332-1336, src/api.rs:79-83. -/
def SToken.display (t : SToken) : List Char := t.text

/-- `Display for SyntaxNode` — src/cursor.rs:1304-1313, src/api.rs:56-60. -/
def SNode.display (n : SNode) : Res (List Char) := do
  let evs ← n.walkEvents
  .ok (evs.flatMap fun
    | .enter (.token t) => t.display
    | _ => [])

/-- How kinds, ranges and strings are shown by `{:?}`.
(The `Debug` of `L::Kind`, `TextRange` and `str`, used at src/api.rs:40-51, :64-72.) -/
structure DebugEnv where
  kind : SyntaxKind → List Char
  range : TextRange → List Char
  str : List Char → List Char

/-- `Debug for SyntaxNode`, not alternate — src/api.rs:50-52. -/
def SNode.debug (env : DebugEnv) (n : SNode) : List Char :=
  env.kind n.kind ++ '@' :: env.range n.textRange

/-- `Debug for SyntaxToken`; `unreachable!()` and the slice panic are explicit —
src/api.rs:62-77. -/
def SToken.debug (env : DebugEnv) (t : SToken) : Res (List Char) :=
  let head := env.kind t.kind ++ '@' :: env.range t.textRange
  if blen t.text < 25 then .ok (head ++ ' ' :: env.str t.text)
  else match [21, 22, 23, 24].find? fun idx => isCharBoundary t.text idx with
    | some idx => do
      let text ← Res.ofOption (bslice t.text 0 idx)
      .ok (head ++ ' ' :: env.str (text ++ " ...".toList))
    | none => .panic

/-- The `{:?}` of one element, src/api.rs:39-42. -/
def SElem.debug (env : DebugEnv) : SElem → Res (List Char)
  | .node n => .ok (n.debug env)
  | .token t => t.debug env

/-- The loop of the alternate form: `level` is an `i32`, modelled as an integer —
src/api.rs:32-48. -/
def dumpLoop (env : DebugEnv) : List (WalkEvent SElem) → Int → List Char → Res (List Char)
  | [], level, out => if level = 0 then .ok out else .panic
  | .enter e :: evs, level, out => do
    let line ← e.debug env
    dumpLoop env evs (level + 1)
      (out ++ (List.replicate level.toNat [' ', ' ']).flatten ++ line ++ ['\n'])
  | .leave _ :: evs, level, out => dumpLoop env evs (level - 1) out

/-- `Debug for SyntaxNode`, alternate (`{:#?}`) — src/api.rs:30-49. -/
def SNode.debugAlternate (env : DebugEnv) (n : SNode) : Res (List Char) := do
  let evs ← n.walkEvents
  dumpLoop env evs 0 []

end Rowan
