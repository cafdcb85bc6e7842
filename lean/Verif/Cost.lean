import Verif.Ast
/-!
# Running times

The documentation promises running times: `child_or_token_at_range` is `O(log(N))` in the number of children
(src/api.rs:270-271), `try_to_node` linear in the depth and logarithmic in the width of the tree (src/ast.rs:95-97), and
`replace_with` proportional to the depth (src/api.rs:105-107, 307-309).

This file repeats the functions concerned, with a counter.  The functions without counters are in `Verif/Position.lean`,
`Verif/Ast.lean` and `Verif/Cursor.lean`; `Verif/Props/Cost.lean` shows that the results are the same.  The handles are those of
immutable trees, where making a handle and asking for its kind and its range take constant time (src/cursor.rs:227-282, 346-369).
-/
namespace Rowan

/-- An outcome, and the number of steps made; modelling vocabulary, not in src/. -/
structure Steps (α : Type) where
  val : Res α
  steps : Nat

namespace Steps
variable {α β : Type}

/-- Sequencing of statements; modelling vocabulary, not in src/. -/
protected def bind (x : Steps α) (f : α → Steps β) : Steps β :=
  match x.val with
  | .ok a => ⟨(f a).val, x.steps + (f a).steps⟩
  | .panic => ⟨.panic, x.steps⟩
  | .ub => ⟨.ub, x.steps⟩
  | .diverge => ⟨.diverge, x.steps⟩

instance : Monad Steps where
  pure a := ⟨.ok a, 0⟩
  bind := Steps.bind

/-- Count `n` steps; modelling vocabulary, not in src/. -/
def tick (n : Nat) : Steps Unit := ⟨.ok (), n⟩
/-- An outcome that takes no steps; modelling vocabulary, not in src/. -/
def lift (x : Res α) : Steps α := ⟨x, 0⟩

end Steps

/-- A binary search that counts the calls of the comparison function. (Used at src/green/node.rs:148-153.) -/
abbrev CountedSearch := Nat → (Nat → Ordering) → Search × Nat

/-- Without the counter. (Used at src/green/node.rs:148-153.) -/
def CountedSearch.plain (cs : CountedSearch) : BinarySearch := fun n f => (cs n f).1

/-- The loop of `slice::binary_search_by` in the standard library (Rust 1.85), with the number of comparisons.
(Called at src/green/node.rs:148.) -/
def stdSearchLoopC (f : Nat → Ordering) : Nat → Nat → Nat → Nat × Nat
  | 0, base, _ => (base, 0)
  | k + 1, base, size =>
    if size > 1 then
      let half := size / 2
      let mid := base + half
      let (b, c) := stdSearchLoopC f k (if f mid = .gt then base else mid) (size - half)
      (b, c + 1)
    else (base, 0)

/-- `slice::binary_search_by` in the standard library (Rust 1.85), with the number of comparisons.
(Called at src/green/node.rs:148.) -/
def stdSearchC : CountedSearch := fun n f =>
  if n = 0 then (.err 0, 0)
  else
    let (base, c) := stdSearchLoopC f n 0 n
    (match f base with
      | .eq => .ok base
      | .lt => .err (base + 1)
      | .gt => .err base, c + 1)

/-- `GreenNodeData::child_at_range`, with the number of comparisons — src/green/node.rs:142-156. -/
def GNode.childAtRangeC (cs : CountedSearch) (n : GNode) (rel : TextRange) :
    Option (Nat × Nat × GElem) × Nat :=
  let cmp := fun i => match n.slice[i]? with
    | some c => TextRange.ordering c.relRange rel
    | none => .eq
  let (res, c) := cs n.slice.length cmp
  let idx := match res with
    | .ok i => i
    | .err i => i - 1
  (((n.slice[idx]?).filter fun c => c.relRange.containsRange rel).map fun child => (idx, child.relOffset, child.asRef), c)

/-- `child_or_token_at_range`; a step is a comparison or a handle made — src/cursor.rs:935-940. -/
def SNode.childOrTokenAtRangeC (cs : CountedSearch) (n : SNode) (range : TextRange) : Steps (Option SElem) := do
  let rel ← Steps.lift (Res.ofOption (range.sub? n.offset))
  Steps.tick (n.green.childAtRangeC cs rel).2
  match (n.green.childAtRangeC cs rel).1 with
  | none => pure none
  | some (index, relOffset, green) => do
    Steps.tick 1
    pure (some (SElem.new green n index (n.offset + relOffset)))

/-- The loop of `covering_element`; a round is a step as well — src/cursor.rs:918-932. -/
def coverLoopC (cs : CountedSearch) (range : TextRange) : Nat → SElem → Steps SElem
  | 0, _ => Steps.lift .diverge
  | k + 1, res => do
    Steps.tick 1
    if !res.textRange.containsRange range then Steps.lift .panic
    else match res with
      | .token t => pure (.token t)
      | .node n => do
        match ← n.childOrTokenAtRangeC cs range with
        | some it => coverLoopC cs range k it
        | none => pure (.node n)

/-- `covering_element` — src/cursor.rs:916-933. -/
def SNode.coveringElementC (cs : CountedSearch) (n : SNode) (range : TextRange) : Steps SElem :=
  coverLoopC cs range (GNode.subs n.green).length (.node n)

section
variable [Lang]

/-- The search of `try_to_node`; an item of `successors` is a step as well — src/ast.rs:103-104. -/
def SyntaxNodePtr.findLoopC (cs : CountedSearch) (ptr : SyntaxNodePtr) : Nat → SNode → Steps (Option SNode)
  | 0, _ => Steps.lift .diverge
  | k + 1, n => do
    Steps.tick 1
    let next ← n.childOrTokenAtRangeC cs ptr.range
    if n.textRange = ptr.range ∧ n.tkind = ptr.kind then pure (some n)
    else match next.bind NodeOrToken.asNode with
      | none => pure none
      | some c => findLoopC cs ptr k c

/-- `try_to_node` — src/ast.rs:98-105. -/
def SyntaxNodePtr.tryToNodeC (cs : CountedSearch) (ptr : SyntaxNodePtr) (root : SNode) : Steps (Option SNode) :=
  if !root.mutable then
    if root.parent.isSome then pure none
    else findLoopC cs ptr (GNode.subs root.green).length root
  else Steps.lift .panic
end

/-- What `replace_with` does: how many green nodes it makes, and how many children it copies into them (each costs
an increment of a reference count, src/green/node.rs:159-165). -/
structure Work where
  nodes : Nat
  copies : Nat
deriving DecidableEq, Repr

/-- `SyntaxNode::replace_with`, with the work — src/cursor.rs:614-625. -/
def SNode.replaceWithC (next : Nat) (n : SNode) (g : GNode) (w : Work) : Res (GNode × Work) :=
  match n with
  | root _ _ old => if old.kind == g.kind then .ok (g, w) else .panic
  | child p i _ old =>
    if old.kind == g.kind then
      p.replaceWithC (next + 1) (p.green.replaceChild next i (.node g)) ⟨w.nodes + 1, w.copies + p.green.slice.length⟩
    else .panic

/-- `SyntaxToken::replace_with`, with the work — src/cursor.rs:1007-1014. -/
def SToken.replaceWithC (next : Nat) (t : SToken) (g : GToken) (w : Work) : Res (GNode × Work) :=
  if t.kind == g.kind then
    match t.parent with
    | none => .panic
    | some p => p.replaceWithC (next + 1) (p.green.replaceChild next t.index (.token g))
        ⟨w.nodes + 1, w.copies + p.green.slice.length⟩
  else .panic

end Rowan
