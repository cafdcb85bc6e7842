import Verif.Cursor
import Verif.Builder
/-!
# Position queries — model of `token_at_offset`, `covering_element`, `child_or_token_at_range`,
`first_token`, `last_token`, `next_token`, `prev_token`

Recursions that go down the tree carry a step bound (`Res.diverge` when it is used up).  The bound
used by the API functions is the number of elements below the node.
-/
namespace Rowan

/-! ### Binary search -/

/-- Outcome of `slice::binary_search_by`. (Used at src/green/node.rs:148-153.) -/
inductive Search where
  | ok (i : Nat)
  | err (i : Nat)
deriving DecidableEq, Repr

/-- A binary search over positions `0 .. n-1`, given the comparison result at each position.
(Used at src/green/node.rs:148-153.) -/
abbrev BinarySearch := Nat → (Nat → Ordering) → Search

/-- The documented contract of `slice::binary_search_by`: on a sequence that is sorted (first `Less`,
then `Equal`, then `Greater`) it returns some `Equal` position, or, if there is none, the place where
one could be inserted. (Used at src/green/node.rs:148-153.) -/
def Conforming (bs : BinarySearch) : Prop :=
  ∀ n f, (∀ i j, i ≤ j → j < n → (f i).ctorIdx ≤ (f j).ctorIdx) →
    match bs n f with
    | .ok i => i < n ∧ f i = .eq
    | .err i => i ≤ n ∧ (∀ j, j < i → f j = .lt) ∧ (∀ j, i ≤ j → j < n → f j = .gt)

/-- The loop of `slice::binary_search_by` in the standard library (Rust 1.85); `k` bounds the number
of rounds. (Called at src/green/node.rs:148.) -/
def stdSearchLoop (f : Nat → Ordering) : Nat → Nat → Nat → Nat
  | 0, base, _ => base
  | k + 1, base, size =>
    if size > 1 then
      let half := size / 2
      let mid := base + half
      stdSearchLoop f k (if f mid = .gt then base else mid) (size - half)
    else base

/-- `slice::binary_search_by` in the standard library (Rust 1.85). (Called at src/green/node.rs:148.) -/
def stdSearch : BinarySearch := fun n f =>
  if n = 0 then .err 0
  else
    let base := stdSearchLoop f n 0 n
    match f base with
    | .eq => .ok base
    | .lt => .err (base + 1)
    | .gt => .err base

/-- `GreenNodeData::child_at_range` — src/green/node.rs:142-156. -/
def GNode.childAtRange (bs : BinarySearch) (n : GNode) (rel : TextRange) :
    Option (Nat × Nat × GElem) := do
  let cmp := fun i => match n.slice[i]? with
    | some c => TextRange.ordering c.relRange rel
    | none => .eq
  let idx := match bs n.slice.length cmp with
    | .ok i => i
    | .err i => i - 1
  let child ← (n.slice[idx]?).filter fun c => c.relRange.containsRange rel
  some (idx, child.relOffset, child.asRef)

/-- `child_or_token_at_range`; `range - offset` panics on underflow — src/cursor.rs:935-940. -/
def SNode.childOrTokenAtRange (bs : BinarySearch) (n : SNode) (range : TextRange) :
    Res (Option SElem) := do
  let rel ← Res.ofOption (range.sub? n.offset)
  .ok ((n.green.childAtRange bs rel).map fun (index, relOffset, green) =>
    SElem.new green n index (n.offset + relOffset))

/-- The loop of `covering_element` — src/cursor.rs:918-932. -/
def coverLoop (bs : BinarySearch) (range : TextRange) : Nat → SElem → Res SElem
  | 0, _ => .diverge
  | k + 1, res =>
    if !res.textRange.containsRange range then .panic
    else match res with
      | .token t => .ok (.token t)
      | .node n => do
        match ← n.childOrTokenAtRange bs range with
        | some it => coverLoop bs range k it
        | none => .ok (.node n)

/-- `covering_element` — src/cursor.rs:916-933. -/
def SNode.coveringElement (bs : BinarySearch) (n : SNode) (range : TextRange) : Res SElem :=
  coverLoop bs range (GNode.subs n.green).length (.node n)

/-! ### `token_at_offset` -/

/-- `TokenAtOffset` — src/utility_types.rs:87-94. -/
inductive TokenAtOffset (α : Type) where
  | none
  | single (a : α)
  | between (a b : α)
deriving DecidableEq, Repr

/-- The elements a `for` loop over an element iterator sees; `k` bounds the number of calls.
(src/cursor.rs:1448-1460, in a loop such as :894-902.) -/
def ElemChildren.collect (unshared : Bool) : Nat → ElemChildren → List SElem
  | 0, _ => []
  | k + 1, it =>
    match it.step unshared with
    | (some e, it') => e :: ElemChildren.collect unshared k it'
    | (none, _) => []

/-- The elements yielded by `children_with_tokens()` — src/cursor.rs:681-683, 1448-1460.  (Whether
the handle inside the iterator is advanced in place makes no difference, C13.) -/
def SNode.childrenWithTokens (n : SNode) : List SElem :=
  ElemChildren.collect false (n.green.slice.length + 1) { parent := n }

/-- `SyntaxNode::token_at_offset` and `SyntaxElement::token_at_offset`; `unwrap`, `assert!` and
`unreachable!` are panics — src/cursor.rs:879-914, 1260-1266. -/
def tokenAtOffsetLoop (offset : Nat) : Nat → SElem → Res (TokenAtOffset SToken)
  | 0, _ => .diverge
  | k + 1, e =>
    if !(decide (e.textRange.start ≤ offset) && decide (offset ≤ e.textRange.stop)) then .panic
    else match e with
      | .token t => .ok (.single t)
      | .node n =>
        if n.textRange.isEmpty then .ok .none
        else
          let children := n.childrenWithTokens.filter fun c =>
            !c.textRange.isEmpty &&
              (decide (c.textRange.start ≤ offset) && decide (offset ≤ c.textRange.stop))
          match children with
          | [] => .panic
          | [left] => tokenAtOffsetLoop offset k left
          | [left, right] => do
            let a ← tokenAtOffsetLoop offset k left
            let b ← tokenAtOffsetLoop offset k right
            match a, b with
            | .single l, .single r => .ok (.between l r)
            | _, _ => .panic
          | _ => .panic

/-- `SyntaxNode::token_at_offset` — src/cursor.rs:879-914. -/
def SNode.tokenAtOffset (n : SNode) (offset : Nat) : Res (TokenAtOffset SToken) :=
  tokenAtOffsetLoop offset (GNode.subs n.green).length (.node n)

/-! ### First, last, next and previous token -/

/-- `first_token` of a node or element — src/cursor.rs:826-828, 1167-1172. -/
def firstTokenLoop : Nat → SElem → Res (Option SToken)
  | 0, _ => .diverge
  | k + 1, e =>
    match e with
    | .token t => .ok (some t)
    | .node n =>
      match n.firstChildOrToken with
      | none => .ok none
      | some c => firstTokenLoop k c

/-- `last_token` — src/cursor.rs:829-831, 1173-1178. -/
def lastTokenLoop : Nat → SElem → Res (Option SToken)
  | 0, _ => .diverge
  | k + 1, e =>
    match e with
    | .token t => .ok (some t)
    | .node n =>
      match n.lastChildOrToken with
      | none => .ok none
      | some c => lastTokenLoop k c

/-- `SyntaxElement::first_token`, src/cursor.rs:1167-1172. -/
def SElem.firstToken (e : SElem) : Res (Option SToken) := firstTokenLoop e.green.subs.length e
/-- `SyntaxElement::last_token`, src/cursor.rs:1173-1178. -/
def SElem.lastToken (e : SElem) : Res (Option SToken) := lastTokenLoop e.green.subs.length e
/-- `SyntaxNode::first_token`, src/cursor.rs:826-828. -/
def SNode.firstToken (n : SNode) : Res (Option SToken) := SElem.firstToken (.node n)
/-- `SyntaxNode::last_token`, src/cursor.rs:829-831. -/
def SNode.lastToken (n : SNode) : Res (Option SToken) := SElem.lastToken (.node n)

/-- `next_token` — src/cursor.rs:1088-1096. -/
def SToken.nextToken (t : SToken) : Res (Option SToken) :=
  match t.nextSiblingOrToken with
  | some e => e.firstToken
  | none =>
    match t.ancestors.findSome? SNode.nextSiblingOrToken with
    | some e => e.firstToken
    | none => .ok none

/-- `prev_token` — src/cursor.rs:1097-1105. -/
def SToken.prevToken (t : SToken) : Res (Option SToken) :=
  match t.prevSiblingOrToken with
  | some e => e.lastToken
  | none =>
    match t.ancestors.findSome? SNode.prevSiblingOrToken with
    | some e => e.lastToken
    | none => .ok none

end Rowan
