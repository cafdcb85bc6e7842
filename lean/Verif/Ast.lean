import Verif.Api
/-!
# Typed AST layer — model of src/ast.rs

Kinds are those of the user's `Language` (`Lang.Kind`); different raw kinds may be mapped to one of them.
-/
namespace Rowan
variable [Lang]

/-- `SyntaxNodePtr`; `kind()` and `text_range()` read the fields — src/ast.rs:63-67, 115-123.  An `AstPtr` is its raw
pointer: `syntax_node_ptr`, `clone`, `eq` and `From` are the identity on it — src/ast.rs:132-134, 157-159, 171-198. -/
structure SyntaxNodePtr where
  kind : Lang.Kind
  range : TextRange
deriving DecidableEq

namespace SyntaxNodePtr

/-- src/ast.rs:73-76. -/
def new (n : SNode) : Res SyntaxNodePtr :=
  if !n.mutable then .ok ⟨n.tkind, n.textRange⟩ else .panic

/-- `successors(Some(root), child_at_range).find(..)`.  `std::iter::successors` computes the
successor of an item before handing out the item, so the closure runs first; `k` bounds the number of
items — src/ast.rs:103-104. -/
def findLoop (bs : BinarySearch) (ptr : SyntaxNodePtr) : Nat → SNode → Res (Option SNode)
  | 0, _ => .diverge
  | k + 1, n => do
    let next ← n.childOrTokenAtRange bs ptr.range
    if n.textRange = ptr.range ∧ n.tkind = ptr.kind then .ok (some n)
    else match next.bind NodeOrToken.asNode with
      | none => .ok none
      | some c => findLoop bs ptr k c

/-- `try_to_node` — src/ast.rs:98-105. -/
def tryToNode (bs : BinarySearch) (ptr : SyntaxNodePtr) (root : SNode) : Res (Option SNode) :=
  if !root.mutable then
    if root.parent.isSome then .ok none
    else findLoop bs ptr (GNode.subs root.green).length root
  else .panic

/-- `to_node` — src/ast.rs:80-82. -/
def toNode (bs : BinarySearch) (ptr : SyntaxNodePtr) (root : SNode) : Res SNode := do
  Res.ofOption (← ptr.tryToNode bs root)

end SyntaxNodePtr

/-- An implementation of the trait `AstNode` — src/ast.rs:29-55. -/
structure AstImpl (N : Type) where
  canCast : Lang.Kind → Bool
  cast : SNode → Option N
  syn : N → SNode

namespace AstImpl
variable {N : Type} (A : AstImpl N)

/-- `AstNode::clone_for_update` — src/ast.rs:42-47. -/
def cloneForUpdate (x : N) : Res N := do
  Res.ofOption (A.cast (← (A.syn x).cloneForUpdate))

/-- `AstNode::clone_subtree` — src/ast.rs:49-54. -/
def cloneSubtree (x : N) : Res N := Res.ofOption (A.cast (A.syn x).cloneSubtree)

/-- `SyntaxNodePtr::cast` and `AstPtr::cast`: an `AstPtr` is its raw pointer — src/ast.rs:107-113,
162-168. -/
def castPtr (ptr : SyntaxNodePtr) : Option SyntaxNodePtr :=
  if !A.canCast ptr.kind then none else some ptr

/-- `AstPtr::new` — src/ast.rs:140-142. -/
def ptrNew (x : N) : Res SyntaxNodePtr := SyntaxNodePtr.new (A.syn x)

/-- `AstPtr::try_to_node` — src/ast.rs:152-155. -/
def ptrTryToNode (bs : BinarySearch) (ptr : SyntaxNodePtr) (root : SNode) : Res (Option N) := do
  match ← ptr.tryToNode bs root with
  | none => .ok none
  | some n => .ok (A.cast n)

/-- `AstPtr::to_node` — src/ast.rs:146-148. -/
def ptrToNode (bs : BinarySearch) (ptr : SyntaxNodePtr) (root : SNode) : Res N := do
  Res.ofOption (← A.ptrTryToNode bs ptr root)

/-- `Iterator::find_map` on `SyntaxNodeChildren`, with the iterator's state afterwards; `k` bounds the
number of calls of `next` (`none` in the result: bound used up).  `u` says for each call whether the
iterator's handle was unshared (makes no difference, C13). (Standard library, used at src/ast.rs:217-219, :227.) -/
def findMap (u : Nat → Bool) : Nat → NodeChildren → Res (Option N × NodeChildren)
  | 0, _ => .diverge
  | k + 1, it =>
    match it.step (u k) with
    | (none, it) => .ok (none, it)
    | (some n, it) =>
      match A.cast n with
      | some x => .ok (some x, it)
      | none => findMap u k it

/-- `support::child` — src/ast.rs:226-228. -/
def child (u : Nat → Bool) (parent : SNode) : Res (Option N) := do
  let (x, _) ← A.findMap u (parent.green.slice.length + 1) { parent := parent }
  .ok x

/-- The iterator `AstChildren` after `i` calls of `next`, and what each call returns —
src/ast.rs:204-220, 230-232. -/
def childrenAfter (u : Nat → Nat → Bool) (parent : SNode) : Nat → Res NodeChildren
  | 0 => .ok { parent := parent }
  | i + 1 => do
    let it ← childrenAfter u parent i
    let (_, it) ← A.findMap (u i) (parent.green.slice.length + 1) it
    .ok it
/-- The `i`-th call of `next` of `AstChildren`, src/ast.rs:215-220. -/
def childrenNth (u : Nat → Nat → Bool) (parent : SNode) (i : Nat) : Res (Option N) := do
  let it ← A.childrenAfter u parent i
  let (x, _) ← A.findMap (u i) (parent.green.slice.length + 1) it
  .ok x

end AstImpl

/-- `support::token` — src/ast.rs:234-236. -/
def supportToken (parent : SNode) (kind : Lang.Kind) : Option SToken :=
  (parent.childrenWithTokens.filterMap NodeOrToken.asToken).find? fun t => t.tkind = kind

end Rowan
