import Verif.Position
/-!
# The typed API — model of src/api.rs

`SyntaxNode<L>` and `SyntaxToken<L>` have one field, the cursor handle (src/api.rs:15-25); they are modelled by that
handle.  Most functions of src/api.rs call the function of the same name in src/cursor.rs and wrap the result; they are in
`Typed.lean`.  What remains is the mapping of kinds, the matchers on typed kinds, and `SyntaxElement::ancestors`.

`kind_from_raw` is user code.  It may be any function; a panic in it is not modelled.
-/
namespace Rowan

/-- The trait `Language`; `kind_to_raw` is not used by the library — src/api.rs:8-13. -/
class Lang where
  Kind : Type
  fromRaw : SyntaxKind → Kind
  decEq : DecidableEq Kind

instance [Lang] : DecidableEq Lang.Kind := Lang.decEq

variable [Lang]

/-- `SyntaxNode::kind` — src/api.rs:112-114. -/
def SNode.tkind (n : SNode) : Lang.Kind := Lang.fromRaw n.kind
/-- `SyntaxToken::kind` — src/api.rs:314-316. -/
def SToken.tkind (t : SToken) : Lang.Kind := Lang.fromRaw t.kind
/-- `SyntaxElement::kind` — src/api.rs:392-397. -/
def SElem.tkind : SElem → Lang.Kind
  | .node n => n.tkind
  | .token t => t.tkind

/-- The closure around a typed matcher — src/api.rs:154, 171, 188, 205, 449, 471. -/
def rawMatcher (m : Lang.Kind → Bool) (raw : SyntaxKind) : Bool := m (Lang.fromRaw raw)

/-- src/api.rs:152-156. -/
def SNode.firstChildByKindT (m : Lang.Kind → Bool) (n : SNode) : Option SNode := n.firstChildByKind (rawMatcher m)
/-- src/api.rs:166-173. -/
def SNode.firstChildOrTokenByKindT (m : Lang.Kind → Bool) (n : SNode) : Option SElem := n.firstChildOrTokenByKind (rawMatcher m)
/-- src/api.rs:183-190. -/
def SNode.nextSiblingByKindT (m : Lang.Kind → Bool) (n : SNode) : Option SNode := n.nextSiblingByKind (rawMatcher m)
/-- src/api.rs:200-207. -/
def SNode.nextSiblingOrTokenByKindT (m : Lang.Kind → Bool) (n : SNode) : Option SElem := n.nextSiblingOrTokenByKind (rawMatcher m)
/-- `SyntaxNodeChildren::by_kind`: the iterator it starts with — src/api.rs:448-450. -/
def NodeChildren.byKindT (m : Lang.Kind → Bool) (it : NodeChildren) : Option SNode := it.byKind (rawMatcher m)
/-- The `i`-th call of `next` on it. (src/api.rs:447-451.) -/
def byKindNthT (m : Lang.Kind → Bool) (first : Option SNode) (i : Nat) : Option SNode := byKindNth (rawMatcher m) first i
/-- `SyntaxElementChildren::by_kind` — src/api.rs:467-472. -/
def ElemChildren.byKindT (m : Lang.Kind → Bool) (it : ElemChildren) : Option SElem := it.byKind (rawMatcher m)
/-- The `i`-th call of `next`, src/api.rs:466-473. -/
def elemByKindNthT (m : Lang.Kind → Bool) (first : Option SElem) (i : Nat) : Option SElem := elemByKindNth (rawMatcher m) first i

omit [Lang] in
/-- `SyntaxElement::ancestors`: the `i`-th item — src/api.rs:406-412. -/
def SElem.ancestorsNth (e : SElem) (i : Nat) : Option SNode :=
  let first := match e with
    | .node n => some n
    | .token t => t.parent
  successors SNode.parent first i

end Rowan
