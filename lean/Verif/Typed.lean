import Verif.Api
import Verif.Serde
import Verif.SyntaxText
import Verif.Spec.Walk
/-!
# The wrappers of the typed API — model of src/api.rs:15-27, 85-551

`SyntaxNode<L>` and `SyntaxToken<L>` wrap a cursor handle.  Here each has its own type, and every function of the
`impl` blocks is written out as the call it makes on the wrapped handle.  The language `L` is the ambient `Lang`.

Not here: `detach` and `splice_children` (src/api.rs:292-303, 372-374, 426-431), which change a tree and are modelled on
the heap (`Heap.lean`, `EditProg.lean`), and the `Debug` and `Display` instances (`Debug.lean`).
-/
namespace Rowan

/-- `SyntaxNode<L>`; `PhantomData` has no content — src/api.rs:15-19. -/
structure TNode where
  raw : SNode

/-- `SyntaxToken<L>` — src/api.rs:21-25. -/
structure TToken where
  raw : SToken

/-- `SyntaxElement<L>` — src/api.rs:27. -/
abbrev TElem := NodeOrToken TNode TToken

/-! ### Conversions -/

/-- `From<cursor::SyntaxNode> for SyntaxNode<L>` — src/api.rs:511-515. -/
def TNode.fromRaw (raw : SNode) : TNode := ⟨raw⟩
/-- `From<SyntaxNode<L>> for cursor::SyntaxNode` — src/api.rs:517-521. -/
def TNode.intoRaw (n : TNode) : SNode := n.raw
/-- `From<cursor::SyntaxToken> for SyntaxToken<L>` — src/api.rs:523-527. -/
def TToken.fromRaw (raw : SToken) : TToken := ⟨raw⟩
/-- `From<SyntaxToken<L>> for cursor::SyntaxToken` — src/api.rs:529-533. -/
def TToken.intoRaw (t : TToken) : SToken := t.raw
/-- `From<cursor::SyntaxElement> for SyntaxElement<L>` — src/api.rs:535-542. -/
def TElem.fromRaw : SElem → TElem
  | .node it => .node (TNode.fromRaw it)
  | .token it => .token (TToken.fromRaw it)
/-- `From<SyntaxElement<L>> for cursor::SyntaxElement` — src/api.rs:544-551. -/
def TElem.intoRaw : TElem → SElem
  | .node it => .node it.intoRaw
  | .token it => .token it.intoRaw
/-- `From<SyntaxNode<L>> for SyntaxElement<L>` — src/api.rs:85-89. -/
def TElem.fromNode (node : TNode) : TElem := .node node
/-- `From<SyntaxToken<L>> for SyntaxElement<L>` — src/api.rs:91-95. -/
def TElem.fromToken (token : TToken) : TElem := .token token

/-! ### Iterators -/

/-- `SyntaxNodeChildren<L>` — src/api.rs:434-438. -/
structure TNodeChildren where
  raw : NodeChildren
/-- `next`; `unshared` as in `NodeChildren.step` — src/api.rs:440-445. -/
def TNodeChildren.step (unshared : Bool) (it : TNodeChildren) : Option TNode × TNodeChildren :=
  ((it.raw.step unshared).1.map TNode.fromRaw, ⟨(it.raw.step unshared).2⟩)
/-- The iterator after `k` calls of `next`, src/api.rs:440-445. -/
def TNodeChildren.after (u : Nat → Bool) (it : TNodeChildren) : Nat → TNodeChildren
  | 0 => it
  | k + 1 => ((it.after u k).step (u k)).2
/-- What call number `k` of `next` returns, src/api.rs:440-445. -/
def TNodeChildren.nth (u : Nat → Bool) (it : TNodeChildren) (k : Nat) : Option TNode := ((it.after u k).step (u k)).1

/-- `SyntaxElementChildren<L>` — src/api.rs:453-457. -/
structure TElemChildren where
  raw : ElemChildren
/-- `next` — src/api.rs:459-464. -/
def TElemChildren.step (unshared : Bool) (it : TElemChildren) : Option TElem × TElemChildren :=
  ((it.raw.step unshared).1.map TElem.fromRaw, ⟨(it.raw.step unshared).2⟩)
/-- The iterator after `k` calls of `next`, src/api.rs:459-464. -/
def TElemChildren.after (u : Nat → Bool) (it : TElemChildren) : Nat → TElemChildren
  | 0 => it
  | k + 1 => ((it.after u k).step (u k)).2
/-- What call number `k` of `next` returns, src/api.rs:459-464. -/
def TElemChildren.nth (u : Nat → Bool) (it : TElemChildren) (k : Nat) : Option TElem := ((it.after u k).step (u k)).1

/-- `Preorder<L>` — src/api.rs:475-478. -/
structure TPreorder where
  raw : Preorder
/-- `skip_subtree` — src/api.rs:480-484. -/
def TPreorder.skipSubtree (it : TPreorder) : TPreorder := ⟨it.raw.skipSubtree⟩
/-- `next` — src/api.rs:486-491. -/
def TPreorder.step (it : TPreorder) : Res (Option (WalkEvent TNode) × TPreorder) := do
  let (ev, raw) ← it.raw.step
  .ok (ev.map (·.map TNode.fromRaw), ⟨raw⟩)

/-- `PreorderWithTokens<L>` — src/api.rs:493-496. -/
structure TPreorderT where
  raw : PreorderT
/-- `skip_subtree` — src/api.rs:498-502. -/
def TPreorderT.skipSubtree (it : TPreorderT) : TPreorderT := ⟨it.raw.skipSubtree⟩
/-- `next` — src/api.rs:504-509. -/
def TPreorderT.step (it : TPreorderT) : Res (Option (WalkEvent TElem) × TPreorderT) := do
  let (ev, raw) ← it.raw.step
  .ok (ev.map (·.map TElem.fromRaw), ⟨raw⟩)

/-! ### Nodes -/

namespace TNode
variable [Lang]

/-- src/api.rs:98-100. -/
def newRoot (green : GNode) : TNode := fromRaw (SNode.newRoot green)
/-- src/api.rs:101-103. -/
def newRootMut (green : GNode) : TNode := fromRaw (SNode.newRootMut green)
/-- `next` supplies addresses — src/api.rs:108-110. -/
def replaceWith (next : Nat) (n : TNode) (replacement : GNode) : Res GNode := n.raw.replaceWith next replacement
/-- src/api.rs:112-114. -/
def kind (n : TNode) : Lang.Kind := Lang.fromRaw n.raw.kind
/-- src/api.rs:116-118. -/
def textRange (n : TNode) : TextRange := n.raw.textRange
/-- src/api.rs:120-122. -/
def index (n : TNode) : Nat := n.raw.index
/-- src/api.rs:124-126. -/
def text (n : TNode) : SyntaxText := SyntaxText.new n.raw
/-- src/api.rs:128-130. -/
def green (n : TNode) : GNode := n.raw.green
/-- src/api.rs:132-134. -/
def parent (n : TNode) : Option TNode := n.raw.parent.map fromRaw
/-- src/api.rs:136-138. -/
def ancestors (n : TNode) : List TNode := n.raw.ancestors.map fromRaw
/-- src/api.rs:140-142. -/
def children (n : TNode) : TNodeChildren := ⟨{ parent := n.raw }⟩
/-- src/api.rs:144-146. -/
def childrenWithTokens (n : TNode) : TElemChildren := ⟨{ parent := n.raw }⟩
/-- src/api.rs:148-150. -/
def firstChild (n : TNode) : Option TNode := n.raw.firstChild.map fromRaw
/-- src/api.rs:152-156. -/
def firstChildByKind (matcher : Lang.Kind → Bool) (n : TNode) : Option TNode :=
  (n.raw.firstChildByKind fun rawKind => matcher (Lang.fromRaw rawKind)).map fromRaw
/-- src/api.rs:158-160. -/
def lastChild (n : TNode) : Option TNode := n.raw.lastChild.map fromRaw
/-- src/api.rs:162-164. -/
def firstChildOrToken (n : TNode) : Option TElem := n.raw.firstChildOrToken.map TElem.fromRaw
/-- src/api.rs:166-173. -/
def firstChildOrTokenByKind (matcher : Lang.Kind → Bool) (n : TNode) : Option TElem :=
  (n.raw.firstChildOrTokenByKind fun rawKind => matcher (Lang.fromRaw rawKind)).map TElem.fromRaw
/-- src/api.rs:175-177. -/
def lastChildOrToken (n : TNode) : Option TElem := n.raw.lastChildOrToken.map TElem.fromRaw
/-- src/api.rs:179-181. -/
def nextSibling (n : TNode) : Option TNode := n.raw.nextSibling.map fromRaw
/-- src/api.rs:183-190. -/
def nextSiblingByKind (matcher : Lang.Kind → Bool) (n : TNode) : Option TNode :=
  (n.raw.nextSiblingByKind fun rawKind => matcher (Lang.fromRaw rawKind)).map fromRaw
/-- src/api.rs:192-194. -/
def prevSibling (n : TNode) : Option TNode := n.raw.prevSibling.map fromRaw
/-- src/api.rs:196-198. -/
def nextSiblingOrToken (n : TNode) : Option TElem := n.raw.nextSiblingOrToken.map TElem.fromRaw
/-- src/api.rs:200-207. -/
def nextSiblingOrTokenByKind (matcher : Lang.Kind → Bool) (n : TNode) : Option TElem :=
  (n.raw.nextSiblingOrTokenByKind fun rawKind => matcher (Lang.fromRaw rawKind)).map TElem.fromRaw
/-- src/api.rs:209-211. -/
def prevSiblingOrToken (n : TNode) : Option TElem := n.raw.prevSiblingOrToken.map TElem.fromRaw
/-- src/api.rs:214-216. -/
def firstToken (n : TNode) : Res (Option TToken) := do .ok ((← n.raw.firstToken).map TToken.fromRaw)
/-- src/api.rs:218-220. -/
def lastToken (n : TNode) : Res (Option TToken) := do .ok ((← n.raw.lastToken).map TToken.fromRaw)
/-- The item number `k` of `siblings(direction)` — src/api.rs:222-224. -/
def siblingsNth (direction : Direction) (n : TNode) (k : Nat) : Option TNode :=
  (successors (SNode.siblingStep direction) (some n.raw) k).map fromRaw
/-- The item number `k` of `siblings_with_tokens(direction)` — src/api.rs:226-231. -/
def siblingsWithTokensNth (direction : Direction) (n : TNode) (k : Nat) : Option TElem :=
  (successors (SElem.siblingStep direction) (some (.node n.raw)) k).map TElem.fromRaw
/-- What `descendants()` has yielded when the walk inside has been advanced `k` times — src/api.rs:233-235. -/
def descendants (n : TNode) (k : Nat) : List TNode := (n.raw.descendants k).map fromRaw
/-- src/api.rs:237-239. -/
def descendantsWithTokens (n : TNode) (k : Nat) : List TElem := (n.raw.descendantsWithTokens k).map TElem.fromRaw
/-- src/api.rs:243-245. -/
def preorder (n : TNode) : TPreorder := ⟨Preorder.new n.raw⟩
/-- src/api.rs:249-251. -/
def preorderWithTokens (n : TNode) : TPreorderT := ⟨PreorderT.new n.raw⟩
/-- src/api.rs:255-257. -/
def tokenAtOffset (n : TNode) (offset : Nat) : Res (TokenAtOffset TToken) := do
  .ok ((← n.raw.tokenAtOffset offset).map TToken.fromRaw)
/-- src/api.rs:263-265. -/
def coveringElement (bs : BinarySearch) (n : TNode) (range : TextRange) : Res TElem := do
  .ok (TElem.fromRaw (← n.raw.coveringElement bs range))
/-- src/api.rs:272-274. -/
def childOrTokenAtRange (bs : BinarySearch) (n : TNode) (range : TextRange) : Res (Option TElem) := do
  .ok ((← n.raw.childOrTokenAtRange bs range).map TElem.fromRaw)
/-- src/api.rs:280-282. -/
def cloneSubtree (n : TNode) : TNode := fromRaw n.raw.cloneSubtree
/-- src/api.rs:284-286. -/
def cloneForUpdate (n : TNode) : Res TNode := do .ok (fromRaw (← n.raw.cloneForUpdate))
/-- src/api.rs:288-290. -/
def isMutable (n : TNode) : Bool := n.raw.mutable
/-- Derived `PartialEq`: of the wrapped handles — src/api.rs:15. -/
def eq (a b : TNode) : Bool := a.raw.eq b.raw

end TNode

/-! ### Tokens -/

namespace TToken
variable [Lang]

/-- src/api.rs:310-312. -/
def replaceWith (next : Nat) (t : TToken) (newToken : GToken) : Res GNode := t.raw.replaceWith next newToken
/-- src/api.rs:314-316. -/
def kind (t : TToken) : Lang.Kind := Lang.fromRaw t.raw.kind
/-- src/api.rs:318-320. -/
def textRange (t : TToken) : TextRange := t.raw.textRange
/-- src/api.rs:322-324. -/
def index (t : TToken) : Nat := t.raw.index
/-- src/api.rs:326-328. -/
def text (t : TToken) : List Char := t.raw.text
/-- src/api.rs:330-332. -/
def green (t : TToken) : GToken := t.raw.green
/-- src/api.rs:334-336. -/
def parent (t : TToken) : Option TNode := t.raw.parent.map TNode.fromRaw
/-- src/api.rs:345-347. -/
def parentAncestors (t : TToken) : List TNode := t.raw.ancestors.map TNode.fromRaw
/-- src/api.rs:340-342. -/
def ancestors (t : TToken) : List TNode := t.parentAncestors
/-- src/api.rs:349-351. -/
def nextSiblingOrToken (t : TToken) : Option TElem := t.raw.nextSiblingOrToken.map TElem.fromRaw
/-- src/api.rs:352-354. -/
def prevSiblingOrToken (t : TToken) : Option TElem := t.raw.prevSiblingOrToken.map TElem.fromRaw
/-- The item number `k` of `siblings_with_tokens(direction)` — src/api.rs:356-361. -/
def siblingsWithTokensNth (direction : Direction) (t : TToken) (k : Nat) : Option TElem :=
  (successors (SElem.siblingStep direction) (some (.token t.raw)) k).map TElem.fromRaw
/-- src/api.rs:364-366. -/
def nextToken (t : TToken) : Res (Option TToken) := do .ok ((← t.raw.nextToken).map fromRaw)
/-- src/api.rs:368-370. -/
def prevToken (t : TToken) : Res (Option TToken) := do .ok ((← t.raw.prevToken).map fromRaw)
/-- Derived `PartialEq` — src/api.rs:21. -/
def eq (a b : TToken) : Bool := a.raw.eq b.raw

end TToken

/-! ### Elements -/

namespace TElem
variable [Lang]

/-- src/api.rs:378-383. -/
def textRange : TElem → TextRange
  | .node it => it.textRange
  | .token it => it.textRange
/-- src/api.rs:385-390. -/
def index : TElem → Nat
  | .node it => it.index
  | .token it => it.index
/-- src/api.rs:392-397. -/
def kind : TElem → Lang.Kind
  | .node it => it.kind
  | .token it => it.kind
/-- src/api.rs:399-404. -/
def parent : TElem → Option TNode
  | .node it => it.parent
  | .token it => it.parent
/-- The item number `k` of `ancestors()` — src/api.rs:406-412. -/
def ancestorsNth (e : TElem) (k : Nat) : Option TNode :=
  let first := match e with
    | .node it => some it
    | .token it => it.parent
  successors TNode.parent first k
/-- src/api.rs:414-419. -/
def nextSiblingOrToken : TElem → Option TElem
  | .node it => it.nextSiblingOrToken
  | .token it => it.nextSiblingOrToken
/-- src/api.rs:420-425. -/
def prevSiblingOrToken : TElem → Option TElem
  | .node it => it.prevSiblingOrToken
  | .token it => it.prevSiblingOrToken

end TElem

/-! ### `by_kind` -/

variable [Lang]

/-- `SyntaxNodeChildren::by_kind`: what call number `k` of `next` on the iterator it returns yields — src/api.rs:447-451. -/
def TNodeChildren.byKindNth (matcher : Lang.Kind → Bool) (it : TNodeChildren) (k : Nat) : Option TNode :=
  let m := fun rawKind => matcher (Lang.fromRaw rawKind)
  (Rowan.byKindNth m (it.raw.byKind m) k).map TNode.fromRaw
/-- `SyntaxElementChildren::by_kind` — src/api.rs:466-473. -/
def TElemChildren.byKindNth (matcher : Lang.Kind → Bool) (it : TElemChildren) (k : Nat) : Option TElem :=
  let m := fun rawKind => matcher (Lang.fromRaw rawKind)
  (elemByKindNth m (it.raw.byKind m) k).map TElem.fromRaw

end Rowan
