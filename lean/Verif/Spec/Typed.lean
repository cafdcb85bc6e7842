import Verif.Typed
import Verif.Spec.Ast
/-!
# Specification vocabulary: handles of the typed API

`TReach r e`: `e` is a typed handle that a program can obtain from the root of the tree `r` by any sequence of calls of
functions of the typed API that return handles, iterators included.
-/
namespace Rowan

/-- The cursor handle inside a typed handle. -/
def TElem.handle : TElem → SElem
  | .node n => .node n.raw
  | .token t => .token t.raw

/-- The position a typed handle points at. -/
def TElem.path (e : TElem) : List Nat := e.handle.path
def TNode.path (n : TNode) : List Nat := n.raw.path
def TToken.path (t : TToken) : List Nat := t.raw.path

/-- The state of a walk after `k` calls of `next`, by a caller that calls `skip_subtree` right after each `Enter` of a
position satisfying `skip`. -/
def TPreorder.drive (skip : List Nat → Bool) (it : TPreorder) : Nat → Res TPreorder
  | 0 => .ok it
  | k + 1 => do
    let it ← it.drive skip k
    let (ev, it) ← it.step
    .ok (match ev with
      | some (.enter e) => if skip e.path then it.skipSubtree else it
      | _ => it)
/-- What call number `k` of `next` returns. -/
def TPreorder.nth (skip : List Nat → Bool) (it : TPreorder) (k : Nat) : Res (Option (WalkEvent TNode)) := do
  let it ← it.drive skip k
  let (ev, _) ← it.step
  .ok ev

/-- The same for walks with tokens. -/
def TPreorderT.drive (skip : List Nat → Bool) (it : TPreorderT) : Nat → Res TPreorderT
  | 0 => .ok it
  | k + 1 => do
    let it ← it.drive skip k
    let (ev, it) ← it.step
    .ok (match ev with
      | some (.enter e) => if skip e.path then it.skipSubtree else it
      | _ => it)
def TPreorderT.nth (skip : List Nat → Bool) (it : TPreorderT) (k : Nat) : Res (Option (WalkEvent TElem)) := do
  let it ← it.drive skip k
  let (ev, _) ← it.step
  .ok ev

variable [Lang]

/-- The typed handles obtainable in the tree `r`. -/
inductive TReach (r : Root) : TElem → Prop
  | newRoot {g} (hw : g.WF) : r = ⟨false, 0, .node g⟩ → TReach r (.node (TNode.newRoot g))
  | newRootMut {g} (hw : g.WF) : r = ⟨true, 0, .node g⟩ → TReach r (.node (TNode.newRootMut g))
  | parent {n p} : TReach r (.node n) → n.parent = some p → TReach r (.node p)
  | ancestors {n a} : TReach r (.node n) → a ∈ n.ancestors → TReach r (.node a)
  | children {n c} (u k) : TReach r (.node n) → n.children.nth u k = some c → TReach r (.node c)
  | childrenWithTokens {n c} (u k) : TReach r (.node n) → n.childrenWithTokens.nth u k = some c → TReach r c
  | childrenByKind {n c} (m k) : TReach r (.node n) → n.children.byKindNth m k = some c → TReach r (.node c)
  | childrenWithTokensByKind {n c} (m k) : TReach r (.node n) → n.childrenWithTokens.byKindNth m k = some c → TReach r c
  | firstChild {n c} : TReach r (.node n) → n.firstChild = some c → TReach r (.node c)
  | firstChildByKind {n c} (m) : TReach r (.node n) → n.firstChildByKind m = some c → TReach r (.node c)
  | lastChild {n c} : TReach r (.node n) → n.lastChild = some c → TReach r (.node c)
  | firstChildOrToken {n c} : TReach r (.node n) → n.firstChildOrToken = some c → TReach r c
  | firstChildOrTokenByKind {n c} (m) : TReach r (.node n) → n.firstChildOrTokenByKind m = some c → TReach r c
  | lastChildOrToken {n c} : TReach r (.node n) → n.lastChildOrToken = some c → TReach r c
  | nextSibling {n s} : TReach r (.node n) → n.nextSibling = some s → TReach r (.node s)
  | nextSiblingByKind {n s} (m) : TReach r (.node n) → n.nextSiblingByKind m = some s → TReach r (.node s)
  | prevSibling {n s} : TReach r (.node n) → n.prevSibling = some s → TReach r (.node s)
  | nextSiblingOrToken {n s} : TReach r (.node n) → n.nextSiblingOrToken = some s → TReach r s
  | nextSiblingOrTokenByKind {n s} (m) : TReach r (.node n) → n.nextSiblingOrTokenByKind m = some s → TReach r s
  | prevSiblingOrToken {n s} : TReach r (.node n) → n.prevSiblingOrToken = some s → TReach r s
  | firstToken {n t} : TReach r (.node n) → n.firstToken = .ok (some t) → TReach r (.token t)
  | lastToken {n t} : TReach r (.node n) → n.lastToken = .ok (some t) → TReach r (.token t)
  | siblings {n s} (d k) : TReach r (.node n) → n.siblingsNth d k = some s → TReach r (.node s)
  | siblingsWithTokens {n s} (d k) : TReach r (.node n) → n.siblingsWithTokensNth d k = some s → TReach r s
  | tokenAtOffset {n t} (o T) : TReach r (.node n) → n.tokenAtOffset o = .ok T → t ∈ T.toList → TReach r (.token t)
  | coveringElement {n e} (bs R) : Conforming bs → TReach r (.node n) → n.coveringElement bs R = .ok e → TReach r e
  | childOrTokenAtRange {n e} (bs R) : Conforming bs → TReach r (.node n) → n.childOrTokenAtRange bs R = .ok (some e) →
      TReach r e
  | tokenParent {t p} : TReach r (.token t) → t.parent = some p → TReach r (.node p)
  | tokenAncestors {t a} : TReach r (.token t) → a ∈ t.ancestors → TReach r (.node a)
  | parentAncestors {t a} : TReach r (.token t) → a ∈ t.parentAncestors → TReach r (.node a)
  | tokenNextSibling {t s} : TReach r (.token t) → t.nextSiblingOrToken = some s → TReach r s
  | tokenPrevSibling {t s} : TReach r (.token t) → t.prevSiblingOrToken = some s → TReach r s
  | tokenSiblings {t s} (d k) : TReach r (.token t) → t.siblingsWithTokensNth d k = some s → TReach r s
  | nextToken {t u} : TReach r (.token t) → t.nextToken = .ok (some u) → TReach r (.token u)
  | prevToken {t u} : TReach r (.token t) → t.prevToken = .ok (some u) → TReach r (.token u)
  | elemParent {e p} : TReach r e → e.parent = some p → TReach r (.node p)
  | elemAncestors {e a} (k) : TReach r e → e.ancestorsNth k = some a → TReach r (.node a)
  | elemNextSibling {e s} : TReach r e → e.nextSiblingOrToken = some s → TReach r s
  | elemPrevSibling {e s} : TReach r e → e.prevSiblingOrToken = some s → TReach r s
  /- Walks, when an address holds one object (C24). -/
  | preorder {n ev} (skip k) : r.green.Coherent → TReach r (.node n) → n.preorder.nth skip k = .ok (some ev) →
      TReach r (.node ev.elem)
  | preorderWithTokens {n ev} (skip k) : r.green.Coherent → TReach r (.node n) →
      n.preorderWithTokens.nth skip k = .ok (some ev) → TReach r ev.elem
  /- Conversions to a cursor handle and back. -/
  | converted {e} : TReach r e → TReach r (TElem.fromRaw e.intoRaw)
  | nodeConverted {n} : TReach r (.node n) → TReach r (TElem.fromNode (TNode.fromRaw n.intoRaw))
  | tokenConverted {t} : TReach r (.token t) → TReach r (TElem.fromToken (TToken.fromRaw t.intoRaw))

/-- The returned handle (if any) is a typed handle into tree `r` at the given position (if any). -/
def TPoints (r : Root) (o : Option TElem) (q : Option (List Nat)) : Prop :=
  o.map TElem.path = q ∧ ∀ e, o = some e → TReach r e

/-- The same for a list of handles. -/
def TPointsAll (r : Root) (l : List TElem) (qs : List (List Nat)) : Prop :=
  l.map TElem.path = qs ∧ ∀ e ∈ l, TReach r e

end Rowan
