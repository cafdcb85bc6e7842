import Verif.Heap
import Verif.Spec.Heap
import Verif.Green
/-!
# Programs over the cursor API

A program holds a list of handles (`SyntaxNode`, `SyntaxToken`, `SyntaxElement` values; several handles can
denote one `NodeData`) and calls the functions of src/cursor.rs on them in any order.  What safe Rust
guarantees is part of the definition: a function is called only with handles the program holds, a handle
passed by value is gone afterwards, node functions are called on nodes.  A panic can be caught.

Iterators (`children`, `by_kind`, `ancestors`, …) are programs over these calls: they hold handles and call
the functions below.
-/
namespace Rowan

/-- The functions taking `&self` and returning an optional handle. (src/cursor.rs:665-831, :1052-1105.) -/
inductive Nav where
  | parent
  | nextSibling
  | nextSiblingByKind (m : SyntaxKind → Bool)
  | prevSibling
  | nextSiblingOrToken
  | nextSiblingOrTokenByKind (m : SyntaxKind → Bool)
  | prevSiblingOrToken
  | firstChild
  | firstChildByKind (m : SyntaxKind → Bool)
  | lastChild
  | firstChildOrToken
  | firstChildOrTokenByKind (m : SyntaxKind → Bool)
  | lastChildOrToken
  /-- the last step of `child_or_token_at_range` -/
  | childAt (i : Nat)

namespace Nav
/-- The function called. (src/cursor.rs:665-831, :1052-1105.) -/
def run : Nav → Nat → H (Option Nat)
  | parent => Cur.parent
  | nextSibling => Cur.nextSibling
  | nextSiblingByKind m => Cur.nextSiblingByKind m
  | prevSibling => Cur.prevSibling
  | nextSiblingOrToken => Cur.nextSiblingOrToken
  | nextSiblingOrTokenByKind m => Cur.nextSiblingOrTokenByKind m
  | prevSiblingOrToken => Cur.prevSiblingOrToken
  | firstChild => Cur.firstChild
  | firstChildByKind m => Cur.firstChildByKind m
  | lastChild => Cur.lastChild
  | firstChildOrToken => Cur.firstChildOrToken
  | firstChildOrTokenByKind m => Cur.firstChildOrTokenByKind m
  | lastChildOrToken => Cur.lastChildOrToken
  | childAt i => Cur.childAt i

/-- Is it a function of nodes only? (the `impl` blocks of src/cursor.rs:552, :976). -/
def onNodes : Nav → Bool
  | firstChild | firstChildByKind _ | lastChild | firstChildOrToken | firstChildOrTokenByKind _
  | lastChildOrToken | childAt _ => true
  | _ => false
end Nav

/-- A call of the cursor API. (The public functions of src/cursor.rs:552-1260.) -/
inductive Call where
  /-- `SyntaxNode::new_root(green)`, `SyntaxNode::new_root_mut(green)` -/
  | newRoot (mutable : Bool) (g : GNode)
  | clone (h : Nat)
  | drop (h : Nat)
  /-- `mem::forget` of a handle -/
  | forget (h : Nat)
  /-- `kind()`, `text_range()`, `index()` -/
  | read (h : Nat)
  | nav (f : Nav) (h : Nat)
  /-- `to_next_sibling`, `to_next_sibling_or_token` -/
  | toNext (nodes : Bool) (h : Nat)
  | cloneSubtree (h : Nat)
  | cloneForUpdate (h : Nat)
  | detach (h : Nat)
  /-- `q.splice_children(a..b, ins)` -/
  | splice (q a b : Nat) (ins : List Nat)
  /-- one round of the second loop of `q.splice_children(..)`, which attaches `p` at index `i`.  If the iterator
  `to_insert` runs code of its own, the program executes `splice q a b []`, and then, for each element that the
  iterator returns, first what the iterator does and then `attach` — src/cursor.rs:953-956 -/
  | attach (q i p : Nat)

namespace Call

/-- The handles passed by value. (The signatures in src/cursor.rs:552-1260 and :150-187.) -/
def takes : Call → List Nat
  | drop h | forget h | toNext _ h => [h]
  | splice _ _ _ ins => ins
  | attach _ _ p => [p]
  | _ => []

/-- The handles passed by reference. (The signatures in src/cursor.rs:552-1260.) -/
def uses : Call → List Nat
  | clone h | read h | nav _ h | cloneSubtree h | cloneForUpdate h | detach h | splice h _ _ _ | attach h _ _ => [h]
  | _ => []

/-- The handles that are statically known to be nodes. (The `impl` blocks of src/cursor.rs:552, :976.) -/
def nodes : Call → List Nat
  | nav f h => if f.onNodes then [h] else []
  | cloneSubtree h | cloneForUpdate h | splice h _ _ _ | attach h _ _ => [h]
  | _ => []

/-- Run the call; the result is the list of the handles returned. (src/cursor.rs:552-1260.) -/
def exec : Call → H (List Nat)
  | newRoot false g => do pure [← Cur.newRoot g]
  | newRoot true g => do pure [← Cur.newRootMut g]
  | clone h => do pure [← Cur.clone h]
  | drop h => do
    Cur.drop h
    pure []
  | forget _ => pure []
  | read h => do
    let _ ← Cur.kind h
    let _ ← Cur.textRange h
    let _ ← Cur.index h
    pure []
  | nav f h => do pure (← f.run h).toList
  | toNext nodes h => do pure (← Cur.toNextOf nodes h).toList
  | cloneSubtree h => do pure [← Cur.cloneSubtree h]
  | cloneForUpdate h => do pure [← Cur.cloneForUpdate h]
  | detach h => do
    Cur.detach h
    pure []
  | splice q a b ins => do
    Cur.splice q a b ins
    pure []
  | attach q i p => do
    Cur.spliceInsert q i [p]
    pure []

/-- The call moves the elements `ins` below the node `q`, at index `a`, after having deleted the range `a..b`
of its children. (src/cursor.rs:942-970; specification vocabulary.) -/
inductive Splices : Call → Nat → Nat → Nat → List Nat → Prop
  | splice {q a b ins} : Splices (splice q a b ins) q a b ins
  | attach {q i p} : Splices (attach q i p) q i i [p]

/-- Safe code can make the call: the program holds the handles `hs` and the green nodes and tokens `gs`, and
keeps the handles `rest`. (Rust's ownership rules for clients of src/cursor.rs; specification vocabulary.) -/
structure Ready (c : Call) (s : HSt) (gs : List GElem) (hs rest : List Nat) : Prop where
  split : hs.Perm (c.takes ++ rest)
  held : ∀ h ∈ c.uses, h ∈ rest
  typed : ∀ h ∈ c.nodes, (s.tree h).isNode = true
  green : ∀ m g, c = newRoot m g → .node g ∈ gs

/-- The handle a call loses without dropping it: `mem::forget` does so on purpose, and
`to_next_sibling[_or_token]` on an unshared, immutable top element by mistake — src/cursor.rs:769-770,
1209-1210. -/
def lost : Call → HSt → List Nat
  | forget h, _ => [h]
  | toNext _ h, s =>
    if s.parent h = none ∧ s.rc h = 1 ∧ s.mutable h = false then [h] else []
  | _, _ => []

end Call

/-- `p` is `q` or an ancestor of `q`. (Specification vocabulary; compare `ancestors`, src/cursor.rs:670-673.) -/
def HSt.Above (s : HSt) (p q : Nat) : Prop := ∃ r P Q, s.Loc p r P ∧ s.Loc q r (P ++ Q)

/-- A program can be in a state with heap `s` and handles `hs`, holding the green nodes and tokens `gs` and
having lost the handles `lk` without dropping them. (Clients of src/cursor.rs; not itself in the code.) -/
inductive HReach : HSt → List GElem → List Nat → List Nat → Prop
  | init (gtop slack : Nat) : HReach { HSt.empty gtop with slack := slack } [] [] []
  /-- `GreenToken::new` — src/green/token.rs:112 -/
  | token {s gs hs lk} (k : SyntaxKind) (text : List Char) : HReach s gs hs lk →
      HReach { s with gtop := s.gtop + 1 } (.token ⟨s.gtop, k, text⟩ :: gs) hs lk
  /-- `GreenNode::new` — src/green/node.rs:203 -/
  | node {s gs hs lk} (k : SyntaxKind) (es : List GElem) : HReach s gs hs lk → (∀ e ∈ es, e ∈ gs) →
      HReach { s with gtop := s.gtop + 1 } (.node (GNode.new s.gtop k es) :: gs) hs lk
  /-- `green().to_owned()` of a handle -/
  | green {s gs hs lk h} : HReach s gs hs lk → h ∈ hs → HReach s (s.green h :: gs) hs lk
  /-- `to_owned()` of a descendant of a green node -/
  | sub {s gs hs lk e x} : HReach s gs hs lk → e ∈ gs → x ∈ e.subs → HReach s (x :: gs) hs lk
  /-- green nodes and tokens are dropped -/
  | dropGreen {s gs gs' hs lk} : HReach s gs hs lk → (∀ e ∈ gs', e ∈ gs) → HReach s gs' hs lk
  /-- a call returns -/
  | ok {s gs hs lk rest new s'} (c : Call) : HReach s gs hs lk → c.Ready s gs hs rest →
      c.exec s = .ok new s' → HReach s' gs (new ++ rest) (c.lost s ++ lk)
  /-- a call panics with a failed assertion, and the panic is caught -/
  | caught {s gs hs lk rest s'} (c : Call) : HReach s gs hs lk → c.Ready s gs hs rest →
      c.exec s = .panic .assert s' → HReach s' gs rest lk
  /-- `splice_children` panics because the index is too large, although it fits into 32 bits, the panic is caught, and
  the element that could not be inserted is not left behind: the program holds no other handle on it or inside it, so
  that the unwinding has freed it -/
  | unwound {s gs hs lk rest s' q a b ins} (c : Call) : HReach s gs hs lk →
      c.Ready s gs hs rest → c.Splices q a b ins →
      c.exec s = .panic .range s' → a + ins.length ≤ 2 ^ 32 ∧ (∀ p ∈ ins, ∀ y, ¬ s'.Stray p y) →
      HReach s' gs rest lk

/-- The number of handles of each object. (Specification vocabulary; compare `rc`, src/cursor.rs:115.) -/
def cnt (hs : List Nat) (x : Nat) : Nat := hs.count x

end Rowan
