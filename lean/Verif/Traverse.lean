import Verif.Program
import Verif.Position
import Verif.Ast
import Verif.SyntaxText
/-!
# Iterators and traversals as reading programs — model of src/cursor.rs

The functions of src/cursor.rs, src/syntax_text.rs and src/ast.rs that are built from navigation, with every handle
they clone, hold and drop.  `Verif/Cursor.lean` and `Verif/Position.lean` model the same functions on values; the
theorems in `Props/Traverse.lean` show that the two agree.  A loop whose number of rounds depends on the tree carries
a step bound.  Handles are named by numbers, see `Verif/Program.lean`.
-/
namespace Rowan
namespace Prog

/-- A call of one of the functions of src/cursor.rs:685-1105 that return an optional handle. -/
def nav (f : Nav) (h : Nat) : RProg (Option Nat) := .nav f h .ret
/-- A call of src/cursor.rs:763-794 or :1203-1240. -/
def toNext (nodes : Bool) (h : Nat) : RProg (Option Nat) := .toNext nodes h .ret
/-- `Clone`, src/cursor.rs:150-156, :172-178. -/
def clone (h : Nat) : RProg Nat := .clone h .ret
/-- `Drop`, src/cursor.rs:158-165, :180-187. -/
def drop (h : Nat) : RProg Unit := .drop h (.ret ())
/-- `kind`, `text_range` and the like, src/cursor.rs:365-374, :637-663. -/
def look (h : Nat) : RProg Obs := .look h .ret
/-- `None` owns nothing. (Drop glue of `Option<SyntaxNode>` over src/cursor.rs:158-165.) -/
def dropO : Option Nat → RProg Unit
  | none => pure ()
  | some h => drop h
/-- `unwrap`, `assert!` and code of the caller. (src/cursor.rs:884-902, :919, src/ast.rs:99-105.) -/
def ofRes {α : Type} : Res α → RProg α
  | .ok a => .ret a
  | .panic => .panic
  | .ub => .panic
  | .diverge => .diverge

/-! ### First, last, next and previous token -/

/-- `first_token` — src/cursor.rs:826-828, 1167-1172 (`dir = true`); `last_token` — src/cursor.rs:829-831, 1173-1178
(`dir = false`). -/
def edgeToken (dir : Bool) : Nat → Nat → RProg (Option Nat)
  | 0, _ => .diverge
  | k + 1, h => do
    match (← look h).green with
    | .token _ => do pure (some (← clone h))
    | .node _ => do
      match ← nav (if dir then .firstChildOrToken else .lastChildOrToken) h with
      | none => pure none
      | some c => do
        let r ← edgeToken dir k c
        drop c
        pure r

/-- `ancestors().find_map(f)`: `std::iter::successors` computes the parent of an item before it hands out the item;
the closure drops the item — src/cursor.rs:1057-1059, 1091-1094. -/
def findUp (f : Nav) : Nat → Option Nat → RProg (Option Nat)
  | 0, _ => .diverge
  | _ + 1, none => pure none
  | k + 1, some h => do
    let nx ← nav .parent h
    match ← nav f h with
    | some x => do
      drop h
      dropO nx
      pure (some x)
    | none => do
      drop h
      findUp f k nx

/-- `first_token`, `last_token` of a node or element: the element read at the start bounds the number of rounds —
src/cursor.rs:826-831, 1167-1178. -/
def edge (dir : Bool) (h : Nat) : RProg (Option Nat) := do
  edgeToken dir (← look h).green.subs.length h

/-- `next_token` — src/cursor.rs:1088-1096 (`dir = true`); `prev_token` — src/cursor.rs:1097-1105 (`dir = false`);
`k` bounds the number of ancestors that are visited. -/
def stepToken (dir : Bool) (k : Nat) (h : Nat) : RProg (Option Nat) := do
  let f : Nav := if dir then .nextSiblingOrToken else .prevSiblingOrToken
  match ← nav f h with
  | some e => do
    let r ← edge dir e
    drop e
    pure r
  | none => do
    match ← findUp f k (← nav .parent h) with
    | none => pure none
    | some e => do
      let r ← edge dir e
      drop e
      pure r

/-! ### `iter::successors`: ancestors, siblings -/

/-- `ancestors()` of a node — src/cursor.rs:671-673, of a token — src/cursor.rs:1057-1059, of an element —
src/cursor.rs:1159-1165; the state of the iterator is the next item. -/
def ancestors (h : Nat) : RProg (Option Nat) := do
  match (← look h).green with
  | .node _ => do pure (some (← clone h))
  | .token _ => nav .parent h

/-- `siblings`, `siblings_with_tokens` — src/cursor.rs:834-851, 1077-1086. -/
def siblings (h : Nat) : RProg (Option Nat) := do pure (some (← clone h))

/-- `Iterator::next` of `iter::successors(_, f)` (standard library), used at src/cursor.rs:672, :835, :847, :1058, :1082, :1164;
the `by_kind` iterators do the same with `next_sibling_by_kind` and `next_sibling_or_token_by_kind` — src/cursor.rs:1406-1413, :1468-1475. -/
def succNext (f : Nav) : Option Nat → RProg (Option Nat × Option Nat)
  | none => pure (none, none)
  | some h => do
    let nx ← nav f h
    pure (some h, nx)

/-! ### Children -/

/-- `SyntaxNodeChildren`, `SyntaxElementChildren` — src/cursor.rs:1356-1366, 1415-1425. -/
structure Kids where
  parent : Nat
  next : Option Nat := none
  initialized : Bool := false

/-- `children()`, `children_with_tokens()` — src/cursor.rs:676-683. -/
def kids (h : Nat) : RProg Kids := do pure { parent := ← clone h }

/-- The new value of the field `next` — src/cursor.rs:1389-1394 (`nodes`), 1451-1456. -/
def kidsMove (nodes : Bool) (it : Kids) : RProg (Option Nat) :=
  if !it.initialized then nav (if nodes then .firstChild else .firstChildOrToken) it.parent
  else match it.next with
    | none => pure none
    | some h => toNext nodes h

/-- `Iterator::next` — src/cursor.rs:1386-1398 (`nodes`), 1448-1460. -/
def kidsNext (nodes : Bool) (it : Kids) : RProg (Option Nat × Kids) := do
  match ← kidsMove nodes it with
  | none => pure (none, { it with next := none, initialized := true })
  | some h => do
    let c ← clone h
    pure (some c, { it with next := some h, initialized := true })

/-- The iterator is dropped. (Drop glue of src/cursor.rs:1357-1361, :1416-1420.) -/
def kidsDrop (it : Kids) : RProg Unit := do
  drop it.parent
  dropO it.next

/-- The first element of the filtered iterator — src/cursor.rs:1370-1380 (`nodes`), 1430-1442. -/
def byKindFirst (nodes : Bool) (m : SyntaxKind → Bool) (it : Kids) : RProg (Option Nat) :=
  if !it.initialized then
    nav (if nodes then .firstChildByKind m else .firstChildOrTokenByKind m) it.parent
  else match it.next with
    | none => pure none
    | some h => do
      let o ← look h
      if m o.kind then pure (some h)
      else do
        let r ← nav (if nodes then .nextSiblingByKind m else .nextSiblingOrTokenByKind m) h
        drop h
        pure r

/-- `by_kind`; consumes the iterator — src/cursor.rs:1368-1383 (`nodes`), 1427-1445. -/
def byKind (nodes : Bool) (m : SyntaxKind → Bool) (it : Kids) : RProg (Option Nat) := do
  let r ← byKindFirst nodes m it
  drop it.parent
  pure r

/-! ### Preorder -/

/-- `Preorder`, `PreorderWithTokens` — src/cursor.rs:1477-1481, 1532-1536. -/
structure Walk where
  start : Nat
  next : Option (WalkEvent Nat)
  skip : Bool := false

/-- `preorder()`, `preorder_with_tokens()` — src/cursor.rs:870-877, 1484-1487, 1539-1542. -/
def walk (h : Nat) : RProg Walk := do
  let start ← clone h
  let first ← clone start
  pure { start, next := some (.enter first) }

/-- `skip_subtree` — src/cursor.rs:1489-1491, 1544-1546. -/
def Walk.skipSubtree (it : Walk) : Walk := { it with skip := true }

/-- `do_skip` — src/cursor.rs:1494-1499, 1549-1554. -/
def doSkip (it : Walk) : RProg Walk :=
  match it.next with
  | none => pure it
  | some (.enter c) => do
    match ← nav .parent c with
    | none => .panic
    | some p => do
      drop c
      pure { it with next := some (.leave p) }
  | some (.leave p) => pure { it with next := some (.leave p) }

/-- `==` on elements — src/cursor.rs:301-307, 1279-1284, 1316-1321, src/utility_types.rs:4-8 (derived). -/
def same (a b : Obs) : Bool :=
  match a.green, b.green with
  | .node _, .node _ => a.key == b.key
  | .token _, .token _ => a.key == b.key
  | _, _ => false

/-- The event after `ev`, which is only borrowed — src/cursor.rs:1511-1527 (`nodes`), 1566-1581. -/
def walkSucc (nodes : Bool) (start : Nat) : WalkEvent Nat → RProg (Option (WalkEvent Nat))
  | .enter h => do
    match (← look h).green with
    | .node _ => do
      match ← nav (if nodes then .firstChild else .firstChildOrToken) h with
      | some c => pure (some (.enter c))
      | none => do pure (some (.leave (← clone h)))
    | .token _ => do pure (some (.leave (← clone h)))
  | .leave h => do
    let a ← look h
    let b ← look start
    if same a b then pure none
    else do
      match ← nav (if nodes then .nextSibling else .nextSiblingOrToken) h with
      | some s => pure (some (.enter s))
      | none => do
        match ← nav .parent h with
        | some p => pure (some (.leave p))
        | none => pure none

/-- The new value of the field `next` — src/cursor.rs:1511-1527 (`nodes`), 1566-1581. -/
def walkMove (nodes : Bool) (it : Walk) : RProg (Option (WalkEvent Nat)) :=
  match it.next with
  | none => pure none
  | some ev => walkSucc nodes it.start ev

/-- src/cursor.rs:1506-1509, 1561-1564. -/
def walkReady (it : Walk) : RProg Walk := if it.skip then doSkip it else pure it

/-- `Iterator::next` — src/cursor.rs:1505-1529 (`nodes`), 1560-1583. -/
def walkNext (nodes : Bool) (it : Walk) : RProg (Option (WalkEvent Nat) × Walk) := do
  let it ← walkReady it
  let next ← walkMove nodes it
  pure (it.next, { it with next := next, skip := false })

/-- The iterator is dropped. (Drop glue of src/cursor.rs:1477-1481, :1532-1536.) -/
def walkDrop (it : Walk) : RProg Unit := do
  drop it.start
  match it.next with
  | none => pure ()
  | some (.enter h) => drop h
  | some (.leave h) => drop h

/-! ### `for` loops that keep everything

Clients: call `next` until it returns `None`, keep all items, then drop the iterator; `k` bounds the number of calls. -/

/-- `children().collect()`, `children_with_tokens().collect()`.
(src/cursor.rs:1386-1398, :1448-1460, in a loop of a client.) -/
def kidsAll (nodes : Bool) : Nat → Kids → RProg (List Nat)
  | 0, _ => .diverge
  | k + 1, it => do
    match ← kidsNext nodes it with
    | (none, it) => do
      kidsDrop it
      pure []
    | (some c, it) => do
      let cs ← kidsAll nodes k it
      pure (c :: cs)

/-- `ancestors().collect()`, `siblings(…).collect()`, and the `by_kind` iterators.
(src/cursor.rs:672, :835-855, :1401-1413, :1463-1475, in a loop of a client.) -/
def succAll (f : Nav) : Nat → Option Nat → RProg (List Nat)
  | 0, _ => .diverge
  | k + 1, st => do
    match ← succNext f st with
    | (none, _) => pure []
    | (some c, st) => do
      let cs ← succAll f k st
      pure (c :: cs)

/-- `preorder()`, `preorder_with_tokens()`: collects all events, and calls `skip_subtree()` after the `Enter` of every
element whose kind and range satisfy `sk`. (src/cursor.rs:1477-1585, in a loop of a client.) -/
def walkAll (nodes : Bool) (sk : SyntaxKind → TextRange → Bool) : Nat → Walk → RProg (List (WalkEvent Nat))
  | 0, _ => .diverge
  | k + 1, it => do
    match ← walkNext nodes it with
    | (none, it) => do
      walkDrop it
      pure []
    | (some (.leave h), it) => do
      let evs ← walkAll nodes sk k it
      pure (.leave h :: evs)
    | (some (.enter h), it) => do
      let o ← look h
      let evs ← walkAll nodes sk k (if sk o.kind o.range then it.skipSubtree else it)
      pure (.enter h :: evs)

/-! ### Positions -/

/-- `child_or_token_at_range` — src/cursor.rs:935-940; `bs` is `slice::binary_search_by`. -/
def childAtRange (bs : BinarySearch) (range : TextRange) (h : Nat) : RProg (Option Nat) := do
  let o ← look h
  match o.green with
  | .token _ => .panic
  | .node g => do
    match range.sub? o.range.start with
    | none => .panic
    | some rel =>
      match g.childAtRange bs rel with
      | none => pure none
      | some (i, _, _) => nav (.childAt i) h

/-- The loop of `covering_element`; owns `h` — src/cursor.rs:918-932. -/
def coverLoop (bs : BinarySearch) (range : TextRange) : Nat → Nat → RProg Nat
  | 0, _ => .diverge
  | k + 1, h => do
    let o ← look h
    if !o.range.containsRange range then .panic
    else match o.green with
      | .token _ => pure h
      | .node _ => do
        match ← childAtRange bs range h with
        | some c => do
          drop h
          coverLoop bs range k c
        | none => pure h

/-- `covering_element` — src/cursor.rs:916-933. -/
def coveringElement (bs : BinarySearch) (range : TextRange) (k : Nat) (h : Nat) : RProg Nat := do
  let c ← clone h
  coverLoop bs range k c

/-- `Iterator::next` of `children_with_tokens().filter(pred)` (standard library); `k` bounds the number of rounds.
(Used at src/cursor.rs:894-902; the same loop as in src/ast.rs:235.) -/
def filterNext (pred : Obs → Bool) : Nat → Kids → RProg (Option Nat × Kids)
  | 0, _ => .diverge
  | k + 1, it => do
    match ← kidsNext false it with
    | (none, it) => pure (none, it)
    | (some c, it) => do
      if pred (← look c) then pure (some c, it)
      else do
        drop c
        filterNext pred k it

/-- The closure in `token_at_offset` — src/cursor.rs:894-898. -/
def touches (offset : Nat) (o : Obs) : Bool :=
  !o.range.isEmpty && (decide (o.range.start ≤ offset) && decide (offset ≤ o.range.stop))

/-- `SyntaxNode::token_at_offset` and `SyntaxElement::token_at_offset` — src/cursor.rs:879-914, 1260-1266. -/
def tokenAtOffset (offset : Nat) : Nat → Nat → RProg (TokenAtOffset Nat)
  | 0, _ => .diverge
  | k + 1, h => do
    let o ← look h
    if !(decide (o.range.start ≤ offset) && decide (offset ≤ o.range.stop)) then .panic
    else match o.green with
      | .token _ => do pure (.single (← clone h))
      | .node g =>
        if o.range.isEmpty then pure .none
        else do
          let n := g.slice.length + 1
          let it ← kids h
          let (left, it) ← filterNext (touches offset) n it
          match left with
          | none => .panic
          | some left => do
            let (right, it) ← filterNext (touches offset) n it
            let (third, it) ← filterNext (touches offset) n it
            match third with
            | some _ => .panic
            | none =>
              match right with
              | none => do
                let a ← tokenAtOffset offset k left
                drop left
                kidsDrop it
                pure a
              | some right => do
                let a ← tokenAtOffset offset k left
                let b ← tokenAtOffset offset k right
                match a, b with
                | .single l, .single r => do
                  drop left
                  drop right
                  kidsDrop it
                  pure (.between l r)
                | _, _ => .panic

/-! ### Pointers to nodes, casts, text -/

/-- `into_node` of an optional element, which is dropped if it is a token — src/utility_types.rs:14-19. -/
def intoNode : Option Nat → RProg (Option Nat)
  | none => pure none
  | some c => do
    match (← look c).green with
    | .node _ => pure (some c)
    | .token _ => do
      drop c
      pure none

/-- `successors(Some(root), …).find(…)` in `try_to_node`; owns `h` — src/ast.rs:103-104. -/
def ptrFind [Lang] (bs : BinarySearch) (ptr : SyntaxNodePtr) : Nat → Nat → RProg (Option Nat)
  | 0, _ => .diverge
  | k + 1, h => do
    let c ← childAtRange bs ptr.range h
    let c ← intoNode c
    let o ← look h
    if o.range = ptr.range ∧ Lang.fromRaw o.kind = ptr.kind then do
      dropO c
      pure (some h)
    else do
      drop h
      match c with
      | none => pure none
      | some c => ptrFind bs ptr k c

/-- `SyntaxNodePtr::try_to_node` — src/ast.rs:98-105. -/
def tryToNode [Lang] (bs : BinarySearch) (ptr : SyntaxNodePtr) (h : Nat) : RProg (Option Nat) := do
  let o ← look h
  if !o.mutable then do
    match ← nav .parent h with
    | some p => do
      drop p
      pure none
    | none => do
      let c ← clone h
      ptrFind bs ptr o.green.subs.length c
  else .panic

/-- `children().find_map(N::cast)` and `AstChildren::next`, for a cast that looks at the kind and keeps the node;
`k` bounds the number of rounds — src/ast.rs:215-217, 226-228. -/
def castNext (can : SyntaxKind → Bool) : Nat → Kids → RProg (Option Nat × Kids)
  | 0, _ => .diverge
  | k + 1, it => do
    match ← kidsNext true it with
    | (none, it) => pure (none, it)
    | (some c, it) => do
      let o ← look c
      if can o.kind then pure (some c, it)
      else do
        drop c
        castNext can k it

/-- `support::children(…).collect()` — src/ast.rs:209-220, 230-232. -/
def castAll (can : SyntaxKind → Bool) (m : Nat) : Nat → Kids → RProg (List Nat)
  | 0, _ => .diverge
  | k + 1, it => do
    match ← castNext can m it with
    | (none, it) => do
      kidsDrop it
      pure []
    | (some c, it) => do
      let cs ← castAll can m k it
      pure (c :: cs)

/-- `tokens_with_ranges().try_fold(…)`, with the walk inside; the closure is code of the caller — src/cursor.rs:861-867,
src/syntax_text.rs:82-88, 108-117. -/
def foldChunks {T E : Type} (range : TextRange) (f : T → List Char → Res (Except E T)) :
    Nat → Walk → T → RProg (Except E T)
  | 0, _, _ => .diverge
  | k + 1, it, acc => do
    match ← walkNext false it with
    | (none, it) => do
      walkDrop it
      pure (.ok acc)
    | (some (.leave h), it) => do
      drop h
      foldChunks range f k it acc
    | (some (.enter h), it) => do
      let o ← look h
      match o.green with
      | .node _ => do
        drop h
        foldChunks range f k it acc
      | .token g =>
        match range.intersect o.range with
        | none => do
          drop h
          foldChunks range f k it acc
        | some r => do
          let r ← ofRes (Res.ofOption (r.sub? o.range.start))
          let chunk ← ofRes (sliceText g.text r)
          match ← ofRes (f acc chunk) with
          | .ok acc => do
            drop h
            foldChunks range f k it acc
          | .error e => do
            drop h
            walkDrop it
            pure (.error e)

/-- `try_fold_chunks` on the text of a node or a slice of it; the node read at the start bounds the number of
events — src/syntax_text.rs:82-88. -/
def tryFoldChunks {T E : Type} (range : TextRange) (h : Nat) (init : T) (f : T → List Char → Res (Except E T)) :
    RProg (Except E T) := do
  let o ← look h
  let it ← walk h
  foldChunks range f (2 * o.green.subs.length + 1) it init

/-! ### Replacing -/

/-- `SyntaxNode::replace_with` — src/cursor.rs:614-625; `next` supplies addresses for the new green nodes. -/
def replaceWith : Nat → Nat → Nat → GNode → RProg GNode
  | 0, _, _, _ => .diverge
  | k + 1, next, h, g => do
    let o ← look h
    if o.kind == g.kind then do
      match ← nav .parent h with
      | none => pure g
      | some p => do
        match (← look p).green with
        | .token _ => .panic
        | .node pg => do
          let r ← replaceWith k (next + 1) p (pg.replaceChild next o.index (.node g))
          drop p
          pure r
    else .panic

/-- `SyntaxToken::replace_with` — src/cursor.rs:1007-1014. -/
def replaceTokenWith (k next : Nat) (h : Nat) (g : GToken) : RProg GNode := do
  let o ← look h
  if o.kind == g.kind then do
    match ← nav .parent h with
    | none => .panic
    | some p => do
      match (← look p).green with
      | .token _ => .panic
      | .node pg => do
        let r ← replaceWith k (next + 1) p (pg.replaceChild next o.index (.token g))
        drop p
        pure r
  else .panic

end Prog
end Rowan
