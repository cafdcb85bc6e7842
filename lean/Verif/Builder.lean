import Verif.Green
/-!
# Builder and node cache — model of `src/green/{builder,node_cache}.rs`

The model keeps allocation addresses, because the cache compares children by address.  An address
may be reused after the allocation is gone: a new allocation may get *any* address that no live
green element has.

The hash function is a parameter, and so is hashbrown's table: which matching entry a lookup
returns and when the table grows (and re-hashes every entry) is left open.
-/
namespace Rowan

/-! ### The hash table -/

/-- What is used of `hashbrown::HashMap::raw_entry_mut().from_hash(hash, is_match)`: it returns an
entry that matches, and it returns "vacant" only if no entry *filed under that hash* matches.
(Entries filed under another hash may or may not be probed.) (used at src/green/node_cache.rs:106-114, :141-144). -/
structure Lookup (α : Type) where
  find : Nat → (α → Bool) → List (Nat × α) → Option α
  sound : ∀ {h p l e}, find h p l = some e → p e = true ∧ ∃ h', (h', e) ∈ l
  complete : ∀ {h p l e}, find h p l = none → (h, e) ∈ l → p e = false

/-- `RawVacantEntryMut::insert_with_hasher(hash, key, (), hasher)`: if the table is full it grows
first, re-filing every old entry under `hasher(entry)`; the new entry is filed under `hash`.
`grow` says whether a table with that many entries grows. (Used at src/green/node_cache.rs:125, :150.) -/
def tableInsert {α : Type} (grow : Nat → Bool) (hasher : α → Nat) (h : Nat) (x : α)
    (l : List (Nat × α)) : List (Nat × α) :=
  (h, x) :: (if grow l.length then l.map (fun e => (hasher e.2, e.2)) else l)

/-- Everything about hashing that the model leaves open.
`tokenHash k s`: FxHasher over kind and text — src/green/node_cache.rs:42-47, 134-139.
`nodeHash k hs`: FxHasher over kind and the children's hashes — src/green/node_cache.rs:49-60, 86-97. -/
structure HashEnv where
  tokenHash : SyntaxKind → List Char → Nat
  nodeHash : SyntaxKind → List Nat → Nat
  grow : Nat → Bool
  nodes : Lookup GNode
  tokens : Lookup GToken

mutual
/-- `node_hash`, the hasher used when the node table grows — src/green/node_cache.rs:49-60. -/
def GNode.rehash (env : HashEnv) : GNode → Nat
  | .mk _ k _ cs => env.nodeHash k (GChild.rehashes env cs)
/-- One child inside `node_hash`, src/green/node_cache.rs:52-58. -/
def GChild.rehash (env : HashEnv) : GChild → Nat
  | .node _ n => n.rehash env
  | .token _ t => env.tokenHash t.kind t.text
/-- The loop over the children inside `node_hash`, src/green/node_cache.rs:52-58. -/
def GChild.rehashes (env : HashEnv) : List GChild → List Nat
  | [] => []
  | c :: cs => c.rehash env :: GChild.rehashes env cs
end

/-- `NodeCache` — src/green/node_cache.rs:37-40. -/
structure Cache where
  nodes : List (Nat × GNode) := []
  tokens : List (Nat × GToken) := []

/-- `NodeCache::token`; `addr` is the address a new allocation would get —
src/green/node_cache.rs:133-156. -/
def Cache.token (env : HashEnv) (c : Cache) (addr : Nat) (k : SyntaxKind) (s : List Char) :
    Cache × (Nat × GToken) :=
  let hash := env.tokenHash k s
  match env.tokens.find hash (fun t => t.kind == k && t.text == s) c.tokens with
  | some t => (c, (hash, t))
  | none =>
    let t := GToken.new addr k s
    ({ c with tokens := tableInsert env.grow (fun t => env.tokenHash t.kind t.text) hash t c.tokens },
      (hash, t))

/-- `NodeCache::node` on the drained part `cs = children[first_child..]` —
src/green/node_cache.rs:70-131.  The caller removes `cs` from the vector in every branch
(`build_node` drains it, the occupied branch drops the drain). -/
def Cache.node (env : HashEnv) (c : Cache) (addr : Nat) (k : SyntaxKind) (cs : List (Nat × GElem)) :
    Cache × (Nat × GNode) :=
  let build := GNode.new addr k (cs.map (·.2))
  if cs.length > 3 then (c, (0, build))
  else if cs.any (fun x => x.1 == 0) then (c, (0, build))
  else
    let hash := env.nodeHash k (cs.map (·.1))
    match env.nodes.find hash
      (fun n => n.kind == k && (n.children.length == cs.length &&
        n.children.map GElem.addr == cs.map (fun x => x.2.addr))) c.nodes with
    | some n => (c, (hash, n))
    | none =>
      ({ c with nodes := tableInsert env.grow (GNode.rehash env) hash build c.nodes }, (hash, build))

/-! ### The builder -/

/-- `GreenNodeBuilder` without its cache reference — src/green/builder.rs:25-29.  `parents` has the
innermost (last pushed) entry first; `children` is in push order. -/
structure Builder where
  parents : List (SyntaxKind × Nat) := []
  children : List (Nat × GElem) := []

/-- Builder calls.  A checkpoint is the plain number inside it — src/green/builder.rs:11-21. -/
inductive BOp where
  | token (k : SyntaxKind) (s : List Char)
  | startNode (k : SyntaxKind)
  | finishNode
  | startNodeAt (checkpoint : Nat) (k : SyntaxKind)
  | finish
deriving Repr

/-- Places where a builder call can panic.
(src/green/builder.rs:64-70, :103-114, :124-130, src/green/token.rs:112-116.) -/
inductive BPanic where
  /-- `self.parents.pop().unwrap()` — src/green/builder.rs:65 -/
  | noOpenNode
  /-- `&children[first_child..]` out of range — src/green/node_cache.rs:80 -/
  | sliceOutOfRange
  /-- first `assert!` of `start_node_at` — src/green/builder.rs:105-108 -/
  | checkpointBeyondEnd
  /-- second `assert!` of `start_node_at` — src/green/builder.rs:110-115 -/
  | checkpointBeforeParent
  /-- `assert_eq!(self.children.len(), 1)` — src/green/builder.rs:125 -/
  | notOneElement
  /-- `NodeOrToken::Token(_) => panic!()` — src/green/builder.rs:128 -/
  | rootIsToken
deriving DecidableEq, Repr

/-- What the caller of a builder operation observes. (The return values of src/green/builder.rs:49-130.) -/
inductive BOut where
  | unit
  | root (n : GNode)
  | panic (p : BPanic)

/-- `checkpoint()` — src/green/builder.rs:96-98 (`inner + 1` cannot overflow: a `Vec` holds at most
`isize::MAX` bytes). -/
def Builder.checkpoint (b : Builder) : Nat := b.children.length

/-- One builder call on a cache.  A call that panics leaves builder and cache as they were, except
`finish`, which consumes the builder in any case — src/green/builder.rs:49-130. -/
def Builder.step (env : HashEnv) (addr : Nat) (c : Cache) (b : Builder) :
    BOp → Cache × Builder × BOut
  | .token k s =>
    let (c', h, t) := c.token env addr k s
    (c', { b with children := b.children ++ [(h, .token t)] }, .unit)
  | .startNode k => (c, { b with parents := (k, b.children.length) :: b.parents }, .unit)
  | .finishNode =>
    match b.parents with
    | [] => (c, b, .panic .noOpenNode)
    | (k, f) :: ps =>
      if f > b.children.length then (c, { b with parents := ps }, .panic .sliceOutOfRange)
      else
        let (c', h, n) := c.node env addr k (b.children.drop f)
        (c', { parents := ps, children := b.children.take f ++ [(h, .node n)] }, .unit)
  | .startNodeAt cp k =>
    if cp ≤ b.children.length then
      match b.parents with
      | (_, f) :: _ =>
        if f ≤ cp then (c, { b with parents := (k, cp) :: b.parents }, .unit)
        else (c, b, .panic .checkpointBeforeParent)
      | [] => (c, { b with parents := [(k, cp)] }, .unit)
    else (c, b, .panic .checkpointBeyondEnd)
  | .finish =>
    if b.children.length = 1 then
      match b.children.getLast? with
      | some (_, .node n) => (c, {}, .root n)
      | some (_, .token _) => (c, {}, .panic .rootIsToken)
      | none => (c, {}, .panic .notOneElement)
    else (c, {}, .panic .notOneElement)

/-! ### Worlds: many builders, many caches -/

/-- Builders `b` use cache `cacheOf b` (several builders may share a cache; a builder with its own
cache is one that shares with nobody).  `held` are all other green elements alive in the program.
(Clients of src/green/builder.rs:25-30 (`CowMut<NodeCache>`) and of green nodes; not itself in the code.) -/
structure World where
  caches : Nat → Cache := fun _ => {}
  builders : Nat → Builder := fun _ => {}
  held : List GElem := []

/-- The steps of the whole program: the calls of src/green/builder.rs:49-130, and what other code does. -/
inductive WOp where
  /-- call `op` on builder `b`; a new allocation, if needed, is placed at `addr` -/
  | call (b : Nat) (op : BOp) (addr : Nat)
  /-- drop builder `b` (a new one may start under the same name) -/
  | dropBuilder (b : Nat)
  /-- drop a cache; its builders are gone by then (borrow checker), modelled by resetting them -/
  | dropCache (c : Nat)
  /-- anything else in the program: other green elements appear or disappear -/
  | other (held : List GElem)

/-- The effect of a step: the calls of src/green/builder.rs:49-130 on the builder's cache. -/
def World.step (env : HashEnv) (cacheOf : Nat → Nat) (w : World) : WOp → World × BOut
  | .call b op addr =>
    let (c', b', o) := (w.builders b).step env addr (w.caches (cacheOf b)) op
    ({ caches := fun i => if i = cacheOf b then c' else w.caches i
       builders := fun i => if i = b then b' else w.builders i
       held := match o with
         | .root n => .node n :: w.held
         | _ => w.held }, o)
  | .dropBuilder b => ({ w with builders := fun i => if i = b then {} else w.builders i }, .unit)
  | .dropCache c =>
    ({ w with caches := fun i => if i = c then {} else w.caches i
              builders := fun i => if cacheOf i = c then {} else w.builders i }, .unit)
  | .other held => ({ w with held := held }, .unit)

/-! Which green objects are alive. -/

mutual
/-- All elements of a green tree, including itself. (Specification vocabulary, not in src/green.) -/
def GNode.subs : GNode → List GElem
  | .mk a k l cs => .node (.mk a k l cs) :: GChild.subss cs
/-- All elements below a child, including itself; specification vocabulary, not in src/green. -/
def GChild.subs : GChild → List GElem
  | .node _ n => n.subs
  | .token _ t => [.token t]
/-- The same for a list of children; specification vocabulary, not in src/green. -/
def GChild.subss : List GChild → List GElem
  | [] => []
  | c :: cs => c.subs ++ GChild.subss cs
end

/-- All elements of a green element, including itself; specification vocabulary, not in src/green. -/
def GElem.subs : GElem → List GElem
  | .node n => n.subs
  | .token t => [.token t]

/-- Green elements with a strong reference held by the program itself.
(The owners of `Arc`s: the cache (src/green/node_cache.rs:37-40), the builder's children (src/green/builder.rs:25-30), the program.) -/
inductive World.Root (w : World) : GElem → Prop
  | cacheNode (c h n) : (h, n) ∈ (w.caches c).nodes → Root w (.node n)
  | cacheToken (c h t) : (h, t) ∈ (w.caches c).tokens → Root w (.token t)
  | builder (b h e) : (h, e) ∈ (w.builders b).children → Root w e
  | held (e) : e ∈ w.held → Root w e

/-- Green elements that are alive: below some root. (The objects that src/arc.rs has not freed.) -/
def World.Live (w : World) (x : GElem) : Prop := ∃ r, w.Root r ∧ x ∈ r.subs

/-- The memory system: objects alive at the same time have different addresses.
(Guaranteed by the allocator behind src/arc.rs:346; not in the code.) -/
def World.Coherent (w : World) : Prop := ∀ x y, w.Live x → w.Live y → x.addr = y.addr → x = y

/-- What the allocator and the rest of the program guarantee about one step: a fresh allocation gets
an address no live object has; other code's objects do not clash either.
(The allocator behind src/arc.rs:346 and clients of src/green; not in the code.) -/
def WOp.Legal (w : World) : WOp → Prop
  | .call _ _ addr => ∀ x, w.Live x → x.addr ≠ addr
  | .other held => ({ w with held := held } : World).Coherent ∧ ∀ e ∈ held, e.WF
  | _ => True

/-- A run of the whole program: operations with what each call returned.
(Clients of src/green/builder.rs; not itself in the code.) -/
inductive Run (env : HashEnv) (cacheOf : Nat → Nat) : World → List (WOp × BOut) → World → Prop
  | nil (w) : Run env cacheOf w [] w
  | snoc {w w' l} (op) : Run env cacheOf w l w' → op.Legal w' →
      Run env cacheOf w (l ++ [(op, (w'.step env cacheOf op).2)]) (w'.step env cacheOf op).1

end Rowan
