import Verif.Builder
/-!
# How often the node cache computes hashes

This file repeats the functions of `Verif/Builder.lean` that hash, with a counter: how many elements have their hash computed, by
`token_hash`, by `node_hash` (once for each call, also the recursive ones) or by the lines in `NodeCache::token` and
`NodeCache::node` that do the same.  What `FxHasher` does with one element (its kind, its text, the hashes of its children) counts
as one step, whatever the length of the text.  `Verif/Props/BuildCost.lean` shows that the results are the same.
-/
namespace Rowan

mutual
/-- `node_hash`, with the number of elements hashed — src/green/node_cache.rs:49-60. -/
def GNode.rehashC (env : HashEnv) : GNode → Nat × Nat
  | .mk _ k _ cs => (env.nodeHash k (GChild.rehashesC env cs).1, 1 + (GChild.rehashesC env cs).2)
/-- One child inside `node_hash`, src/green/node_cache.rs:52-58. -/
def GChild.rehashC (env : HashEnv) : GChild → Nat × Nat
  | .node _ n => n.rehashC env
  | .token _ t => (env.tokenHash t.kind t.text, 1)
/-- The loop over the children inside `node_hash`, src/green/node_cache.rs:52-58. -/
def GChild.rehashesC (env : HashEnv) : List GChild → List Nat × Nat
  | [] => ([], 0)
  | c :: cs => ((c.rehashC env).1 :: (GChild.rehashesC env cs).1, (c.rehashC env).2 + (GChild.rehashesC env cs).2)
end

/-- The loop of a growing table over its entries: each is filed again under its hash.
(Inside `insert_with_hasher`, used at src/green/node_cache.rs:125, :150.) -/
def refile {α : Type} (hasher : α → Nat × Nat) : List (Nat × α) → List (Nat × α) × Nat
  | [] => ([], 0)
  | e :: l => (((hasher e.2).1, e.2) :: (refile hasher l).1, (hasher e.2).2 + (refile hasher l).2)

/-- `tableInsert` with the number of elements hashed. (Used at src/green/node_cache.rs:125, :150.) -/
def tableInsertC {α : Type} (grow : Nat → Bool) (hasher : α → Nat × Nat) (h : Nat) (x : α) (l : List (Nat × α)) :
    List (Nat × α) × Nat :=
  if grow l.length then ((h, x) :: (refile hasher l).1, (refile hasher l).2) else ((h, x) :: l, 0)

/-- `NodeCache::token` with the number of elements hashed — src/green/node_cache.rs:133-156. -/
def Cache.tokenC (env : HashEnv) (c : Cache) (addr : Nat) (k : SyntaxKind) (s : List Char) :
    (Cache × (Nat × GToken)) × Nat :=
  let hash := env.tokenHash k s
  match env.tokens.find hash (fun t => t.kind == k && t.text == s) c.tokens with
  | some t => ((c, (hash, t)), 1)
  | none =>
    let t := GToken.new addr k s
    let r := tableInsertC env.grow (fun t => (env.tokenHash t.kind t.text, 1)) hash t c.tokens
    (({ c with tokens := r.1 }, (hash, t)), 1 + r.2)

/-- `NodeCache::node` with the number of elements hashed; a hash that is given up because a child has none counts too —
src/green/node_cache.rs:70-131. -/
def Cache.nodeC (env : HashEnv) (c : Cache) (addr : Nat) (k : SyntaxKind) (cs : List (Nat × GElem)) :
    (Cache × (Nat × GNode)) × Nat :=
  let build := GNode.new addr k (cs.map (·.2))
  if cs.length > 3 then ((c, (0, build)), 0)
  else if cs.any (fun x => x.1 == 0) then ((c, (0, build)), 1)
  else
    let hash := env.nodeHash k (cs.map (·.1))
    match env.nodes.find hash
      (fun n => n.kind == k && (n.children.length == cs.length &&
        n.children.map GElem.addr == cs.map (fun x => x.2.addr))) c.nodes with
    | some n => ((c, (hash, n)), 1)
    | none =>
      let r := tableInsertC env.grow (GNode.rehashC env) hash build c.nodes
      (({ c with nodes := r.1 }, (hash, build)), 1 + r.2)

/-- A builder call with the number of elements hashed — src/green/builder.rs:49-130; the calls that do not use the cache hash
nothing. -/
def Builder.stepC (env : HashEnv) (addr : Nat) (c : Cache) (b : Builder) (op : BOp) : (Cache × Builder × BOut) × Nat :=
  match op with
  | .token k s =>
    let r := c.tokenC env addr k s
    ((r.1.1, { b with children := b.children ++ [(r.1.2.1, .token r.1.2.2)] }, .unit), r.2)
  | .finishNode =>
    match b.parents with
    | [] => ((c, b, .panic .noOpenNode), 0)
    | (k, f) :: ps =>
      if f > b.children.length then ((c, { b with parents := ps }, .panic .sliceOutOfRange), 0)
      else
        let r := c.nodeC env addr k (b.children.drop f)
        ((r.1.1, { parents := ps, children := b.children.take f ++ [(r.1.2.1, .node r.1.2.2)] }, .unit), r.2)
  | op => (b.step env addr c op, 0)

/-- The elements hashed by one step of a program, if it is a call that uses the cache `c`. (Calls of src/green/builder.rs:49-130.) -/
def World.hashes (env : HashEnv) (cacheOf : Nat → Nat) (c : Nat) (w : World) : WOp → Nat
  | .call b op addr => if cacheOf b = c then ((w.builders b).stepC env addr (w.caches (cacheOf b)) op).2 else 0
  | _ => 0

/-- The elements hashed for the cache `c` by a program. (Clients of src/green/builder.rs; not itself in the code.) -/
def World.hashTotal (env : HashEnv) (cacheOf : Nat → Nat) (c : Nat) : World → List WOp → Nat
  | _, [] => 0
  | w, op :: ops => w.hashes env cacheOf c op + World.hashTotal env cacheOf c (w.step env cacheOf op).1 ops

end Rowan
