import Verif.Spec.Tree
/-!
# Green trees — model of `src/green/{token,node,element}.rs`

Allocations have an address (`addr`), because rowan compares green elements by pointer in the node
cache and in cursor equality.  A green value in the model is the whole object graph below a pointer.
Text sizes are `Nat` (see C04 for the 32-bit side).  `Count<..>` instrumentation is left out.
-/
namespace Rowan

/-- `NodeOrToken<N, T>` — src/utility_types.rs:8-11. -/
inductive NodeOrToken (N T : Type) where
  | node (n : N)
  | token (t : T)
deriving DecidableEq, Repr

namespace NodeOrToken
variable {N T : Type}
/-- src/utility_types.rs:14-19, 28-33 (`into_node`/`as_node`). -/
def asNode : NodeOrToken N T → Option N
  | node n => some n
  | token _ => none
/-- src/utility_types.rs:21-26, 35-40 (`into_token`/`as_token`). -/
def asToken : NodeOrToken N T → Option T
  | node _ => none
  | token t => some t
@[simp] theorem asNode_node (n : N) : (node n : NodeOrToken N T).asNode = some n := rfl
@[simp] theorem asNode_token (t : T) : (token t : NodeOrToken N T).asNode = none := rfl
@[simp] theorem asToken_node (n : N) : (node n : NodeOrToken N T).asToken = none := rfl
@[simp] theorem asToken_token (t : T) : (token t : NodeOrToken N T).asToken = some t := rfl
end NodeOrToken

/-- `GreenToken` / `GreenTokenData`: header `kind` plus the bytes of the text — src/green/token.rs:16-40. -/
structure GToken where
  addr : Nat
  kind : SyntaxKind
  text : List Char
deriving DecidableEq, Repr

mutual
/-- `GreenNode` / `GreenNodeData`: header (`kind`, cached `text_len`) plus the child slice —
src/green/node.rs:18-53. -/
inductive GNode where
  | mk (addr : Nat) (kind : SyntaxKind) (textLen : Nat) (children : List GChild)
/-- `GreenChild` — src/green/node.rs:25-30. -/
inductive GChild where
  | node (relOffset : Nat) (node : GNode)
  | token (relOffset : Nat) (token : GToken)
end

/-- `GreenElement` — src/green/element.rs:10. -/
abbrev GElem := NodeOrToken GNode GToken

namespace GToken
/-- `GreenToken::new` — src/green/token.rs:112-116. -/
def new (addr : Nat) (kind : SyntaxKind) (text : List Char) : GToken := ⟨addr, kind, text⟩
/-- `GreenTokenData::text_len` — src/green/token.rs:104-106. -/
def textLen (t : GToken) : Nat := blen t.text
/-- The plain tree a token stands for. (Abstraction map, not in src/green.) -/
def tree (t : GToken) : Tree := .token t.kind t.text
end GToken

namespace GNode
/-- The address of the allocation, src/green/node.rs:51-53 (the pointer inside `GreenNode`). -/
def addr : GNode → Nat | mk a _ _ _ => a
/-- src/green/node.rs:126-128. -/
def kind : GNode → SyntaxKind | mk _ k _ _ => k
/-- src/green/node.rs:132-134. -/
def textLen : GNode → Nat | mk _ _ l _ => l
/-- `GreenNodeData::slice` — src/green/node.rs:120-122. -/
def slice : GNode → List GChild | mk _ _ _ cs => cs
@[simp] theorem addr_mk (a k l cs) : (mk a k l cs).addr = a := rfl
@[simp] theorem kind_mk (a k l cs) : (mk a k l cs).kind = k := rfl
@[simp] theorem textLen_mk (a k l cs) : (mk a k l cs).textLen = l := rfl
@[simp] theorem slice_mk (a k l cs) : (mk a k l cs).slice = cs := rfl
end GNode

namespace GElem
/-- src/green/element.rs:60-62, 74-79. -/
def kind : GElem → SyntaxKind | .node n => n.kind | .token t => t.kind
/-- src/green/element.rs:66-68, 83-88. -/
def textLen : GElem → Nat | .node n => n.textLen | .token t => t.textLen
/-- `element_id`: the address — src/green/node_cache.rs:62-67. -/
def addr : GElem → Nat | .node n => n.addr | .token t => t.addr
@[simp] theorem kind_node (n) : GElem.kind (.node n) = n.kind := rfl
@[simp] theorem kind_token (t) : GElem.kind (.token t) = t.kind := rfl
@[simp] theorem textLen_node (n) : GElem.textLen (.node n) = n.textLen := rfl
@[simp] theorem textLen_token (t) : GElem.textLen (.token t) = t.textLen := rfl
@[simp] theorem addr_node (n) : GElem.addr (.node n) = n.addr := rfl
@[simp] theorem addr_token (t) : GElem.addr (.token t) = t.addr := rfl
end GElem

namespace GChild
/-- `GreenChild::as_ref` — src/green/node.rs:253-258. -/
def asRef : GChild → GElem | node _ n => .node n | token _ t => .token t
/-- `GreenChild::rel_offset` — src/green/node.rs:260-266. -/
def relOffset : GChild → Nat | node r _ => r | token r _ => r
/-- `GreenChild::rel_range` — src/green/node.rs:268-271. -/
def relRange (c : GChild) : TextRange := TextRange.at_ c.relOffset c.asRef.textLen
@[simp] theorem asRef_node (r n) : (node r n).asRef = .node n := rfl
@[simp] theorem asRef_token (r t) : (token r t).asRef = .token t := rfl
@[simp] theorem relOffset_node (r n) : (node r n).relOffset = r := rfl
@[simp] theorem relOffset_token (r t) : (token r t).relOffset = r := rfl
/-- The struct literal in `GreenNode::new` — src/green/node.rs:212-215. -/
def ofElem (rel : Nat) : GElem → GChild | .node n => node rel n | .token t => token rel t
@[simp] theorem asRef_ofElem (r e) : (ofElem r e).asRef = e := by cases e <;> rfl
@[simp] theorem relOffset_ofElem (r e) : (ofElem r e).relOffset = r := by cases e <;> rfl
theorem ext' {a b : GChild} (h1 : a.relOffset = b.relOffset) (h2 : a.asRef = b.asRef) : a = b := by
  cases a <;> cases b <;> simp_all
end GChild

namespace GNode

/-- The closure inside `GreenNode::new`: each child gets the running total as its relative offset;
returns the children and the final total — src/green/node.rs:208-216. -/
def layout : Nat → List GElem → List GChild × Nat
  | off, [] => ([], off)
  | off, e :: es =>
    let (cs, total) := layout (off + e.textLen) es
    (GChild.ofElem off e :: cs, total)

/-- `GreenNode::new` — src/green/node.rs:203-232 (allocation at `addr`; the `text_len` fix-up after
construction is folded in). -/
def new (addr : Nat) (kind : SyntaxKind) (els : List GElem) : GNode :=
  mk addr kind (layout 0 els).2 (layout 0 els).1

/-- `GreenNodeData::children` — src/green/node.rs:138-140, 287-293. -/
def children (n : GNode) : List GElem := n.slice.map GChild.asRef

@[simp] theorem children_mk (a k l cs) : (mk a k l cs).children = cs.map GChild.asRef := rfl

/-- Structural induction over green nodes. -/
theorem ind {P : GNode → Prop}
    (h : ∀ n : GNode, (∀ r m, GChild.node r m ∈ n.slice → P m) → P n) : ∀ n, P n
  | mk a k l cs => h _ (fun _ m _ => ind h m)
termination_by n => sizeOf n
decreasing_by
  rename_i hm
  have h1 := List.sizeOf_lt_of_mem hm
  simp at h1 ⊢
  omega

end GNode

mutual
/-- `Display for GreenNodeData`: writes every child in turn — src/green/node.rs:104-111. -/
def GNode.display : GNode → List Char
  | .mk _ _ _ cs => GChild.displays cs
/-- `Display for NodeOrToken`, `Display for GreenTokenData` — src/utility_types.rs:52-59,
src/green/token.rs:83-87. -/
def GChild.display : GChild → List Char
  | .node _ n => n.display
  | .token _ t => t.text
/-- The loop of `Display`, src/green/node.rs:104-110. -/
def GChild.displays : List GChild → List Char
  | [] => []
  | c :: cs => c.display ++ GChild.displays cs
end

mutual
/-- The plain tree a green node stands for (abstraction map, not in the code). (Compare src/green/node.rs:37-40.) -/
def GNode.tree : GNode → Tree
  | .mk _ k _ cs => .node k (GChild.trees cs)
/-- The plain tree a child stands for; abstraction map, not in src/green. -/
def GChild.tree : GChild → Tree
  | .node _ n => n.tree
  | .token _ t => t.tree
/-- The plain trees of a list of children; abstraction map, not in src/green. -/
def GChild.trees : List GChild → List Tree
  | [] => []
  | c :: cs => c.tree :: GChild.trees cs
end

/-- The plain tree a green element stands for. (Abstraction map, not in src/green.) -/
def GElem.tree : GElem → Tree | .node n => n.tree | .token t => t.tree
@[simp] theorem GElem.tree_node (n) : GElem.tree (.node n) = n.tree := rfl
@[simp] theorem GElem.tree_token (t) : GElem.tree (.token t) = t.tree := rfl

mutual
/-- Well-formed: the cached `text_len` and all relative offsets are what `GreenNode::new` would
compute, at every level. (Specification vocabulary; compare src/green/node.rs:203-232.) -/
def GNode.WF : GNode → Prop
  | .mk _ _ l cs => GChild.WFs 0 l cs
/-- Well-formedness of a child; specification vocabulary; compare src/green/node.rs:203-232. -/
def GChild.WF : GChild → Prop
  | .node _ n => n.WF
  | .token _ _ => True
/-- Well-formedness of children from an offset on; specification vocabulary; compare src/green/node.rs:203-232. -/
def GChild.WFs : Nat → Nat → List GChild → Prop
  | off, l, [] => l = off
  | off, l, c :: cs => c.relOffset = off ∧ c.WF ∧ GChild.WFs (off + c.asRef.textLen) l cs
end

/-- Well-formedness of an element; specification vocabulary; compare src/green/node.rs:203-232. -/
def GElem.WF : GElem → Prop | .node n => n.WF | .token _ => True
@[simp] theorem GElem.wf_node (n) : GElem.WF (.node n) ↔ n.WF := Iff.rfl
@[simp] theorem GElem.wf_token (t) : GElem.WF (.token t) ↔ True := Iff.rfl

/-! ### Edits -/

/-- `Vec::splice(a..b, xs)`: `none` models the panic on a reversed or out-of-range range.
(Standard library, used at src/green/node.rs:182.) -/
def vecSplice {α : Type} (l : List α) (a b : Nat) (xs : List α) : Option (List α) :=
  if a ≤ b ∧ b ≤ l.length then some (l.take a ++ xs ++ l.drop b) else none

namespace GNode

/-- `GreenNodeData::replace_child` — src/green/node.rs:159-165. -/
def replaceChild (n : GNode) (addr index : Nat) (newChild : GElem) : GNode :=
  GNode.new addr n.kind (n.children.mapIdx fun i c => if i == index then newChild else c)

/-- `GreenNodeData::splice_children` with an already resolved range `a..b` — src/green/node.rs:176-184. -/
def spliceChildren (n : GNode) (addr a b : Nat) (xs : List GElem) : Option GNode :=
  (vecSplice n.children a b xs).map (GNode.new addr n.kind)

/-- `GreenNodeData::insert_child` — src/green/node.rs:167-170. -/
def insertChild (n : GNode) (addr index : Nat) (newChild : GElem) : Option GNode :=
  n.spliceChildren addr index index [newChild]

/-- `GreenNodeData::remove_child` (`index..=index`) — src/green/node.rs:172-174. -/
def removeChild (n : GNode) (addr index : Nat) : Option GNode :=
  n.spliceChildren addr index (index + 1) []

end GNode

/-! ### Equality and hashing -/

mutual
/-- `PartialEq for GreenNodeData` / derived for `GreenNode`: header equality (`kind`, `text_len`,
`Count` is always equal) and slice equality, element by element — src/green/node.rs:18-23, 41-45. -/
def GNode.eq : GNode → GNode → Bool
  | .mk _ k l cs, .mk _ k' l' cs' => (k == k' && l == l') && GChild.eqs cs cs'
/-- derived `PartialEq for GreenChild` (compares `rel_offset` too), `PartialEq` of tokens by header
and bytes — src/green/node.rs:25-30, src/green/token.rs:16, 29-36. -/
def GChild.eq : GChild → GChild → Bool
  | .node r n, .node r' n' => r == r' && n.eq n'
  | .token r t, .token r' t' => r == r' && (t.kind == t'.kind && t.text == t'.text)
  | _, _ => false
/-- `PartialEq` of the slice of children (standard library), src/green/node.rs:41-45. -/
def GChild.eqs : List GChild → List GChild → Bool
  | [], [] => true
  | c :: cs, c' :: cs' => c.eq c' && GChild.eqs cs cs'
  | _, _ => false
end

/-- `PartialEq for GreenTokenData` — src/green/token.rs:29-33. -/
def GToken.eq (a b : GToken) : Bool := a.kind == b.kind && a.text == b.text

mutual
/-- The words fed to a `Hasher` by the derived `Hash` of `GreenNode` (header, stored length of the
slice, slice length prefix, children) — src/green/node.rs:18, 25, 48; src/arc.rs:241, 452-456.
Numbers only; the exact encoding is irrelevant for "equal values hash equally". -/
def GNode.hashWords : GNode → List Nat
  | .mk _ k l cs => k.toNat :: l :: cs.length :: cs.length :: GChild.hashWordss cs
/-- Derived `Hash` of `GreenChild`, src/green/node.rs:25-30. -/
def GChild.hashWords : GChild → List Nat
  | .node r n => 0 :: r :: n.hashWords
  | .token r t => 1 :: r :: t.kind.toNat :: blen t.text :: blen t.text :: t.text.map Char.toNat
/-- `Hash` of the slice of children (standard library), over src/green/node.rs:25-30. -/
def GChild.hashWordss : List GChild → List Nat
  | [] => []
  | c :: cs => c.hashWords ++ GChild.hashWordss cs
end

/-! ### Basic lemmas -/

namespace GChild
@[simp] theorem trees_nil : trees [] = [] := by simp [trees]
@[simp] theorem trees_cons (c cs) : trees (c :: cs) = c.tree :: trees cs := by simp [trees]
theorem trees_eq (cs : List GChild) : trees cs = cs.map GChild.tree := by
  induction cs with
  | nil => simp
  | cons c cs ih => simp [ih]
theorem tree_asRef (c : GChild) : c.asRef.tree = c.tree := by cases c <;> simp [tree]
theorem trees_eq' (cs : List GChild) : trees cs = (cs.map GChild.asRef).map GElem.tree := by
  simp [trees_eq, Function.comp_def, tree_asRef]
@[simp] theorem displays_nil : displays [] = [] := by simp [displays]
@[simp] theorem displays_cons (c cs) : displays (c :: cs) = c.display ++ displays cs := by
  simp [displays]
theorem wf_asRef (c : GChild) : c.asRef.WF ↔ c.WF := by cases c <;> simp [WF, GElem.WF]
end GChild

namespace GNode

theorem tree_eq (n : GNode) : n.tree = .node n.kind (n.children.map GElem.tree) := by
  cases n with
  | mk a k l cs => simp [tree, GChild.trees_eq', children]

@[simp] theorem tree_kind (n : GNode) : n.tree.kind = n.kind := by rw [tree_eq]; rfl
@[simp] theorem tree_children (n : GNode) : n.tree.children = n.children.map GElem.tree := by
  rw [tree_eq]; rfl
@[simp] theorem tree_isNode (n : GNode) : n.tree.isNode = true := by rw [tree_eq]; rfl

theorem layout_fst_asRef (off : Nat) (es : List GElem) :
    (layout off es).1.map GChild.asRef = es := by
  induction es generalizing off with
  | nil => simp [layout]
  | cons e es ih => simp [layout, ih]

theorem layout_length (off : Nat) (es : List GElem) : (layout off es).1.length = es.length := by
  induction es generalizing off with
  | nil => simp [layout]
  | cons e es ih => simp [layout, ih]

theorem layout_snd (off : Nat) (es : List GElem) :
    (layout off es).2 = off + (es.map GElem.textLen).sum := by
  induction es generalizing off with
  | nil => simp [layout]
  | cons e es ih => simp [layout, ih, Nat.add_assoc]

theorem layout_wfs (off : Nat) (es : List GElem) (h : ∀ e ∈ es, e.WF) :
    GChild.WFs off (layout off es).2 (layout off es).1 := by
  induction es generalizing off with
  | nil => simp [layout, GChild.WFs]
  | cons e es ih =>
    simp only [layout, GChild.WFs]
    refine ⟨by simp, (GChild.wf_asRef _).mp (by simpa using h e (by simp)), ?_⟩
    simp only [GChild.asRef_ofElem]
    exact ih _ (fun x hx => h x (by simp [hx]))

/-- A well-formed child list is exactly what `layout` produces. -/
theorem wfs_iff (off l : Nat) (cs : List GChild) :
    GChild.WFs off l cs ↔
      layout off (cs.map GChild.asRef) = (cs, l) ∧ ∀ c ∈ cs, c.WF := by
  induction cs generalizing off with
  | nil => simp [GChild.WFs, layout]; exact eq_comm
  | cons c cs ih =>
    simp only [GChild.WFs, ih, List.map_cons, layout, List.mem_cons, forall_eq_or_imp]
    constructor
    · rintro ⟨h1, h2, h3, h4⟩
      rw [h3]
      refine ⟨?_, h2, h4⟩
      simp only [Prod.mk.injEq, List.cons.injEq, and_true]
      exact GChild.ext' (by simp [h1]) (by simp)
    · rintro ⟨h1, h2, h3⟩
      simp only [Prod.mk.injEq, List.cons.injEq] at h1
      obtain ⟨⟨h1, h4⟩, h5⟩ := h1
      refine ⟨by rw [← h1]; simp, h2, ?_, h3⟩
      rw [Prod.ext_iff]; exact ⟨h4, h5⟩

theorem wf_iff (n : GNode) :
    n.WF ↔ layout 0 n.children = (n.slice, n.textLen) ∧ ∀ e ∈ n.children, e.WF := by
  cases n with
  | mk a k l cs =>
    simp only [WF, wfs_iff, children_mk, slice_mk, textLen_mk, List.mem_map, forall_exists_index,
      and_imp, forall_apply_eq_imp_iff₂, GChild.wf_asRef]

/-- Well-formed nodes are exactly the ones `GreenNode::new` returns for well-formed children. -/
theorem wf_iff_new (n : GNode) :
    n.WF ↔ n = GNode.new n.addr n.kind n.children ∧ ∀ e ∈ n.children, e.WF := by
  rw [wf_iff]
  cases n with
  | mk a k l cs =>
    simp only [new, children_mk, slice_mk, textLen_mk, addr_mk, kind_mk, mk.injEq, true_and]
    rw [Prod.ext_iff]
    constructor
    · rintro ⟨⟨h1, h2⟩, h3⟩; exact ⟨⟨h2.symm, h1.symm⟩, h3⟩
    · rintro ⟨⟨h1, h2⟩, h3⟩; exact ⟨⟨h2.symm, h1.symm⟩, h3⟩

@[simp] theorem children_new (a k es) : (GNode.new a k es).children = es := by
  simp [new, layout_fst_asRef]
@[simp] theorem kind_new (a k es) : (GNode.new a k es).kind = k := rfl
@[simp] theorem addr_new (a k es) : (GNode.new a k es).addr = a := rfl
theorem textLen_new (a k es) : (GNode.new a k es).textLen = (es.map GElem.textLen).sum := by
  simp [new, layout_snd]
theorem slice_new (a k es) : (GNode.new a k es).slice = (layout 0 es).1 := rfl
@[simp] theorem tree_new (a k es) : (GNode.new a k es).tree = .node k (es.map GElem.tree) := by
  simp [tree_eq]

theorem wf_new (a k) (es : List GElem) (h : ∀ e ∈ es, e.WF) : (GNode.new a k es).WF := by
  rw [wf_iff_new]; simpa using h

theorem children_length (n : GNode) : n.children.length = n.slice.length := by simp [children]

end GNode

mutual
theorem GNode.display_eq : ∀ n : GNode, n.display = n.tree.text
  | .mk a k l cs => by simp [GNode.display, GNode.tree, GChild.displays_eq cs]
theorem GChild.display_eq : ∀ c : GChild, c.display = c.tree.text
  | .node r n => by simp [GChild.display, GChild.tree, GNode.display_eq n]
  | .token r t => by simp [GChild.display, GChild.tree, GToken.tree]
theorem GChild.displays_eq : ∀ cs : List GChild, GChild.displays cs = Tree.texts (GChild.trees cs)
  | [] => by simp
  | c :: cs => by simp [GChild.display_eq c, GChild.displays_eq cs]
end

mutual
theorem GNode.textLen_eq : ∀ n : GNode, n.WF → n.textLen = n.tree.len
  | .mk a k l cs, h => by
    simp only [GNode.WF] at h
    have := GChild.wfs_len cs 0 l h
    simp [GNode.tree, Tree.len, this]
theorem GChild.textLen_eq : ∀ c : GChild, c.WF → c.asRef.textLen = c.tree.len
  | .node r n, h => by
    simp only [GChild.WF] at h
    simpa [GChild.tree] using GNode.textLen_eq n h
  | .token r t, _ => by simp [GChild.tree, GToken.tree, GToken.textLen, Tree.len]
theorem GChild.wfs_len : ∀ (cs : List GChild) (off l : Nat), GChild.WFs off l cs →
    l = off + blen (Tree.texts (GChild.trees cs))
  | [], off, l, h => by simpa [GChild.WFs] using h
  | c :: cs, off, l, h => by
    simp only [GChild.WFs] at h
    obtain ⟨_, h2, h3⟩ := h
    have e1 := GChild.textLen_eq c h2
    have e2 := GChild.wfs_len cs _ l h3
    simp only [Tree.len] at e1
    simp [e2, e1, Nat.add_assoc]
end

theorem GElem.textLen_eq (e : GElem) (h : e.WF) : e.textLen = e.tree.len := by
  cases e with
  | node n => exact GNode.textLen_eq n h
  | token t => simp [GToken.tree, GToken.textLen, Tree.len]

namespace GNode

/-- The `i`-th child's relative offset is the byte length of its left siblings. -/
theorem relOffset_eq {n : GNode} (h : n.WF) {i : Nat} {c : GChild} (hc : n.slice[i]? = some c) :
    c.relOffset = blen (Tree.texts (n.tree.children.take i)) := by
  have key : ∀ (cs : List GChild) (off l i : Nat) (c : GChild), GChild.WFs off l cs →
      cs[i]? = some c → c.relOffset = off + blen (Tree.texts ((GChild.trees cs).take i)) := by
    intro cs
    induction cs with
    | nil => intro off l i c _ h; simp at h
    | cons d cs ih =>
      intro off l i c hw hi
      simp only [GChild.WFs] at hw
      obtain ⟨h1, h2, h3⟩ := hw
      cases i with
      | zero => simp at hi; subst hi; simp [h1]
      | succ i =>
        simp at hi
        have := ih _ _ _ _ h3 hi
        have e1 := GChild.textLen_eq d h2
        simp only [Tree.len] at e1
        simp [this, e1, Nat.add_assoc]
  cases n with
  | mk a k l cs =>
    simp only [WF] at h
    have := key cs 0 l i c h hc
    simpa [GChild.trees_eq'] using this

theorem wf_child {n : GNode} (h : n.WF) {c : GChild} (hc : c ∈ n.slice) : c.asRef.WF := by
  have := ((wf_iff n).mp h).2
  exact this _ (by simp only [children, List.mem_map]; exact ⟨c, hc, rfl⟩)

theorem wf_node_child {n : GNode} (h : n.WF) {r : Nat} {m : GNode}
    (hc : GChild.node r m ∈ n.slice) : m.WF := by
  simpa using wf_child h hc

theorem slice_getElem? (n : GNode) (i : Nat) :
    n.children[i]? = (n.slice[i]?).map GChild.asRef := by simp [children]

end GNode

end Rowan
