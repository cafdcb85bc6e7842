import Verif.Spec.Ast
import Verif.Props.Position
import Verif.Props.Edit
/-!
# C30, C31: pointers to nodes and the typed AST layer
-/
namespace Rowan

section
variable [Lang]

/-! ## C30 -/

theorem nodeAt_path {r : Root} {n : SNode} (h : Reach r (.node n)) (k : Lang.Kind) (R : TextRange) :
    r.tree.nodeAt k R n.path ↔ n.textRange = R ∧ n.tkind = k := by
  obtain ⟨s, hs, h1, h2, h3, -⟩ := C11_ranges h
  have h4 := (C11_contents h).1
  rw [hs] at h4
  simp only [Option.some.injEq] at h4
  have hl : n.textRange.stop = n.textRange.start + n.textRange.len := by
    have := n.textRange.le; simp only [TextRange.len]; omega
  have hn : s.isNode = true := by rw [h4]; simp
  rw [SElem.path_node] at hs h2
  have e2 : n.textRange.start = blen (r.tree.before n.path) := h2
  have e3 : n.textRange.len = blen s.text := h3
  have e1 : n.kind = s.kind := h1
  cases s with
  | token k t => simp [Tree.isNode] at hn
  | node k' cs =>
    simp only [Tree.text_node] at e3
    constructor
    · rintro ⟨raw, cs', a1, rfl, a2, a3⟩
      rw [hs] at a1
      simp only [Option.some.injEq, Tree.node.injEq] at a1
      obtain ⟨rfl, rfl⟩ := a1
      refine ⟨?_, congrArg Lang.fromRaw e1⟩
      have e5 : n.textRange.start = R.start := by omega
      have e6 : n.textRange.stop = R.stop := by omega
      generalize n.textRange = Q at e5 e6
      cases Q; cases R; simp_all
    · rintro ⟨rfl, rfl⟩
      exact ⟨k', cs, hs, by rw [SNode.tkind, e1]; rfl, by omega, by omega⟩

theorem Tree.nodeAt.covers {t : Tree} {k : Lang.Kind} {R : TextRange} {q : List Nat}
    (h : t.nodeAt k R q) : t.covers R q := by
  obtain ⟨raw, cs, h1, -, h2, h3⟩ := h
  exact ⟨_, h1, by omega, by rw [Tree.text_node]; omega⟩

theorem findLoop_spec {bs : BinarySearch} (hbs : Conforming bs) {r : Root} (ptr : SyntaxNodePtr) :
    ∀ (k : Nat) (n : SNode), Reach r (.node n) → (GNode.subs n.green).length ≤ k →
      n.textRange.start ≤ ptr.range.start →
      ∃ x, ptr.findLoop bs k n = .ok x ∧
        (∀ m, x = some m → Reach r (.node m) ∧ r.tree.nodeAt ptr.kind ptr.range m.path ∧
          (ptr.range.start < ptr.range.stop → ∀ q, n.path <+: q →
            r.tree.nodeAt ptr.kind ptr.range q → m.path <+: q)) ∧
        (x = none → ptr.range.start < ptr.range.stop → ∀ q, n.path <+: q →
          ¬ r.tree.nodeAt ptr.kind ptr.range q) := by
  intro k
  induction k with
  | zero =>
    intro n _ hk
    have := List.length_pos_of_mem (SElem.green (.node n)).self_mem_subs
    have : (SElem.green (.node n)).subs = GNode.subs n.green := rfl
    simp_all
  | succ k ih =>
    intro n hn hk hle
    rw [SyntaxNodePtr.findLoop]
    have hat := hn.valid.1.at_path
    rw [hn.valid.2] at hat
    rw [SElem.path_node] at hat
    -- a matching position strictly below `n` lies in a child covering the range
    have below : ∀ q, n.path <+: q → r.tree.nodeAt ptr.kind ptr.range q →
        r.tree.nodeAt ptr.kind ptr.range n.path ∨
        ∃ a u, q = n.path ++ [a] ++ u ∧ n.path ++ [a] ∈ r.tree.kids n.path ∧
          r.tree.covers ptr.range (n.path ++ [a]) := by
      rintro q ⟨u, rfl⟩ hq
      cases u with
      | nil => left; simpa using hq
      | cons a u =>
        right
        have hpre : r.tree.covers ptr.range (n.path ++ [a]) := by
          apply Tree.covers_prefix (q := u)
          simpa using hq.covers
        exact ⟨a, u, by simp, (Tree.mem_kids hat).mpr
          ⟨a, ((Tree.covers_kid hat _ a).mp hpre).1, rfl⟩, hpre⟩
    have hmatch := nodeAt_path hn ptr.kind ptr.range
    rcases (C19_child_at_range hbs hn ptr.range).2 hle with ⟨h1, h2⟩ | ⟨c, h1, h2, h3, h4, h5, -⟩
    · rw [h1]
      simp only [Res.ok_bind, Option.bind_none]
      split
      · next hm =>
        refine ⟨_, rfl, ?_, by simp⟩
        intro m hm'
        simp only [Option.some.injEq] at hm'
        subst hm'
        exact ⟨hn, hmatch.mpr hm, fun _ q hq _ => hq⟩
      · next hm =>
        refine ⟨_, rfl, by simp, ?_⟩
        intro _ _ q hq hqm
        rcases below q hq hqm with hc | ⟨a, u, -, ha, hc⟩
        · exact hm (hmatch.mp hc)
        · exact h2 _ ha hc
    · rw [h1]
      simp only [Res.ok_bind, Option.bind_some]
      split
      · next hm =>
        refine ⟨_, rfl, ?_, by simp⟩
        intro m hm'
        simp only [Option.some.injEq] at hm'
        subst hm'
        exact ⟨hn, hmatch.mpr hm, fun _ q hq _ => hq⟩
      · next hm =>
        have hthru : ptr.range.start < ptr.range.stop → ∀ q, n.path <+: q →
            r.tree.nodeAt ptr.kind ptr.range q → c.path <+: q := by
          intro hne q hq hqm
          rcases below q hq hqm with hc | ⟨a, u, rfl, ha, hc⟩
          · exact absurd (hmatch.mp hc) hm
          · rw [← h5 hne _ ha hc]; exact ⟨u, rfl⟩
        cases c with
        | token t =>
          refine ⟨_, rfl, by simp, ?_⟩
          intro _ hne q hq hqm
          obtain ⟨u, rfl⟩ := hthru hne q hq hqm
          obtain ⟨raw, cs, hcs, -⟩ := hqm
          have hat' := (C11_contents h2).2.1 t rfl
          rw [Tree.at?_append, hat'] at hcs
          cases u with
          | nil => simp at hcs
          | cons b u => simp [Tree.at?_cons, Tree.children] at hcs
        | node c =>
          have hck : .node c ∈ n.kids := by
            obtain ⟨k1, k2⟩ := hn.kids
            have : (SElem.path (.node c)) ∈ n.kids.map SElem.path := by rw [k1]; exact h3
            obtain ⟨c', hc', hcp⟩ := List.mem_map.mp this
            have hc'v := k2 c' hc'
            have : c' = .node c := hc'v.1.unique h2.valid.1 (by rw [hc'v.2, h2.valid.2]) hcp
            rwa [← this]
          have hlt := SNode.subs_kid_lt hck
          have hlt' : (SElem.green (.node c)).subs.length = (GNode.subs c.green).length := rfl
          have hst : c.textRange.start ≤ ptr.range.start := by
            obtain ⟨s, -, c1, -⟩ := h4
            obtain ⟨-, -, -, c2, -⟩ := C11_ranges h2
            have : c.textRange.start = blen (r.tree.before c.path) := c2
            rw [SElem.path_node] at c1
            omega
          obtain ⟨x, x1, x2, x3⟩ := ih c h2 (by omega) hst
          refine ⟨x, x1, ?_, ?_⟩
          · intro m hm'
            obtain ⟨y1, y2, y3⟩ := x2 m hm'
            exact ⟨y1, y2, fun hne q hq hqm => y3 hne q (hthru hne q hq hqm) hqm⟩
          · intro hx hne q hq hqm
            exact x3 hx hne q (hthru hne q hq hqm) hqm

theorem SNode.parent_isSome {n : SNode} :
    n.parent.isSome = true ↔ n.path ≠ [] := by
  cases n with
  | root => simp [SNode.parent, SNode.path]
  | child => simp [SNode.parent, SNode.path]

theorem SNode.path_nil_start {r : Root} {n : SNode} (h : Reach r (.node n)) (hp : n.path = []) :
    n.textRange.start = 0 := by
  obtain ⟨-, -, -, c2, -⟩ := C11_ranges h
  have : n.textRange.start = blen (r.tree.before n.path) := c2
  rw [this, hp]; rfl

/-- **C30, resolving any pointer** (obtained from this tree or another one) against a node `n` of an
immutable tree: `None` if `n` is not the root.  For the root the call never panics; a node it
returns has exactly the pointer's kind and range; for a non-empty range it is the outermost such
node, and `None` means there is no such node. -/
theorem C30_resolve {bs : BinarySearch} (hbs : Conforming bs) {r : Root} (him : r.mutable = false)
    {n : SNode} (h : Reach r (.node n)) (ptr : SyntaxNodePtr) :
    (n.path ≠ [] → ptr.tryToNode bs n = .ok none) ∧
    (n.path = [] → ∃ x, ptr.tryToNode bs n = .ok x ∧
      (∀ m, x = some m → Reach r (.node m) ∧ r.tree.nodeAt ptr.kind ptr.range m.path ∧
        (ptr.range.start < ptr.range.stop →
          ∀ q, r.tree.nodeAt ptr.kind ptr.range q → m.path <+: q)) ∧
      (x = none → ptr.range.start < ptr.range.stop →
        ∀ q, ¬ r.tree.nodeAt ptr.kind ptr.range q)) := by
  have hm : n.mutable = false := by rw [← him]; exact (C11_contents h).2.2
  rw [SyntaxNodePtr.tryToNode, hm]
  simp only [Bool.not_false, if_true]
  constructor
  · intro hp; rw [if_pos (SNode.parent_isSome.mpr hp)]
  · intro hp
    rw [if_neg (by rw [SNode.parent_isSome]; simp [hp])]
    have hle : n.textRange.start ≤ ptr.range.start := by rw [SNode.path_nil_start h hp]; omega
    obtain ⟨x, x1, x2, x3⟩ := findLoop_spec hbs ptr _ n h (Nat.le_refl _) hle
    refine ⟨x, x1, ?_, ?_⟩
    · intro m hx
      obtain ⟨y1, y2, y3⟩ := x2 m hx
      exact ⟨y1, y2, fun hne q hq => y3 hne q (by rw [hp]; exact List.nil_prefix) hq⟩
    · intro hx hne q hq
      exact x3 hx hne q (by rw [hp]; exact List.nil_prefix) hq

/-- **C30, round trip** for a node with non-empty text: resolving its pointer against the root gives
a node of the same kind and range at or above it; and it is the node itself if no other node has the
same kind and range. -/
theorem C30_round_trip_partial {bs : BinarySearch} (hbs : Conforming bs) {r : Root}
    (him : r.mutable = false)
    {top n : SNode} (ht : Reach r (.node top)) (hp : top.path = []) (h : Reach r (.node n))
    (hne : n.textRange.start < n.textRange.stop) :
    ∃ ptr m, SyntaxNodePtr.new n = .ok ptr ∧
      ptr.toNode bs top = .ok m ∧ ptr.tryToNode bs top = .ok (some m) ∧ Reach r (.node m) ∧
      m.tkind = n.tkind ∧ m.textRange = n.textRange ∧ m.path <+: n.path ∧
      ((∀ q, r.tree.nodeAt n.tkind n.textRange q → q = n.path) → m = n) := by
  have hm : n.mutable = false := by rw [← him]; exact (C11_contents h).2.2
  have hself := (nodeAt_path h n.tkind n.textRange).mpr ⟨rfl, rfl⟩
  refine ⟨⟨n.tkind, n.textRange⟩, ?_⟩
  obtain ⟨x, x1, x2, x3⟩ := (C30_resolve hbs him ht ⟨n.tkind, n.textRange⟩).2 hp
  cases x with
  | none => exact absurd hself (x3 rfl hne _)
  | some m =>
    obtain ⟨y1, y2, y3⟩ := x2 m rfl
    obtain ⟨z1, z2⟩ := (nodeAt_path y1 _ _).mp y2
    refine ⟨m, by simp [SyntaxNodePtr.new, hm], by simp [SyntaxNodePtr.toNode, x1], x1, y1, z2, z1,
      y3 hne _ hself, ?_⟩
    intro huniq
    have := y1.valid.1.unique h.valid.1 (by rw [y1.valid.2, h.valid.2]) (huniq _ y2)
    injection this

/-- Pointers to nodes of mutable trees cannot be made, nor resolved in mutable trees. -/
theorem C30_mutable_panics {bs : BinarySearch} {r : Root} (hm : r.mutable = true) {n : SNode}
    (h : Reach r (.node n)) (ptr : SyntaxNodePtr) :
    SyntaxNodePtr.new n = .panic ∧ ptr.tryToNode bs n = .panic ∧ ptr.toNode bs n = .panic := by
  have hm : n.mutable = true := by rw [← hm]; exact (C11_contents h).2.2
  simp [SyntaxNodePtr.new, SyntaxNodePtr.tryToNode, SyntaxNodePtr.toNode, hm]

end

/-- The language whose kinds are the raw kinds. -/
@[reducible] def rawLang : Lang := ⟨SyntaxKind, id, inferInstance⟩

section
attribute [local instance] rawLang

theorem synTree : synRoot.tree = .node 1 [.token 2 "a".toList,
    .node 3 [.node 4 [], .token 2 "a".toList, .token 2 "é".toList], .node 4 [],
    .token 5 "bc".toList] := rfl

/-- All positions of the example tree. -/
theorem synTree_positions {q : List Nat} {s : Tree} (h : synRoot.tree.at? q = some s) :
    q ∈ [[], [0], [1], [2], [3], [1, 0], [1, 1], [1, 2]] := by
  match q with
  | [] => decide
  | [0] => decide
  | [1] => decide
  | [2] => decide
  | [3] => decide
  | (n + 4) :: q => exact absurd h (by simp [Tree.at?_cons, synTree, Tree.children])
  | [1, 0] => decide
  | [1, 1] => decide
  | [1, 2] => decide
  | 1 :: (n + 3) :: q => exact absurd h (by simp [Tree.at?_cons, synTree, Tree.children])
  | 0 :: a :: q => exact absurd h (by simp [Tree.at?_cons, synTree, Tree.children])
  | 2 :: a :: q => exact absurd h (by simp [Tree.at?_cons, synTree, Tree.children])
  | 3 :: a :: q => exact absurd h (by simp [Tree.at?_cons, synTree, Tree.children])
  | 1 :: 0 :: a :: q => exact absurd h (by simp [Tree.at?_cons, synTree, Tree.children])
  | 1 :: 1 :: a :: q => exact absurd h (by simp [Tree.at?_cons, synTree, Tree.children])
  | 1 :: 2 :: a :: q => exact absurd h (by simp [Tree.at?_cons, synTree, Tree.children])

/-- The start and kind of a node of the example tree determine its position. -/
theorem synTree_unique {k : SyntaxKind} {R : TextRange} {p q : List Nat}
    (hp : ∀ q ∈ [[], [0], [1], [2], [3], [1, 0], [1, 1], [1, 2]],
      synRoot.tree.sat (Tree.nodeOf (· == k)) q = true → blen (synRoot.tree.before q) = R.start →
      q = p)
    (h : synRoot.tree.nodeAt k R q) : q = p := by
  obtain ⟨raw, cs, h1, h3, h2, -⟩ := h
  have h3 : raw = k := h3
  subst h3
  exact hp q (synTree_positions h1)
    (by simp [Tree.sat, h1, Tree.nodeOf, Tree.isNode, Tree.kind]) h2

/-- **C30 is false for nodes with empty text**: in the example tree there are two empty nodes of kind
4, at 1..1 (inside the inner node) and at 4..4.  The pointer of the one at 1..1 does not resolve at
all: the search is led to the token "a" ending at 1. -/
theorem C30_empty_counterexample :
    ∃ (r : Root) (top n : SNode) (ptr : SyntaxNodePtr), r.mutable = false ∧ Reach r (.node top) ∧
      top.path = [] ∧ Reach r (.node n) ∧
      (∀ q, r.tree.nodeAt n.tkind n.textRange q → q = n.path) ∧
      SyntaxNodePtr.new n = .ok ptr ∧ ptr.tryToNode stdSearch top = .ok none ∧
      ptr.toNode stdSearch top = .panic := by
  refine ⟨synRoot, synTop, .child synInnerH 0 1 synEmpty, _, rfl, synTop_reach, rfl,
    Reach.firstChild synInner_reach rfl, ?_, rfl, by rfl, by rfl⟩
  exact fun q => synTree_unique (by decide)

/-- The hypotheses of the round trip are met by the inner node of the example tree. -/
example : ∃ ptr, SyntaxNodePtr.new synInnerH = .ok ptr ∧
    ptr.toNode stdSearch synTop = .ok synInnerH := by
  obtain ⟨ptr, m, h1, h2, -, -, -, -, -, h8⟩ := C30_round_trip_partial stdSearch_conforming
    (r := synRoot) rfl synTop_reach rfl synInner_reach (by decide)
  exact ⟨ptr, h1, by rw [h2, h8 fun q => synTree_unique (by decide)]⟩

/-- Nested nodes of the same kind and range: the outer one is found. -/
def nestGreen : GNode := GNode.new 9 1 [.node (GNode.new 8 1 [exTok 0 2 "a"])]
example : SyntaxNodePtr.toNode stdSearch ⟨(1 : SyntaxKind), ⟨0, 1, by decide⟩⟩ (.root false 0 nestGreen) =
    .ok (.root false 0 nestGreen) := rfl
/-- A pointer from elsewhere resolves to nothing. -/
example : SyntaxNodePtr.tryToNode stdSearch ⟨(1 : SyntaxKind), ⟨1, 4, by decide⟩⟩ synTop = .ok none := rfl
example := C30_resolve stdSearch_conforming (r := synRoot) rfl synTop_reach ⟨(1 : SyntaxKind), ⟨1, 4, by decide⟩⟩
example := C30_mutable_panics (bs := stdSearch) (r := synRootMut) rfl synMut_reach

end

/-! ## C31 -/
section
variable [Lang]


/-- The children iterator of `p` after `k` calls. -/
def childState (p : SNode) : Nat → NodeChildren
  | 0 => { parent := p }
  | k + 1 => { parent := p, next := (p.kids.filterMap NodeOrToken.asNode)[k]?, initialized := true }

omit [Lang] in
theorem childState_step (p : SNode) (u : Bool) (k : Nat) :
    (childState p k).step u = ((p.kids.filterMap NodeOrToken.asNode)[k]?, childState p (k + 1)) := by
  have hs : ∀ k, successors SNode.nextSibling p.firstChild k =
      (p.kids.filterMap NodeOrToken.asNode)[k]? := by
    intro k
    have := step_nodes p 0 k
    simp only [List.drop_zero] at this
    rw [SNode.firstChild_eq, this]
  cases k with
  | zero =>
    have h0 : p.firstChild = (p.kids.filterMap NodeOrToken.asNode)[0]? := hs 0
    simp [childState, NodeChildren.step, h0]
  | succ k =>
    have h1 := hs (k + 1)
    rw [successors, hs k] at h1
    have h2 : ((p.kids.filterMap NodeOrToken.asNode)[k]?).bind (SNode.toNextSibling u) =
        (p.kids.filterMap NodeOrToken.asNode)[k + 1]? := by
      rw [← h1]; congr 1; funext n; exact SNode.toNextSibling_eq _ n
    simp only [childState, NodeChildren.step, Bool.not_true, Bool.false_eq_true, if_false, h2]

theorem findMap_spec {N : Type} (A : AstImpl N) (p : SNode) (u : Nat → Bool) :
    ∀ (f j : Nat), (p.kids.filterMap NodeOrToken.asNode).length < f + j → 0 < f →
      ∃ j', A.findMap u f (childState p j) =
          .ok (((p.kids.filterMap NodeOrToken.asNode).drop j).findSome? A.cast, childState p j') ∧
        ((p.kids.filterMap NodeOrToken.asNode).drop j').filterMap A.cast =
          (((p.kids.filterMap NodeOrToken.asNode).drop j).filterMap A.cast).tail := by
  intro f
  induction f with
  | zero => intro j _ h; omega
  | succ f ih =>
    intro j hj _
    rw [AstImpl.findMap, childState_step]
    generalize hL : p.kids.filterMap NodeOrToken.asNode = L at *
    cases hx : L[j]? with
    | none =>
      have : L.length ≤ j := List.getElem?_eq_none_iff.mp hx
      exact ⟨j + 1, by simp [List.drop_eq_nil_of_le this],
        by simp [List.drop_eq_nil_of_le this, List.drop_eq_nil_of_le (Nat.le_succ_of_le this)]⟩
    | some n =>
      obtain ⟨hlt, he⟩ := List.getElem?_eq_some_iff.mp hx
      have hd : L.drop j = n :: L.drop (j + 1) := by rw [List.drop_eq_getElem_cons hlt, he]
      cases hc : A.cast n with
      | some x => exact ⟨j + 1, by simp [hd, hc], by simp [hd, hc]⟩
      | none =>
        obtain ⟨j', h1, h2⟩ := ih (j + 1) (by omega) (by omega)
        exact ⟨j', by simp [hd, hc, h1], by simp [hd, hc, h2]⟩

/-- **C31, children.**  With `L` the child nodes in order: `support::child` is the first one that
casts, and the `i`-th call of `next` on `support::children` gives the `i`-th one that casts (`None`
from the end on). Whatever handles the caller drops in between. -/
theorem C31_children {N : Type} (A : AstImpl N) {r : Root} {n : SNode} (h : Reach r (.node n)) :
    ∃ L : List SNode,
      PointsToAll r (L.map .node) ((r.tree.kids n.path).filter (r.tree.sat Tree.isNode)) ∧
      (∀ u, A.child u n = .ok (L.findSome? A.cast)) ∧
      ∀ u i, A.childrenNth u n i = .ok (L.filterMap A.cast)[i]? := by
  obtain ⟨h1, h2⟩ := h.kids
  have hlen : (n.kids.filterMap NodeOrToken.asNode).length ≤ n.green.slice.length := by
    have := List.length_filterMap_le NodeOrToken.asNode n.kids
    simpa using this
  refine ⟨n.kids.filterMap NodeOrToken.asNode, ?_, ?_, ?_⟩
  · have hm : (n.kids.filterMap NodeOrToken.asNode).map (NodeOrToken.node : SNode → SElem) =
        n.kids.filter fun e => e.asNode.isSome := by
      generalize n.kids = K
      induction K with
      | nil => rfl
      | cons e K ih =>
        rw [List.filterMap_cons, List.filter_cons]
        cases e <;> simp [ih]
    rw [hm]
    refine ⟨?_, fun e he => reach_iff.mpr (h2 e (List.mem_filter.mp he).1)⟩
    rw [← h1, List.filter_map]
    congr 1
    apply List.filter_congr
    intro e he
    have := (C11_contents (reach_iff.mpr (h2 e he))).1
    simp only [Function.comp, Tree.sat, this]
    cases e with
    | node x => simp
    | token x => simp [GToken.tree, Tree.isNode]
  · intro u
    obtain ⟨j', e1, -⟩ := findMap_spec A n u (n.green.slice.length + 1) 0 (by omega) (by omega)
    rw [AstImpl.child]
    have : ({ parent := n } : NodeChildren) = childState n 0 := rfl
    rw [this, e1]
    simp
  · intro u i
    have key : ∀ i, ∃ j, A.childrenAfter u n i = .ok (childState n j) ∧
        ((n.kids.filterMap NodeOrToken.asNode).drop j).filterMap A.cast =
          ((n.kids.filterMap NodeOrToken.asNode).filterMap A.cast).drop i := by
      intro i
      induction i with
      | zero => exact ⟨0, rfl, by simp⟩
      | succ i ih =>
        obtain ⟨j, j1, j2⟩ := ih
        obtain ⟨j', e1, e2⟩ := findMap_spec A n (u i) (n.green.slice.length + 1) j (by omega)
          (by omega)
        exact ⟨j', by simp [AstImpl.childrenAfter, j1, e1], by rw [e2, j2]; simp⟩
    obtain ⟨j, j1, j2⟩ := key i
    obtain ⟨j', e1, -⟩ := findMap_spec A n (u i) (n.green.slice.length + 1) j (by omega) (by omega)
    simp only [AstImpl.childrenNth, j1, e1, Res.ok_bind]
    rw [← List.head?_filterMap, j2, List.head?_drop]

/-- **C31, tokens.** -/
theorem C31_token {r : Root} {n : SNode} (h : Reach r (.node n)) (k : Lang.Kind) :
    PointsTo r ((supportToken n k).map .token)
      ((r.tree.kids n.path).find? (r.tree.sat (Tree.tokenOf k))) := by
  obtain ⟨h1, h2⟩ := h.kids
  rw [supportToken, SNode.childrenWithTokens_eq]
  have e : ((n.kids.filterMap NodeOrToken.asToken).find? fun t => decide (t.tkind = k)) =
      n.kids.findSome? fun e => e.asToken.bind fun t => if t.tkind = k then some t else none := by
    generalize n.kids = K
    induction K with
    | nil => rfl
    | cons e K ih =>
      rw [List.filterMap_cons, List.findSome?_cons]
      cases e with
      | node x => exact ih
      | token t =>
        simp only [NodeOrToken.asToken_token, Option.bind_some, List.find?_cons]
        by_cases hk : t.tkind = k
        · simp [hk]
        · simp only [hk, decide_false, if_false]; exact ih
  rw [e]
  apply pointsTo_find h1 h2
  intro e he
  cases e with
  | node x => simp [Tree.tokenOf]
  | token t =>
    have : (SElem.green (.token t)).tree = .token t.kind t.text := rfl
    rw [this]
    have hk' : Lang.fromRaw t.kind = t.tkind := rfl
    by_cases hk : t.tkind = k <;> simp [Tree.tokenOf, Tree.isNode, Tree.kind, hk', hk]

/-- **C31, `cast` of pointers**: exactly when the kind is acceptable, and the pointer is unchanged. -/
theorem C31_cast_ptr {N : Type} (A : AstImpl N) (ptr : SyntaxNodePtr) :
    A.castPtr ptr = if A.canCast ptr.kind then some ptr else none := by
  rw [AstImpl.castPtr]; cases A.canCast ptr.kind <;> rfl

/-- **C31, typed pointers.**  Resolving a typed pointer is resolving the untyped one and casting. -/
theorem C31_ptr_resolution {N : Type} (A : AstImpl N) (bs : BinarySearch) (ptr : SyntaxNodePtr)
    (root : SNode) (x : Option SNode) (h : ptr.tryToNode bs root = .ok x) :
    A.ptrTryToNode bs ptr root = .ok (x.bind A.cast) ∧
    A.ptrToNode bs ptr root = Res.ofOption (x.bind A.cast) := by
  have h1 : A.ptrTryToNode bs ptr root = .ok (x.bind A.cast) := by
    rw [AstImpl.ptrTryToNode, h]; cases x <;> rfl
  exact ⟨h1, by rw [AstImpl.ptrToNode, h1]; rfl⟩

/-- **C31, typed round trip** for an `AstNode` with non-empty text that is the only node of its kind
and range. -/
theorem C31_ptr_round_trip_partial {N : Type} {A : AstImpl N} (hA : A.Lawful) {bs : BinarySearch}
    (hbs : Conforming bs) {r : Root} (him : r.mutable = false) {top : SNode}
    (ht : Reach r (.node top)) (hp : top.path = []) (x : N) (h : Reach r (.node (A.syn x)))
    (hne : (A.syn x).textRange.start < (A.syn x).textRange.stop)
    (huniq : ∀ q, r.tree.nodeAt (A.syn x).tkind (A.syn x).textRange q → q = (A.syn x).path) :
    ∃ ptr, A.ptrNew x = .ok ptr ∧ A.ptrToNode bs ptr top = .ok x := by
  obtain ⟨ptr, m, p1, -, p3, -, -, -, -, p8⟩ := C30_round_trip_partial hbs him ht hp h hne
  have hm := p8 huniq
  subst hm
  refine ⟨ptr, p1, ?_⟩
  rw [(C31_ptr_resolution A bs ptr top _ p3).2]
  simp [hA.cast_syn]

/-- **C31, copies of typed nodes** never panic (on immutable trees) and are of the same type. -/
theorem C31_clone {N : Type} {A : AstImpl N} (hA : A.Lawful) {r : Root} (him : r.mutable = false)
    (x : N) (h : Reach r (.node (A.syn x))) :
    (∃ y, A.cloneForUpdate x = .ok y ∧ (A.syn x).cloneForUpdate = .ok (A.syn y)) ∧
    (∃ y, A.cloneSubtree x = .ok y ∧ (A.syn x).cloneSubtree = A.syn y) := by
  have hk : A.canCast (A.syn x).tkind = true := by rw [← hA.cast_some, hA.cast_syn]; rfl
  have get : ∀ m : SNode, m.kind = (A.syn x).kind → ∃ y, A.cast m = some y ∧ A.syn y = m := by
    intro m hm
    have := hA.cast_some m
    rw [SNode.tkind, hm, ← SNode.tkind, hk] at this
    obtain ⟨y, hy⟩ := Option.isSome_iff_exists.mp this
    exact ⟨y, hy, hA.syn_cast _ _ hy⟩
  constructor
  · obtain ⟨m, m1, -, -, -, m2, -⟩ := (C23_clone_for_update h).2 him
    obtain ⟨y, y1, y2⟩ := get m m2
    exact ⟨y, by simp [AstImpl.cloneForUpdate, m1, y1], by rw [m1, y2]⟩
  · obtain ⟨y, y1, y2⟩ := get (A.syn x).cloneSubtree
      (by simp [SNode.cloneSubtree, SNode.newRoot, SNode.kind, SNode.green])
    exact ⟨y, by simp [AstImpl.cloneSubtree, y1], y2.symm⟩

end

/-! ### Examples -/

section
attribute [local instance] rawLang

/-- The type of nodes of kind `k`. -/
def kindImpl (k : SyntaxKind) : AstImpl { n : SNode // n.kind = k } where
  canCast k' := k' == k
  cast n := if h : n.kind = k then some ⟨n, h⟩ else none
  syn x := x.1

theorem kindImpl_lawful (k : SyntaxKind) : (kindImpl k).Lawful where
  cast_some n := by by_cases h : n.kind = k <;> simp [kindImpl, h, SNode.tkind, Lang.fromRaw]
  syn_cast n x h := by
    simp only [kindImpl] at h ⊢
    split at h <;> simp_all
    rw [← h]
  cast_syn x := by simp [kindImpl, x.2]

example := C31_children (kindImpl 3) synTop_reach
example := C31_token synTop_reach (5 : SyntaxKind)
example : (kindImpl 3).child (fun _ => true) synTop = .ok (some ⟨synInnerH, rfl⟩) := rfl
example : (supportToken synTop (5 : SyntaxKind)).map SToken.path = some [3] := rfl
example : supportToken synTop (3 : SyntaxKind) = none := rfl
example := C31_clone (kindImpl_lawful 3) (r := synRoot) rfl ⟨synInnerH, rfl⟩ synInner_reach
example := C31_ptr_round_trip_partial (kindImpl_lawful 3) stdSearch_conforming (r := synRoot) rfl
  synTop_reach rfl ⟨synInnerH, rfl⟩ synInner_reach (by decide) fun q => synTree_unique (by decide)

end

end Rowan
