import Verif.Props.Ast
/-!
# C52: the typed API

`fromRaw` is an arbitrary function from raw kinds to the kinds of the user's language.
-/
namespace Rowan

section
variable [Lang]

/-- **C52, kinds.**  The kind of a handle is the typed kind of the element at its position. -/
theorem C52_kind {r : Root} {e : SElem} (h : Reach r e) :
    ∃ t, r.tree.at? e.path = some t ∧ e.tkind = Lang.fromRaw t.kind := by
  obtain ⟨t, h1, h2, -⟩ := C11_ranges h
  refine ⟨t, h1, ?_⟩
  rw [← h2]
  cases e <;> rfl

/-- **C52, lookups by kind** return the first element whose typed kind the matcher accepts. -/
theorem C52_by_kind {r : Root} {n : SNode} (h : Reach r (.node n)) (m : Lang.Kind → Bool) :
    PointsTo r ((n.firstChildByKindT m).map .node) ((r.tree.kids n.path).find? (r.tree.sat (Tree.typedNode m))) ∧
    PointsTo r (n.firstChildOrTokenByKindT m) ((r.tree.kids n.path).find? (r.tree.sat (Tree.typed m))) ∧
    PointsTo r ((n.nextSiblingByKindT m).map .node) ((r.tree.later n.path).find? (r.tree.sat (Tree.typedNode m))) ∧
    PointsTo r (n.nextSiblingOrTokenByKindT m) ((r.tree.later n.path).find? (r.tree.sat (Tree.typed m))) := by
  obtain ⟨-, -, -, -, h1, h2⟩ := C12_children h (rawMatcher m)
  obtain ⟨-, -, -, -, h3, h4⟩ := C12_siblings h (rawMatcher m)
  exact ⟨h1, h2, h3, h4⟩

/-- **C52, `children().by_kind(m)`** and `children_with_tokens().by_kind(m)` on fresh iterators: the `i`-th item is the
`i`-th child whose typed kind the matcher accepts. -/
theorem C52_children_by_kind {r : Root} {n : SNode} (h : Reach r (.node n)) (m : Lang.Kind → Bool) (i : Nat) :
    PointsTo r ((byKindNthT m (NodeChildren.byKindT m { parent := n }) i).map .node)
      ((r.tree.kids n.path).filter (r.tree.sat (Tree.typedNode m)))[i]? ∧
    PointsTo r (elemByKindNthT m (ElemChildren.byKindT m { parent := n }) i)
      ((r.tree.kids n.path).filter (r.tree.sat (Tree.typed m)))[i]? :=
  C13_by_kind h (rawMatcher m) i

omit [Lang] in
/-- **C52, `SyntaxElement::ancestors`**: the enclosing nodes, innermost first, the element itself included if it is a
node. -/
theorem C52_element_ancestors {r : Root} {e : SElem} (h : Reach r e) (i : Nat) :
    PointsTo r ((e.ancestorsNth i).map .node) ((Tree.upward e.path).filter (r.tree.sat Tree.isNode))[i]? := by
  have key : ∀ {n : SNode}, Reach r (.node n) →
      PointsTo r ((successors SNode.parent (some n) i).map .node) (Tree.upward n.path)[i]? ∧
      (Tree.upward n.path).filter (r.tree.sat Tree.isNode) = Tree.upward n.path := by
    intro n hn
    obtain ⟨⟨h1, h2⟩, h3⟩ := C16_ancestors hn
    refine ⟨?_, ?_⟩
    · rw [h3, ← h1, List.map_map]
      refine ⟨by simp [Option.map_map, Function.comp_def], ?_⟩
      intro x hx
      cases hg : n.ancestors[i]? with
      | none => rw [hg] at hx; cases hx
      | some a =>
        rw [hg] at hx
        simp only [Option.map_some, Option.some.injEq] at hx
        subst hx
        exact h2 _ (List.mem_map.mpr ⟨a, List.mem_of_getElem? hg, rfl⟩)
    · refine List.filter_eq_self.mpr fun q hq => ?_
      rw [← h1] at hq
      obtain ⟨x, hx, rfl⟩ := List.mem_map.mp hq
      obtain ⟨a, ha, rfl⟩ := List.mem_map.mp hx
      have := (C11_contents (h2 _ hx)).1
      rw [Tree.sat, this]
      simp
  cases e with
  | node n =>
    rw [SElem.path_node, (key h).2]
    exact (key h).1
  | token t =>
    have ht := (C11_contents h).1
    cases t with
    | root m j g =>
      have e1 : SElem.ancestorsNth (.token (.root m j g)) i = none := by
        simp only [SElem.ancestorsNth, SToken.parent]
        clear key
        induction i with
        | zero => rfl
        | succ i ih => simp only [successors, ih, Option.bind_none]
      rw [e1]
      have e2 : SElem.path (.token (.root m j g)) = [] := rfl
      rw [e2] at ht ⊢
      have : (Tree.upward []).filter (r.tree.sat Tree.isNode) = [] := by
        simp only [Tree.upward, List.length_nil, List.range_succ, List.range_zero, List.nil_append, List.reverse_cons,
          List.reverse_nil, List.map_cons, List.take_nil, List.map_nil, List.filter_cons, List.filter_nil, Tree.sat, ht]
        rfl
      rw [this]; exact pointsTo_none
    | child p j o g =>
      have hp : Reach r (.node p) := (h.sibs (p := p) rfl).1
      have e2 : SElem.path (.token (.child p j o g)) = p.path ++ [j] := rfl
      rw [e2] at ht ⊢
      rw [Tree.upward_snoc, List.filter_cons]
      have : r.tree.sat Tree.isNode (p.path ++ [j]) = false := by rw [Tree.sat, ht]; rfl
      rw [this]
      simp only [Bool.false_eq_true, if_false]
      rw [(key hp).2]
      exact (key hp).1

end

/-! ### Examples -/

/-- A language that does not tell the raw kinds 2 and 5 apart. -/
@[reducible] def coarseLang : Lang := ⟨SyntaxKind, fun k => if k = 5 then 2 else k, inferInstance⟩

section
attribute [local instance] coarseLang

example := C52_kind synTop_reach
example := C52_by_kind synTop_reach fun k => k == (2 : SyntaxKind)
example := C52_element_ancestors synInner_reach
/-- Tokens of both raw kinds are found. -/
example : [0, 1, 2].map (fun i => (elemByKindNthT (fun k => k == (2 : SyntaxKind)) (ElemChildren.byKindT (fun k => k == (2 : SyntaxKind))
    { parent := synTop }) i).map SElem.path) = [some [0], some [3], none] := by decide +kernel

/-- **C52**: kinds that the language does not tell apart can be confused by pointers.  Here the outer node (raw kind 5)
and the inner one (raw kind 2) have the same range, and the pointer made for the inner node resolves to the outer one. -/
def coarseGreen : GNode := GNode.new 9 5 [.node (GNode.new 8 2 [exTok 0 1 "a"])]
theorem C52_pointer_confusion :
    let top : SNode := .root false 0 coarseGreen
    let inner : SNode := .child top 0 0 (GNode.new 8 2 [exTok 0 1 "a"])
    top.firstChild = some inner ∧ top.kind ≠ inner.kind ∧
      (do let ptr ← SyntaxNodePtr.new inner; ptr.toNode stdSearch top) = .ok top :=
  ⟨rfl, by decide, rfl⟩

end

end Rowan
