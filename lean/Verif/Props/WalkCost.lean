import Verif.WalkCostLemmas
/-!
# C78: the work of walking a tree
-/
namespace Rowan

/-- Counting does not change what is returned. -/
theorem C78_plain :
    (∀ n : SNode, n.firstChildC.1 = n.firstChild ∧ n.nextSiblingC.1 = n.nextSibling) ∧
    (∀ u (it : NodeChildren), (it.stepC u).1 = it.step u) ∧
    (∀ it : Preorder, (do let r ← it.stepC; .ok r.1) = it.step) := by
  refine ⟨fun n => ⟨n.firstChildC_fst, n.nextSiblingC_fst⟩, NodeChildren.stepC_fst, fun it => ?_⟩
  cases he : it.effective with
  | ok it' => rw [Preorder.stepC_of_effective he, Preorder.step_of_effective he]; rfl
  | panic =>
    rw [Preorder.effective] at he
    rw [Preorder.stepC, Preorder.step]
    cases hs : it.skip with
    | false => simp [hs] at he
    | true => simp [hs] at he; simp [he]
  | ub =>
    rw [Preorder.effective] at he
    rw [Preorder.stepC, Preorder.step]
    cases hs : it.skip with
    | false => simp [hs] at he
    | true => simp [hs] at he; simp [he]
  | diverge =>
    rw [Preorder.effective] at he
    rw [Preorder.stepC, Preorder.step]
    cases hs : it.skip with
    | false => simp [hs] at he
    | true => simp [hs] at he; simp [he]

/-- `first_child` and `next_sibling` look at the slots up to the first node and no further. -/
theorem C78_one (n : SNode) :
    (∀ c, n.firstChild = some c → n.firstChildC.2 = c.index + 1) ∧
    (n.firstChild = none → n.firstChildC.2 = n.green.slice.length) ∧
    (∀ p c, n.parent = some p → n.index < p.green.slice.length → n.nextSibling = some c →
      n.index + n.nextSiblingC.2 = c.index) ∧
    (∀ p, n.parent = some p → n.index < p.green.slice.length → n.nextSibling = none →
      n.index + 1 + n.nextSiblingC.2 = p.green.slice.length) := by
  refine ⟨?_, ?_, ?_, ?_⟩
  · intro c h
    have := n.firstChildC_found
    rw [← SNode.firstChildC_fst] at h
    revert h this
    generalize n.firstChildC = r
    obtain ⟨o, w⟩ := r
    intro h' h
    simp only at h'
    subst h'
    exact h.2.1.symm
  · intro h
    have := n.firstChildC_found
    rw [← SNode.firstChildC_fst] at h
    revert h this
    generalize n.firstChildC = r
    obtain ⟨o, w⟩ := r
    intro h' h
    simp only at h'
    subst h'
    exact h
  · intro p c hp hi h
    have := SNode.toNextSiblingC_found (u := false) hp hi
    simp only [SNode.toNextSiblingC, Bool.false_and, Bool.not_false, if_true] at this
    rw [← SNode.nextSiblingC_fst] at h
    revert h this
    generalize n.nextSiblingC = r
    obtain ⟨o, w⟩ := r
    intro h' h
    simp only at h'
    subst h'
    have := h.2.1
    simp only; omega
  · intro p hp hi h
    have := SNode.toNextSiblingC_found (u := false) hp hi
    simp only [SNode.toNextSiblingC, Bool.false_and, Bool.not_false, if_true] at this
    rw [← SNode.nextSiblingC_fst] at h
    revert h this
    generalize n.nextSiblingC = r
    obtain ⟨o, w⟩ := r
    intro h' h
    simp only at h'
    subst h'
    exact h

/-- **C78**, child iterators.  When `children()` has returned the child in slot `i`, all calls
together have looked at the slots `0 … i`; when it has returned `None`, and however often it is called
after that, at every slot once.  So iterating over a node with `w` children looks at `w` slots. -/
theorem C78_children {r : Root} {n : SNode} (h : Reach r (.node n)) (u : Nat → Bool) {s : Tree}
    (hs : r.tree.at? n.path = some s) (k : Nat) :
    (∀ c i, NodeChildren.nth u { parent := n } k = some c → c.path = n.path ++ [i] →
      NodeChildren.looked u { parent := n } (k + 1) = i + 1) ∧
    (NodeChildren.nth u { parent := n } k = none →
      NodeChildren.looked u { parent := n } (k + 1) = s.children.length) ∧
    NodeChildren.looked u { parent := n } (k + 1) ≤ s.children.length := by
  have hl : n.green.slice.length = s.children.length := by
    have := SNode.under_path h
    rw [Tree.under, hs] at this
    simp only at this
    rw [this, List.length_map]
  have := (NodeChildren.looked_eq u n k).2.2
  rw [← hl]
  cases hn : NodeChildren.nth u { parent := n } k with
  | none => rw [hn] at this; exact ⟨by simp, fun _ => this, Nat.le_of_eq this⟩
  | some m =>
    rw [hn] at this
    refine ⟨?_, by simp, this.2.2⟩
    intro c i hc hi
    cases hc
    rw [← this.2.1]
    cases m with
    | root => simp at this
    | child p j o g =>
      have h1 := this.1
      simp at h1; subst h1
      have : p.path ++ [j] = p.path ++ [i] := hi
      simp at this
      simp [SNode.index, this]

/-- **C78**, walks.  Whatever a caller skips, the first `k` calls of `next` on `preorder()` together
look at no more child slots than the subtree has elements below its top. -/
theorem C78_skip {r : Root} (hcoh : r.green.Coherent) {n : SNode} (h : Reach r (.node n))
    (skip : List Nat → Bool) {s : Tree} (hs : r.tree.at? n.path = some s) (k : Nat) :
    (Preorder.new n).looked skip k + 1 ≤ s.count := by
  rw [Preorder.looked_eq hcoh h skip hs k, List.map_take]
  have h1 := (walk_cost r.tree n.path.length skip s n.path hs (Nat.le_refl _)).1
  have h2 : r.tree.evCost n.path.length (.leave n.path) = 0 := by simp [Tree.evCost]
  have h3 := sum_take_le ((Tree.walk Tree.isNode skip s n.path).map (r.tree.evCost n.path.length)) k
  omega

/-- **C78**, walks.  A walk that skips nothing and has ended has looked at each child slot of the
subtree exactly once. -/
theorem C78_preorder {r : Root} (hcoh : r.green.Coherent) {n : SNode} (h : Reach r (.node n))
    {s : Tree} (hs : r.tree.at? n.path = some s) {k : Nat}
    (hend : Preorder.nth noSkip (Preorder.new n) k = .ok none) :
    (Preorder.new n).looked noSkip k + 1 = s.count := by
  rw [Preorder.looked_eq hcoh h noSkip hs k]
  obtain ⟨o, ho, hm, -⟩ := C15_skip hcoh h noSkip hs k
  rw [hend] at ho
  cases ho
  rw [List.take_of_length_le (List.getElem?_eq_none_iff.mp hm.symm)]
  have h1 := (walk_cost r.tree n.path.length noSkip s n.path hs (Nat.le_refl _)).2 rfl
  have h2 : r.tree.evCost n.path.length (.leave n.path) = 0 := by simp [Tree.evCost]
  omega

/-! ### A concrete tree meets the hypotheses -/

example := C78_skip synGreen_coherent synTop_reach (fun p => p == [1]) rfl 20
example : Preorder.nth noSkip (Preorder.new synTop) 8 = .ok none := rfl
example := C78_preorder synGreen_coherent synTop_reach rfl (k := 8) rfl
example := C78_children synTop_reach (fun _ => true) rfl 2
/-- Each of the 7 slots is looked at once; skipping the inner node leaves out two. -/
example : (Preorder.new synTop).looked noSkip 8 = 7 ∧
    (Preorder.new synTop).looked (fun p => p == [1]) 8 = 5 := by decide +kernel
example : NodeChildren.looked (fun _ => true) { parent := synTop } 1 = 2 ∧
    NodeChildren.looked (fun _ => true) { parent := synTop } 9 = 4 := by decide +kernel

end Rowan
