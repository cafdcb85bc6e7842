import Verif.PtrSplice
/-!
# C76: pointers to nodes survive insertions and removals elsewhere
-/
namespace Rowan

section
variable [Lang]

/-- **C76** for children inserted or removed behind the node: the pointer resolves to the node in the same place. -/
theorem C76_before {bs : BinarySearch} (hbs : Conforming bs) {r r' : Root} (him : r.mutable = false) (him' : r'.mutable = false)
    {top top' : SNode} (ht : Reach r (.node top)) (hp : top.path = []) (ht' : Reach r' (.node top')) (hp' : top'.path = [])
    {P : List Nat} {kd : SyntaxKind} {cs xs : List Tree} {a b : Nat} (hsp : r.tree.Spliced r'.tree P kd cs a b xs)
    {ptr : SyntaxNodePtr} {n : SNode} (hn : ptr.tryToNode bs top = .ok (some n)) (hne : ptr.range.start < ptr.range.stop)
    (hpos : Earlier n.path (P ++ [a])) (hx : Tree.texts xs ≠ [] ∨ r.tree.OnlyBelow ptr.kind n.path) :
    ∃ n', ptr.tryToNode bs top' = .ok (some n') ∧ Reach r' (.node n') ∧ n'.path = n.path ∧
      r'.tree.at? n.path = r.tree.at? n.path := by
  obtain ⟨y, y1, y2, -⟩ := (C30_resolve hbs him ht ptr).2 hp
  rw [hn] at y1
  obtain ⟨z1, z2, z3⟩ := y2 n (by cases y1; rfl)
  obtain ⟨hsame, hat⟩ := hsp.front hpos
  have hQ := (hat _ _).mpr z2
  obtain ⟨n', h1, h2, h3⟩ := tryToNode_outermost hbs him' ht' hp' hne hQ fun A hA hAne hAt => by
    rcases hpos.above_place hA with h | h
    · rcases hx with hx | hx
      · obtain ⟨i, x, hi, hxt⟩ := Tree.texts_ne hx
        have ho : Earlier n.path (P ++ [a + i]) := by
          rcases hpos.split with hE | ⟨j, U, hj, e⟩
          · exact hE.snoc _
          · rw [e]; exact ⟨P, j, a + i, U, [], by omega, rfl, rfl⟩
        exact Tree.nodeAt_not_both hQ (hsp.new hi) hxt (.inl ho) hA (h.trans (List.prefix_append _ _)) hAt
      · obtain ⟨raw, cs', a1, a2, -⟩ := hAt
        obtain ⟨cs'', a1'⟩ := hsp.kind h a1
        exact hx A raw cs'' hA hAne a1' a2
    · exact hAne (hA.eq_of_length_le (z3 hne A (((hsp.front h).2 _ _).mp hAt)).length_le)
  exact ⟨n', h1, h2, h3, hsame⟩

/-- **C76** for children inserted or removed in front of the node: the pointer moved by the difference of the lengths resolves
to the node, which is in the place that it has got (`Behind`). -/
theorem C76_after {bs : BinarySearch} (hbs : Conforming bs) {r r' : Root} (him : r.mutable = false) (him' : r'.mutable = false)
    {top top' : SNode} (ht : Reach r (.node top)) (hp : top.path = []) (ht' : Reach r' (.node top')) (hp' : top'.path = [])
    {P : List Nat} {kd : SyntaxKind} {cs xs : List Tree} {a b : Nat} (hsp : r.tree.Spliced r'.tree P kd cs a b xs)
    {ptr ptr' : SyntaxNodePtr} {n : SNode} (hn : ptr.tryToNode bs top = .ok (some n)) (hne : ptr.range.start < ptr.range.stop)
    {Q' : List Nat} (hpos : Behind P a b xs.length n.path Q') (hk : ptr'.kind = ptr.kind)
    (h1 : ptr'.range.start + goneLen cs a b = ptr.range.start + blen (Tree.texts xs))
    (h2 : ptr'.range.stop + goneLen cs a b = ptr.range.stop + blen (Tree.texts xs))
    (hx : Tree.texts xs ≠ [] ∨ r.tree.OnlyBelow ptr.kind n.path) :
    ∃ n', ptr'.tryToNode bs top' = .ok (some n') ∧ Reach r' (.node n') ∧ n'.path = Q' ∧
      r'.tree.at? Q' = r.tree.at? n.path := by
  obtain ⟨y, y1, y2, -⟩ := (C30_resolve hbs him ht ptr).2 hp
  rw [hn] at y1
  obtain ⟨z1, z2, z3⟩ := y2 n (by cases y1; rfl)
  obtain ⟨hsame, hat⟩ := hsp.behind hpos
  have hQ : r'.tree.nodeAt ptr'.kind ptr'.range Q' := by rw [hk]; exact (hat _ _ _ h1 h2).mpr z2
  obtain ⟨n', g1, g2, g3⟩ := tryToNode_outermost hbs him' ht' hp' (by omega) hQ fun A hA hAne hAt => by
    rcases hpos.above hA with h | ⟨B, hB, hBQ, hBne⟩
    · rcases hx with hx | hx
      · obtain ⟨i, x, hi, hxt⟩ := Tree.texts_ne hx
        exact Tree.nodeAt_not_both hQ (hsp.new hi) hxt (.inr (hpos.new (List.getElem?_eq_some_iff.mp hi).1)) hA
          (h.trans (List.prefix_append _ _)) hAt
      · obtain ⟨raw, cs', a1, a2, -⟩ := hAt
        obtain ⟨cs'', a1'⟩ := hsp.kind h a1
        have hAQ : A <+: n.path ∧ A ≠ n.path := by
          generalize n.path = q at hA hAne hpos ⊢
          cases hpos with
          | inside j U =>
            refine ⟨h.trans (List.prefix_append _ _), fun e => ?_⟩
            have := h.length_le
            rw [e, List.length_append, List.length_cons] at this
            omega
          | outside hE => exact ⟨hA, hAne⟩
        exact hx A raw cs'' hAQ.1 hAQ.2 a1' (a2.trans hk)
    · rw [hk] at hAt
      exact hBne hAne (hBQ.eq_of_length_le (z3 hne B (((hsp.behind hB).2 _ _ _ h1 h2).mp hAt)).length_le)
  exact ⟨n', g1, g2, g3, hsame⟩

/-- **C76** for children inserted or removed in the node or deeper in it: the pointer with its end moved by the difference of
the lengths resolves to the node in the same place. -/
theorem C76_inside {bs : BinarySearch} (hbs : Conforming bs) {r r' : Root} (him : r.mutable = false) (him' : r'.mutable = false)
    {top top' : SNode} (ht : Reach r (.node top)) (hp : top.path = []) (ht' : Reach r' (.node top')) (hp' : top'.path = [])
    {P : List Nat} {kd : SyntaxKind} {cs xs : List Tree} {a b : Nat} (hsp : r.tree.Spliced r'.tree P kd cs a b xs)
    {ptr ptr' : SyntaxNodePtr} {n : SNode} (hn : ptr.tryToNode bs top = .ok (some n)) (hne : ptr.range.start < ptr.range.stop)
    (hpos : n.path <+: P) (hk : ptr'.kind = ptr.kind) (h1 : ptr'.range.start = ptr.range.start)
    (h2 : ptr'.range.stop + goneLen cs a b = ptr.range.stop + blen (Tree.texts xs))
    (hne' : ptr'.range.start < ptr'.range.stop) :
    ∃ n', ptr'.tryToNode bs top' = .ok (some n') ∧ Reach r' (.node n') ∧ n'.path = n.path := by
  obtain ⟨y, y1, y2, -⟩ := (C30_resolve hbs him ht ptr).2 hp
  rw [hn] at y1
  obtain ⟨z1, z2, z3⟩ := y2 n (by cases y1; rfl)
  have hQ : r'.tree.nodeAt ptr'.kind ptr'.range n.path := by rw [hk]; exact (hsp.above hpos h1 h2).mpr z2
  exact tryToNode_outermost hbs him' ht' hp' hne' hQ fun A hA hAne hAt => by
    rw [hk] at hAt
    exact hAne (hA.eq_of_length_le (z3 hne A ((hsp.above (hA.trans hpos) h1 h2).mp hAt)).length_le)

omit [Lang] in
/-- What `splice_children` on the green node of `m` and `replace_with` make of the tree. -/
theorem spliced_replace {r : Root} {m : SNode} (hm : Reach r (.node m)) {addr next a b : Nat} {xs : List GElem}
    (hxs : ∀ x ∈ xs, x.WF) {g g' : GNode} (hsp : m.green.spliceChildren addr a b xs = some g)
    (hrep : m.replaceWith next g = .ok g') :
    Reach ⟨false, 0, .node g'⟩ (.node (.newRoot g')) ∧
    r.tree.Spliced (Root.mk false 0 (.node g')).tree m.path m.kind (m.green.children.map GElem.tree) a b (xs.map GElem.tree) := by
  obtain ⟨s1, s2⟩ := C02_splice_children m.green addr a b xs
  obtain ⟨k1, k2⟩ := s2 g hsp
  have hab : ¬ (b < a ∨ m.green.children.length < b) := fun h => by rw [s1.mpr h] at hsp; cases hsp
  have hmw : m.green.WF := by
    obtain ⟨hv, -⟩ := hm.valid
    exact SNode.Valid.green_wf hv
  have hg : g.WF := by
    rw [GNode.spliceChildren, Option.map_eq_some_iff] at hsp
    obtain ⟨l, hl, rfl⟩ := hsp
    refine GNode.wf_new _ _ _ ?_
    rw [GNode.children_new] at k2
    rw [k2]
    intro e he
    have hc := ((GNode.wf_iff m.green).mp hmw).2
    simp only [List.append_assoc, List.mem_append] at he
    rcases he with he | he | he
    · exact hc e (List.mem_of_mem_take he)
    · exact hxs e he
    · exact hc e (List.mem_of_mem_drop he)
  have hc := C22_replace_node hm next g hg
  have hk : m.kind = g.kind := Classical.byContradiction fun hk => by
    have := hc.1.mpr hk
    rw [hrep] at this; cases this
  obtain ⟨g1, e1, hw, e2, -⟩ := hc.2 hk
  rw [hrep] at e1
  cases e1
  refine ⟨Reach.top hw, ⟨?_, by omega, by simp; omega, ?_⟩⟩
  · rw [show r.tree.at? m.path = some m.green.tree from (C11_contents hm).1, GNode.tree_eq]; rfl
  · show g'.tree = _
    rw [e2, GNode.tree_eq g, k1, k2]
    simp [List.map_take, List.map_drop]
    rfl

/-- **C76** in terms of the API: `g = m.green().splice_children(a..b, xs)`, `g' = m.replace_with(g)`. -/
theorem C76_splice_children {bs : BinarySearch} (hbs : Conforming bs) {r : Root} (him : r.mutable = false) {top n m : SNode}
    (ht : Reach r (.node top)) (hp : top.path = []) (hm : Reach r (.node m)) {addr next a b : Nat} {xs : List GElem}
    (hxs : ∀ x ∈ xs, x.WF) {g g' : GNode} (hsp : m.green.spliceChildren addr a b xs = some g)
    (hrep : m.replaceWith next g = .ok g') {ptr : SyntaxNodePtr} (hn : ptr.tryToNode bs top = .ok (some n))
    (hne : ptr.range.start < ptr.range.stop)
    (hx : Tree.texts (xs.map GElem.tree) ≠ [] ∨ r.tree.OnlyBelow ptr.kind n.path) :
    (Earlier n.path (m.path ++ [a]) → ∃ n', ptr.tryToNode bs (.newRoot g') = .ok (some n') ∧ n'.path = n.path ∧
      g'.tree.at? n.path = r.tree.at? n.path) ∧
    (∀ Q', Behind m.path a b xs.length n.path Q' → ∀ ptr' : SyntaxNodePtr, ptr'.kind = ptr.kind →
      ptr'.range.start + goneLen (m.green.children.map GElem.tree) a b = ptr.range.start + blen (Tree.texts (xs.map GElem.tree)) →
      ptr'.range.stop + goneLen (m.green.children.map GElem.tree) a b = ptr.range.stop + blen (Tree.texts (xs.map GElem.tree)) →
      ∃ n', ptr'.tryToNode bs (.newRoot g') = .ok (some n') ∧ n'.path = Q' ∧ g'.tree.at? Q' = r.tree.at? n.path) := by
  obtain ⟨ht', hs⟩ := spliced_replace hm hxs hsp hrep
  constructor
  · intro hpos
    obtain ⟨n', h1, -, h2, h3⟩ := C76_before hbs him rfl ht hp ht' rfl hs hn hne hpos hx
    exact ⟨n', h1, h2, h3⟩
  · intro Q' hpos ptr' hk h1 h2
    obtain ⟨n', g1, -, g2, g3⟩ := C76_after hbs him rfl ht hp ht' rfl hs hn hne
      (Q' := Q') (by rw [List.length_map]; exact hpos) hk h1 h2 hx
    exact ⟨n', g1, g2, g3⟩

/-- **C76** for `m.replace_with(m.green().insert_child(i, x))`. -/
theorem C76_insert_child {bs : BinarySearch} (hbs : Conforming bs) {r : Root} (him : r.mutable = false) {top n m : SNode}
    (ht : Reach r (.node top)) (hp : top.path = []) (hm : Reach r (.node m)) {addr next i : Nat} {x : GElem} (hxw : x.WF)
    {g g' : GNode} (hins : m.green.insertChild addr i x = some g) (hrep : m.replaceWith next g = .ok g')
    {ptr : SyntaxNodePtr} (hn : ptr.tryToNode bs top = .ok (some n)) (hne : ptr.range.start < ptr.range.stop)
    (hx : x.tree.text ≠ [] ∨ r.tree.OnlyBelow ptr.kind n.path) :
    (Earlier n.path (m.path ++ [i]) → ∃ n', ptr.tryToNode bs (.newRoot g') = .ok (some n') ∧ n'.path = n.path ∧
      g'.tree.at? n.path = r.tree.at? n.path) ∧
    (∀ Q', Behind m.path i i 1 n.path Q' → ∀ ptr' : SyntaxNodePtr, ptr'.kind = ptr.kind →
      ptr'.range.start = ptr.range.start + blen x.tree.text → ptr'.range.stop = ptr.range.stop + blen x.tree.text →
      ∃ n', ptr'.tryToNode bs (.newRoot g') = .ok (some n') ∧ n'.path = Q' ∧ g'.tree.at? Q' = r.tree.at? n.path) := by
  have e : Tree.texts ([x].map GElem.tree) = x.tree.text := by simp [Tree.texts]
  have e0 : goneLen (m.green.children.map GElem.tree) i i = 0 := by
    rw [goneLen, List.drop_eq_nil_of_le (by simp; omega)]; simp [Tree.texts]
  have h := C76_splice_children hbs him ht hp hm (xs := [x]) (by simpa using hxw) hins hrep hn hne (by rw [e]; exact hx)
  refine ⟨h.1, fun Q' hb ptr' hk h1 h2 => h.2 Q' hb ptr' hk ?_ ?_⟩
  · rw [e, e0]; exact h1
  · rw [e, e0]; exact h2

/-- **C76** for `m.replace_with(m.green().remove_child(i))`, when no node around the one pointed to has its kind. -/
theorem C76_remove_child {bs : BinarySearch} (hbs : Conforming bs) {r : Root} (him : r.mutable = false) {top n m : SNode}
    (ht : Reach r (.node top)) (hp : top.path = []) (hm : Reach r (.node m)) {addr next i : Nat}
    {g g' : GNode} (hrem : m.green.removeChild addr i = some g) (hrep : m.replaceWith next g = .ok g')
    {ptr : SyntaxNodePtr} (hn : ptr.tryToNode bs top = .ok (some n)) (hne : ptr.range.start < ptr.range.stop)
    (hx : r.tree.OnlyBelow ptr.kind n.path) :
    (Earlier n.path (m.path ++ [i]) → ∃ n', ptr.tryToNode bs (.newRoot g') = .ok (some n') ∧ n'.path = n.path ∧
      g'.tree.at? n.path = r.tree.at? n.path) ∧
    (∀ Q' c, Behind m.path i (i + 1) 0 n.path Q' → m.green.children[i]? = some c → ∀ ptr' : SyntaxNodePtr, ptr'.kind = ptr.kind →
      ptr'.range.start + blen c.tree.text = ptr.range.start → ptr'.range.stop + blen c.tree.text = ptr.range.stop →
      ∃ n', ptr'.tryToNode bs (.newRoot g') = .ok (some n') ∧ n'.path = Q' ∧ g'.tree.at? Q' = r.tree.at? n.path) := by
  have h := C76_splice_children hbs him ht hp hm (xs := []) (by simp) hrem hrep hn hne (.inr hx)
  refine ⟨h.1, fun Q' c hb hc ptr' hk h1 h2 => ?_⟩
  have e : goneLen (m.green.children.map GElem.tree) i (i + 1) = blen c.tree.text := by
    obtain ⟨hi, hc⟩ := List.getElem?_eq_some_iff.mp hc
    rw [goneLen, List.take_add_one, List.drop_append_of_le_length (by simp; omega), List.drop_eq_nil_of_le (by simp; omega)]
    simp [Tree.texts, hi, hc]
  refine h.2 Q' hb ptr' hk ?_ ?_
  · rw [e]; simpa [Tree.texts] using h1
  · rw [e]; simpa [Tree.texts] using h2

end

section
attribute [local instance] rawLang

/-- `xy` is inserted in front of everything in the example tree of the cursor properties: the inner node is then the child 2,
and the pointer to it moves by two bytes. -/
example : ∃ g g' n', synTop.green.spliceChildren 20 0 0 [exTok 21 2 "xy"] = some g ∧ synTop.replaceWith 22 g = .ok g' ∧
    SyntaxNodePtr.tryToNode stdSearch ⟨(3 : SyntaxKind), ⟨3, 6, by decide⟩⟩ (.newRoot g') = .ok (some n') ∧ n'.path = [2] := by
  obtain ⟨n', h1, h2, -⟩ := (C76_splice_children stdSearch_conforming (r := synRoot) rfl synTop_reach rfl synTop_reach
    (addr := 20) (next := 22) (a := 0) (b := 0) (xs := [exTok 21 2 "xy"])
    (by simp only [List.mem_cons, List.not_mem_nil, or_false, forall_eq]; exact (Made.token ..).wf) rfl rfl
    (ptr := ⟨(3 : SyntaxKind), ⟨1, 4, by decide⟩⟩) (n := synInnerH) rfl (by decide) (.inl (by decide))).2
    [2] (Behind.inside (P := []) 1 []) ⟨(3 : SyntaxKind), ⟨3, 6, by decide⟩⟩ rfl (by decide) (by decide)
  exact ⟨_, _, n', rfl, rfl, h1, h2⟩

/-- The first child of the example tree, `a`, is removed; no node above the inner one has its kind. -/
example : ∃ g g' n', synTop.green.spliceChildren 20 0 1 [] = some g ∧ synTop.replaceWith 22 g = .ok g' ∧
    SyntaxNodePtr.tryToNode stdSearch ⟨(3 : SyntaxKind), ⟨0, 3, by decide⟩⟩ (.newRoot g') = .ok (some n') ∧ n'.path = [0] := by
  obtain ⟨n', h1, h2, -⟩ := (C76_splice_children stdSearch_conforming (r := synRoot) rfl synTop_reach rfl synTop_reach
    (addr := 20) (next := 22) (a := 0) (b := 1) (xs := []) (by simp) rfl rfl
    (ptr := ⟨(3 : SyntaxKind), ⟨1, 4, by decide⟩⟩) (n := synInnerH) rfl (by decide) (.inr (by
      intro A raw cs h1 h2 h3
      have : A = [] := by
        have h1 : A <+: [1] := h1
        have h2 : A ≠ [1] := h2
        match A with
        | [] => rfl
        | [c] => simp at h1 h2; exact absurd h1 h2
        | _ :: _ :: _ => simp at h1
      subst this
      rw [synTree] at h3
      cases h3
      decide))).2
    [0] (Behind.inside (P := []) 0 []) ⟨(3 : SyntaxKind), ⟨0, 3, by decide⟩⟩ rfl (by decide) (by decide)
  exact ⟨_, _, n', rfl, rfl, h1, h2⟩

/-- Something is appended at the end: the pointer stays. -/
example : ∃ g g' n', synTop.green.spliceChildren 20 4 4 [exTok 21 2 "xy"] = some g ∧ synTop.replaceWith 22 g = .ok g' ∧
    SyntaxNodePtr.tryToNode stdSearch ⟨(3 : SyntaxKind), ⟨1, 4, by decide⟩⟩ (.newRoot g') = .ok (some n') ∧ n'.path = [1] := by
  obtain ⟨n', h1, h2, -⟩ := (C76_splice_children stdSearch_conforming (r := synRoot) rfl synTop_reach rfl synTop_reach
    (addr := 20) (next := 22) (a := 4) (b := 4) (xs := [exTok 21 2 "xy"])
    (by simp only [List.mem_cons, List.not_mem_nil, or_false, forall_eq]; exact (Made.token ..).wf) rfl rfl
    (ptr := ⟨(3 : SyntaxKind), ⟨1, 4, by decide⟩⟩) (n := synInnerH) rfl (by decide) (.inl (by decide))).1
    ⟨[], 1, 4, [], [], by decide, rfl, rfl⟩
  exact ⟨_, _, n', rfl, rfl, h1, h2⟩

/-- Text is inserted into the inner node: its pointer `3@1..4` becomes `3@1..6`. -/
example : ∃ g g' n', synInnerH.green.spliceChildren 20 1 1 [exTok 21 2 "xy"] = some g ∧ synInnerH.replaceWith 22 g = .ok g' ∧
    SyntaxNodePtr.tryToNode stdSearch ⟨(3 : SyntaxKind), ⟨1, 6, by decide⟩⟩ (.newRoot g') = .ok (some n') ∧ n'.path = [1] := by
  obtain ⟨ht', hs⟩ := spliced_replace synInner_reach (addr := 20) (next := 22) (a := 1) (b := 1) (xs := [exTok 21 2 "xy"])
    (by simp only [List.mem_cons, List.not_mem_nil, or_false, forall_eq]; exact (Made.token ..).wf) rfl rfl
  obtain ⟨n', h1, -, h2⟩ := C76_inside stdSearch_conforming rfl rfl synTop_reach rfl ht' rfl hs
    (ptr := ⟨(3 : SyntaxKind), ⟨1, 4, by decide⟩⟩) (ptr' := ⟨(3 : SyntaxKind), ⟨1, 6, by decide⟩⟩) (n := synInnerH) rfl (by decide)
    (List.prefix_refl _) rfl rfl (by decide) (by decide)
  exact ⟨_, _, n', rfl, rfl, h1, h2⟩

/-- A removal can make a node around the one pointed to take the pointer over: `(1 (1 "a") (2 "b"))` without its second child is
`(1 (1 "a"))`, where `1@0..1` is the top node. -/
theorem C76_remove_counterexample :
    ∃ (r : Root) (top n m n' : SNode) (g g' : GNode) (ptr : SyntaxNodePtr), r.mutable = false ∧ Reach r (.node top) ∧
      top.path = [] ∧ Reach r (.node m) ∧ m.green.removeChild 19 1 = some g ∧ m.replaceWith 20 g = .ok g' ∧
      ptr.tryToNode stdSearch top = .ok (some n) ∧ ptr.range.start < ptr.range.stop ∧ Earlier n.path (m.path ++ [1]) ∧
      ptr.tryToNode stdSearch (.newRoot g') = .ok (some n') ∧ n'.path ≠ n.path :=
  ⟨twoRoot, twoTop, twoFst, twoTop, .newRoot _, _, _, twoFstPtr, rfl, twoTop_reach, rfl, twoTop_reach, rfl, rfl, rfl, by decide,
    two_earlier, rfl, by decide⟩

/-- The child `a` of the top node is removed, as above. -/
example : ∃ g, synTop.green.removeChild 20 0 = some g ∧ ∃ g', synTop.replaceWith 22 g = .ok g' ∧
    g'.tree = .node 1 (synRoot.tree.children.drop 1) := ⟨_, rfl, _, rfl, rfl⟩

end
end Rowan
