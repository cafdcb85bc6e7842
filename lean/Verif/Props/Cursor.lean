import Verif.CursorLemmas
import Verif.Examples
/-!
# C11, C12, C13, C16, C47: navigation

For every handle `e` reachable by any sequence of navigation calls in a tree `r` (immutable or a
snapshot of a mutable one): `e.path` is a position of `r.tree`, and each navigation call returns
the handle at the position the specification (`Spec/Nav.lean`) names.
-/
namespace Rowan

section helpers
variable {r : Root}

theorem pointsTo_of_list {β : Type} {L : List SElem} {qs : List (List Nat)} {P : Tree → Bool}
    {f : SElem → Option β} {g : β → SElem} (hp : L.map SElem.path = qs)
    (hv : ∀ e ∈ L, e.Valid ∧ e.rootOf = r)
    (hf : ∀ e ∈ L, (f e).map g = if P e.green.tree then some e else none) (k : Nat) :
    PointsTo r (((L.filterMap f)[k]?).map g) ((qs.filter (r.tree.sat P))[k]?) := by
  obtain ⟨h1, h2⟩ := filterMap_points hv f g P hf
  constructor
  · rw [← hp, ← h1]; simp
  · intro e he
    rw [← List.getElem?_map] at he
    have := h2 e (List.mem_of_getElem? he)
    exact reach_iff.mpr (hv e this)

theorem pointsTo_find {β : Type} {L : List SElem} {qs : List (List Nat)} {P : Tree → Bool}
    {f : SElem → Option β} {g : β → SElem} (hp : L.map SElem.path = qs)
    (hv : ∀ e ∈ L, e.Valid ∧ e.rootOf = r)
    (hf : ∀ e ∈ L, (f e).map g = if P e.green.tree then some e else none) :
    PointsTo r ((L.findSome? f).map g) (qs.find? (r.tree.sat P)) := by
  have := pointsTo_of_list hp hv hf 0
  rwa [← List.head?_eq_getElem?, ← List.head?_eq_getElem?, List.head?_filterMap,
    List.head?_filter] at this

theorem pointsTo_get {L : List SElem} {qs : List (List Nat)} (hp : L.map SElem.path = qs)
    (hv : ∀ e ∈ L, e.Valid ∧ e.rootOf = r) (k : Nat) : PointsTo r L[k]? qs[k]? := by
  refine ⟨by rw [← hp]; simp, fun e he => reach_iff.mpr (hv e (List.mem_of_getElem? he))⟩

theorem find_guard {α : Type} (L : List α) (q : α → Bool) :
    L.find? q = L.findSome? fun x => if q x then some x else none := by
  rw [← List.findSome?_guard]; rfl

theorem pointsTo_none : PointsTo r none none := ⟨rfl, by simp⟩

/-- Everything needed about the children of a reachable node. -/
theorem Reach.kids {n : SNode} (h : Reach r (.node n)) :
    n.kids.map SElem.path = r.tree.kids n.path ∧ ∀ e ∈ n.kids, e.Valid ∧ e.rootOf = r := by
  obtain ⟨hv, hr⟩ := h.valid
  refine ⟨?_, ?_⟩
  · have := SNode.Valid.kids_path hv
    simp only [SElem.rootOf_node] at hr; rwa [hr] at this
  · intro e he
    obtain ⟨h1, h2, -⟩ := SNode.kids_valid hv he
    exact ⟨h1, by rw [h2]; exact hr⟩

/-- Everything needed about the siblings of a reachable element. -/
theorem Reach.sibs {e : SElem} {p : SNode} (h : Reach r e) (hp : e.parent = some p) :
    Reach r (.node p) ∧ e.path = p.path ++ [e.index] ∧ p.kids[e.index]? = some e := by
  obtain ⟨hv, hr⟩ := h.valid
  obtain ⟨h1, h2, h3, h4⟩ := hv.of_parent hp
  exact ⟨reach_iff.mpr ⟨h1, by simp [h2, hr]⟩, h3, h4⟩

end helpers

/-! ## The handles used in the examples -/

theorem synTop_reach : Reach synRoot (.node synTop) := Reach.top synGreen_wf
theorem synInner_reach : Reach synRoot (.node synInnerH) := Reach.firstChild synTop_reach rfl
theorem synTok_reach : Reach synRoot (.token (.child synInnerH 2 2 ⟨2, 2, "é".toList⟩)) :=
  Reach.lastChildOrToken synInner_reach rfl
/-- The same element in a mutable tree (stored offset 77 is not used there). -/
theorem synMut_reach : Reach synRootMut (.node (.root true 3 synGreen)) := Reach.top synGreen_wf

/-! ## C11 -/

/-- The text of an element as the tree has it. -/
theorem C11_ranges {r : Root} {e : SElem} (h : Reach r e) :
    ∃ s : Tree, r.tree.at? e.path = some s ∧
      e.kind = s.kind ∧
      e.textRange.start = blen (r.tree.before e.path) ∧
      e.textRange.len = blen s.text ∧
      bslice r.tree.text e.textRange.start e.textRange.stop = some s.text := by
  obtain ⟨hv, rfl⟩ := h.valid
  have h1 := hv.at_path
  have hoff := hv.offset_eq
  have hlen := GElem.textLen_eq e.green hv.green_wf
  have hr : e.textRange = TextRange.at_ e.offset e.green.textLen := by cases e <;> rfl
  refine ⟨_, h1, SElem.kind_eq e, ?_, ?_, ?_⟩
  · rw [hr, TextRange.at_start, hoff]
  · rw [hr, TextRange.at_len, hlen]; rfl
  · rw [hr, TextRange.at_start, TextRange.at_stop, hoff, hlen, bslice_eq_some]
    have := Tree.text_split h1
    rw [this]
    exact ⟨e.rootOf.tree.before e.path, e.rootOf.tree.after e.path, rfl, rfl, by simp [Tree.len]⟩

/-- The text of a token handle, the green node of a node handle and the (in)mutability are those of
the position and tree they denote. -/
theorem C11_contents {r : Root} {e : SElem} (h : Reach r e) :
    r.tree.at? e.path = some e.green.tree ∧
    (∀ t : SToken, e = .token t → r.tree.at? e.path = some (.token t.kind t.text)) ∧
    e.mutable = r.mutable := by
  obtain ⟨hv, rfl⟩ := h.valid
  refine ⟨hv.at_path, ?_, ?_⟩
  · rintro t rfl; exact hv.at_path
  · cases e with
    | node n => exact n.mutable_eq
    | token t => cases t with
      | root m i g => rfl
      | child p i o g => exact p.mutable_eq

/-- Positions and reachable handles correspond one to one. -/
theorem C11_handles_are_positions (r : Root) (hw : r.green.WF) :
    (∀ a b, Reach r a → Reach r b → a.path = b.path → a = b) ∧
    (∀ p s, r.tree.at? p = some s → ∃ e, Reach r e ∧ e.path = p) := by
  refine ⟨?_, ?_⟩
  · intro a b ha hb hp
    obtain ⟨h1, h2⟩ := ha.valid
    obtain ⟨h3, h4⟩ := hb.valid
    exact h1.unique h3 (by rw [h2, h4]) hp
  · intro p s hs
    obtain ⟨e, h1, h2, h3⟩ := r.exists_handle hw p s hs
    exact ⟨e, reach_iff.mpr ⟨h1, h2⟩, h3⟩

example : ∃ s, synRoot.tree.at? [1, 2] = some s ∧ s.text = "é".toList ∧
    (SToken.child synInnerH 2 2 ⟨2, 2, "é".toList⟩).textRange.start = 2 ∧
    (SToken.child synInnerH 2 2 ⟨2, 2, "é".toList⟩).textRange.stop = 4 ∧
    bslice synRoot.tree.text 2 4 = some "é".toList := ⟨_, rfl, by decide, rfl, rfl, by decide⟩
example := C11_ranges synTok_reach

/-! ## C12 -/

theorem C12_parent {r : Root} {e : SElem} (h : Reach r e) :
    PointsTo r (e.parent.map .node) (if e.path = [] then none else some e.path.dropLast) := by
  cases hp : e.parent with
  | none => rw [if_pos (SElem.parent_none_iff.mp hp)]; exact pointsTo_none
  | some p =>
    obtain ⟨h1, h2, -⟩ := h.sibs hp
    rw [if_neg (by rw [h2]; simp)]
    exact ⟨by simp [h2], fun x hx => by simp at hx; subst hx; exact h1⟩

/-- `index()` of a non-root element is its position among its siblings. -/
theorem C12_index {r : Root} {e : SElem} (h : Reach r e) (hne : e.path ≠ []) :
    e.path = e.path.dropLast ++ [e.index] := by
  cases hp : e.parent with
  | none => exact absurd (SElem.parent_none_iff.mp hp) hne
  | some p => obtain ⟨-, h2, -⟩ := h.sibs hp; rw [h2]; simp

theorem C12_children {r : Root} {n : SNode} (h : Reach r (.node n)) (m : SyntaxKind → Bool) :
    PointsTo r (n.firstChild.map .node) ((r.tree.kids n.path).find? (r.tree.sat Tree.isNode)) ∧
    PointsTo r (n.lastChild.map .node)
      ((r.tree.kids n.path).reverse.find? (r.tree.sat Tree.isNode)) ∧
    PointsTo r n.firstChildOrToken (r.tree.kids n.path).head? ∧
    PointsTo r n.lastChildOrToken (r.tree.kids n.path).getLast? ∧
    PointsTo r ((n.firstChildByKind m).map .node)
      ((r.tree.kids n.path).find? (r.tree.sat (Tree.nodeOf m))) ∧
    PointsTo r (n.firstChildOrTokenByKind m)
      ((r.tree.kids n.path).find? (r.tree.sat (Tree.ofKind m))) := by
  obtain ⟨h1, h2⟩ := h.kids
  refine ⟨?_, ?_, ?_, ?_, ?_, ?_⟩
  · rw [SNode.firstChild_eq]; exact pointsTo_find h1 h2 (fun e _ => asNode_sel e)
  · rw [SNode.lastChild_eq]
    exact pointsTo_find (by rw [List.map_reverse, h1]) (fun e he => h2 e (by simpa using he))
      (fun e _ => asNode_sel e)
  · rw [SNode.firstChildOrToken_eq, List.head?_eq_getElem?, List.head?_eq_getElem?]
    exact pointsTo_get h1 h2 0
  · rw [SNode.lastChildOrToken_eq, List.getLast?_eq_getElem?, List.getLast?_eq_getElem?]
    have : (r.tree.kids n.path).length = n.kids.length := by rw [← h1]; simp
    rw [this]
    exact pointsTo_get h1 h2 _
  · rw [SNode.firstChildByKind_eq]; exact pointsTo_find h1 h2 (fun e _ => asNodeKind_sel m e)
  · rw [SNode.firstChildOrTokenByKind_eq, find_guard]
    have := pointsTo_find (g := id) h1 h2 (fun e _ => kind_sel m e)
    simpa using this

theorem C12_siblings {r : Root} {e : SElem} (h : Reach r e) (m : SyntaxKind → Bool) :
    PointsTo r (e.nextSibling.map .node) ((r.tree.later e.path).find? (r.tree.sat Tree.isNode)) ∧
    PointsTo r (e.prevSibling.map .node)
      ((r.tree.earlier e.path).find? (r.tree.sat Tree.isNode)) ∧
    PointsTo r e.nextSiblingOrToken (r.tree.later e.path).head? ∧
    PointsTo r e.prevSiblingOrToken (r.tree.earlier e.path).head? ∧
    PointsTo r ((e.nextSiblingByKind m).map .node)
      ((r.tree.later e.path).find? (r.tree.sat (Tree.nodeOf m))) ∧
    PointsTo r (e.nextSiblingOrTokenByKind m)
      ((r.tree.later e.path).find? (r.tree.sat (Tree.ofKind m))) := by
  cases hp : e.parent with
  | none =>
    rw [SElem.nextSibling_root hp, SElem.prevSibling_root hp, SElem.nextSiblingOrToken_root hp,
      SElem.prevSiblingOrToken_root hp, SElem.nextSiblingByKind_root m hp,
      SElem.nextSiblingOrTokenByKind_root m hp, SElem.parent_none_iff.mp hp]
    exact ⟨pointsTo_none, pointsTo_none, pointsTo_none, pointsTo_none, pointsTo_none, pointsTo_none⟩
  | some p =>
    obtain ⟨hpr, hpath, hk⟩ := h.sibs hp
    obtain ⟨h1, h2⟩ := hpr.kids
    have hi : e.index < p.green.slice.length := by
      have := (List.getElem?_eq_some_iff.mp hk).1; simpa using this
    have h1d : (p.kids.drop (e.index + 1)).map SElem.path = r.tree.later e.path := by
      rw [hpath, Tree.later_snoc, List.map_drop, h1]
    have h2d : ∀ x ∈ p.kids.drop (e.index + 1), x.Valid ∧ x.rootOf = r :=
      fun x hx => h2 x (List.mem_of_mem_drop hx)
    have h1t : (p.kids.take e.index).reverse.map SElem.path = r.tree.earlier e.path := by
      rw [hpath, Tree.earlier_snoc, List.map_reverse, List.map_take, h1]
    have h2t : ∀ x ∈ (p.kids.take e.index).reverse, x.Valid ∧ x.rootOf = r :=
      fun x hx => h2 x (List.mem_of_mem_take (List.mem_reverse.mp hx))
    refine ⟨?_, ?_, ?_, ?_, ?_, ?_⟩
    · rw [SElem.nextSibling_eq hp]; exact pointsTo_find h1d h2d (fun e _ => asNode_sel e)
    · rw [SElem.prevSibling_eq hp (by omega)]
      exact pointsTo_find h1t h2t (fun e _ => asNode_sel e)
    · have := pointsTo_get h1d h2d 0
      rw [SElem.nextSiblingOrToken_eq hp, List.head?_eq_getElem?]
      simpa using this
    · have := pointsTo_get h1t h2t 0
      rw [SElem.prevSiblingOrToken_eq hp, List.head?_eq_getElem?]
      split
      · next h0 => simpa [h0] using this
      · next h0 =>
        rw [← List.head?_eq_getElem?, List.head?_reverse, List.getLast?_take, if_neg h0] at this
        have hne : p.kids[e.index - 1]? = some (p.kids[e.index - 1]'(by simp; omega)) :=
          List.getElem?_eq_getElem _
        rw [hne] at this ⊢
        exact this
    · rw [SElem.nextSiblingByKind_eq m hp]
      exact pointsTo_find h1d h2d (fun e _ => asNodeKind_sel m e)
    · rw [SElem.nextSiblingOrTokenByKind_eq m hp, find_guard]
      have := pointsTo_find (g := id) h1d h2d (fun e _ => kind_sel m e)
      simpa using this

/-- C12, the methods of nodes. -/
theorem C12_node_siblings {r : Root} {n : SNode} (h : Reach r (.node n)) (m : SyntaxKind → Bool) :
    PointsTo r (n.nextSibling.map .node) ((r.tree.later n.path).find? (r.tree.sat Tree.isNode)) ∧
    PointsTo r (n.prevSibling.map .node) ((r.tree.earlier n.path).find? (r.tree.sat Tree.isNode)) ∧
    PointsTo r n.nextSiblingOrToken (r.tree.later n.path).head? ∧
    PointsTo r n.prevSiblingOrToken (r.tree.earlier n.path).head? ∧
    PointsTo r ((n.nextSiblingByKind m).map .node) ((r.tree.later n.path).find? (r.tree.sat (Tree.nodeOf m))) ∧
    PointsTo r (n.nextSiblingOrTokenByKind m) ((r.tree.later n.path).find? (r.tree.sat (Tree.ofKind m))) :=
  C12_siblings h m

/-- C12, the methods of tokens. -/
theorem C12_token_siblings {r : Root} {t : SToken} (h : Reach r (.token t)) (m : SyntaxKind → Bool) :
    PointsTo r t.nextSiblingOrToken (r.tree.later t.path).head? ∧
    PointsTo r t.prevSiblingOrToken (r.tree.earlier t.path).head? ∧
    PointsTo r (t.nextSiblingOrTokenByKind m) ((r.tree.later t.path).find? (r.tree.sat (Tree.ofKind m))) :=
  have := C12_siblings h m
  ⟨this.2.2.1, this.2.2.2.1, this.2.2.2.2.2⟩

/-- The hypotheses hold and the calls give the expected positions. -/
example : synTop.firstChild.map SNode.path = some [1] ∧ synTop.lastChild.map SNode.path = some [2] ∧
    synTop.firstChildOrToken.map SElem.path = some [0] ∧
    synInnerH.nextSibling.map SNode.path = some [2] ∧
    synInnerH.prevSibling.map SNode.path = none ∧
    synInnerH.prevSiblingOrToken.map SElem.path = some [0] ∧
    (synInnerH.nextSiblingOrTokenByKind (· == 5)).map SElem.path = some [3] := by decide
example := C12_siblings synInner_reach (· == 5)
example := C12_node_siblings synInner_reach (· == 5)
example := C12_token_siblings synTok_reach (· == 5)
example := C12_children synMut_reach (· == 5)
example : (SNode.root true 3 synGreen).prevSibling.map SNode.path = none := by decide

/-! ## C13 -/

/-- Advancing a handle in place gives the same handle as asking for the next sibling. -/
theorem C13_in_place (unshared : Bool) :
    (∀ n : SNode, n.toNextSibling unshared = n.nextSibling) ∧
    (∀ e : SElem, e.toNextSiblingOrToken unshared = e.nextSiblingOrToken) :=
  ⟨SNode.toNextSibling_eq unshared, SElem.toNextSiblingOrToken_eq unshared⟩

theorem kids_index {p : SNode} {j : Nat} {x : SElem} (h : p.kids[j]? = some x) :
    x.index = j ∧ x.parent = some p := by
  rw [SNode.kids_getElem?] at h
  cases hc : p.green.slice[j]? with
  | none => simp [hc] at h
  | some c => simp [hc] at h; subst h; simp

theorem asNode_eq_some {e : SElem} {n : SNode} (h : e.asNode = some n) : e = .node n := by
  cases e <;> simp_all

/-- Stepping through child nodes with `next_sibling` from `first_child`. -/
theorem step_nodes (p : SNode) (k i : Nat) :
    successors SNode.nextSibling ((p.kids.drop k).findSome? NodeOrToken.asNode) i
      = ((p.kids.drop k).filterMap NodeOrToken.asNode)[i]? := by
  apply successors_filterMap
  intro j a b ha hb
  obtain ⟨h1, h2⟩ := kids_index ha
  rw [asNode_eq_some hb] at h1 h2
  rw [SNode.nextSibling, SElem.nextSibling_eq h2, h1]

theorem step_elems (p : SNode) (k i : Nat) :
    successors SElem.nextSiblingOrToken p.kids[k]? i = (p.kids.drop k)[i]? := by
  have := successors_filterMap p.kids (f := some) SElem.nextSiblingOrToken
    (by
      intro j a b ha hb
      obtain ⟨h1, h2⟩ := kids_index ha
      simp at hb; subst hb
      rw [SElem.nextSiblingOrToken_eq h2, h1]
      simp only [← List.head?_filterMap, List.filterMap_some, List.head?_drop]) k i
  simpa only [← List.head?_filterMap, List.filterMap_some, List.head?_drop] using this

theorem step_nodes_kind (m : SyntaxKind → Bool) (p : SNode) (k i : Nat) :
    successors (SNode.nextSiblingByKind m)
        ((p.kids.drop k).findSome? fun x => if m x.kind then x.asNode else none) i
      = ((p.kids.drop k).filterMap fun x => if m x.kind then x.asNode else none)[i]? := by
  apply successors_filterMap
  intro j a b ha hb
  obtain ⟨h1, h2⟩ := kids_index ha
  split at hb
  · rw [asNode_eq_some hb] at h1 h2
    rw [SNode.nextSiblingByKind, SElem.nextSiblingByKind_eq m h2, h1]
  · simp at hb

theorem step_elems_kind (m : SyntaxKind → Bool) (p : SNode) (k i : Nat) :
    successors (SElem.nextSiblingOrTokenByKind m)
        ((p.kids.drop k).findSome? fun x => if m x.kind then some x else none) i
      = ((p.kids.drop k).filterMap fun x => if m x.kind then some x else none)[i]? := by
  apply successors_filterMap
  intro j a b ha hb
  obtain ⟨h1, h2⟩ := kids_index ha
  split at hb
  · simp at hb; subst hb
    rw [SElem.nextSiblingOrTokenByKind_eq m h2, h1, ← List.findSome?_guard]
    rfl
  · simp at hb

theorem NodeChildren.nth_eq (u : Nat → Bool) (p : SNode) (k : Nat) :
    (NodeChildren.nth u { parent := p } k) = successors SNode.nextSibling p.firstChild k ∧
    (NodeChildren.after u { parent := p } (k + 1)) =
      { parent := p, next := successors SNode.nextSibling p.firstChild k, initialized := true } := by
  induction k with
  | zero => simp [nth, after, step, successors]
  | succ k ih =>
    have h := ih.2
    have hn : NodeChildren.nth u { parent := p } (k + 1)
        = successors SNode.nextSibling p.firstChild (k + 1) := by
      rw [nth, h]
      simp only [step, Bool.not_true, Bool.false_eq_true, if_false, successors]
      congr 1; funext n; exact SNode.toNextSibling_eq _ n
    refine ⟨hn, ?_⟩
    rw [after, ← hn, nth, h]
    simp [step]

theorem ElemChildren.nth_eq (u : Nat → Bool) (p : SNode) (k : Nat) :
    (ElemChildren.nth u { parent := p } k)
      = successors SElem.nextSiblingOrToken p.firstChildOrToken k ∧
    (ElemChildren.after u { parent := p } (k + 1)) =
      { parent := p, next := successors SElem.nextSiblingOrToken p.firstChildOrToken k,
        initialized := true } := by
  induction k with
  | zero => simp [nth, after, step, successors]
  | succ k ih =>
    have h := ih.2
    have hn : ElemChildren.nth u { parent := p } (k + 1)
        = successors SElem.nextSiblingOrToken p.firstChildOrToken (k + 1) := by
      rw [nth, h]
      simp only [step, Bool.not_true, Bool.false_eq_true, if_false, successors]
      congr 1; funext n; exact SElem.toNextSiblingOrToken_eq _ n
    refine ⟨hn, ?_⟩
    rw [after, ← hn, nth, h]
    simp [step]

theorem byKindNth_eq (m : SyntaxKind → Bool) (first : Option SNode) (k : Nat) :
    byKindNth m first k = successors (SNode.nextSiblingByKind m) first k := by
  have : ∀ k, byKindAfter m first k = successors (SNode.nextSiblingByKind m) first k := by
    intro k; induction k with
    | zero => rfl
    | succ k ih => rw [byKindAfter, ih]; rfl
  rw [byKindNth, byKindStep, this]

theorem elemByKindNth_eq (m : SyntaxKind → Bool) (first : Option SElem) (k : Nat) :
    elemByKindNth m first k = successors (SElem.nextSiblingOrTokenByKind m) first k := by
  have : ∀ k, elemByKindAfter m first k
      = successors (SElem.nextSiblingOrTokenByKind m) first k := by
    intro k; induction k with
    | zero => rfl
    | succ k ih => rw [elemByKindAfter, ih]; rfl
  rw [elemByKindNth, elemByKindStep, this]

/-- The `k`-th call of `children().next()` returns the `k`-th child node (`None` from the end on,
forever), and likewise for `children_with_tokens()`; whichever of the yielded handles the caller
has dropped in between. -/
theorem C13_children {r : Root} {n : SNode} (h : Reach r (.node n)) (unshared : Nat → Bool)
    (k : Nat) :
    PointsTo r ((NodeChildren.nth unshared { parent := n } k).map .node)
      ((r.tree.kids n.path).filter (r.tree.sat Tree.isNode))[k]? ∧
    PointsTo r (ElemChildren.nth unshared { parent := n } k) (r.tree.kids n.path)[k]? := by
  obtain ⟨h1, h2⟩ := h.kids
  constructor
  · rw [(NodeChildren.nth_eq unshared n k).1, SNode.firstChild_eq]
    have := step_nodes n 0 k
    simp only [List.drop_zero] at this
    rw [this]
    exact pointsTo_of_list h1 h2 (fun e _ => asNode_sel e) k
  · rw [(ElemChildren.nth_eq unshared n k).1, SNode.firstChildOrToken_eq, List.head?_eq_getElem?]
    have := step_elems n 0 k
    simp only [List.drop_zero] at this
    rw [this]
    exact pointsTo_get h1 h2 k

/-- `children().by_kind(m)` and `children_with_tokens().by_kind(m)` on a fresh iterator. -/
theorem C13_by_kind {r : Root} {n : SNode} (h : Reach r (.node n)) (m : SyntaxKind → Bool)
    (k : Nat) :
    PointsTo r ((byKindNth m (NodeChildren.byKind m { parent := n }) k).map .node)
      ((r.tree.kids n.path).filter (r.tree.sat (Tree.nodeOf m)))[k]? ∧
    PointsTo r (elemByKindNth m (ElemChildren.byKind m { parent := n }) k)
      ((r.tree.kids n.path).filter (r.tree.sat (Tree.ofKind m)))[k]? := by
  obtain ⟨h1, h2⟩ := h.kids
  constructor
  · rw [byKindNth_eq]
    simp only [NodeChildren.byKind, Bool.not_false, if_true, SNode.firstChildByKind_eq]
    have := step_nodes_kind m n 0 k
    simp only [List.drop_zero] at this
    rw [this]
    exact pointsTo_of_list h1 h2 (fun e _ => asNodeKind_sel m e) k
  · rw [elemByKindNth_eq]
    simp only [ElemChildren.byKind, Bool.not_false, if_true, SNode.firstChildOrTokenByKind_eq]
    have := step_elems_kind m n 0 k
    simp only [List.drop_zero] at this
    rw [← List.findSome?_guard]
    have e1 : (Option.guard fun x : SElem => m x.kind) = fun x => if m x.kind then some x else none := by
      funext x; simp [Option.guard]
    rw [e1, this]
    have := pointsTo_of_list (g := id) h1 h2 (fun e _ => kind_sel m e) k
    simpa using this

example : ((List.range 4).map fun k => (NodeChildren.nth (fun i => i == 1) { parent := synTop } k).map
    SNode.path) = [some [1], some [2], none, none] := by decide
example := C13_children synTop_reach
example := C13_by_kind synTop_reach

/-! ## C47: `by_kind` on a started iterator -/

/-- Dropping the elements before a selected one. -/
theorem filterMap_drop_index {α β : Type} {L : List α} {f : α → Option β} {j : Nat} {a : α} {b : β}
    (hj : L[j]? = some a) (hb : f a = some b) :
    L.filterMap f = (L.take j).filterMap f ++ b :: (L.drop (j + 1)).filterMap f := by
  obtain ⟨hlt, rfl⟩ := List.getElem?_eq_some_iff.mp hj
  conv => lhs; rw [← List.take_append_drop j L, List.drop_eq_getElem_cons hlt]
  rw [List.filterMap_append, List.filterMap_cons, hb]

/-- Exact behaviour: after `children_with_tokens()` has yielded `k + 1` children, `by_kind(m)` yields
the matching ones *from the last yielded child on*, i.e. the last yielded one again if it matches.
(The property as stated would have `drop (k + 1)`.) -/
theorem C47_exact_partial {r : Root} {n : SNode} (h : Reach r (.node n)) (unshared : Nat → Bool)
    (m : SyntaxKind → Bool) (k i : Nat) :
    PointsTo r
      (elemByKindNth m (ElemChildren.byKind m (ElemChildren.after unshared { parent := n } (k + 1))) i)
      (((r.tree.kids n.path).drop k).filter (r.tree.sat (Tree.ofKind m)))[i]? := by
  obtain ⟨h1, h2⟩ := h.kids
  rw [(ElemChildren.nth_eq unshared n k).2, elemByKindNth_eq, SNode.firstChildOrToken_eq,
    List.head?_eq_getElem?, step_elems n 0 k]
  simp only [List.drop_zero]
  have hfirst : ElemChildren.byKind m { parent := n, next := n.kids[k]?, initialized := true } =
      (n.kids.drop k).findSome? fun x => if m x.kind then some x else none := by
    simp only [ElemChildren.byKind, Bool.not_true, Bool.false_eq_true, if_false]
    cases hk : n.kids[k]? with
    | none =>
      have : n.kids.length ≤ k := by simpa using hk
      simp [List.drop_eq_nil_of_le this]
    | some x =>
      obtain ⟨hlt, rfl⟩ := List.getElem?_eq_some_iff.mp hk
      obtain ⟨i1, i2⟩ := kids_index hk
      rw [List.drop_eq_getElem_cons hlt]
      simp only [Option.bind_some, List.findSome?_cons]
      split
      · rfl
      · rw [SElem.nextSiblingOrTokenByKind_eq m i2, i1, find_guard]
  rw [hfirst, step_elems_kind]
  have := pointsTo_of_list (g := id) (L := n.kids.drop k) (by rw [List.map_drop, h1])
    (fun e he => h2 e (List.mem_of_mem_drop he)) (fun e _ => kind_sel m e) i
  simpa using this

/-- The same for `children()`: `by_kind` on an iterator that has yielded `k + 1` nodes starts with
the last yielded node. -/
theorem C47_nodes_exact_partial {r : Root} {n : SNode} (h : Reach r (.node n))
    (unshared : Nat → Bool) (m : SyntaxKind → Bool) (k i : Nat) :
    PointsTo r
      ((byKindNth m (NodeChildren.byKind m (NodeChildren.after unshared { parent := n } (k + 1))) i).map
        .node)
      ((((r.tree.kids n.path).filter (r.tree.sat Tree.isNode)).drop k).filter
        (r.tree.sat (Tree.nodeOf m)))[i]? := by
  obtain ⟨h1, h2⟩ := h.kids
  have hstep := step_nodes n 0 k
  rw [List.drop_zero] at hstep
  rw [(NodeChildren.nth_eq unshared n k).2, byKindNth_eq, SNode.firstChild_eq, hstep]
  -- the child list from the last yielded node on
  have key : ∃ j, NodeChildren.byKind m
        { parent := n, next := (n.kids.filterMap NodeOrToken.asNode)[k]?, initialized := true } =
        ((n.kids.drop j).findSome? fun x => if m x.kind then x.asNode else none) ∧
      ((n.kids.drop j).filter SElem.isNode) = (n.kids.filter SElem.isNode).drop k := by
    simp only [NodeChildren.byKind, Bool.not_true, Bool.false_eq_true, if_false]
    generalize hL : n.kids = L
    have hidx : ∀ (j : Nat) (x : SElem), L[j]? = some x → x.index = j ∧ x.parent = some n := by
      subst hL; exact fun j x hx => kids_index hx
    have gen : ∀ (l : List SElem) (j0 k : Nat), L.drop j0 = l →
        ∃ j, ((l.filterMap NodeOrToken.asNode)[k]?.bind fun n =>
            if m n.kind then some n else n.nextSiblingByKind m) =
          ((L.drop j).findSome? fun x => if m x.kind then x.asNode else none) ∧
          ((L.drop j).filter SElem.isNode) = (l.filter SElem.isNode).drop k := by
      intro l
      induction l with
      | nil =>
        intro j0 k hl
        exact ⟨j0, by simp [hl], by simp [hl]⟩
      | cons x l ih =>
        intro j0 k hl
        have hx : L[j0]? = some x := by
          have : (L.drop j0)[0]? = some x := by rw [hl]; rfl
          simpa using this
        have hl' : L.drop (j0 + 1) = l := by
          have := congrArg (List.drop 1) hl
          simpa [List.drop_drop] using this
        cases x with
        | token t =>
          obtain ⟨j, h1, h2⟩ := ih (j0 + 1) k hl'
          exact ⟨j, h1, h2⟩
        | node y =>
          cases k with
          | succ k =>
            obtain ⟨j, h1, h2⟩ := ih (j0 + 1) k hl'
            exact ⟨j, h1, h2⟩
          | zero =>
            obtain ⟨i1, i2⟩ := hidx _ _ hx
            refine ⟨j0, ?_, by rw [hl]; rfl⟩
            rw [hl]
            show (if m y.kind then some y else y.nextSiblingByKind m) = _
            rw [List.findSome?_cons]
            have e1 : SElem.kind (.node y) = y.kind := rfl
            by_cases hm : m y.kind
            · simp only [e1, hm, if_true]; rfl
            · simp only [e1, hm, Bool.false_eq_true, if_false, SNode.nextSiblingByKind]
              rw [SElem.nextSiblingByKind_eq m i2, i1, hL, hl']
    exact gen L 0 k rfl
  obtain ⟨j, hj1, hj2⟩ := key
  rw [hj1, step_nodes_kind]
  have := pointsTo_of_list (L := n.kids.drop j) (by rw [List.map_drop, h1])
    (fun e he => h2 e (List.mem_of_mem_drop he)) (fun e _ => asNodeKind_sel m e) i
  -- both filters select the same positions
  have hf : ∀ (L : List SElem), (∀ e ∈ L, e.Valid ∧ e.rootOf = r) →
      (L.map SElem.path).filter (r.tree.sat Tree.isNode) = (L.filter SElem.isNode).map SElem.path := by
    intro L hL
    rw [List.filter_map]
    congr 1
    apply List.filter_congr
    intro e he
    have := (hL e he).1.at_path
    rw [(hL e he).2] at this
    simp only [Function.comp_def, Tree.sat, this]
    cases e with
    | node x => simp [SElem.isNode]
    | token x => rfl
  have hk : ((r.tree.kids n.path).drop j).filter (r.tree.sat Tree.isNode)
      = ((r.tree.kids n.path).filter (r.tree.sat Tree.isNode)).drop k := by
    rw [← h1, hf _ h2, ← List.map_drop, ← List.map_drop,
      hf _ (fun e he => h2 e (List.mem_of_mem_drop he)), hj2]
  have hsub : ((r.tree.kids n.path).drop j).filter (r.tree.sat (Tree.nodeOf m)) =
      (((r.tree.kids n.path).drop j).filter (r.tree.sat Tree.isNode)).filter
        (r.tree.sat (Tree.nodeOf m)) := by
    rw [List.filter_filter]
    apply List.filter_congr
    intro q _
    simp only [Tree.sat, Tree.nodeOf]
    cases r.tree.at? q with
    | none => rfl
    | some s => cases h : s.isNode <;> simp [h]
  rw [← hk, ← hsub]
  exact this

/-- **C47 is false**: after one `next`, `by_kind` yields the already yielded child again (a
conforming `by_kind` would start with the child after it, as in the `drop 1` below). -/
theorem C47_counterexample :
    ∃ (r : Root) (n : SNode) (m : SyntaxKind → Bool), Reach r (.node n) ∧
      (∀ u, (ElemChildren.nth u { parent := n } 0).map SElem.path = some [0]) ∧
      (∀ u, (elemByKindNth m (ElemChildren.byKind m (ElemChildren.after u { parent := n } 1)) 0).map
        SElem.path = some [0]) ∧
      (((r.tree.kids n.path).drop 1).filter (r.tree.sat (Tree.ofKind m)))[0]? = some [1] ∧
      ¬ ∀ u i, PointsTo r
        (elemByKindNth m (ElemChildren.byKind m (ElemChildren.after u { parent := n } 1)) i)
        (((r.tree.kids n.path).drop 1).filter (r.tree.sat (Tree.ofKind m)))[i]? := by
  refine ⟨synRoot, synTop, fun _ => true, synTop_reach, ?_, ?_, by decide, ?_⟩
  · intro u; rfl
  · intro u; rfl
  · intro h
    have := (h (fun _ => true) 0).1
    revert this; decide

/-! ## C16 -/

theorem ancestors_path (n : SNode) : n.ancestors.map SNode.path = Tree.upward n.path := by
  induction n with
  | root m i g => simp [SNode.ancestors, Tree.upward]
  | child p i o g ih => simp [SNode.ancestors, ih, Tree.upward_snoc]

/-- `ancestors()` of a node: the node, its parent, ..., the root. -/
theorem C16_ancestors {r : Root} {n : SNode} (h : Reach r (.node n)) :
    PointsToAll r (n.ancestors.map .node) (Tree.upward n.path) ∧
    ∀ k, successors SNode.parent (some n) k = n.ancestors[k]? := by
  refine ⟨⟨?_, ?_⟩, ?_⟩
  · rw [List.map_map, ← ancestors_path]; rfl
  · intro e he
    simp only [List.mem_map] at he
    obtain ⟨a, ha, rfl⟩ := he
    exact Reach.ancestor h ha
  · intro k
    have shift : ∀ (x : Option SNode) (i : Nat),
        successors SNode.parent x (i + 1) = successors SNode.parent (x.bind SNode.parent) i := by
      intro x i
      induction i with
      | zero => rfl
      | succ i ih => rw [successors, ih]; rfl
    have hnone : ∀ i, successors SNode.parent none i = none := by
      intro i; induction i with
      | zero => rfl
      | succ i ih => simp [successors, ih]
    clear h
    induction n generalizing k with
    | root m i g =>
      cases k with
      | zero => rfl
      | succ k => rw [shift]; simp [hnone, SNode.ancestors]
    | child p i o g ih =>
      cases k with
      | zero => rfl
      | succ k => rw [shift]; simpa [SNode.ancestors] using ih k

/-- `ancestors()` of a token: its parent, ..., the root. -/
theorem C16_token_ancestors {r : Root} {t : SToken} (h : Reach r (.token t)) :
    PointsToAll r (t.ancestors.map .node) (Tree.upward t.path).tail := by
  refine ⟨?_, ?_⟩
  · cases t with
    | root m i g => simp [SToken.ancestors, SToken.parent, SToken.path, Tree.upward]
    | child p i o g =>
      simp only [SToken.ancestors, SToken.parent_child, SToken.path_child, Tree.upward_snoc,
        List.tail_cons, ← ancestors_path, List.map_map]
      rfl
  · intro e he
    simp only [List.mem_map] at he
    obtain ⟨a, ha, rfl⟩ := he
    exact Reach.ancestor h ha

theorem successors_cons {α : Type} (f : α → Option α) (a : α) (k : Nat) :
    successors f (some a) (k + 1) = successors f (f a) k := by
  induction k with
  | zero => rfl
  | succ k ih => rw [successors, ih]; rfl

/-- Walking left. -/
theorem step_back {β : Type} (L : List SElem) (f : SElem → Option β) (nxt : β → Option β)
    (h : ∀ j a b, L[j]? = some a → f a = some b → nxt b = (L.take j).reverse.findSome? f)
    (j i : Nat) (hj : j ≤ L.length) :
    successors nxt ((L.take j).reverse.findSome? f) i = ((L.take j).reverse.filterMap f)[i]? := by
  have e : ∀ j, j ≤ L.length → (L.take j).reverse = L.reverse.drop (L.length - j) := by
    intro j hj
    rw [List.drop_reverse]; congr 2; omega
  rw [e j hj]
  apply successors_filterMap
  intro k a b ha hb
  have hk : k < L.length := by
    have := (List.getElem?_eq_some_iff.mp ha).1; simpa using this
  rw [List.getElem?_reverse hk] at ha
  rw [h _ _ _ ha hb, e _ (by omega)]
  congr 2; omega

/-- `siblings_with_tokens(Next)`: the element and all its right siblings, in order;
`siblings_with_tokens(Prev)`: the element and all its left siblings, nearest first. -/
theorem C16_siblings_with_tokens {r : Root} {e : SElem} (h : Reach r e) (k : Nat) :
    PointsTo r (successors (SElem.siblingStep .next) (some e) k)
      (e.path :: r.tree.later e.path)[k]? ∧
    PointsTo r (successors (SElem.siblingStep .prev) (some e) k)
      (e.path :: r.tree.earlier e.path)[k]? := by
  cases k with
  | zero =>
    have : PointsTo r (some e) (some e.path) := ⟨rfl, by rintro _ ⟨⟩; exact h⟩
    exact ⟨this, this⟩
  | succ k =>
    simp only [successors_cons, List.getElem?_cons_succ]
    have hnone : ∀ (f : SElem → Option SElem) i, successors f none i = none := by
      intro f i; induction i with
      | zero => rfl
      | succ i ih => simp [successors, ih]
    cases hp : e.parent with
    | none =>
      simp only [SElem.siblingStep, SElem.nextSiblingOrToken_root hp,
        SElem.prevSiblingOrToken_root hp, SElem.parent_none_iff.mp hp, hnone]
      exact ⟨pointsTo_none, pointsTo_none⟩
    | some p =>
      obtain ⟨hpr, hpath, hk⟩ := h.sibs hp
      obtain ⟨h1, h2⟩ := hpr.kids
      have hi : e.index < p.kids.length := (List.getElem?_eq_some_iff.mp hk).1
      constructor
      · have := step_elems p (e.index + 1) k
        have e1 : (SElem.siblingStep .next) = SElem.nextSiblingOrToken := by funext x; rfl
        rw [e1, SElem.nextSiblingOrToken_eq hp, this]
        apply pointsTo_get
        · rw [hpath, Tree.later_snoc, List.map_drop, h1]
        · exact fun x hx => h2 x (List.mem_of_mem_drop hx)
      · have e1 : (SElem.siblingStep .prev) = SElem.prevSiblingOrToken := by funext x; rfl
        have back : ∀ (x : SElem) (j : Nat), p.kids[j]? = some x →
            x.prevSiblingOrToken = (p.kids.take j).reverse.findSome? some := by
          intro x j hx
          obtain ⟨i1, i2⟩ := kids_index hx
          have hj : j < p.kids.length := (List.getElem?_eq_some_iff.mp hx).1
          rw [SElem.prevSiblingOrToken_eq i2, i1, ← List.head?_filterMap, List.filterMap_some,
            List.head?_reverse, List.getLast?_take]
          split
          · rfl
          · have hne : p.kids[j - 1]? = some (p.kids[j - 1]'(by omega)) :=
              List.getElem?_eq_getElem _
            rw [hne]; rfl
        have := step_back p.kids (f := some) SElem.prevSiblingOrToken
          (by intro j a b ha hb; simp at hb; subst hb; exact back a j ha) e.index k (by omega)
        rw [e1, back e e.index hk, this, List.filterMap_some]
        apply pointsTo_get
        · rw [hpath, Tree.earlier_snoc, List.map_reverse, List.map_take, h1]
        · exact fun x hx => h2 x (List.mem_of_mem_take (List.mem_reverse.mp hx))

/-- `siblings(dir)`: the same, nodes only. -/
theorem C16_siblings {r : Root} {n : SNode} (h : Reach r (.node n)) (k : Nat) :
    PointsTo r ((successors (SNode.siblingStep .next) (some n) k).map .node)
      (n.path :: (r.tree.later n.path).filter (r.tree.sat Tree.isNode))[k]? ∧
    PointsTo r ((successors (SNode.siblingStep .prev) (some n) k).map .node)
      (n.path :: (r.tree.earlier n.path).filter (r.tree.sat Tree.isNode))[k]? := by
  cases k with
  | zero =>
    have : PointsTo r (some (.node n)) (some n.path) := ⟨rfl, by rintro _ ⟨⟩; exact h⟩
    exact ⟨this, this⟩
  | succ k =>
    simp only [successors_cons, List.getElem?_cons_succ]
    have hnone : ∀ (f : SNode → Option SNode) i, successors f none i = none := by
      intro f i; induction i with
      | zero => rfl
      | succ i ih => simp [successors, ih]
    have en : (SNode.siblingStep .next) = SNode.nextSibling := by funext x; rfl
    have ep : (SNode.siblingStep .prev) = SNode.prevSibling := by funext x; rfl
    rw [en, ep]
    cases hp : SElem.parent (.node n) with
    | none =>
      have hpath : n.path = [] := SElem.parent_none_iff.mp hp
      simp only [SNode.nextSibling, SNode.prevSibling] at *
      rw [SElem.nextSibling_root hp, SElem.prevSibling_root hp, hnone, hnone, hpath]
      exact ⟨pointsTo_none, pointsTo_none⟩
    | some p =>
      obtain ⟨hpr, hpath, hk⟩ := h.sibs hp
      obtain ⟨h1, h2⟩ := hpr.kids
      simp only [SElem.path_node, SElem.index_node] at hpath hk
      have hi : n.index < p.kids.length := (List.getElem?_eq_some_iff.mp hk).1
      constructor
      · have h0 : n.nextSibling = (p.kids.drop (n.index + 1)).findSome? NodeOrToken.asNode :=
          SElem.nextSibling_eq hp
        rw [h0, step_nodes p (n.index + 1) k]
        refine pointsTo_of_list ?_ ?_ (fun e _ => asNode_sel e) k
        · rw [hpath, Tree.later_snoc, List.map_drop, h1]
        · exact fun x hx => h2 x (List.mem_of_mem_drop hx)
      · have back : ∀ (x : SNode) (j : Nat), p.kids[j]? = some (.node x) →
            x.prevSibling = (p.kids.take j).reverse.findSome? NodeOrToken.asNode := by
          intro x j hx
          obtain ⟨i1, i2⟩ := kids_index hx
          have hj : j < p.kids.length := (List.getElem?_eq_some_iff.mp hx).1
          have := SElem.prevSibling_eq (e := .node x) i2 (by rw [i1]; simp at hj; omega)
          rw [i1] at this
          exact this
        have := step_back p.kids (f := NodeOrToken.asNode) SNode.prevSibling
          (by
            intro j a b ha hb
            rw [asNode_eq_some hb] at ha
            exact back b j ha) n.index k (by omega)
        rw [back n n.index hk, this]
        refine pointsTo_of_list ?_ ?_ (fun e _ => asNode_sel e) k
        · rw [hpath, Tree.earlier_snoc, List.map_reverse, List.map_take, h1]
        · exact fun x hx => h2 x (List.mem_of_mem_take (List.mem_reverse.mp hx))

example : synInnerH.ancestors.map SNode.path = [[1], []] := by decide
example := C16_ancestors synInner_reach
example := C16_token_ancestors synTok_reach
example : ((List.range 4).map fun k => (successors (SElem.siblingStep .prev) (some (.node synInnerH)) k).map
    SElem.path) = [some [1], some [0], none, none] := by decide
example := C16_siblings_with_tokens synTok_reach
example := C16_siblings synInner_reach

end Rowan
