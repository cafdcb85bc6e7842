import Verif.Spec.Typed
import Verif.Props.Api
import Verif.Props.Walk
import Verif.Props.TokenEdge
import Verif.Props.SyntaxText
/-!
# C71: the functions of the typed API

Every function of `SyntaxNode<L>`, `SyntaxToken<L>` and `SyntaxElement<L>` that reads a tree, stated on positions of the
tree, for handles obtained by any sequence of calls of such functions.
-/
namespace Rowan

/-! ### Wrapping and unwrapping -/

@[simp] theorem TElem.handle_fromRaw (e : SElem) : (TElem.fromRaw e).handle = e := by cases e <;> rfl
@[simp] theorem TElem.fromRaw_handle (e : TElem) : TElem.fromRaw e.handle = e := by
  cases e <;> rfl
@[simp] theorem TElem.intoRaw_eq (e : TElem) : e.intoRaw = e.handle := by cases e <;> rfl

theorem TNodeChildren.after_raw (u : Nat → Bool) (it : TNodeChildren) :
    ∀ k, (it.after u k).raw = it.raw.after u k
  | 0 => rfl
  | k + 1 => by
    rw [TNodeChildren.after, NodeChildren.after, TNodeChildren.step]
    simp only [after_raw u it k]
theorem TNodeChildren.nth_raw (u : Nat → Bool) (it : TNodeChildren) (k : Nat) :
    it.nth u k = (it.raw.nth u k).map TNode.fromRaw := by
  rw [TNodeChildren.nth, NodeChildren.nth, TNodeChildren.step]
  simp only [after_raw u it k]
theorem TElemChildren.after_raw (u : Nat → Bool) (it : TElemChildren) :
    ∀ k, (it.after u k).raw = it.raw.after u k
  | 0 => rfl
  | k + 1 => by
    rw [TElemChildren.after, ElemChildren.after, TElemChildren.step]
    simp only [after_raw u it k]
theorem TElemChildren.nth_raw (u : Nat → Bool) (it : TElemChildren) (k : Nat) :
    it.nth u k = (it.raw.nth u k).map TElem.fromRaw := by
  rw [TElemChildren.nth, ElemChildren.nth, TElemChildren.step]
  simp only [after_raw u it k]

/-- Apply a function to the result of a call. -/
def Res.lift {α β : Type} (f : α → β) : Res α → Res β
  | .ok a => .ok (f a)
  | .panic => .panic
  | .ub => .ub
  | .diverge => .diverge

theorem Res.lift_bind {α β : Type} (f : α → β) (x : Res α) : (do .ok (f (← x))) = x.lift f := by cases x <;> rfl

theorem TPreorder.drive_raw (skip : List Nat → Bool) (it : TPreorder) :
    ∀ k, it.drive skip k = (it.raw.drive skip k).lift TPreorder.mk
  | 0 => rfl
  | k + 1 => by
    rw [TPreorder.drive, Preorder.drive, drive_raw skip it k]
    cases it.raw.drive skip k with
    | ok i =>
      simp only [Res.lift, Res.ok_bind, TPreorder.step]
      cases i.step with
      | ok p =>
        obtain ⟨ev, i'⟩ := p
        cases ev with
        | none => rfl
        | some ev =>
          cases ev with
          | enter e =>
            simp only [Res.ok_bind, Option.map_some, WalkEvent.map]
            show Res.ok (if skip e.path then _ else _) = Res.lift _ (Res.ok (if skip e.path then _ else _))
            cases skip e.path <;> rfl
          | leave e => rfl
      | panic => rfl
      | ub => rfl
      | diverge => rfl
    | panic => rfl
    | ub => rfl
    | diverge => rfl
theorem TPreorder.nth_raw (skip : List Nat → Bool) (it : TPreorder) (k : Nat) :
    it.nth skip k = (it.raw.nth skip k).lift (Option.map (WalkEvent.map TNode.fromRaw)) := by
  rw [TPreorder.nth, Preorder.nth, drive_raw]
  cases it.raw.drive skip k with
  | ok i =>
    simp only [Res.lift, Res.ok_bind, TPreorder.step]
    cases i.step <;> rfl
  | panic => rfl
  | ub => rfl
  | diverge => rfl
theorem TPreorderT.drive_raw (skip : List Nat → Bool) (it : TPreorderT) :
    ∀ k, it.drive skip k = (it.raw.drive skip k).lift TPreorderT.mk
  | 0 => rfl
  | k + 1 => by
    rw [TPreorderT.drive, PreorderT.drive, drive_raw skip it k]
    cases it.raw.drive skip k with
    | ok i =>
      simp only [Res.lift, Res.ok_bind, TPreorderT.step]
      cases i.step with
      | ok p =>
        obtain ⟨ev, i'⟩ := p
        cases ev with
        | none => rfl
        | some ev =>
          cases ev with
          | enter e =>
            simp only [Res.ok_bind, Option.map_some, WalkEvent.map, TElem.path, TElem.handle_fromRaw]
            cases skip e.path <;> rfl
          | leave e => rfl
      | panic => rfl
      | ub => rfl
      | diverge => rfl
    | panic => rfl
    | ub => rfl
    | diverge => rfl
theorem TPreorderT.nth_raw (skip : List Nat → Bool) (it : TPreorderT) (k : Nat) :
    it.nth skip k = (it.raw.nth skip k).lift (Option.map (WalkEvent.map TElem.fromRaw)) := by
  rw [TPreorderT.nth, PreorderT.nth, drive_raw]
  cases it.raw.drive skip k with
  | ok i =>
    simp only [Res.lift, Res.ok_bind, TPreorderT.step]
    cases i.step <;> rfl
  | panic => rfl
  | ub => rfl
  | diverge => rfl

theorem Res.lift_eq_ok {α β : Type} {f : α → β} {x : Res α} {b : β} (h : x.lift f = .ok b) :
    ∃ a, x = .ok a ∧ f a = b := by
  cases x <;> simp_all [Res.lift]

theorem successors_map {α β : Type} {f : α → Option α} {g : β → Option β} {w : α → β}
    (h : ∀ a, g (w a) = (f a).map w) (o : Option α) :
    ∀ k, successors g (o.map w) k = (successors f o k).map w
  | 0 => rfl
  | k + 1 => by
    rw [successors, successors, successors_map h o k]
    cases successors f o k with
    | none => rfl
    | some a => simpa using h a

theorem TElem.ancestorsNth_raw (e : TElem) (k : Nat) :
    e.ancestorsNth k = (e.handle.ancestorsNth k).map TNode.fromRaw := by
  cases e with
  | node n => exact successors_map (w := TNode.fromRaw) (fun _ => rfl) (some n.raw) k
  | token t => exact successors_map (w := TNode.fromRaw) (fun _ => rfl) t.raw.parent k

section
variable [Lang]

omit [Lang] in
/-- What a cursor function returned, wrapped. -/
theorem PointsTo.reach {r : Root} {o : Option SElem} {q : Option (List Nat)} (h : PointsTo r o q) {e : SElem}
    (he : o = some e) : Reach r e := h.2 e he

omit [Lang] in
theorem mapNode_some {o : Option SNode} {c : TNode} (h : o.map TNode.fromRaw = some c) : o.map .node = some (TElem.handle (.node c)) := by
  cases o with
  | none => cases h
  | some x => cases h; rfl
omit [Lang] in
theorem mapElem_some {o : Option SElem} {c : TElem} (h : o.map TElem.fromRaw = some c) : o = some c.handle := by
  cases o with
  | none => cases h
  | some x => cases h; simp
omit [Lang] in
theorem mapTok_some {o : Option SToken} {c : TToken} (h : o.map TToken.fromRaw = some c) : o.map .token = some (TElem.handle (.token c)) := by
  cases o with
  | none => cases h
  | some x => cases h; rfl

/-- **C71, handles.**  Whatever calls it was obtained by, a typed handle is a handle of a position of its tree. -/
theorem C71_reach {r : Root} {e : TElem} (h : TReach r e) : Reach r e.handle := by
  induction h with
  | newRoot hw hr => subst hr; exact Reach.top (r := ⟨false, 0, .node _⟩) hw
  | newRootMut hw hr => subst hr; exact Reach.top (r := ⟨true, 0, .node _⟩) hw
  | parent _ he ih => exact (C12_parent ih).reach (mapNode_some he)
  | @ancestors n a _ ha ih =>
    obtain ⟨x, hx, rfl⟩ := List.mem_map.mp ha
    exact (C16_ancestors ih).1.2 _ (List.mem_map.mpr ⟨x, hx, rfl⟩)
  | children u k _ he ih => exact (C13_children ih u k).1.reach (mapNode_some (TNodeChildren.nth_raw u _ k ▸ he))
  | childrenWithTokens u k _ he ih =>
    exact (C13_children ih u k).2.reach (mapElem_some (TElemChildren.nth_raw u _ k ▸ he))
  | childrenByKind m k _ he ih => exact (C52_children_by_kind ih m k).1.reach (mapNode_some he)
  | childrenWithTokensByKind m k _ he ih => exact (C52_children_by_kind ih m k).2.reach (mapElem_some he)
  | firstChild _ he ih => exact (C12_children ih fun _ => true).1.reach (mapNode_some he)
  | firstChildByKind m _ he ih => exact (C52_by_kind ih m).1.reach (mapNode_some he)
  | lastChild _ he ih => exact (C12_children ih fun _ => true).2.1.reach (mapNode_some he)
  | firstChildOrToken _ he ih => exact (C12_children ih fun _ => true).2.2.1.reach (mapElem_some he)
  | firstChildOrTokenByKind m _ he ih => exact (C52_by_kind ih m).2.1.reach (mapElem_some he)
  | lastChildOrToken _ he ih => exact (C12_children ih fun _ => true).2.2.2.1.reach (mapElem_some he)
  | nextSibling _ he ih => exact (C12_siblings ih fun _ => true).1.reach (mapNode_some he)
  | nextSiblingByKind m _ he ih => exact (C52_by_kind ih m).2.2.1.reach (mapNode_some he)
  | prevSibling _ he ih => exact (C12_siblings ih fun _ => true).2.1.reach (mapNode_some he)
  | nextSiblingOrToken _ he ih => exact (C12_siblings ih fun _ => true).2.2.1.reach (mapElem_some he)
  | nextSiblingOrTokenByKind m _ he ih => exact (C52_by_kind ih m).2.2.2.reach (mapElem_some he)
  | prevSiblingOrToken _ he ih => exact (C12_siblings ih fun _ => true).2.2.2.1.reach (mapElem_some he)
  | firstToken _ he ih =>
    obtain ⟨s, hs, -⟩ := C11_ranges ih
    obtain ⟨⟨o, ho, hp⟩, -⟩ := C20_node_exact_partial ih hs
    rw [TNode.firstToken, ho] at he
    exact hp.reach (mapTok_some (by simpa using he))
  | lastToken _ he ih =>
    obtain ⟨s, hs, -⟩ := C11_ranges ih
    obtain ⟨-, o, ho, hp⟩ := C20_node_exact_partial ih hs
    rw [TNode.lastToken, ho] at he
    exact hp.reach (mapTok_some (by simpa using he))
  | siblings d k _ he ih =>
    cases d with
    | next => exact (C16_siblings ih k).1.reach (mapNode_some he)
    | prev => exact (C16_siblings ih k).2.reach (mapNode_some he)
  | siblingsWithTokens d k _ he ih =>
    cases d with
    | next => exact (C16_siblings_with_tokens ih k).1.reach (mapElem_some he)
    | prev => exact (C16_siblings_with_tokens ih k).2.reach (mapElem_some he)
  | @tokenAtOffset n t o T _ he ht ih =>
    obtain ⟨s, hs, -⟩ := C11_ranges ih
    rw [TNode.tokenAtOffset, Res.lift_bind] at he
    obtain ⟨T', h1, rfl⟩ := Res.lift_eq_ok he
    have hin : blen (r.tree.before n.raw.path) ≤ o ∧ o ≤ blen (r.tree.before n.raw.path) + blen s.text := by
      by_cases hin : blen (r.tree.before n.raw.path) ≤ o ∧ o ≤ blen (r.tree.before n.raw.path) + blen s.text
      · exact hin
      · rw [(C17_token_at_offset ih hs o).1 hin] at h1; cases h1
    obtain ⟨T'', h2, -, h4, -⟩ := (C17_token_at_offset ih hs o).2 hin.1 hin.2
    rw [h2] at h1; cases h1
    have : t.raw ∈ T'.toList := by
      cases T' <;> simp only [TokenAtOffset.map, TokenAtOffset.toList, List.mem_cons, List.not_mem_nil, or_false] at ht ⊢
      · subst ht; rfl
      · rcases ht with rfl | rfl
        · exact .inl rfl
        · exact .inr rfl
    exact h4 _ this
  | @coveringElement n e bs R hbs _ he ih =>
    rw [TNode.coveringElement, Res.lift_bind] at he
    obtain ⟨e', h1, rfl⟩ := Res.lift_eq_ok he
    rw [TElem.handle_fromRaw]
    by_cases hc : r.tree.covers R n.raw.path
    · obtain ⟨x, h2, h3, -⟩ := (C18_covering_element hbs ih R).2 hc
      rw [h2] at h1; cases h1; exact h3
    · rw [(C18_covering_element hbs ih R).1 hc] at h1; cases h1
  | @childOrTokenAtRange n e bs R hbs _ he ih =>
    rw [TNode.childOrTokenAtRange, Res.lift_bind] at he
    obtain ⟨o, h1, h2⟩ := Res.lift_eq_ok he
    have h3 := mapElem_some h2
    subst h3
    by_cases hc : n.raw.textRange.start ≤ R.start
    · rcases (C19_child_at_range hbs ih R).2 hc with ⟨h4, -⟩ | ⟨x, h4, h5, -⟩
      · rw [h4] at h1; cases h1
      · rw [h4] at h1; cases h1; exact h5
    · rw [(C19_child_at_range hbs ih R).1 (by omega)] at h1; cases h1
  | tokenParent _ he ih => exact (C12_parent ih).reach (mapNode_some he)
  | tokenAncestors _ ha ih =>
    obtain ⟨x, hx, rfl⟩ := List.mem_map.mp ha
    exact (C16_token_ancestors ih).2 _ (List.mem_map.mpr ⟨x, hx, rfl⟩)
  | parentAncestors _ ha ih =>
    obtain ⟨x, hx, rfl⟩ := List.mem_map.mp ha
    exact (C16_token_ancestors ih).2 _ (List.mem_map.mpr ⟨x, hx, rfl⟩)
  | tokenNextSibling _ he ih => exact (C12_siblings ih fun _ => true).2.2.1.reach (mapElem_some he)
  | tokenPrevSibling _ he ih => exact (C12_siblings ih fun _ => true).2.2.2.1.reach (mapElem_some he)
  | tokenSiblings d k _ he ih =>
    cases d with
    | next => exact (C16_siblings_with_tokens ih k).1.reach (mapElem_some he)
    | prev => exact (C16_siblings_with_tokens ih k).2.reach (mapElem_some he)
  | nextToken _ he ih =>
    obtain ⟨⟨o, ho, hp⟩, -⟩ := C21_exact_partial ih
    rw [TToken.nextToken, ho] at he
    exact hp.reach (mapTok_some (by simpa using he))
  | prevToken _ he ih =>
    obtain ⟨-, o, ho, hp⟩ := C21_exact_partial ih
    rw [TToken.prevToken, ho] at he
    exact hp.reach (mapTok_some (by simpa using he))
  | @elemParent e p _ he ih => cases e <;> exact (C12_parent ih).reach (mapNode_some he)
  | elemAncestors k _ he ih => exact (C52_element_ancestors ih k).reach (mapNode_some (TElem.ancestorsNth_raw _ k ▸ he))
  | @elemNextSibling e s _ he ih => cases e <;> exact (C12_siblings ih fun _ => true).2.2.1.reach (mapElem_some he)
  | @elemPrevSibling e s _ he ih => cases e <;> exact (C12_siblings ih fun _ => true).2.2.2.1.reach (mapElem_some he)
  | @preorder n ev skip k hc _ he ih =>
    obtain ⟨s, hs, -⟩ := C11_ranges ih
    rw [TPreorder.nth_raw] at he
    obtain ⟨o, h1, h2⟩ := Res.lift_eq_ok he
    obtain ⟨o', h3, -, h4⟩ := C15_skip hc ih skip hs k
    have h5 : (TNode.preorder n).raw = Preorder.new n.raw := rfl
    rw [h5, h3] at h1; cases h1
    cases o with
    | none => cases h2
    | some v =>
      cases h2
      have := h4 v rfl
      cases v <;> exact this
  | @preorderWithTokens n ev skip k hc _ he ih =>
    obtain ⟨s, hs, -⟩ := C11_ranges ih
    rw [TPreorderT.nth_raw] at he
    obtain ⟨o, h1, h2⟩ := Res.lift_eq_ok he
    obtain ⟨o', h3, -, h4⟩ := C15_skip_with_tokens hc ih skip hs k
    have h5 : (TNode.preorderWithTokens n).raw = PreorderT.new n.raw := rfl
    rw [h5, h3] at h1; cases h1
    cases o with
    | none => cases h2
    | some v =>
      cases h2
      have := h4 v rfl
      cases v <;> simpa [WalkEvent.map, WalkEvent.elem] using this
  | converted _ ih => rw [TElem.intoRaw_eq, TElem.handle_fromRaw]; exact ih
  | nodeConverted _ ih => exact ih
  | tokenConverted _ ih => exact ih

theorem TPoints.node {r : Root} {o : Option SNode} {q : Option (List Nat)} (h : PointsTo r (o.map .node) q)
    (hr : ∀ c, o.map TNode.fromRaw = some c → TReach r (.node c)) : TPoints r ((o.map TNode.fromRaw).map .node) q := by
  refine ⟨?_, ?_⟩
  · rw [← h.1]; cases o <;> rfl
  · intro e he
    cases o with
    | none => cases he
    | some x => cases he; exact hr _ rfl
theorem TPoints.token {r : Root} {o : Option SToken} {q : Option (List Nat)} (h : PointsTo r (o.map .token) q)
    (hr : ∀ c, o.map TToken.fromRaw = some c → TReach r (.token c)) : TPoints r ((o.map TToken.fromRaw).map .token) q := by
  refine ⟨?_, ?_⟩
  · rw [← h.1]; cases o <;> rfl
  · intro e he
    cases o with
    | none => cases he
    | some x => cases he; exact hr _ rfl
theorem TPoints.elem {r : Root} {o : Option SElem} {q : Option (List Nat)} (h : PointsTo r o q)
    (hr : ∀ c, o.map TElem.fromRaw = some c → TReach r c) : TPoints r (o.map TElem.fromRaw) q := by
  refine ⟨?_, hr⟩
  rw [← h.1]
  cases o with
  | none => rfl
  | some x => simp [TElem.path]
theorem TPointsAll.node {r : Root} {l : List SNode} {qs : List (List Nat)} (h : PointsToAll r (l.map .node) qs)
    (hr : ∀ c ∈ l.map TNode.fromRaw, TReach r (.node c)) : TPointsAll r ((l.map TNode.fromRaw).map .node) qs := by
  refine ⟨?_, ?_⟩
  · rw [← h.1]; simp only [List.map_map]; rfl
  · intro e he
    obtain ⟨c, hc, rfl⟩ := List.mem_map.mp he
    exact hr c hc

/-- **C71, contents.**  Kind, range, index, text and green element of a handle are those of the element at its
position; the kind is translated by the language. -/
theorem C71_contents {r : Root} {e : TElem} (h : TReach r e) :
    ∃ s : Tree, r.tree.at? e.path = some s ∧ e.kind = Lang.fromRaw s.kind ∧
      e.textRange.start = blen (r.tree.before e.path) ∧ e.textRange.len = blen s.text ∧
      (e.path ≠ [] → e.path.getLast? = some e.index) ∧
      (∀ n, e = .node n → s.isNode = true ∧ n.green.tree = s ∧ n.text.str r = some s.text ∧ n.isMutable = r.mutable) ∧
      (∀ t, e = .token t → s = .token t.green.kind t.text ∧ t.green.text = t.text) := by
  have hr := C71_reach h
  obtain ⟨s, h1, h2, h3, h4, -⟩ := C11_ranges hr
  have h5 := C11_contents hr
  refine ⟨s, h1, ?_, ?_, ?_, ?_, ?_, ?_⟩
  · rw [← h2]; cases e <;> rfl
  · rw [TElem.path, ← h3]; cases e <;> rfl
  · rw [← h4]; cases e <;> rfl
  · intro hne
    have := C12_index hr hne
    rw [TElem.path, this]
    cases e <;> simp [TElem.index, TNode.index, TToken.index, TElem.handle, SElem.index]
  · rintro n rfl
    have h6 : s = n.raw.green.tree := Option.some.inj (h1.symm.trans h5.1)
    refine ⟨?_, h6.symm, C26_node_text hr h1, h5.2.2⟩
    rw [h6]; simp
  · rintro t rfl
    have h6 := Option.some.inj (h1.symm.trans (h5.2.1 _ rfl))
    exact ⟨h6, rfl⟩

/-- **C71, navigation from nodes.** -/
theorem C71_node_navigation {r : Root} {n : TNode} (h : TReach r (.node n)) (m : Lang.Kind → Bool) :
    TPoints r (n.parent.map .node) (if n.path = [] then none else some n.path.dropLast) ∧
    TPointsAll r (n.ancestors.map .node) (Tree.upward n.path) ∧
    TPoints r (n.firstChild.map .node) ((r.tree.kids n.path).find? (r.tree.sat Tree.isNode)) ∧
    TPoints r (n.lastChild.map .node) ((r.tree.kids n.path).reverse.find? (r.tree.sat Tree.isNode)) ∧
    TPoints r n.firstChildOrToken (r.tree.kids n.path).head? ∧
    TPoints r n.lastChildOrToken (r.tree.kids n.path).getLast? ∧
    TPoints r ((n.firstChildByKind m).map .node) ((r.tree.kids n.path).find? (r.tree.sat (Tree.typedNode m))) ∧
    TPoints r (n.firstChildOrTokenByKind m) ((r.tree.kids n.path).find? (r.tree.sat (Tree.typed m))) ∧
    TPoints r (n.nextSibling.map .node) ((r.tree.later n.path).find? (r.tree.sat Tree.isNode)) ∧
    TPoints r (n.prevSibling.map .node) ((r.tree.earlier n.path).find? (r.tree.sat Tree.isNode)) ∧
    TPoints r n.nextSiblingOrToken (r.tree.later n.path).head? ∧
    TPoints r n.prevSiblingOrToken (r.tree.earlier n.path).head? ∧
    TPoints r ((n.nextSiblingByKind m).map .node) ((r.tree.later n.path).find? (r.tree.sat (Tree.typedNode m))) ∧
    TPoints r (n.nextSiblingOrTokenByKind m) ((r.tree.later n.path).find? (r.tree.sat (Tree.typed m))) := by
  have hr := C71_reach h
  obtain ⟨c1, c2, c3, c4, -, -⟩ := C12_children hr fun _ => true
  obtain ⟨s1, s2, s3, s4, -, -⟩ := C12_siblings hr fun _ => true
  obtain ⟨k1, k2, k3, k4⟩ := C52_by_kind hr m
  exact ⟨.node (C12_parent hr) fun _ => h.parent, .node (C16_ancestors hr).1 fun _ => h.ancestors,
    .node c1 fun _ => h.firstChild, .node c2 fun _ => h.lastChild, .elem c3 fun _ => h.firstChildOrToken,
    .elem c4 fun _ => h.lastChildOrToken, .node k1 fun _ => h.firstChildByKind m,
    .elem k2 fun _ => h.firstChildOrTokenByKind m, .node s1 fun _ => h.nextSibling, .node s2 fun _ => h.prevSibling,
    .elem s3 fun _ => h.nextSiblingOrToken, .elem s4 fun _ => h.prevSiblingOrToken,
    .node k3 fun _ => h.nextSiblingByKind m, .elem k4 fun _ => h.nextSiblingOrTokenByKind m⟩

/-- **C71, iterators over children and siblings**: what call number `k` of `next` returns. -/
theorem C71_node_iterators {r : Root} {n : TNode} (h : TReach r (.node n)) (m : Lang.Kind → Bool) (u : Nat → Bool)
    (k : Nat) :
    TPoints r ((n.children.nth u k).map .node) ((r.tree.kids n.path).filter (r.tree.sat Tree.isNode))[k]? ∧
    TPoints r (n.childrenWithTokens.nth u k) (r.tree.kids n.path)[k]? ∧
    TPoints r ((n.children.byKindNth m k).map .node) ((r.tree.kids n.path).filter (r.tree.sat (Tree.typedNode m)))[k]? ∧
    TPoints r (n.childrenWithTokens.byKindNth m k) ((r.tree.kids n.path).filter (r.tree.sat (Tree.typed m)))[k]? ∧
    TPoints r ((n.siblingsNth .next k).map .node)
      (n.path :: (r.tree.later n.path).filter (r.tree.sat Tree.isNode))[k]? ∧
    TPoints r ((n.siblingsNth .prev k).map .node)
      (n.path :: (r.tree.earlier n.path).filter (r.tree.sat Tree.isNode))[k]? ∧
    TPoints r (n.siblingsWithTokensNth .next k) (n.path :: r.tree.later n.path)[k]? ∧
    TPoints r (n.siblingsWithTokensNth .prev k) (n.path :: r.tree.earlier n.path)[k]? := by
  have hr := C71_reach h
  refine ⟨?_, ?_, .node (C52_children_by_kind hr m k).1 fun _ => h.childrenByKind m k,
    .elem (C52_children_by_kind hr m k).2 fun _ => h.childrenWithTokensByKind m k,
    .node (C16_siblings hr k).1 fun _ => h.siblings .next k, .node (C16_siblings hr k).2 fun _ => h.siblings .prev k,
    .elem (C16_siblings_with_tokens hr k).1 fun _ => h.siblingsWithTokens .next k,
    .elem (C16_siblings_with_tokens hr k).2 fun _ => h.siblingsWithTokens .prev k⟩
  · have := fun c => h.children (c := c) u k
    rw [TNodeChildren.nth_raw] at this ⊢
    exact .node (C13_children hr u k).1 this
  · have := fun c => h.childrenWithTokens (c := c) u k
    rw [TElemChildren.nth_raw] at this ⊢
    exact .elem (C13_children hr u k).2 this

/-- **C71, navigation from tokens.** -/
theorem C71_token_navigation {r : Root} {t : TToken} (h : TReach r (.token t)) (k : Nat) :
    TPoints r (t.parent.map .node) (if t.path = [] then none else some t.path.dropLast) ∧
    TPointsAll r (t.parentAncestors.map .node) (Tree.upward t.path).tail ∧
    TPointsAll r (t.ancestors.map .node) (Tree.upward t.path).tail ∧
    TPoints r t.nextSiblingOrToken (r.tree.later t.path).head? ∧
    TPoints r t.prevSiblingOrToken (r.tree.earlier t.path).head? ∧
    TPoints r (t.siblingsWithTokensNth .next k) (t.path :: r.tree.later t.path)[k]? ∧
    TPoints r (t.siblingsWithTokensNth .prev k) (t.path :: r.tree.earlier t.path)[k]? ∧
    (∃ o, t.nextToken = .ok o ∧ TPoints r (o.map .token)
      ((r.tree.following t.path).bind fun q => (r.tree.at? q).bind fun s => s.leftmost q)) ∧
    (∃ o, t.prevToken = .ok o ∧ TPoints r (o.map .token)
      ((r.tree.preceding t.path).bind fun q => (r.tree.at? q).bind fun s => s.rightmost q)) := by
  have hr := C71_reach h
  obtain ⟨-, -, s3, s4, -, -⟩ := C12_siblings hr fun _ => true
  obtain ⟨⟨o, ho, hp⟩, o', ho', hp'⟩ := C21_exact_partial hr
  refine ⟨.node (C12_parent hr) fun _ => h.tokenParent, .node (C16_token_ancestors hr) fun _ => h.parentAncestors,
    .node (C16_token_ancestors hr) fun _ => h.tokenAncestors, .elem s3 fun _ => h.tokenNextSibling,
    .elem s4 fun _ => h.tokenPrevSibling,
    .elem (C16_siblings_with_tokens hr k).1 fun _ => h.tokenSiblings .next k,
    .elem (C16_siblings_with_tokens hr k).2 fun _ => h.tokenSiblings .prev k,
    ⟨o.map TToken.fromRaw, ?_, .token hp fun c hc => h.nextToken ?_⟩,
    ⟨o'.map TToken.fromRaw, ?_, .token hp' fun c hc => h.prevToken ?_⟩⟩
  · rw [TToken.nextToken, ho]; rfl
  · rw [TToken.nextToken, ho, ← hc]; rfl
  · rw [TToken.prevToken, ho']; rfl
  · rw [TToken.prevToken, ho', ← hc]; rfl

/-- **C71, navigation from elements**, nodes and tokens alike. -/
theorem C71_element_navigation {r : Root} {e : TElem} (h : TReach r e) (k : Nat) :
    TPoints r (e.parent.map .node) (if e.path = [] then none else some e.path.dropLast) ∧
    TPoints r ((e.ancestorsNth k).map .node) ((Tree.upward e.path).filter (r.tree.sat Tree.isNode))[k]? ∧
    TPoints r e.nextSiblingOrToken (r.tree.later e.path).head? ∧
    TPoints r e.prevSiblingOrToken (r.tree.earlier e.path).head? := by
  have hr := C71_reach h
  refine ⟨?_, ?_, ?_, ?_⟩
  · cases e <;> exact .node (C12_parent hr) fun _ => h.elemParent
  · have := fun c => h.elemAncestors (a := c) k
    rw [TElem.ancestorsNth_raw] at this ⊢
    exact .node (C52_element_ancestors hr k) this
  · cases e <;> exact .elem (C12_siblings hr fun _ => true).2.2.1 fun _ => h.elemNextSibling
  · cases e <;> exact .elem (C12_siblings hr fun _ => true).2.2.2.1 fun _ => h.elemPrevSibling

/-- **C71, walks**, with any use of `skip_subtree`, and `descendants`. -/
theorem C71_walks {r : Root} (hcoh : r.green.Coherent) {n : TNode} (h : TReach r (.node n)) {s : Tree}
    (hs : r.tree.at? n.path = some s) (skip : List Nat → Bool) (k : Nat) :
    (∃ o, n.preorder.nth skip k = .ok o ∧ o.map (·.map TNode.path) = (Tree.walk Tree.isNode skip s n.path)[k]? ∧
      ∀ ev, o = some ev → TReach r (.node ev.elem)) ∧
    (∃ o, n.preorderWithTokens.nth skip k = .ok o ∧ o.map (·.map TElem.path) = (Tree.walk Tree.all skip s n.path)[k]? ∧
      ∀ ev, o = some ev → TReach r ev.elem) ∧
    ((Tree.walk Tree.all noSkip s n.path).length ≤ k →
      (n.descendants k).map TNode.path = Tree.descend Tree.isNode s n.path ∧
      (n.descendantsWithTokens k).map TElem.path = Tree.descend Tree.all s n.path) := by
  have hr := C71_reach h
  refine ⟨?_, ?_, ?_⟩
  · obtain ⟨o, h1, h2, -⟩ := C15_skip hcoh hr skip hs k
    have h3 : n.preorder.nth skip k = .ok (o.map (·.map TNode.fromRaw)) := by
      rw [TPreorder.nth_raw, show (TNode.preorder n).raw = Preorder.new n.raw from rfl, h1]; rfl
    refine ⟨_, h3, ?_, ?_⟩
    · rw [TNode.path, ← h2]
      cases o with
      | none => rfl
      | some ev => cases ev <;> rfl
    · intro ev he
      exact TReach.preorder skip k hcoh h (h3.trans (congrArg _ he))
  · obtain ⟨o, h1, h2, -⟩ := C15_skip_with_tokens hcoh hr skip hs k
    have h3 : n.preorderWithTokens.nth skip k = .ok (o.map (·.map TElem.fromRaw)) := by
      rw [TPreorderT.nth_raw, show (TNode.preorderWithTokens n).raw = PreorderT.new n.raw from rfl, h1]; rfl
    refine ⟨_, h3, ?_, ?_⟩
    · rw [TNode.path, ← h2]
      cases o with
      | none => rfl
      | some ev => cases ev <;> simp [WalkEvent.map, TElem.path]
    · intro ev he
      exact TReach.preorderWithTokens skip k hcoh h (h3.trans (congrArg _ he))
  · intro hk
    obtain ⟨h1, h2⟩ := C14_descendants hcoh hr hs k hk
    refine ⟨?_, ?_⟩
    · rw [TNode.path, ← h2, TNode.descendants, List.map_map]; rfl
    · rw [TNode.path, ← h1, TNode.descendantsWithTokens, List.map_map]
      apply List.map_congr_left
      intro x _
      simp [TElem.path]

/-- **C71, lookups by text position.** -/
theorem C71_lookups {bs : BinarySearch} (hbs : Conforming bs) {r : Root} {n : TNode} (h : TReach r (.node n)) {s : Tree}
    (hs : r.tree.at? n.path = some s) (o : Nat) (R : TextRange) :
    (∃ x, n.firstToken = .ok x ∧ TPoints r (x.map .token) (s.leftmost n.path)) ∧
    (∃ x, n.lastToken = .ok x ∧ TPoints r (x.map .token) (s.rightmost n.path)) ∧
    (¬ (blen (r.tree.before n.path) ≤ o ∧ o ≤ blen (r.tree.before n.path) + blen s.text) →
      n.tokenAtOffset o = .panic) ∧
    (blen (r.tree.before n.path) ≤ o → o ≤ blen (r.tree.before n.path) + blen s.text →
      ∃ T, n.tokenAtOffset o = .ok T ∧ T.toList.map TToken.path = (s.tokenPaths n.path).filter (r.tree.touches o) ∧
        ∀ t ∈ T.toList, TReach r (.token t)) ∧
    (¬ r.tree.covers R n.path → n.coveringElement bs R = .panic) ∧
    (r.tree.covers R n.path → ∃ e, n.coveringElement bs R = .ok e ∧ TReach r e ∧ n.path <+: e.path ∧
      r.tree.covers R e.path ∧ (∀ q ∈ r.tree.kids e.path, ¬ r.tree.covers R q) ∧
      (R.start < R.stop → ∀ q, n.path <+: q → r.tree.covers R q → q <+: e.path)) ∧
    (R.start < n.textRange.start → n.childOrTokenAtRange bs R = .panic) ∧
    (n.textRange.start ≤ R.start →
      (n.childOrTokenAtRange bs R = .ok none ∧ ∀ q ∈ r.tree.kids n.path, ¬ r.tree.covers R q) ∨
      ∃ e, n.childOrTokenAtRange bs R = .ok (some e) ∧ TReach r e ∧ e.path ∈ r.tree.kids n.path ∧
        r.tree.covers R e.path ∧
        (R.start < R.stop → ∀ q ∈ r.tree.kids n.path, r.tree.covers R q → q = e.path)) := by
  have hr := C71_reach h
  obtain ⟨⟨x, hx, hp⟩, y, hy, hq⟩ := C20_node_exact_partial hr hs
  refine ⟨⟨x.map TToken.fromRaw, ?_, .token hp fun c hc => h.firstToken ?_⟩,
    ⟨y.map TToken.fromRaw, ?_, .token hq fun c hc => h.lastToken ?_⟩, ?_, ?_, ?_, ?_, ?_, ?_⟩
  · rw [TNode.firstToken, hx]; rfl
  · rw [TNode.firstToken, hx, ← hc]; rfl
  · rw [TNode.lastToken, hy]; rfl
  · rw [TNode.lastToken, hy, ← hc]; rfl
  · intro hn
    rw [TNode.tokenAtOffset, (C17_token_at_offset hr hs o).1 hn]; rfl
  · intro h1 h2
    obtain ⟨T, h3, h4, -⟩ := (C17_token_at_offset hr hs o).2 h1 h2
    have h5 : n.tokenAtOffset o = .ok (T.map TToken.fromRaw) := by rw [TNode.tokenAtOffset, h3]; rfl
    refine ⟨_, h5, ?_, fun t ht => h.tokenAtOffset o _ h5 ht⟩
    rw [TNode.path, ← h4]
    cases T <;> rfl
  · intro hn
    rw [TNode.coveringElement, (C18_covering_element hbs hr R).1 hn]; rfl
  · intro hc
    obtain ⟨e, h1, h2, h3, h4, h5, h6⟩ := (C18_covering_element hbs hr R).2 hc
    have h7 : n.coveringElement bs R = .ok (TElem.fromRaw e) := by rw [TNode.coveringElement, h1]; rfl
    have h8 : (TElem.fromRaw e).path = e.path := by simp [TElem.path]
    refine ⟨_, h7, h.coveringElement bs R hbs h7, ?_⟩
    rw [h8]
    exact ⟨h3, h4, h5, h6⟩
  · intro hn
    rw [TNode.childOrTokenAtRange, (C19_child_at_range hbs hr R).1 hn]; rfl
  · intro hc
    rcases (C19_child_at_range hbs hr R).2 hc with ⟨h1, h2⟩ | ⟨e, h1, -, h3, h4, h5, -⟩
    · exact .inl ⟨by rw [TNode.childOrTokenAtRange, h1]; rfl, h2⟩
    · have h7 : n.childOrTokenAtRange bs R = .ok (some (TElem.fromRaw e)) := by
        rw [TNode.childOrTokenAtRange, h1]; rfl
      have h8 : (TElem.fromRaw e).path = e.path := by simp [TElem.path]
      refine .inr ⟨_, h7, h.childOrTokenAtRange bs R hbs h7, ?_⟩
      rw [h8]
      exact ⟨h3, h4, h5⟩

/-- **C71, handles are positions**: in one tree there is exactly one typed handle for each position. -/
theorem C71_handles_are_positions {r : Root} {x : TElem} (hx : TReach r x) :
    (∀ a b, TReach r a → TReach r b → a.path = b.path → a = b) ∧
    (∀ p s, r.tree.at? p = some s → ∃ e, TReach r e ∧ e.path = p) := by
  refine ⟨?_, ?_⟩
  · intro a b ha hb hp
    obtain ⟨h1, h2⟩ := (C71_reach ha).valid
    obtain ⟨h3, h4⟩ := (C71_reach hb).valid
    have := h1.unique h3 (by rw [h2, h4]) hp
    rw [← TElem.fromRaw_handle a, ← TElem.fromRaw_handle b, this]
  · intro p
    induction hl : p.length generalizing p with
    | zero =>
      intro s hs
      rw [List.length_eq_zero_iff.mp hl] at hs ⊢
      have key : ∀ {n : TNode}, TReach r (.node n) → ∃ e, TReach r e ∧ e.path = [] := by
        intro n hn
        obtain ⟨h1, h2⟩ := (C71_node_navigation hn fun _ => true).2.1
        have : [] ∈ Tree.upward n.path := by
          rw [Tree.upward]
          exact List.mem_map.mpr ⟨0, by simp, by simp⟩
        rw [← h1] at this
        obtain ⟨e, he, h3⟩ := List.mem_map.mp this
        exact ⟨e, h2 e he, h3⟩
      cases x with
      | node n => exact key hx
      | token t =>
        by_cases hp : t.path = []
        · exact ⟨_, hx, hp⟩
        · obtain ⟨h1, h2⟩ := (C71_token_navigation hx 0).1
          rw [if_neg hp] at h1
          cases hpar : t.parent with
          | none => rw [hpar] at h1; cases h1
          | some q => exact key (hx.tokenParent hpar)
    | succ k ih =>
      intro s hs
      have hne : p ≠ [] := by intro h; rw [h] at hl; cases hl
      have hsp : p = p.dropLast ++ [p.getLast hne] := (List.dropLast_concat_getLast hne).symm
      rw [hsp, Tree.at?_snoc] at hs
      cases hu : r.tree.at? p.dropLast with
      | none => rw [hu] at hs; cases hs
      | some v =>
        rw [hu] at hs
        obtain ⟨e, he, hep⟩ := ih p.dropLast (by rw [List.length_dropLast]; omega) v hu
        cases e with
        | token t =>
          obtain ⟨w, h1, -, -, -, -, -, h2⟩ := C71_contents he
          rw [hep, hu] at h1; cases h1
          have h2 := (h2 t rfl).1
          rw [h2] at hs
          simp [Tree.children] at hs
        | node n =>
          have hk : (r.tree.kids n.path)[p.getLast hne]? = some p := by
            have e1 : n.path = p.dropLast := hep
            rw [e1, Tree.kids_eq hu, List.getElem?_map, List.getElem?_range]
            · simpa using hsp.symm
            · exact (List.getElem?_eq_some_iff.mp hs).1
          obtain ⟨-, ⟨h1, h2⟩, -⟩ := C71_node_iterators he (fun _ => true) (fun _ => false) (p.getLast hne)
          rw [hk] at h1
          cases hc : n.childrenWithTokens.nth (fun _ => false) (p.getLast hne) with
          | none => rw [hc] at h1; cases h1
          | some c =>
            rw [hc] at h1
            exact ⟨c, h2 c hc, Option.some.inj h1⟩

theorem TReach.root {r : Root} {e : TElem} (h : TReach r e) : ∃ g : GNode, g.WF ∧ r = ⟨r.mutable, 0, .node g⟩ := by
  induction h with
  | newRoot hw hr => subst hr; exact ⟨_, hw, rfl⟩
  | newRootMut hw hr => subst hr; exact ⟨_, hw, rfl⟩
  | _ => assumption

/-- **C71, new trees**: `new_root`, `new_root_mut`, `clone_subtree`, `clone_for_update`. -/
theorem C71_copies {r : Root} {n : TNode} (h : TReach r (.node n)) :
    (n.cloneSubtree.path = [] ∧ ∃ r', TReach r' (.node n.cloneSubtree) ∧ r'.mutable = false ∧
      r.tree.at? n.path = some r'.tree) ∧
    (r.mutable = true → n.cloneForUpdate = .panic) ∧
    (r.mutable = false → ∃ m, n.cloneForUpdate = .ok m ∧ m.path = n.path ∧
      ∃ r', TReach r' (.node m) ∧ r'.mutable = true ∧ r'.tree = r.tree) := by
  have hr := C71_reach h
  obtain ⟨-, -, -, -, r', h1, h2, h3⟩ := C23_clone_subtree hr
  refine ⟨⟨rfl, ⟨false, 0, .node n.raw.green⟩, ?_, rfl, ?_⟩, ?_, ?_⟩
  · exact TReach.newRoot (SNode.Valid.green_wf hr.valid.1) rfl
  · rw [TNode.path, h2]
    show some r'.green.tree = some (GElem.tree (.node n.raw.green))
    rw [h3]
  · intro hm
    rw [TNode.cloneForUpdate, (C23_clone_for_update hr).1 hm]; rfl
  · intro hm
    obtain ⟨m, h1, h2, h3, -⟩ := (C23_clone_for_update hr).2 hm
    obtain ⟨g, hg, hgr⟩ := h.root
    have hgr' : r.green = .node g := by rw [hgr]
    have hT : TReach ⟨true, 0, r.green⟩ (.node (TNode.newRootMut g)) := TReach.newRootMut hg (by rw [hgr'])
    obtain ⟨s, hs, -⟩ := C11_ranges h2
    obtain ⟨e, he, hep⟩ := (C71_handles_are_positions hT).2 _ s hs
    obtain ⟨v1, v2⟩ := (C71_reach he).valid
    obtain ⟨v3, v4⟩ := h2.valid
    have := v1.unique v3 (by rw [v2, v4]) hep
    have he' : e = .node (TNode.fromRaw m) := by rw [← TElem.fromRaw_handle e, this]; rfl
    exact ⟨TNode.fromRaw m, by rw [TNode.cloneForUpdate, h1]; rfl, h3, ⟨true, 0, r.green⟩, he' ▸ he, rfl, rfl⟩

/-- **C71, substitution**: `replace_with` on nodes and tokens. -/
theorem C71_replace {r : Root} (next : Nat) :
    (∀ {n : TNode}, TReach r (.node n) → ∀ g : GNode, g.WF →
      (n.replaceWith next g = .panic ↔ n.green.kind ≠ g.kind) ∧
      (n.green.kind = g.kind → ∃ g', n.replaceWith next g = .ok g' ∧ g'.WF ∧ g'.tree = r.tree.set n.path g.tree)) ∧
    (∀ {t : TToken}, TReach r (.token t) → ∀ g : GToken,
      (t.replaceWith next g = .panic ↔ t.green.kind ≠ g.kind ∨ t.path = []) ∧
      (t.green.kind = g.kind → t.path ≠ [] → ∃ g', t.replaceWith next g = .ok g' ∧ g'.WF ∧
        g'.tree = r.tree.set t.path (.token g.kind g.text))) := by
  refine ⟨fun h g hg => ?_, fun h g => ?_⟩
  · obtain ⟨h1, h2⟩ := C22_replace_node (C71_reach h) next g hg
    refine ⟨h1, fun hk => ?_⟩
    obtain ⟨g', h3, h4, h5, -⟩ := h2 hk
    exact ⟨g', h3, h4, h5⟩
  · obtain ⟨h1, h2⟩ := C22_replace_token (C71_reach h) next g
    refine ⟨h1, fun hk hp => ?_⟩
    obtain ⟨g', h3, h4, h5, -⟩ := h2 hk hp
    exact ⟨g', h3, h4, h5⟩

omit [Lang] in
/-- **C71, conversions** between typed and untyped handles lose nothing. -/
theorem C71_conversions (n : TNode) (t : TToken) (e : TElem) (n' : SNode) (t' : SToken) (e' : SElem) :
    TNode.fromRaw n.intoRaw = n ∧ TToken.fromRaw t.intoRaw = t ∧ TElem.fromRaw e.intoRaw = e ∧
    (TNode.fromRaw n').intoRaw = n' ∧ (TToken.fromRaw t').intoRaw = t' ∧ (TElem.fromRaw e').intoRaw = e' ∧
    (TElem.fromNode n).path = n.path ∧ (TElem.fromToken t).path = t.path := by
  refine ⟨rfl, rfl, ?_, rfl, rfl, ?_, rfl, rfl⟩
  · cases e <;> rfl
  · cases e' <;> rfl

/-- **C71, equality** of typed handles of one tree is equality of positions, for elements with text. -/
theorem C71_equality {r : Root} (hcoh : r.green.Coherent) :
    (∀ {a b : TNode}, TReach r (.node a) → TReach r (.node b) → (∀ s, r.tree.at? a.path = some s → s.text ≠ []) →
      (a.eq b = true ↔ a.path = b.path)) ∧
    (∀ {a b : TToken}, TReach r (.token a) → TReach r (.token b) → a.text ≠ [] →
      (a.eq b = true ↔ a.path = b.path)) := by
  refine ⟨fun ha hb hne => ?_, fun ha hb hne => ?_⟩
  · obtain ⟨s, hs, -⟩ := C11_ranges (C71_reach ha)
    exact C24_identity hcoh (C71_reach ha) (C71_reach hb) hs (hne s hs)
  · obtain ⟨s, hs, -, -, -, -, -, h1⟩ := C71_contents ha
    refine C24_identity hcoh (C71_reach ha) (C71_reach hb) hs ?_
    rw [(h1 _ rfl).1, Tree.text]
    exact hne

end

/-! ### Examples -/

section
attribute [local instance] coarseLang

/-- The root of the example tree, and its inner node. -/
def typTop : TNode := TNode.newRoot synGreen
def typInner : TNode := ⟨synInnerH⟩

theorem typTop_reach : TReach synRoot (.node typTop) := TReach.newRoot synGreen_wf rfl
theorem typInner_reach : TReach synRoot (.node typInner) := typTop_reach.firstChild (by rfl)

example := C71_contents typInner_reach
example := C71_node_navigation typInner_reach fun k => k == (2 : SyntaxKind)
example := C71_node_iterators typInner_reach (fun k => k == (2 : SyntaxKind)) (fun _ => true) 1
example := C71_walks synGreen_coherent typTop_reach (s := synRoot.tree) rfl noSkip 3
example := C71_lookups C19_std_search typTop_reach (s := synRoot.tree) rfl 2 (TextRange.at_ 1 2)
example := C71_copies typInner_reach
example := (C71_handles_are_positions typInner_reach).2 [1, 2] _ rfl
example := (C71_equality synGreen_coherent).1 typInner_reach typTop_reach

/-- Siblings of the inner node by typed kind: raw kinds 2 and 5 are one kind of the language. -/
example : ([0, 1, 2].map fun k => (typTop.childrenWithTokens.byKindNth (fun k => k == (2 : SyntaxKind)) k).map TElem.path) =
    [some [0], some [3], none] := by decide +kernel
example : ([0, 1, 2].map fun k => (typInner.siblingsWithTokensNth .prev k).map TElem.path) = [some [1], some [0], none] := by
  decide +kernel
example : ([0, 1, 2].map fun k => ((typInner.childrenWithTokens.nth (fun _ => false) 2).bind fun e =>
    (e.ancestorsNth k).map TNode.path)) = [some [1], some [], none] := by decide +kernel

end

end Rowan
