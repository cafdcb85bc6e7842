import Verif.Spec.Handles
/-!
# Cursor handles are positions

`Valid` is the invariant of handles; `root`/`path` say which position of which tree a handle
denotes.  Everything here is proof infrastructure; the property theorems are in `Props/`.

Unless their comments cite lines of `/repo`, the definitions in this file are vocabulary of the proofs and model no code.
-/
namespace Rowan

/-- Is the element a node? -/
def SElem.isNode : SElem → Bool
  | .node _ => true
  | .token _ => false

def SNode.Valid : SNode → Prop
  | .root _ _ g => g.WF
  | .child p i o g => p.Valid ∧ ∃ c, p.green.slice[i]? = some c ∧ c.asRef = .node g ∧
      o = p.offset + c.relOffset
def SToken.Valid : SToken → Prop
  | .root _ _ _ => True
  | .child p i o g => p.Valid ∧ ∃ c, p.green.slice[i]? = some c ∧ c.asRef = .token g ∧
      o = p.offset + c.relOffset
def SElem.Valid : SElem → Prop
  | .node n => n.Valid
  | .token t => t.Valid

@[simp] theorem SElem.valid_node (n) : SElem.Valid (.node n) ↔ n.Valid := Iff.rfl
@[simp] theorem SElem.valid_token (n) : SElem.Valid (.token n) ↔ n.Valid := Iff.rfl
@[simp] theorem SElem.path_node (n) : SElem.path (.node n) = n.path := rfl
@[simp] theorem SElem.path_token (n) : SElem.path (.token n) = n.path := rfl
@[simp] theorem SElem.rootOf_node (n) : SElem.rootOf (.node n) = n.rootOf := rfl
@[simp] theorem SElem.rootOf_token (n) : SElem.rootOf (.token n) = n.rootOf := rfl
@[simp] theorem SElem.green_node (n) : SElem.green (.node n) = .node n.green := rfl
@[simp] theorem SElem.green_token (n) : SElem.green (.token n) = .token n.green := rfl
@[simp] theorem SElem.parent_node (n) : SElem.parent (.node n) = n.parent := rfl
@[simp] theorem SElem.parent_token (n) : SElem.parent (.token n) = n.parent := rfl
@[simp] theorem SElem.index_node (n) : SElem.index (.node n) = n.index := rfl
@[simp] theorem SElem.index_token (n) : SElem.index (.token n) = n.index := rfl
@[simp] theorem SElem.offset_node (n) : SElem.offset (.node n) = n.offset := rfl
@[simp] theorem SElem.offset_token (n) : SElem.offset (.token n) = n.offset := rfl
@[simp] theorem SElem.mutable_node (n) : SElem.mutable (.node n) = n.mutable := rfl
@[simp] theorem SElem.mutable_token (n) : SElem.mutable (.token n) = n.mutable := rfl
@[simp] theorem SElem.kind_node (n) : SElem.kind (.node n) = n.kind := rfl
@[simp] theorem SElem.kind_token (n) : SElem.kind (.token n) = n.kind := rfl
@[simp] theorem SNode.green_child (p i o g) : (SNode.child p i o g).green = g := rfl
@[simp] theorem SNode.parent_child (p i o g) : (SNode.child p i o g).parent = some p := rfl
@[simp] theorem SNode.parent_root (m i g) : (SNode.root m i g).parent = none := rfl
@[simp] theorem SNode.green_root (m i g) : (SNode.root m i g).green = g := rfl
@[simp] theorem SNode.path_root (m i g) : (SNode.root m i g).path = [] := rfl
@[simp] theorem SNode.path_child (p i o g) : (SNode.child p i o g).path = p.path ++ [i] := rfl
@[simp] theorem SNode.rootOf_child (p i o g) : (SNode.child p i o g).rootOf = p.rootOf := rfl
@[simp] theorem SNode.index_child (p i o g) : (SNode.child p i o g).index = i := rfl
@[simp] theorem SToken.green_child (p i o g) : (SToken.child p i o g).green = g := rfl
@[simp] theorem SToken.parent_child (p i o g) : (SToken.child p i o g).parent = some p := rfl
@[simp] theorem SToken.path_child (p i o g) : (SToken.child p i o g).path = p.path ++ [i] := rfl
@[simp] theorem SToken.rootOf_child (p i o g) : (SToken.child p i o g).rootOf = p.rootOf := rfl
@[simp] theorem SToken.index_child (p i o g) : (SToken.child p i o g).index = i := rfl

/-! ### What a valid handle denotes -/

theorem SNode.Valid.green_wf {n : SNode} (h : n.Valid) : n.green.WF := by
  induction n with
  | root m i g => exact h
  | child p i o g ih =>
    obtain ⟨hp, c, hc, hg, -⟩ := h
    have := GNode.wf_child (ih hp) (List.mem_of_getElem? hc)
    rw [hg] at this
    exact this

theorem SElem.Valid.green_wf {e : SElem} (h : e.Valid) : e.green.WF := by
  cases e with
  | node n => exact SNode.Valid.green_wf h
  | token t => trivial

theorem SNode.Valid.at_path {n : SNode} (h : n.Valid) :
    n.rootOf.tree.at? n.path = some n.green.tree := by
  induction n with
  | root m i g => simp [rootOf, Root.tree]
  | child p i o g ih =>
    obtain ⟨hp, c, hc, hg, -⟩ := h
    simp only [rootOf_child, path_child, Tree.at?_snoc, ih hp, Option.bind_some, green_child,
      GNode.tree_children, List.getElem?_map, GNode.slice_getElem?, hc, Option.map_some, hg,
      GElem.tree_node]

theorem SElem.Valid.at_path {e : SElem} (h : e.Valid) :
    e.rootOf.tree.at? e.path = some e.green.tree := by
  cases e with
  | node n => exact SNode.Valid.at_path h
  | token t =>
    cases t with
    | root m i g => simp [rootOf, SToken.rootOf, Root.tree, path, SToken.path, green, SToken.green]
    | child p i o g =>
      obtain ⟨hp, c, hc, hg, -⟩ := h
      simp only [rootOf_token, path_token, SToken.rootOf_child, SToken.path_child, Tree.at?_snoc,
        SNode.Valid.at_path hp, Option.bind_some, GNode.tree_children, List.getElem?_map,
        GNode.slice_getElem?, hc, Option.map_some, hg, green_token, SToken.green_child]

theorem SNode.mutable_eq (n : SNode) : n.mutable = n.rootOf.mutable := by
  induction n with
  | root m i g => rfl
  | child p i o g ih => exact ih

theorem SNode.Valid.offsets {n : SNode} (h : n.Valid) :
    n.offset = blen (n.rootOf.tree.before n.path) ∧
    n.offsetMut? = some (blen (n.rootOf.tree.before n.path)) := by
  induction n with
  | root m i g => simp [offset, offsetMut?, Tree.before]
  | child p i o g ih =>
    obtain ⟨hp, c, hc, hg, ho⟩ := h
    obtain ⟨h1, h2⟩ := ih hp
    have hb : blen ((SNode.child p i o g).rootOf.tree.before (SNode.child p i o g).path)
        = blen (p.rootOf.tree.before p.path) + c.relOffset := by
      simp only [rootOf_child, path_child]
      rw [Tree.before_snoc hp.at_path, blen_append, GNode.relOffset_eq hp.green_wf hc]
    have h3 : (SNode.child p i o g).offsetMut?
        = some (blen ((SNode.child p i o g).rootOf.tree.before (SNode.child p i o g).path)) := by
      rw [hb]
      simp [offsetMut?, relOffsetMut, hc, h2, Nat.add_comm]
    refine ⟨?_, h3⟩
    rw [offset]
    split
    · rw [h3]; rfl
    · show o = _
      rw [hb, ho, h1]

theorem SNode.Valid.offset_eq {n : SNode} (h : n.Valid) :
    n.offset = blen (n.rootOf.tree.before n.path) := h.offsets.1

/-- `offset_mut` never hits its `unwrap`. -/
theorem SNode.Valid.offsetMut_isSome {n : SNode} (h : n.Valid) : n.offsetMut?.isSome := by
  rw [h.offsets.2]; rfl

theorem SToken.Valid.offsets {t : SToken} (h : t.Valid) :
    t.offset = blen (t.rootOf.tree.before t.path) ∧
    t.offsetMut? = some (blen (t.rootOf.tree.before t.path)) := by
  cases t with
  | root m i g => simp [offset, offsetMut?, Tree.before, path]
  | child p i o g =>
    obtain ⟨hp, c, hc, hg, ho⟩ := h
    obtain ⟨h1, h2⟩ := hp.offsets
    have hb : blen ((SToken.child p i o g).rootOf.tree.before (SToken.child p i o g).path)
        = blen (p.rootOf.tree.before p.path) + c.relOffset := by
      simp only [rootOf_child, path_child]
      rw [Tree.before_snoc hp.at_path, blen_append, GNode.relOffset_eq hp.green_wf hc]
    have h3 : (SToken.child p i o g).offsetMut?
        = some (blen ((SToken.child p i o g).rootOf.tree.before (SToken.child p i o g).path)) := by
      rw [hb]
      simp [offsetMut?, SNode.relOffsetMut, hc, h2, Nat.add_comm]
    refine ⟨?_, h3⟩
    rw [offset]
    split
    · rw [h3]; rfl
    · show o = _
      rw [hb, ho, h1]

theorem SElem.Valid.offset_eq {e : SElem} (h : e.Valid) :
    e.offset = blen (e.rootOf.tree.before e.path) := by
  cases e with
  | node n => exact SNode.Valid.offset_eq h
  | token t => exact (SToken.Valid.offsets h).1

/-! ### Children as handles -/

/-- The handle of the `i`-th child `c` of `n`. -/
def SNode.childH (n : SNode) (i : Nat) (c : GChild) : SElem :=
  SElem.new c.asRef n i (n.offset + c.relOffset)

/-- All children of `n` as handles. -/
def SNode.kids (n : SNode) : List SElem := n.green.slice.zipIdx.map fun x => n.childH x.2 x.1

namespace SNode
variable (n : SNode) (i : Nat) (c : GChild)
@[simp] theorem childH_green : (n.childH i c).green = c.asRef := by
  cases c <;> rfl
@[simp] theorem childH_parent : (n.childH i c).parent = some n := by
  cases c <;> rfl
@[simp] theorem childH_index : (n.childH i c).index = i := by
  cases c <;> rfl
@[simp] theorem childH_path : (n.childH i c).path = n.path ++ [i] := by
  cases c <;> rfl
@[simp] theorem childH_rootOf : (n.childH i c).rootOf = n.rootOf := by
  cases c <;> rfl
@[simp] theorem childH_kind : (n.childH i c).kind = c.asRef.kind := by
  cases c <;> rfl

variable {n i c}
theorem childH_valid (h : n.Valid) (hc : n.green.slice[i]? = some c) : (n.childH i c).Valid := by
  cases c with
  | node r g => exact ⟨h, _, hc, rfl, rfl⟩
  | token r g => exact ⟨h, _, hc, rfl, rfl⟩

theorem kids_getElem? (n : SNode) (i : Nat) :
    n.kids[i]? = (n.green.slice[i]?).map (n.childH i) := by
  simp [kids, List.getElem?_zipIdx, Function.comp_def]

@[simp] theorem kids_length (n : SNode) : n.kids.length = n.green.slice.length := by simp [kids]

theorem kids_green (n : SNode) : n.kids.map SElem.green = n.green.children := by
  apply List.ext_getElem?
  intro i
  rw [List.getElem?_map, kids_getElem?, GNode.slice_getElem?]
  cases n.green.slice[i]? <;> simp

theorem mem_kids {n : SNode} {e : SElem} :
    e ∈ n.kids ↔ ∃ i c, n.green.slice[i]? = some c ∧ e = n.childH i c := by
  rw [List.mem_iff_getElem?]
  constructor
  · rintro ⟨i, hi⟩
    rw [kids_getElem?] at hi
    cases hc : n.green.slice[i]? with
    | none => simp [hc] at hi
    | some c => simp [hc] at hi; exact ⟨i, c, hc, hi.symm⟩
  · rintro ⟨i, c, hc, rfl⟩
    exact ⟨i, by simp [kids_getElem?, hc]⟩

theorem kids_valid {n : SNode} (h : n.Valid) {e : SElem} (he : e ∈ n.kids) :
    e.Valid ∧ e.rootOf = n.rootOf ∧ e.parent = some n := by
  obtain ⟨i, c, hc, rfl⟩ := mem_kids.mp he
  exact ⟨childH_valid h hc, by simp, by simp⟩

theorem Valid.kids_path {n : SNode} (h : n.Valid) :
    n.kids.map SElem.path = n.rootOf.tree.kids n.path := by
  rw [Tree.kids_eq h.at_path]
  apply List.ext_getElem?
  intro i
  simp only [List.getElem?_map, kids_getElem?, GNode.tree_children, List.length_map,
    GNode.children_length]
  by_cases hi : i < n.green.slice.length
  · simp [hi]
  · simp [hi]

end SNode

/-- A valid handle with a parent is one of the parent's children. -/
theorem SElem.Valid.of_parent {e : SElem} {p : SNode} (h : e.Valid) (hp : e.parent = some p) :
    p.Valid ∧ p.rootOf = e.rootOf ∧ e.path = p.path ++ [e.index] ∧
    p.kids[e.index]? = some e := by
  cases e with
  | node n =>
    cases n with
    | root m i g => simp at hp
    | child q i o g =>
      simp at hp; subst hp
      obtain ⟨hv, c, hc, hg, ho⟩ := h
      refine ⟨hv, rfl, rfl, ?_⟩
      simp only [index_node, SNode.index_child, SNode.kids_getElem?, hc, Option.map_some,
        SNode.childH, hg, SElem.new, SNode.newChild, ho]
  | token n =>
    cases n with
    | root m i g => simp [SToken.parent] at hp
    | child q i o g =>
      simp at hp; subst hp
      obtain ⟨hv, c, hc, hg, ho⟩ := h
      refine ⟨hv, rfl, rfl, ?_⟩
      simp only [index_token, SToken.index_child, SNode.kids_getElem?, hc, Option.map_some,
        SNode.childH, hg, SElem.new, ho]

theorem SElem.parent_none_iff {e : SElem} : e.parent = none ↔ e.path = [] := by
  cases e with
  | node n => cases n <;> simp
  | token n => cases n <;> simp [SToken.parent, SToken.path]

theorem SElem.eq_root_of_parent_none {e : SElem} (h : e.parent = none) :
    e = e.rootOf.handle := by
  cases e with
  | node n => cases n with
    | root m i g => rfl
    | child p i o g => simp at h
  | token n => cases n with
    | root m i g => rfl
    | child p i o g => simp at h

/-- A position of a tree has exactly one handle. -/
theorem SElem.Valid.unique {a b : SElem} (ha : a.Valid) (hb : b.Valid) (hr : a.rootOf = b.rootOf)
    (hp : a.path = b.path) : a = b := by
  generalize hk : a.path.length = k
  induction k generalizing a b with
  | zero =>
    have h1 : a.path = [] := List.length_eq_zero_iff.mp hk
    have h2 : b.path = [] := by rw [← hp]; exact h1
    rw [eq_root_of_parent_none (parent_none_iff.mpr h1),
      eq_root_of_parent_none (parent_none_iff.mpr h2), hr]
  | succ k ih =>
    cases hpa : a.parent with
    | none => rw [parent_none_iff.mp hpa] at hk; simp at hk
    | some p =>
      cases hpb : b.parent with
      | none => rw [hp, parent_none_iff.mp hpb] at hk; simp at hk
      | some q =>
        obtain ⟨v1, r1, e1, k1⟩ := ha.of_parent hpa
        obtain ⟨v2, r2, e2, k2⟩ := hb.of_parent hpb
        rw [e1, e2] at hp
        obtain ⟨hpq, hi⟩ := List.append_inj' hp rfl
        simp at hi
        have : (NodeOrToken.node p : SElem) = .node q := by
          apply ih (a := .node p) (b := .node q) v1 v2
          · simp [r1, r2, hr]
          · exact hpq
          · rw [e1] at hk; simpa using hk
        simp at this; subst this
        rw [hi, k2] at k1
        exact (Option.some.inj k1).symm

/-- Every position of a tree has a handle. -/
theorem Root.exists_handle (r : Root) (hw : r.green.WF) :
    ∀ (p : List Nat) (s : Tree), r.tree.at? p = some s →
      ∃ e : SElem, e.Valid ∧ e.rootOf = r ∧ e.path = p := by
  intro p
  generalize hk : p.length = k
  induction k generalizing p with
  | zero =>
    intro s _
    have h1 : p = [] := List.length_eq_zero_iff.mp hk
    subst h1
    obtain ⟨m, i, g⟩ := r
    cases g with
    | node g => exact ⟨.node (.root m i g), hw, rfl, rfl⟩
    | token g => exact ⟨.token (.root m i g), trivial, rfl, rfl⟩
  | succ k ih =>
    intro s hs
    have hne : p ≠ [] := by intro h; simp [h] at hk
    rw [← List.dropLast_concat_getLast hne, Tree.at?_snoc] at hs
    cases hq : r.tree.at? p.dropLast with
    | none => simp [hq] at hs
    | some s' =>
      simp [hq] at hs
      obtain ⟨e, hv, hr, he⟩ := ih p.dropLast (by simp [hk]) s' hq
      have h2 := hv.at_path
      rw [hr, he, hq] at h2
      simp at h2; subst h2
      cases e with
      | token t => simp [GElem.tree, GToken.tree, Tree.children] at hs
      | node n =>
        simp only [SElem.green_node, GElem.tree_node, GNode.tree_children, List.getElem?_map,
          GNode.slice_getElem?] at hs
        cases hc : n.green.slice[p.getLast hne]? with
        | none => simp [hc] at hs
        | some c =>
          refine ⟨n.childH _ c, SNode.childH_valid hv hc, by simpa using hr, ?_⟩
          rw [SNode.childH_path, ← SElem.path_node, he, List.dropLast_concat_getLast]

/-! ### Navigation on handles, via `kids` -/

@[simp] theorem SElem.kind_new (g : GElem) (p : SNode) (i o : Nat) :
    (SElem.new g p i o).kind = g.kind := by cases g <;> rfl

theorem asNode_new (g : GElem) (p : SNode) (i o : Nat) :
    (SElem.new g p i o).asNode = g.asNode.map fun g => SNode.newChild g p i o := by
  cases g <;> rfl

section
variable {e : SElem} {p : SNode}

theorem SElem.greenSiblings_eq (hp : e.parent = some p) : e.greenSiblings = p.green.slice := by
  simp [greenSiblings, hp]

theorem SElem.nextSibling_eq (hp : e.parent = some p) :
    e.nextSibling = (p.kids.drop (e.index + 1)).findSome? NodeOrToken.asNode := by
  rw [nextSibling, greenSiblings_eq hp, SNode.kids, ← List.map_drop, List.findSome?_map]
  congr 1; funext ⟨c, i⟩
  simp only [Function.comp_def, SNode.childH, asNode_new, hp]
  cases c.asRef.asNode <;> rfl

theorem SElem.nextSiblingByKind_eq (m : SyntaxKind → Bool) (hp : e.parent = some p) :
    e.nextSiblingByKind m =
      (p.kids.drop (e.index + 1)).findSome? fun x => if m x.kind then x.asNode else none := by
  rw [nextSiblingByKind, greenSiblings_eq hp, SNode.kids, ← List.map_drop, List.findSome?_map]
  congr 1; funext ⟨c, i⟩
  simp only [Function.comp_def, SNode.childH, SElem.kind_new, asNode_new, hp]
  cases m c.asRef.kind <;> cases c.asRef.asNode <;> simp

theorem SElem.prevSibling_eq (hp : e.parent = some p) (hi : e.index ≤ p.green.slice.length) :
    e.prevSibling = (p.kids.take e.index).reverse.findSome? NodeOrToken.asNode := by
  rw [prevSibling, greenSiblings_eq hp, if_pos hi]
  have : (p.kids.take e.index).reverse = (p.green.slice.zipIdx.reverse.drop
      (p.green.slice.length - e.index)).map fun x => p.childH x.2 x.1 := by
    rw [SNode.kids, ← List.map_take, ← List.map_reverse, List.drop_reverse]
    congr 3
    simp; omega
  rw [this, List.findSome?_map]
  congr 1; funext ⟨c, i⟩
  simp only [Function.comp_def, SNode.childH, asNode_new, hp]
  cases c.asRef.asNode <;> rfl

theorem SElem.nextSiblingOrToken_eq (hp : e.parent = some p) :
    e.nextSiblingOrToken = p.kids[e.index + 1]? := by
  rw [nextSiblingOrToken, greenSiblings_eq hp, SNode.kids_getElem?, List.getElem?_zipIdx]
  cases p.green.slice[e.index + 1]? <;> simp [hp, SNode.childH]

theorem SElem.nextSiblingOrTokenByKind_eq (m : SyntaxKind → Bool) (hp : e.parent = some p) :
    e.nextSiblingOrTokenByKind m =
      (p.kids.drop (e.index + 1)).find? fun x => m x.kind := by
  rw [nextSiblingOrTokenByKind, greenSiblings_eq hp, ← List.findSome?_guard, SNode.kids,
    ← List.map_drop, List.findSome?_map]
  congr 1; funext ⟨c, i⟩
  simp only [Function.comp_def, Option.guard, SNode.childH_kind, hp]
  cases m c.asRef.kind <;> simp [SNode.childH]

theorem SElem.prevSiblingOrToken_eq (hp : e.parent = some p) :
    e.prevSiblingOrToken = if e.index = 0 then none else p.kids[e.index - 1]? := by
  rw [prevSiblingOrToken]
  cases hi : e.index with
  | zero => simp
  | succ i =>
    simp only [greenSiblings_eq hp, SNode.kids_getElem?, List.getElem?_zipIdx]
    cases h : p.green.slice[i]? <;> simp [hp, SNode.childH, h]

theorem SElem.nextSibling_root (hp : e.parent = none) : e.nextSibling = none := by
  simp [nextSibling, greenSiblings, hp]
theorem SElem.nextSiblingByKind_root (m) (hp : e.parent = none) : e.nextSiblingByKind m = none := by
  simp [nextSiblingByKind, greenSiblings, hp]
theorem SElem.prevSibling_root (hp : e.parent = none) : e.prevSibling = none := by
  simp [prevSibling, greenSiblings, hp]
theorem SElem.nextSiblingOrToken_root (hp : e.parent = none) : e.nextSiblingOrToken = none := by
  simp [nextSiblingOrToken, greenSiblings, hp]
theorem SElem.nextSiblingOrTokenByKind_root (m) (hp : e.parent = none) :
    e.nextSiblingOrTokenByKind m = none := by
  simp [nextSiblingOrTokenByKind, greenSiblings, hp]
theorem SElem.prevSiblingOrToken_root (hp : e.parent = none) : e.prevSiblingOrToken = none := by
  rw [prevSiblingOrToken]; cases e.index <;> simp [greenSiblings, hp]
end

namespace SNode
variable (n : SNode)
theorem firstChild_eq : n.firstChild = n.kids.findSome? NodeOrToken.asNode := by
  rw [firstChild, kids, List.findSome?_map]
  congr 1; funext ⟨c, i⟩
  simp only [Function.comp_def, childH, asNode_new]
theorem firstChildByKind_eq (m) :
    n.firstChildByKind m = n.kids.findSome? fun x => if m x.kind then x.asNode else none := by
  rw [firstChildByKind, kids, List.findSome?_map]
  congr 1; funext ⟨c, i⟩
  simp only [Function.comp_def, childH, SElem.kind_new, asNode_new]
  cases m c.asRef.kind <;> simp
theorem lastChild_eq : n.lastChild = n.kids.reverse.findSome? NodeOrToken.asNode := by
  rw [lastChild, kids, ← List.map_reverse, List.findSome?_map]
  congr 1; funext ⟨c, i⟩
  simp only [Function.comp_def, childH, asNode_new]
theorem firstChildOrToken_eq : n.firstChildOrToken = n.kids.head? := by
  rw [List.head?_eq_getElem?, kids_getElem?, ← List.head?_eq_getElem?]; rfl
theorem firstChildOrTokenByKind_eq (m) :
    n.firstChildOrTokenByKind m = n.kids.find? fun x => m x.kind := by
  rw [firstChildOrTokenByKind, ← List.findSome?_guard, kids, List.findSome?_map]
  congr 1; funext ⟨c, i⟩
  simp only [Function.comp_def, Option.guard, childH_kind]
  cases m c.asRef.kind <;> simp [childH]
theorem lastChildOrToken_eq : n.lastChildOrToken = n.kids.getLast? := by
  rw [lastChildOrToken, kids, List.getLast?_map]; rfl
end SNode

/-! ### In-place advancing is `next_sibling` -/

theorem SNode.toNextSibling_eq (u : Bool) (n : SNode) : n.toNextSibling u = n.nextSibling := by
  rw [toNextSibling]
  split
  · rfl
  · cases n with
    | root m i g => simp [nextSibling, SElem.nextSibling, SElem.greenSiblings]
    | child p i o g =>
      simp only [parent_child, nextSibling, SElem.nextSibling, SElem.greenSiblings,
        SElem.parent_node, SElem.index_node, Option.bind_eq_bind, Option.bind_some]
      congr 1; funext ⟨c, j⟩
      cases c.asRef <;> rfl

theorem SElem.toNextSiblingOrToken_eq (u : Bool) (e : SElem) :
    e.toNextSiblingOrToken u = e.nextSiblingOrToken := by
  rw [toNextSiblingOrToken]
  split
  · rfl
  · cases hp : e.parent with
    | none => simp [nextSiblingOrToken_root hp]
    | some p =>
      simp only [nextSiblingOrToken, greenSiblings, hp, Option.bind_eq_bind, Option.bind_some,
        List.head?_drop]
      cases p.green.slice.zipIdx[e.index + 1]? with
      | none => rfl
      | some x =>
        obtain ⟨c, i⟩ := x
        cases c <;> rfl

/-! ### Sequences of siblings -/

/-- Stepping through the elements of `L` selected by `f`. -/
theorem successors_filterMap {α β : Type} (L : List α) (f : α → Option β) (nxt : β → Option β)
    (h : ∀ j a b, L[j]? = some a → f a = some b → nxt b = (L.drop (j + 1)).findSome? f)
    (k i : Nat) :
    successors nxt ((L.drop k).findSome? f) i = ((L.drop k).filterMap f)[i]? := by
  induction i generalizing k with
  | zero => rw [successors, ← List.head?_eq_getElem?, List.head?_filterMap]
  | succ i ih =>
    have shift : ∀ (x : Option β) (i : Nat), successors nxt x (i + 1) = successors nxt (x.bind nxt) i := by
      intro x i
      induction i with
      | zero => rfl
      | succ i ih => rw [successors, ih]; rfl
    rw [shift]
    cases hx : (L.drop k).findSome? f with
    | none =>
      have : ∀ i, successors nxt (none : Option β) i = none := by
        intro i; induction i with
        | zero => rfl
        | succ i ih => simp [successors, ih]
      have h2 : (L.drop k).filterMap f = [] := by
        rw [List.filterMap_eq_nil_iff]; exact List.findSome?_eq_none_iff.mp hx
      simp [this, h2]
    | some b =>
      obtain ⟨l1, a, l2, hl, hfa, hl1⟩ := List.findSome?_eq_some_iff.mp hx
      have hj : L[k + l1.length]? = some a := by
        have : (L.drop k)[l1.length]? = some a := by rw [hl]; simp
        simpa using this
      have hd : L.drop (k + l1.length + 1) = l2 := by
        have : (L.drop k).drop (l1.length + 1) = l2 := by
          rw [hl]; simp
        rw [List.drop_drop] at this
        rwa [Nat.add_assoc]
      have hn := h _ _ _ hj hfa
      have hfm : (L.drop k).filterMap f = b :: l2.filterMap f := by
        rw [hl, List.filterMap_append]
        have : l1.filterMap f = [] := List.filterMap_eq_nil_iff.mpr hl1
        simp [this, hfa]
      rw [Option.bind_some, hn, ih, hfm, hd, List.getElem?_cons_succ]

/-- Selecting handles by a predicate on the denoted trees. -/
theorem filterMap_points {β : Type} {r : Root} {L : List SElem}
    (hv : ∀ e ∈ L, e.Valid ∧ e.rootOf = r) (f : SElem → Option β) (g : β → SElem)
    (P : Tree → Bool)
    (hf : ∀ e ∈ L, (f e).map g = if P e.green.tree then some e else none) :
    ((L.filterMap f).map g).map SElem.path = (L.map SElem.path).filter (r.tree.sat P) ∧
    ∀ e ∈ (L.filterMap f).map g, e ∈ L := by
  have h1 : (L.filterMap f).map g = L.filter fun e => P e.green.tree := by
    rw [List.map_filterMap]
    induction L with
    | nil => rfl
    | cons e L ih =>
      have he := hf e (by simp)
      have hL := ih (fun x hx => hv x (by simp [hx])) (fun x hx => hf x (by simp [hx]))
      simp only [List.filterMap_cons, he, List.filter_cons]
      cases P e.green.tree <;> simp [hL]
  refine ⟨?_, ?_⟩
  · rw [h1, List.filter_map]
    congr 1
    apply List.filter_congr
    intro e he
    have := (hv e he).1.at_path
    rw [(hv e he).2] at this
    simp [Tree.sat, this]
  · intro e he
    rw [h1] at he
    exact (List.mem_filter.mp he).1

theorem asNode_sel (e : SElem) :
    e.asNode.map NodeOrToken.node = if Tree.isNode e.green.tree then some e else none := by
  cases e with
  | node n => simp
  | token t => simp [GToken.tree, Tree.isNode]

theorem GElem.tree_kind (e : GElem) : e.tree.kind = e.kind := by
  cases e with
  | node n => simp
  | token t => simp [GToken.tree, Tree.kind]

theorem SElem.kind_eq (e : SElem) : e.kind = e.green.tree.kind := by
  rw [GElem.tree_kind]; cases e <;> rfl

theorem asNodeKind_sel (m : SyntaxKind → Bool) (e : SElem) :
    (if m e.kind then e.asNode else none).map NodeOrToken.node
      = if Tree.nodeOf m e.green.tree then some e else none := by
  rw [Tree.nodeOf, SElem.kind_eq]
  have := asNode_sel e
  cases m e.green.tree.kind <;> simp [this]

theorem kind_sel (m : SyntaxKind → Bool) (e : SElem) :
    (if m e.kind then some e else none).map id
      = if Tree.ofKind m e.green.tree then some e else none := by
  rw [Tree.ofKind, SElem.kind_eq]
  cases m e.green.tree.kind <;> simp

/-! ### Reachable handles are the valid ones -/

theorem mem_of_findSome_asNode {L : List SElem} {s : SNode}
    (h : L.findSome? NodeOrToken.asNode = some s) : (NodeOrToken.node s : SElem) ∈ L := by
  obtain ⟨a, ha, hs⟩ := List.exists_of_findSome?_eq_some h
  cases a with
  | node n => simp at hs; rwa [← hs]
  | token t => simp at hs

theorem mem_of_findSome_kind {L : List SElem} {s : SNode} {m : SyntaxKind → Bool}
    (h : (L.findSome? fun x => if m x.kind then x.asNode else none) = some s) :
    (NodeOrToken.node s : SElem) ∈ L := by
  obtain ⟨a, ha, hs⟩ := List.exists_of_findSome?_eq_some h
  split at hs
  · cases a with
    | node n => simp at hs; rwa [← hs]
    | token t => simp at hs
  · simp at hs

theorem SNode.Valid.ancestors {n a : SNode} (h : n.Valid) (ha : a ∈ n.ancestors) :
    a.Valid ∧ a.rootOf = n.rootOf := by
  induction n with
  | root m i g => simp [SNode.ancestors] at ha; subst ha; exact ⟨h, rfl⟩
  | child p i o g ih =>
    simp only [SNode.ancestors, List.mem_cons] at ha
    rcases ha with rfl | ha
    · exact ⟨h, rfl⟩
    · exact ih h.1 ha

theorem SElem.Valid.sibling_kids {e : SElem} (h : e.Valid) {s : SElem}
    (hs : ∀ p, e.parent = some p → s ∈ p.kids) (hn : e.parent ≠ none) :
    s.Valid ∧ s.rootOf = e.rootOf := by
  cases hp : e.parent with
  | none => exact absurd hp hn
  | some p =>
    obtain ⟨hv, hr, -, -⟩ := h.of_parent hp
    obtain ⟨h1, h2, -⟩ := SNode.kids_valid hv (hs p hp)
    exact ⟨h1, by rw [h2, hr]⟩

section
variable {e : SElem} {p : SNode}
theorem SElem.nextSibling_mem {s} (hp : e.parent = some p) (h : e.nextSibling = some s) :
    (NodeOrToken.node s : SElem) ∈ p.kids := by
  rw [nextSibling_eq hp] at h
  exact List.mem_of_mem_drop (mem_of_findSome_asNode h)
theorem SElem.nextSiblingByKind_mem {s m} (hp : e.parent = some p)
    (h : e.nextSiblingByKind m = some s) : (NodeOrToken.node s : SElem) ∈ p.kids := by
  rw [nextSiblingByKind_eq m hp] at h
  exact List.mem_of_mem_drop (mem_of_findSome_kind h)
theorem SElem.prevSibling_mem {s} (hp : e.parent = some p) (h : e.prevSibling = some s) :
    (NodeOrToken.node s : SElem) ∈ p.kids := by
  by_cases hi : e.index ≤ p.green.slice.length
  · rw [prevSibling_eq hp hi] at h
    have := mem_of_findSome_asNode h
    rw [List.mem_reverse] at this
    exact List.mem_of_mem_take this
  · simp [prevSibling, greenSiblings_eq hp, hi] at h
theorem SElem.nextSiblingOrToken_mem {s} (hp : e.parent = some p)
    (h : e.nextSiblingOrToken = some s) : s ∈ p.kids := by
  rw [nextSiblingOrToken_eq hp] at h
  exact List.mem_of_getElem? h
theorem SElem.nextSiblingOrTokenByKind_mem {s m} (hp : e.parent = some p)
    (h : e.nextSiblingOrTokenByKind m = some s) : s ∈ p.kids := by
  rw [nextSiblingOrTokenByKind_eq m hp] at h
  exact List.mem_of_mem_drop (List.mem_of_find?_eq_some h)
theorem SElem.prevSiblingOrToken_mem {s} (hp : e.parent = some p)
    (h : e.prevSiblingOrToken = some s) : s ∈ p.kids := by
  rw [prevSiblingOrToken_eq hp] at h
  split at h
  · simp at h
  · exact List.mem_of_getElem? h
end

theorem Reach.valid {r : Root} {e : SElem} (h : Reach r e) : e.Valid ∧ e.rootOf = r := by
  have kid : ∀ {n : SNode} {x : SElem}, SElem.Valid (.node n) ∧ SElem.rootOf (.node n) = r →
      x ∈ n.kids → x.Valid ∧ x.rootOf = r := by
    intro n x hn hx
    obtain ⟨h1, h2, -⟩ := SNode.kids_valid hn.1 hx
    exact ⟨h1, by rw [h2]; exact hn.2⟩
  have sib : ∀ {e x : SElem}, e.Valid ∧ e.rootOf = r → (∀ p, e.parent = some p → x ∈ p.kids) →
      (e.parent = none → False) → x.Valid ∧ x.rootOf = r := by
    intro e x he hx hn
    have := he.1.sibling_kids hx hn
    exact ⟨this.1, by rw [this.2]; exact he.2⟩
  induction h with
  | top hw =>
    obtain ⟨m, i, g⟩ := r
    cases g with
    | node g => exact ⟨hw, rfl⟩
    | token g => exact ⟨trivial, rfl⟩
  | parent _ hp ih =>
    obtain ⟨h1, h2, -, -⟩ := ih.1.of_parent hp
    exact ⟨h1, by simpa [h2] using ih.2⟩
  | @ancestor e a _ ha ih =>
    cases e with
    | node n =>
      obtain ⟨h1, h2⟩ := SNode.Valid.ancestors ih.1 ha
      exact ⟨h1, by simpa [h2] using ih.2⟩
    | token t =>
      cases t with
      | root m i g => simp [SElem.ancestors, SToken.ancestors, SToken.parent] at ha
      | child p i o g =>
        obtain ⟨h1, h2⟩ := SNode.Valid.ancestors ih.1.1 ha
        exact ⟨h1, by simpa [h2] using ih.2⟩
  | @firstChild n c _ hc ih =>
    rw [SNode.firstChild_eq] at hc; exact kid ih (mem_of_findSome_asNode hc)
  | @firstChildByKind n c m _ hc ih =>
    rw [SNode.firstChildByKind_eq] at hc; exact kid ih (mem_of_findSome_kind hc)
  | @lastChild n c _ hc ih =>
    rw [SNode.lastChild_eq] at hc
    exact kid ih (List.mem_reverse.mp (mem_of_findSome_asNode hc))
  | @firstChildOrToken n c _ hc ih =>
    rw [SNode.firstChildOrToken_eq] at hc; exact kid ih (List.mem_of_mem_head? hc)
  | @firstChildOrTokenByKind n c m _ hc ih =>
    rw [SNode.firstChildOrTokenByKind_eq] at hc; exact kid ih (List.mem_of_find?_eq_some hc)
  | @lastChildOrToken n c _ hc ih =>
    rw [SNode.lastChildOrToken_eq] at hc; exact kid ih (List.mem_of_getLast? hc)
  | nextSibling _ hs ih =>
    exact sib ih (fun p hp => SElem.nextSibling_mem hp hs)
      (fun hp => by simp [SElem.nextSibling_root hp] at hs)
  | nextSiblingByKind m _ hs ih =>
    exact sib ih (fun p hp => SElem.nextSiblingByKind_mem hp hs)
      (fun hp => by simp [SElem.nextSiblingByKind_root m hp] at hs)
  | prevSibling _ hs ih =>
    exact sib ih (fun p hp => SElem.prevSibling_mem hp hs)
      (fun hp => by simp [SElem.prevSibling_root hp] at hs)
  | nextSiblingOrToken _ hs ih =>
    exact sib ih (fun p hp => SElem.nextSiblingOrToken_mem hp hs)
      (fun hp => by simp [SElem.nextSiblingOrToken_root hp] at hs)
  | nextSiblingOrTokenByKind m _ hs ih =>
    exact sib ih (fun p hp => SElem.nextSiblingOrTokenByKind_mem hp hs)
      (fun hp => by simp [SElem.nextSiblingOrTokenByKind_root m hp] at hs)
  | prevSiblingOrToken _ hs ih =>
    exact sib ih (fun p hp => SElem.prevSiblingOrToken_mem hp hs)
      (fun hp => by simp [SElem.prevSiblingOrToken_root hp] at hs)
  | @toNextSibling n s u _ hs ih =>
    rw [SNode.toNextSibling_eq] at hs
    exact sib ih (fun p hp => SElem.nextSibling_mem hp hs)
      (fun hp => by rw [SNode.nextSibling, SElem.nextSibling_root hp] at hs; simp at hs)
  | @toNextSiblingOrToken e s u _ hs ih =>
    rw [SElem.toNextSiblingOrToken_eq] at hs
    exact sib ih (fun p hp => SElem.nextSiblingOrToken_mem hp hs)
      (fun hp => by simp [SElem.nextSiblingOrToken_root hp] at hs)

theorem SElem.Valid.reach {e : SElem} (h : e.Valid) : Reach e.rootOf e := by
  have main : ∀ (k : Nat) (e : SElem), e.path.length = k → e.Valid → Reach e.rootOf e := by
    intro k
    induction k with
    | zero =>
      intro e hk hv
      have h0 : e.parent = none := SElem.parent_none_iff.mpr (List.length_eq_zero_iff.mp hk)
      have he := SElem.eq_root_of_parent_none h0
      have hw : e.rootOf.green.WF := by
        have := hv.green_wf
        cases e with
        | node n => cases n with
          | root m i g => exact this
          | child p i o g => simp at h0
        | token n => cases n with
          | root m i g => exact this
          | child p i o g => simp at h0
      have := Reach.top hw
      rwa [← he] at this
    | succ k ih =>
      intro e hk hv
      cases hp : e.parent with
      | none => rw [SElem.parent_none_iff.mp hp] at hk; simp at hk
      | some p =>
        obtain ⟨pv, pr, pp, pk⟩ := hv.of_parent hp
        have hpr := ih (.node p) (by rw [pp] at hk; simpa using hk) pv
        simp only [SElem.rootOf_node, pr] at hpr
        have all : ∀ (j : Nat) (x : SElem), p.kids[j]? = some x → Reach e.rootOf x := by
          intro j
          induction j with
          | zero =>
            intro x hx
            exact Reach.firstChildOrToken hpr
              (by rw [SNode.firstChildOrToken_eq, List.head?_eq_getElem?, hx])
          | succ j ihj =>
            intro x hx
            have hlt : j + 1 < p.kids.length := (List.getElem?_eq_some_iff.mp hx).1
            have hy : p.kids[j]? = some (p.kids[j]'(by omega)) := List.getElem?_eq_getElem _
            generalize p.kids[j]'(by omega) = y at hy
            refine Reach.nextSiblingOrToken (ihj y hy) ?_
            have hyi : y.index = j ∧ y.parent = some p := by
              rw [SNode.kids_getElem?] at hy
              cases hc : p.green.slice[j]? with
              | none => simp [hc] at hy
              | some c => simp [hc] at hy; subst hy; simp
            rw [SElem.nextSiblingOrToken_eq hyi.2, hyi.1, hx]
        exact all _ _ pk
  exact main _ e rfl h

theorem reach_iff {r : Root} {e : SElem} : Reach r e ↔ e.Valid ∧ e.rootOf = r :=
  ⟨Reach.valid, fun ⟨h, hr⟩ => hr ▸ h.reach⟩

end Rowan
