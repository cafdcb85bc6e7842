import Verif.WalkLemmas
import Verif.Props.Cursor
/-!
# C14, C15: preorder walks
-/
namespace Rowan

/-- Applying a pending skip. -/
def PreorderT.effective (it : PreorderT) : Res PreorderT := if it.skip then it.doSkip else .ok it
def Preorder.effective (it : Preorder) : Res Preorder := if it.skip then it.doSkip else .ok it

theorem PreorderT.step_of_effective {it it' : PreorderT} (h : it.effective = .ok it') : it.step
    = .ok (it'.next, { it' with next := it'.next.bind (PreorderT.succ it'.start), skip := false }) := by
  rw [effective] at h
  rw [step]
  cases hs : it.skip with
  | false => simp [hs] at h; subst h; simp
  | true => simp [hs] at h; simp [h]

theorem Preorder.step_of_effective {it it' : Preorder} (h : it.effective = .ok it') : it.step
    = .ok (it'.next, { it' with next := it'.next.bind (Preorder.succ it'.start), skip := false }) := by
  rw [effective] at h
  rw [step]
  cases hs : it.skip with
  | false => simp [hs] at h; subst h; simp
  | true => simp [hs] at h; simp [h]

theorem kidsSel_head_parent {sel : SElem → Bool} {e c : SElem} (h : (e.kidsSel sel).head? = some c) :
    ∃ n, e = .node n ∧ c.parent = some n := by
  cases e with
  | token t => simp [SElem.kidsSel] at h
  | node n =>
    have := List.mem_of_mem_head? h
    simp only [SElem.kidsSel, List.mem_filter] at this
    obtain ⟨i, g, -, rfl⟩ := SNode.mem_kids.mp this.1
    exact ⟨n, rfl, by simp⟩

theorem PreorderT.drive_inv (skip : List Nat → Bool) (n : SNode) (k : Nat) :
    ∃ it it', PreorderT.drive skip (PreorderT.new n) k = .ok it ∧ it.effective = .ok it' ∧
      it'.start = .node n ∧ it'.next = successors (gnext (fun _ => true) skip (.node n))
        (some (.enter (.node n))) k := by
  induction k with
  | zero => exact ⟨_, _, rfl, rfl, rfl, rfl⟩
  | succ k ih =>
    obtain ⟨it, it', h1, h2, h3, h4⟩ := ih
    have hstep : it.step
        = .ok (it'.next, { it' with next := it'.next.bind (PreorderT.succ it'.start), skip := false }) :=
      PreorderT.step_of_effective h2
    simp only [PreorderT.drive, h1, Res.ok_bind, hstep, successors, ← h4]
    have hsucc : PreorderT.succ it'.start = gsucc (fun _ => true) (.node n) := by
      funext x; rw [h3, PreorderT.succ_eq]
    rw [hsucc]
    cases hn : it'.next with
    | none => exact ⟨_, _, rfl, rfl, h3, rfl⟩
    | some ev =>
      cases ev with
      | leave e => exact ⟨_, _, rfl, rfl, h3, rfl⟩
      | enter e =>
        simp only [Option.bind_some, gnext]
        by_cases hs : skip e.path = true
        · simp only [hs, if_true, PreorderT.skipSubtree]
          refine ⟨_, { start := it'.start, next := some (.leave e), skip := true }, rfl, ?_, h3, rfl⟩
          simp only [PreorderT.effective, if_true, PreorderT.doSkip, gsucc]
          cases hc : (e.kidsSel fun _ => true).head? with
          | none => rfl
          | some c =>
            obtain ⟨m, rfl, hp⟩ := kidsSel_head_parent hc
            simp only [hp, Res.ofOption_some, Res.ok_bind]
        · simp only [hs, Bool.false_eq_true, if_false]
          exact ⟨_, _, rfl, rfl, h3, rfl⟩

theorem Preorder.drive_inv (skip : List Nat → Bool) (n : SNode) (k : Nat) :
    ∃ it it', Preorder.drive skip (Preorder.new n) k = .ok it ∧ it.effective = .ok it' ∧
      it'.start = n ∧ it'.next.map (·.map .node) =
        successors (gnext SElem.isNode skip (.node n)) (some (.enter (.node n))) k := by
  induction k with
  | zero => exact ⟨_, _, rfl, rfl, rfl, rfl⟩
  | succ k ih =>
    obtain ⟨it, it', h1, h2, h3, h4⟩ := ih
    have hstep : it.step
        = .ok (it'.next, { it' with next := it'.next.bind (Preorder.succ it'.start), skip := false }) :=
      Preorder.step_of_effective h2
    simp only [Preorder.drive, h1, Res.ok_bind, hstep, successors, ← h4]
    have hsucc := Preorder.succ_eq n
    rw [h3]
    cases hn : it'.next with
    | none => exact ⟨_, _, rfl, rfl, rfl, rfl⟩
    | some ev =>
      cases ev with
      | leave e => exact ⟨_, _, rfl, rfl, rfl, hsucc (.leave e)⟩
      | enter e =>
        simp only [Option.bind_some, Option.map_some, WalkEvent.map_enter, gnext, SElem.path_node]
        by_cases hs : skip e.path = true
        · simp only [hs, if_true, Preorder.skipSubtree]
          refine ⟨_, { start := n, next := some (.leave e), skip := true }, rfl, ?_, rfl, rfl⟩
          simp only [Preorder.effective, if_true, Preorder.doSkip, Preorder.succ]
          cases hc : e.firstChild with
          | none => rfl
          | some c =>
            have hp : c.parent = some e := by
              rw [SNode.firstChild_eq] at hc
              obtain ⟨i, g, -, hg⟩ := SNode.mem_kids.mp (mem_of_findSome_asNode hc)
              have := e.childH_parent i g
              rw [← hg] at this; exact this
            simp only [hp, Res.ofOption_some, Res.ok_bind]
        · simp only [hs, Bool.false_eq_true, if_false]
          exact ⟨_, _, rfl, rfl, rfl, hsucc (.enter e)⟩

theorem PreorderT.nth_eq (skip : List Nat → Bool) (n : SNode) (k : Nat) :
    PreorderT.nth skip (PreorderT.new n) k = .ok
      (successors (gnext (fun _ => true) skip (.node n)) (some (.enter (.node n))) k) := by
  obtain ⟨it, it', h1, h2, h3, h4⟩ := PreorderT.drive_inv skip n k
  rw [PreorderT.nth, h1, Res.ok_bind, PreorderT.step_of_effective h2, Res.ok_bind, h4]

theorem Preorder.nth_eq (skip : List Nat → Bool) (n : SNode) (k : Nat) :
    ∃ o, Preorder.nth skip (Preorder.new n) k = .ok o ∧ o.map (·.map .node) =
      successors (gnext SElem.isNode skip (.node n)) (some (.enter (.node n))) k := by
  obtain ⟨it, it', h1, h2, h3, h4⟩ := Preorder.drive_inv skip n k
  exact ⟨it'.next, by rw [Preorder.nth, h1, Res.ok_bind, Preorder.step_of_effective h2]; rfl, h4⟩

theorem evs_reach {r : Root} (hcoh : r.green.Coherent) {sel : SElem → Bool} {skip : List Nat → Bool}
    {e : SElem} (h : Reach r e) {x : WalkEvent SElem} (hx : x ∈ evs sel skip e) :
    Reach r x.elem := by
  obtain ⟨hv, hr⟩ := h.valid
  obtain ⟨y, hy, hyv, hyr⟩ := (evs_linked hcoh sel skip e hv hr e hv hr (Nat.le_refl _)).2 x hx
  rcases hy with rfl | rfl <;> exact reach_iff.mpr ⟨hyv, hyr⟩

/-- **C15** (and **C14** for `skip = noSkip`).  For a caller that calls `skip_subtree` right after
every `Enter` of a position in an arbitrary set, the `k`-th call of `next` on
`node.preorder_with_tokens()` does not panic and returns the `k`-th event of the depth-first walk
of the node's subtree in which exactly the parts below skipped positions are left out; after the
last event it returns `None`, forever. -/
theorem C15_skip_with_tokens {r : Root} (hcoh : r.green.Coherent) {n : SNode}
    (h : Reach r (.node n)) (skip : List Nat → Bool) {s : Tree} (hs : r.tree.at? n.path = some s)
    (k : Nat) :
    ∃ o, PreorderT.nth skip (PreorderT.new n) k = .ok o ∧
      o.map (·.map SElem.path) = (Tree.walk Tree.all skip s n.path)[k]? ∧
      ∀ ev, o = some ev → Reach r ev.elem := by
  obtain ⟨hv, hr⟩ := h.valid
  refine ⟨_, PreorderT.nth_eq skip n k, ?_, ?_⟩
  · rw [walk_run hcoh _ skip _ hv hr k]
    have h1 := evs_spec (fun _ => true) Tree.all skip (fun _ => rfl) (.node n)
    have h2 := hv.at_path
    rw [hr] at h2
    simp only [SElem.path_node] at h2
    rw [hs] at h2
    rw [Option.some.inj h2, ← SElem.path_node, ← h1, List.getElem?_map]
  · intro ev hev
    rw [walk_run hcoh _ skip _ hv hr k] at hev
    exact evs_reach hcoh h (List.mem_of_getElem? hev)

/-- **C15** for `preorder()`: the walk over nodes. -/
theorem C15_skip {r : Root} (hcoh : r.green.Coherent) {n : SNode}
    (h : Reach r (.node n)) (skip : List Nat → Bool) {s : Tree} (hs : r.tree.at? n.path = some s)
    (k : Nat) :
    ∃ o, Preorder.nth skip (Preorder.new n) k = .ok o ∧
      o.map (·.map SNode.path) = (Tree.walk Tree.isNode skip s n.path)[k]? ∧
      ∀ ev, o = some ev → Reach r (.node ev.elem) := by
  obtain ⟨hv, hr⟩ := h.valid
  obtain ⟨o, ho, hm⟩ := Preorder.nth_eq skip n k
  refine ⟨o, ho, ?_, ?_⟩
  · rw [walk_run hcoh _ skip _ hv hr k] at hm
    have h1 := evs_spec SElem.isNode Tree.isNode skip
      (fun e => by cases e <;> simp [SElem.isNode, GToken.tree]; rfl) (.node n)
    have h2 := hv.at_path
    rw [hr] at h2
    simp only [SElem.path_node] at h2
    rw [hs] at h2
    rw [Option.some.inj h2, ← SElem.path_node, ← h1, List.getElem?_map, ← hm, Option.map_map]
    congr 1; funext ev; cases ev <;> rfl
  · rintro ev rfl
    rw [walk_run hcoh _ skip _ hv hr k] at hm
    have := evs_reach hcoh h (List.mem_of_getElem? hm.symm)
    cases ev <;> exact this

/-- **C14** `preorder_with_tokens()`. -/
theorem C14_preorder_with_tokens {r : Root} (hcoh : r.green.Coherent) {n : SNode}
    (h : Reach r (.node n)) {s : Tree} (hs : r.tree.at? n.path = some s) (k : Nat) :
    ∃ o, PreorderT.nth noSkip (PreorderT.new n) k = .ok o ∧
      o.map (·.map SElem.path) = (Tree.walk Tree.all noSkip s n.path)[k]? ∧
      ∀ ev, o = some ev → Reach r ev.elem :=
  C15_skip_with_tokens hcoh h noSkip hs k

/-- **C14** `preorder()`. -/
theorem C14_preorder {r : Root} (hcoh : r.green.Coherent) {n : SNode}
    (h : Reach r (.node n)) {s : Tree} (hs : r.tree.at? n.path = some s) (k : Nat) :
    ∃ o, Preorder.nth noSkip (Preorder.new n) k = .ok o ∧
      o.map (·.map SNode.path) = (Tree.walk Tree.isNode noSkip s n.path)[k]? ∧
      ∀ ev, o = some ev → Reach r (.node ev.elem) :=
  C15_skip hcoh h noSkip hs k

/-! ### The walk specification itself: entered positions -/

mutual
theorem walk_entered (sel : Tree → Bool) : ∀ (t : Tree) (p : List Nat),
    (Tree.walk sel noSkip t p).filterMap WalkEvent.entered = Tree.descend sel t p
  | .token _ _, p => by simp [Tree.walk, Tree.descend, WalkEvent.entered]
  | .node _ cs, p => by
    simp [Tree.walk, Tree.descend, WalkEvent.entered, noSkip, ← walks_entered sel cs p 0]
theorem walks_entered (sel : Tree → Bool) : ∀ (cs : List Tree) (p : List Nat) (i : Nat),
    (Tree.walks sel noSkip cs p i).filterMap WalkEvent.entered = Tree.descends sel cs p i
  | [], p, i => by simp [Tree.walks, Tree.descends]
  | c :: cs, p, i => by
    simp only [Tree.walks, Tree.descends, List.filterMap_append, walks_entered sel cs p (i + 1)]
    split
    · rw [walk_entered sel c (p ++ [i])]
    · simp
end

mutual
theorem mem_descend : ∀ (t : Tree) (p q : List Nat),
    q ∈ Tree.descend Tree.all t p ↔ ∃ s, q = p ++ s ∧ (t.at? s).isSome
  | .token k x, p, q => by
    simp only [Tree.descend, List.mem_singleton]
    constructor
    · rintro rfl; exact ⟨[], by simp⟩
    · rintro ⟨s, rfl, hs⟩
      cases s with
      | nil => simp
      | cons i s => simp [Tree.at?_cons, Tree.children] at hs
  | .node k cs, p, q => by
    simp only [Tree.descend, List.mem_cons, mem_descends cs p 0 q]
    constructor
    · rintro (rfl | ⟨j, s, c, hc, rfl, hs⟩)
      · exact ⟨[], by simp⟩
      · refine ⟨j :: s, by simp, ?_⟩
        simp [Tree.at?_cons, Tree.children, hc, hs]
    · rintro ⟨s, rfl, hs⟩
      cases s with
      | nil => simp
      | cons j s =>
        simp only [Tree.at?_cons, Tree.children] at hs
        cases hc : cs[j]? with
        | none => simp [hc] at hs
        | some c =>
          simp [hc] at hs
          exact .inr ⟨j, s, c, hc, by simp, hs⟩
theorem mem_descends : ∀ (cs : List Tree) (p : List Nat) (i : Nat) (q : List Nat),
    q ∈ Tree.descends Tree.all cs p i ↔
      ∃ (j : Nat) (s : List Nat) (c : Tree), cs[j]? = some c ∧ q = p ++ (i + j) :: s ∧ (c.at? s).isSome
  | [], p, i, q => by simp [Tree.descends]
  | c :: cs, p, i, q => by
    have ha : Tree.all c = true := rfl
    simp only [Tree.descends, ha, if_true, List.mem_append, mem_descends cs p (i + 1) q,
      mem_descend c (p ++ [i]) q]
    constructor
    · rintro (⟨s, rfl, hs⟩ | ⟨j, s, d, hd, rfl, hs⟩)
      · exact ⟨0, s, c, rfl, by simp, hs⟩
      · exact ⟨j + 1, s, d, by simpa using hd, by congr 2; omega, hs⟩
    · rintro ⟨j, s, d, hd, rfl, hs⟩
      cases j with
      | zero => simp at hd; subst hd; exact .inl ⟨s, by simp, hs⟩
      | succ j =>
        exact .inr ⟨j, s, d, by simpa using hd, by congr 2; omega, hs⟩
end

mutual
theorem descend_nodup : ∀ (t : Tree) (p : List Nat), (Tree.descend Tree.all t p).Nodup
  | .token k x, p => by simp [Tree.descend]
  | .node k cs, p => by
    simp only [Tree.descend, List.nodup_cons]
    refine ⟨?_, descends_nodup cs p 0⟩
    rw [mem_descends]
    rintro ⟨j, s, c, -, h, -⟩
    have := congrArg List.length h
    simp at this
theorem descends_nodup : ∀ (cs : List Tree) (p : List Nat) (i : Nat),
    (Tree.descends Tree.all cs p i).Nodup
  | [], p, i => by simp [Tree.descends]
  | c :: cs, p, i => by
    have ha : Tree.all c = true := rfl
    simp only [Tree.descends, ha, if_true, List.nodup_append]
    refine ⟨descend_nodup c _, descends_nodup cs p (i + 1), ?_⟩
    intro a h1 b h2 hab
    subst hab
    rw [mem_descend] at h1
    rw [mem_descends] at h2
    obtain ⟨s, rfl, -⟩ := h1
    obtain ⟨j, s', d, -, h, -⟩ := h2
    rw [List.append_assoc] at h
    have := List.append_cancel_left h
    simp at this
    omega
end

/-- Check that a sequence of events is properly nested: each `leave` closes the innermost open
`enter`.  Returns the stack of open elements. -/
def nested {α : Type} [DecidableEq α] : List (WalkEvent α) → List α → Option (List α)
  | [], st => some st
  | .enter a :: l, st => nested l (a :: st)
  | .leave a :: l, b :: st => if a = b then nested l st else none
  | .leave _ :: _, [] => none

theorem nested_append {α : Type} [DecidableEq α] : ∀ (a b : List (WalkEvent α)) (st : List α),
    nested (a ++ b) st = (nested a st).bind (nested b)
  | [], b, st => by simp [nested]
  | .enter x :: a, b, st => by simp only [List.cons_append, nested]; exact nested_append a b _
  | .leave x :: a, b, [] => by simp [nested]
  | .leave x :: a, b, y :: st => by
    simp only [List.cons_append, nested]
    split
    · exact nested_append a b _
    · rfl

mutual
theorem walk_nested (sel : Tree → Bool) (skip : List Nat → Bool) : ∀ (t : Tree) (p : List Nat)
    (st : List (List Nat)), nested (Tree.walk sel skip t p) st = some st
  | .token _ _, p, st => by simp [Tree.walk, nested]
  | .node _ cs, p, st => by
    simp only [Tree.walk, nested, nested_append]
    split
    · simp [nested]
    · simp [walks_nested sel skip cs p 0, nested]
theorem walks_nested (sel : Tree → Bool) (skip : List Nat → Bool) : ∀ (cs : List Tree)
    (p : List Nat) (i : Nat) (st : List (List Nat)), nested (Tree.walks sel skip cs p i) st = some st
  | [], p, i, st => by simp [Tree.walks, nested]
  | c :: cs, p, i, st => by
    simp only [Tree.walks, nested_append]
    split
    · simp [walk_nested sel skip c, walks_nested sel skip cs p (i + 1)]
    · simp [nested, walks_nested sel skip cs p (i + 1)]
end

mutual
theorem walk_length_le : ∀ (t : Tree) (p : List Nat),
    (Tree.walk Tree.isNode noSkip t p).length ≤ (Tree.walk Tree.all noSkip t p).length
  | .token _ _, p => by simp [Tree.walk]
  | .node _ cs, p => by
    have := walks_length_le cs p 0
    simp [Tree.walk, noSkip] at *; omega
theorem walks_length_le : ∀ (cs : List Tree) (p : List Nat) (i : Nat),
    (Tree.walks Tree.isNode noSkip cs p i).length ≤ (Tree.walks Tree.all noSkip cs p i).length
  | [], p, i => by simp [Tree.walks]
  | c :: cs, p, i => by
    have h1 := walk_length_le c (p ++ [i])
    have h2 := walks_length_le cs p (i + 1)
    have ha : Tree.all c = true := rfl
    simp only [Tree.walks, List.length_append, ha, if_true]
    split
    · omega
    · simp; omega
end

/-- **C14** What the walk of the specification amounts to: it is properly nested, and it enters every
position of the subtree exactly once, a node before its descendants, siblings left to right
(`Tree.descend`). -/
theorem C14_walk_meaning (t : Tree) (p : List Nat) :
    nested (Tree.walk Tree.all noSkip t p) [] = some [] ∧
    (Tree.walk Tree.all noSkip t p).filterMap WalkEvent.entered = Tree.descend Tree.all t p ∧
    (Tree.descend Tree.all t p).Nodup ∧
    ∀ q, q ∈ Tree.descend Tree.all t p ↔ ∃ s, q = p ++ s ∧ (t.at? s).isSome :=
  ⟨walk_nested _ _ t p [], walk_entered _ t p, descend_nodup t p, mem_descend t p⟩

theorem filterMap_range_getElem? {α β : Type} (f : α → Option β) (l : List α) (k : Nat)
    (hk : l.length ≤ k) : ((List.range k).filterMap fun i => (l[i]?).bind f) = l.filterMap f := by
  have : (List.range k).filterMap (fun i => l[i]?.bind f)
      = ((List.range k).filterMap (l[·]?)).filterMap f := by
    rw [List.filterMap_filterMap]
  rw [this]
  congr 1
  clear this
  induction l generalizing k with
  | nil => simp
  | cons a l ih =>
    cases k with
    | zero => simp at hk
    | succ k =>
      rw [List.range_succ_eq_map, List.filterMap_cons]
      simp only [List.getElem?_cons_zero, List.filterMap_map, Function.comp_def,
        Nat.succ_eq_add_one, List.getElem?_cons_succ]
      rw [ih k (by simpa using hk)]

/-- **C14** `descendants_with_tokens()` and `descendants()`: run to the end (`k` inner steps, any `k`
from the length of the walk on), they yield the positions of all elements (all nodes) of the
subtree in document order. -/
theorem C14_descendants {r : Root} (hcoh : r.green.Coherent) {n : SNode}
    (h : Reach r (.node n)) {s : Tree} (hs : r.tree.at? n.path = some s) (k : Nat)
    (hk : (Tree.walk Tree.all noSkip s n.path).length ≤ k) :
    (n.descendantsWithTokens k).map SElem.path = Tree.descend Tree.all s n.path ∧
    (n.descendants k).map SNode.path = Tree.descend Tree.isNode s n.path := by
  have hle : (Tree.walk Tree.isNode noSkip s n.path).length ≤
      (Tree.walk Tree.all noSkip s n.path).length := (walk_length_le s n.path)
  constructor
  · rw [← walk_entered, ← filterMap_range_getElem? _ _ k hk, SNode.descendantsWithTokens,
      List.map_filterMap]
    congr 1; funext i
    obtain ⟨o, ho, hp, -⟩ := C14_preorder_with_tokens hcoh h hs i
    rw [ho, ← hp]
    cases o with
    | none => rfl
    | some ev => cases ev <;> rfl
  · rw [← walk_entered, ← filterMap_range_getElem? _ _ k (by omega), SNode.descendants,
      List.map_filterMap]
    congr 1; funext i
    obtain ⟨o, ho, hp, -⟩ := C14_preorder hcoh h hs i
    rw [ho, ← hp]
    cases o with
    | none => rfl
    | some ev => cases ev <;> rfl

/-- `skip_subtree` before the first `next` on a root hits the `unwrap` (the property's "right after
`Enter`" is needed). -/
theorem C15_early_skip_panics (m : Bool) (i : Nat) (g : GNode) :
    (PreorderT.new (.root m i g)).skipSubtree.step = .panic ∧
    (Preorder.new (.root m i g)).skipSubtree.step = .panic := ⟨rfl, rfl⟩

/-! ### A concrete walk meets the hypotheses -/

example : (synTop.descendantsWithTokens 20).map SElem.path =
    [[], [0], [1], [1, 0], [1, 1], [1, 2], [2], [3]] := by decide
example : (synTop.descendants 20).map SNode.path = [[], [1], [1, 0], [2]] := by decide
/-- Skipping the inner node leaves out its children, and nothing else. -/
example : Tree.walk Tree.isNode (fun p => p == [1]) synRoot.tree [] =
    [.enter [], .enter [1], .leave [1], .enter [2], .leave [2], .leave []] := by decide
example := C15_skip_with_tokens synGreen_coherent synInner_reach (fun p => p == [1]) rfl
example := C15_skip synGreen_coherent synTop_reach (fun p => p == [1]) rfl
example := C14_descendants synGreen_coherent synTop_reach rfl 20 (by decide)

end Rowan
