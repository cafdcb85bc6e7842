import Verif.Props.Program
import Verif.Props.Ast
import Verif.Props.Edit
import Verif.Props.SyntaxText
/-!
# C50: iterators, searches and traversals on live trees

The functions of src/cursor.rs that are built from navigation, with all handles they clone, hold and drop on the way
(`Verif/Traverse.lean`), run on the heap.  The tree may be mutable, may have been edited in any way, and other handles may
point anywhere.  `P` is the position of the element that the handle `j` of the program is for, `r` the top element of its
tree.  The functions find the positions that they should find, leave all trees as they are, and hold exactly
the handles they return.
-/
namespace Rowan
open RProg Prog

section
variable {r : Nat} {s : HSt} {gs : List GElem} {n : Nat} {J : List Live} {rest lk : List Nat}

theorem Running.elem (h : Running [r] s gs n J rest lk) {j : Live} (hj : j ∈ J) {P : List Nat} (hp : s.Loc j.obj r P) :
    Reach (s.rootVal r) j.snap ∧ j.snap.path = P ∧ (j.id, j.snap) ∈ Live.snaps J ∧
      (s.rootVal r).tree.at? P = some (s.tree j.obj) ∧ j.snap.green.tree = s.tree j.obj ∧ (s.rootVal r).green.Coherent := by
  letI : Greens := ⟨gs⟩
  obtain ⟨h1, h2⟩ := h.at hj
  have e := (hp.unique h2).2
  subst e
  exact ⟨h1, rfl, List.mem_map_of_mem hj, (h.at_tree hj).1, (h.at_tree hj).2,
    h.coherent hp.root_live.1⟩

theorem Running.node (h : Running [r] s gs n J rest lk) {j : Live} (hj : j ∈ J) {P : List Nat} (hp : s.Loc j.obj r P)
    (hn : (s.tree j.obj).isNode = true) :
    ∃ m : SNode, Reach (s.rootVal r) (.node m) ∧ m.path = P ∧ (j.id, .node m) ∈ Live.snaps J ∧
      (s.rootVal r).tree.at? P = some (s.tree j.obj) ∧ GNode.tree m.green = s.tree j.obj ∧ (s.rootVal r).green.Coherent := by
  obtain ⟨h1, h2, h3, h4, h5, h6⟩ := h.elem hj hp
  cases e : j.snap with
  | node m => rw [e] at h1 h2 h3 h5; exact ⟨m, h1, h2, h3, h4, h5, h6⟩
  | token t =>
    rw [e] at h5
    rw [← h5] at hn
    simp [GToken.tree, Tree.isNode] at hn

theorem Running.token (h : Running [r] s gs n J rest lk) {j : Live} (hj : j ∈ J) {P : List Nat} (hp : s.Loc j.obj r P)
    (hn : (s.tree j.obj).isNode = false) :
    ∃ t : SToken, Reach (s.rootVal r) (.token t) ∧ t.path = P ∧ (j.id, .token t) ∈ Live.snaps J ∧
      (s.rootVal r).tree.at? P = some (s.tree j.obj) := by
  obtain ⟨h1, h2, h3, h4, h5, -⟩ := h.elem hj hp
  cases e : j.snap with
  | token t => rw [e] at h1 h2 h3; exact ⟨t, h1, h2, h3, h4⟩
  | node m =>
    rw [e] at h5
    rw [← h5] at hn
    have : (GNode.tree m.green).isNode = true := by cases hm : m.green; rfl
    rw [show (SElem.green (.node m)).tree = GNode.tree m.green from rfl, this] at hn
    cases hn

/-! ### Lists of elements -/

/-- Selected children. -/
theorem pointsToAll_kidsOf {R : Root} {m : SNode} (h : Reach R (.node m)) (nodes : Bool) :
    PointsToAll R (kidsOf nodes m) ((R.tree.kids m.path).filter fun q => !nodes || R.tree.sat Tree.isNode q) := by
  obtain ⟨h1, h2⟩ := h.kids
  refine ⟨?_, fun e he => reach_iff.mpr (h2 e (List.mem_filter.mp he).1)⟩
  rw [← h1, List.filter_map, kidsOf]
  congr 1
  apply List.filter_congr
  intro e he
  obtain ⟨v1, v2⟩ := h2 e he
  have := v1.at_path
  rw [v2] at this
  simp only [Function.comp, Tree.sat, this]
  cases e with
  | token t => rfl
  | node x =>
    have hx : (GNode.tree x.green).isNode = true := by cases x.green; rfl
    simp [SElem.isNode, hx]

theorem iterates_of_points {R : Root} {f : SElem → Option SElem} : ∀ {Ps : List (List Nat)} {st : Option SElem},
    (∀ k, PointsTo R (successors f st k) Ps[k]?) → ∃ xs, Iterates f st xs ∧ PointsToAll R xs Ps
  | [], st, h => by
    have h0 := (h 0).1
    cases st with
    | none => exact ⟨[], trivial, rfl, nofun⟩
    | some e => simp [successors] at h0
  | p :: Ps, st, h => by
    have h0 := h 0
    cases st with
    | none => exact absurd h0.1 (by simp [successors])
    | some e =>
      obtain ⟨xs, h1, h2, h3⟩ := iterates_of_points (Ps := Ps) (st := f e) fun k => by
        have := h (k + 1)
        rwa [successors_cons, List.getElem?_cons_succ] at this
      refine ⟨e :: xs, ⟨rfl, h1⟩, ?_, ?_⟩
      · have : some e.path = some p := h0.1
        simp [h2, Option.some.inj this]
      · intro x hx
        rcases List.mem_cons.mp hx with rfl | hx
        · exact h0.2 _ rfl
        · exact h3 x hx

theorem successors_node {f : SNode → Option SNode} {g : SElem → Option SElem}
    (h : ∀ m : SNode, g (.node m) = (f m).map .node) (st : Option SNode) (k : Nat) :
    (successors f st k).map NodeOrToken.node = successors g (st.map .node) k := by
  induction k with
  | zero => rfl
  | succ k ih =>
    simp only [successors, ← ih]
    cases successors f st k with
    | none => rfl
    | some m => simp [h]

/-- **C50** `children()` (`nodes`) and `children_with_tokens()`. -/
theorem C50_children (h : Running [r] s gs n J rest lk) {j : Live} (hj : j ∈ J) {P : List Nat} (hp : s.Loc j.obj r P)
    (hn : (s.tree j.obj).isNode = true) (nodes : Bool) {k : Nat} (hk : (s.tree j.obj).children.length < k) :
    (kids j.id >>= kidsAll nodes k).Returns r s gs n J rest lk
      (All (((s.tree r).kids P).filter fun q => !nodes || (s.tree r).sat Tree.isNode q)) := by
  obtain ⟨m, h1, rfl, h3, h4, -, -⟩ := h.node hj hp hn
  have hpt := pointsToAll_kidsOf h1 nodes
  have hlen : (kidsOf nodes m).length < k := by
    have := congrArg List.length hpt.1
    rw [List.length_map] at this
    rw [this]
    have := List.length_filter_le (fun q => !nodes || (s.rootVal r).tree.sat Tree.isNode q) ((s.rootVal r).tree.kids m.path)
    rw [Tree.kids_eq h4] at this
    simp only [List.length_map, List.length_range] at this
    rw [Tree.kids_eq h4]
    omega
  have hc : Comp (kids j.id >>= kidsAll nodes k) (Live.snaps J) (.ok (kidsOf nodes m)) (GotL (Live.snaps J)) :=
    kids_comp h3 fun it L' hh hi => kidsAll_comp k hh (fun _ => rfl) (by rw [hi]; exact yields_kids nodes m) hlen
  exact (hc.heap h).returns hj h fun a L hg => hg.all hpt

/-- The iterators made by `std::iter::successors`. -/
theorem returns_succAll (h : Running [r] s gs n J rest lk) {j : Live} (hj : j ∈ J) {start : RProg (Option Nat)} {f : Nav}
    {st : Option SElem} {Ps : List (List Nat)} (hs : Comp start (Live.snaps J) (.ok st) (Got (Live.snaps J)))
    (hi : ∀ k, PointsTo (s.rootVal r) (successors f.on st k) Ps[k]?)
    (hf : ∀ z, Reach (s.rootVal r) z → z.path ∈ Ps → f.fits z = true) {k : Nat} (hk : Ps.length < k) :
    (start >>= succAll f k).Returns r s gs n J rest lk (All Ps) := by
  obtain ⟨xs, h1, h2⟩ := iterates_of_points hi
  have hc : Comp (start >>= succAll f k) (Live.snaps J) (.ok xs) (GotL (Live.snaps J)) :=
    .step hs fun a L' hg => succAll_comp k hg h1
      (fun z hz => hf z (h2.2 z hz) (by rw [← h2.1]; exact List.mem_map_of_mem hz))
      (by have := congrArg List.length h2.1; rw [List.length_map] at this; omega)
  exact (hc.heap h).returns hj h fun a L hg => hg.all h2

/-- **C50** `ancestors()`: from a node, the node and all nodes above it; from a token, all nodes above it. -/
theorem C50_ancestors (h : Running [r] s gs n J rest lk) {j : Live} (hj : j ∈ J) {P : List Nat} (hp : s.Loc j.obj r P)
    {k : Nat} (hk : P.length + 1 < k) :
    (ancestors j.id >>= succAll .parent k).Returns r s gs n J rest lk
      (All (if (s.tree j.obj).isNode then Tree.upward P else (Tree.upward P).tail)) := by
  obtain ⟨h1, rfl, h3, h4, h5, -⟩ := h.elem hj hp
  have hlen : (Tree.upward j.snap.path).length = j.snap.path.length + 1 := by simp [Tree.upward]
  obtain ⟨xs, st, g1, g2, g3⟩ : ∃ xs st, Comp (ancestors j.id) (Live.snaps J) (.ok st) (Got (Live.snaps J)) ∧
      Iterates Nav.parent.on st xs ∧ PointsToAll (s.rootVal r) xs
        (if (s.tree j.obj).isNode then Tree.upward j.snap.path else (Tree.upward j.snap.path).tail) := by
    cases e : j.snap with
    | node m =>
      rw [e] at h1 h3 h5
      have hn : (s.tree j.obj).isNode = true := by
        rw [← h5]
        have : (GNode.tree m.green).isNode = true := by cases hm : m.green; rfl
        exact this
      rw [hn]
      refine ⟨m.ancestors.map .node, some (.node m), ?_, iterates_ancestors m, (C16_ancestors h1).1⟩
      exact .look h3 (.clone h3 fun i => .pure (.refl _))
    | token t =>
      rw [e] at h1 h3 h5
      have hn : (s.tree j.obj).isNode = false := by rw [← h5]; rfl
      rw [hn]
      refine ⟨t.ancestors.map .node, t.parent.map .node, ?_, iterates_token_ancestors t, C16_token_ancestors h1⟩
      exact .look h3 (nav_comp h3 rfl)
  have hc : Comp (ancestors j.id >>= succAll .parent k) (Live.snaps J) (.ok xs) (GotL (Live.snaps J)) :=
    .step g1 fun a L' hg => succAll_comp k hg g2 (fun z _ => by cases z <;> rfl) (by
      have := congrArg List.length g3.1
      rw [List.length_map] at this
      have h0 : (if (s.tree j.obj).isNode then Tree.upward j.snap.path else (Tree.upward j.snap.path).tail).length ≤
          (Tree.upward j.snap.path).length := by split <;> simp
      omega)
  exact (hc.heap h).returns hj h fun a L hg => hg.all g3

/-- **C50** `siblings_with_tokens(direction)`: the element itself first, then its siblings, the nearest one first. -/
theorem C50_siblings_with_tokens (h : Running [r] s gs n J rest lk) {j : Live} (hj : j ∈ J) {P : List Nat}
    (hp : s.Loc j.obj r P) {k : Nat} (hk : ((s.tree r).later P).length + 1 < k) {k' : Nat}
    (hk' : ((s.tree r).earlier P).length + 1 < k') :
    (siblings j.id >>= succAll .nextSiblingOrToken k).Returns r s gs n J rest lk (All (P :: (s.tree r).later P)) ∧
    (siblings j.id >>= succAll .prevSiblingOrToken k').Returns r s gs n J rest lk (All (P :: (s.tree r).earlier P)) := by
  obtain ⟨h1, rfl, h3, -, -, -⟩ := h.elem hj hp
  have hs : Comp (siblings j.id) (Live.snaps J) (.ok (some j.snap)) (Got (Live.snaps J)) :=
    .clone h3 fun i => .pure (.refl _)
  exact ⟨returns_succAll h hj (f := .nextSiblingOrToken) hs (fun k => (C16_siblings_with_tokens h1 k).1) (fun z _ _ => by cases z <;> rfl) (by simpa [HSt.rootVal_tree] using hk),
    returns_succAll h hj (f := .prevSiblingOrToken) hs (fun k => (C16_siblings_with_tokens h1 k).2) (fun z _ _ => by cases z <;> rfl) (by simpa [HSt.rootVal_tree] using hk')⟩

/-- **C50** `siblings(direction)`: the same among nodes. -/
theorem C50_siblings (h : Running [r] s gs n J rest lk) {j : Live} (hj : j ∈ J) {P : List Nat}
    (hp : s.Loc j.obj r P) (hn : (s.tree j.obj).isNode = true) {k : Nat} (hk : ((s.tree r).later P).length + 1 < k)
    {k' : Nat} (hk' : ((s.tree r).earlier P).length + 1 < k') :
    (siblings j.id >>= succAll .nextSibling k).Returns r s gs n J rest lk
      (All (P :: ((s.tree r).later P).filter ((s.tree r).sat Tree.isNode))) ∧
    (siblings j.id >>= succAll .prevSibling k').Returns r s gs n J rest lk
      (All (P :: ((s.tree r).earlier P).filter ((s.tree r).sat Tree.isNode))) := by
  obtain ⟨m, h1, rfl, h3, -, -, -⟩ := h.node hj hp hn
  have hs : Comp (siblings j.id) (Live.snaps J) (.ok (some (.node m))) (Got (Live.snaps J)) :=
    .clone h3 fun i => .pure (.refl _)
  constructor
  · refine returns_succAll h hj hs (fun k => ?_) (fun z _ _ => by cases z <;> rfl) ?_
    · have := (C16_siblings h1 k).1
      rwa [successors_node (f := SNode.siblingStep .next) (g := Nav.nextSibling.on) (fun m => rfl)] at this
    · have := List.length_filter_le ((s.tree r).sat Tree.isNode) ((s.tree r).later m.path)
      simp only [List.length_cons]; omega
  · refine returns_succAll h hj hs (fun k => ?_) (fun z _ _ => by cases z <;> rfl) ?_
    · have := (C16_siblings h1 k).2
      rwa [successors_node (f := SNode.siblingStep .prev) (g := Nav.prevSibling.on) (fun m => rfl)] at this
    · have := List.length_filter_le ((s.tree r).sat Tree.isNode) ((s.tree r).earlier m.path)
      simp only [List.length_cons]; omega

/-- **C50** `children().by_kind(m)` (`nodes`) and `children_with_tokens().by_kind(m)`. -/
theorem C50_by_kind (h : Running [r] s gs n J rest lk) {j : Live} (hj : j ∈ J) {P : List Nat} (hp : s.Loc j.obj r P)
    (hn : (s.tree j.obj).isNode = true) (nodes : Bool) (m : SyntaxKind → Bool) {k : Nat}
    (hk : (s.tree j.obj).children.length < k) :
    ((kids j.id >>= byKind nodes m) >>= succAll (if nodes then .nextSiblingByKind m else .nextSiblingOrTokenByKind m) k).Returns
      r s gs n J rest lk
      (All (((s.tree r).kids P).filter ((s.tree r).sat (if nodes then Tree.nodeOf m else Tree.ofKind m)))) := by
  obtain ⟨nd, h1, rfl, h3, h4, -, -⟩ := h.node hj hp hn
  have hst : Comp (kids j.id >>= byKind nodes m) (Live.snaps J) (.ok (byKindVal nodes m nd none false)) (Got (Live.snaps J)) := by
    refine kids_comp h3 fun it L' hh hi => ?_
    have := byKind_comp (nodes := nodes) (m := m) hh (fun _ => rfl)
    rwa [hi] at this
  refine returns_succAll h hj hst (fun k => ?_) (fun z _ _ => by cases nodes <;> cases z <;> rfl) ?_
  · have := C13_by_kind h1 m k
    cases nodes with
    | true =>
      have h2 := this.1
      rw [byKindNth_eq, successors_node (f := SNode.nextSiblingByKind m) (g := (Nav.nextSiblingByKind m).on) (fun _ => rfl)] at h2
      exact h2
    | false =>
      have h2 := this.2
      rw [elemByKindNth_eq] at h2
      exact h2
  · have := List.length_filter_le ((s.tree r).sat (if nodes then Tree.nodeOf m else Tree.ofKind m)) ((s.tree r).kids nd.path)
    have e : ((s.tree r).kids nd.path).length = (s.tree j.obj).children.length := by
      rw [show (s.tree r).kids nd.path = _ from Tree.kids_eq h4]; simp
    omega

/-- **C50** `support::children(…)` of typed trees, for a cast that looks at the kind. -/
theorem C50_cast_children (h : Running [r] s gs n J rest lk) {j : Live} (hj : j ∈ J) {P : List Nat} (hp : s.Loc j.obj r P)
    (hn : (s.tree j.obj).isNode = true) (can : SyntaxKind → Bool) {k : Nat} (hk : (s.tree j.obj).children.length < k) :
    (kids j.id >>= castAll can k k).Returns r s gs n J rest lk
      (All (((s.tree r).kids P).filter ((s.tree r).sat (Tree.nodeOf can)))) := by
  obtain ⟨m, h1, rfl, h3, h4, -, -⟩ := h.node hj hp hn
  have hpt := pointsToAll_kidsOf h1 true
  have e0 : ((s.tree r).kids m.path).length = (s.tree j.obj).children.length := by
    rw [show (s.tree r).kids m.path = _ from Tree.kids_eq h4]; simp
  have hlen : (kidsOf true m).length < k := by
    have := congrArg List.length hpt.1
    rw [List.length_map] at this
    rw [this]
    have := List.length_filter_le (fun q => !true || (s.rootVal r).tree.sat Tree.isNode q) ((s.rootVal r).tree.kids m.path)
    rw [s.rootVal_tree r] at this ⊢
    omega
  have hc : Comp (kids j.id >>= castAll can k k) (Live.snaps J) (.ok ((kidsOf true m).filter fun e => can e.kind))
      (GotL (Live.snaps J)) :=
    kids_comp h3 fun it L' hh hi => castAll_comp k hh (fun _ => rfl) (by rw [hi]; exact yields_kids true m) hlen
      (Nat.lt_of_le_of_lt (List.length_filter_le ..) hlen)
  refine (hc.heap h).returns hj h fun a L hg => hg.all (R := s.rootVal r) ?_
  obtain ⟨k1, k2⟩ := h1.kids
  refine ⟨?_, fun e he => hpt.2 e (List.mem_filter.mp he).1⟩
  rw [kidsOf, List.filter_filter, show (s.tree r).kids m.path = _ from k1.symm, List.filter_map]
  congr 1
  apply List.filter_congr
  intro e he
  obtain ⟨v1, v2⟩ := k2 e he
  have := v1.at_path
  rw [v2, s.rootVal_tree r] at this
  simp only [Function.comp, Tree.sat, this, Tree.nodeOf]
  have hkd := SElem.kind_eq e
  rw [← hkd]
  cases e <;> simp [SElem.isNode, GToken.tree, Tree.isNode]
  rename_i x
  have hx : (GNode.tree x.green).isNode = true := by cases x.green; rfl
  cases can (SElem.kind (.node x)) <;> simp_all [Tree.isNode]

/-- **C50** `preorder()` (`nodes`) and `preorder_with_tokens()`, with `skip_subtree()` after the `Enter` of every element
whose kind and range satisfy `sk`: the depth-first walk, without what is below the skipped elements.  With
`sk = fun _ _ => false` it is the full walk. -/
theorem C50_preorder (h : Running [r] s gs n J rest lk) {j : Live} (hj : j ∈ J) {P : List Nat} (hp : s.Loc j.obj r P)
    (nodes : Bool) (sk : SyntaxKind → TextRange → Bool) {k : Nat}
    (hk : (Tree.walk (fun t => !nodes || t.isNode) ((s.tree r).skipAt sk) (s.tree j.obj) P).length < k) :
    (walk j.id >>= walkAll nodes sk k).Returns r s gs n J rest lk
      (Events (Tree.walk (fun t => !nodes || t.isNode) ((s.tree r).skipAt sk) (s.tree j.obj) P)) := by
  obtain ⟨h1, rfl, h3, h4, h5, hcoh⟩ := h.elem hj hp
  have hs : ∀ x, Reach (s.rootVal r) x → (s.tree r).skipAt sk x.path = sk x.kind x.textRange := by
    intro x hx
    obtain ⟨t, t1, t2, t3, t4, -⟩ := C11_ranges hx
    rw [Tree.skipAt, ← s.rootVal_tree r, t1]
    simp only
    rw [t2]
    congr 1
    ext
    · rw [t3]; rfl
    · simp only [TextRange.at_]
      rw [← t3, ← t4, TextRange.len]
      have := x.textRange.le
      omega
  have hev := evs_spec (fun e => !nodes || e.isNode) (fun t => !nodes || t.isNode) ((s.tree r).skipAt sk)
    (fun e => by cases nodes <;> cases e <;> simp [SElem.isNode, GToken.tree]; rfl) j.snap
  rw [h5] at hev
  rw [← hev] at hk ⊢
  rw [List.length_map] at hk
  have hc : Comp (walk j.id >>= walkAll nodes sk k) (Live.snaps J)
      (.ok (evs (fun e => !nodes || e.isNode) ((s.tree r).skipAt sk) j.snap)) (GotEs (Live.snaps J)) := by
    refine walk_comp h3 fun it L' hh => ?_
    rw [← walkVals_eq hcoh h1 hs hk]
    exact walkAll_comp k hh
  exact (hc.heap h).returns hj h fun a L hg => GotEs.events hg

/-! ### Tokens -/

/-- **C50** `first_token()` and `last_token()`: they follow first (last) children down (see C20 for what that means). -/
theorem C50_first_last_token (h : Running [r] s gs n J rest lk) {j : Live} (hj : j ∈ J) {P : List Nat}
    (hp : s.Loc j.obj r P) :
    (edge true j.id).Returns r s gs n J rest lk (One ((s.tree j.obj).leftmost P)) ∧
    (edge false j.id).Returns r s gs n J rest lk (One ((s.tree j.obj).rightmost P)) := by
  obtain ⟨h1, rfl, h3, h4, -, -⟩ := h.elem hj hp
  obtain ⟨⟨o, o1, o2⟩, ⟨o', o1', o2'⟩⟩ := C20_exact_partial h1 h4
  constructor
  · have := (edge_comp true h3).heap h
    rw [show edgeOf true j.snap = .ok o from o1] at this
    exact this.returns hj h fun a L hg => Got.one hg o2
  · have := (edge_comp false h3).heap h
    rw [show edgeOf false j.snap = .ok o' from o1'] at this
    exact this.returns hj h fun a L hg => Got.one hg o2'

/-- **C50** `next_token()` and `prev_token()`: a token that is returned is the neighbour in the sequence of all tokens of
the tree; if every node has a child, the neighbour is always found. -/
theorem C50_next_prev_token (h : Running [r] s gs n J rest lk) {j : Live} (hj : j ∈ J) {P : List Nat}
    (hp : s.Loc j.obj r P) (hn : (s.tree j.obj).isNode = false) {k : Nat} (hk : P.length < k) :
    ∃ A B, (s.tree r).tokenPaths [] = A ++ P :: B ∧
      (stepToken true k j.id).Returns r s gs n J rest lk (fun a N => One B.head? a N ∨ (a = none ∧ N = [] ∧ ¬ (s.tree r).Full)) ∧
      (stepToken false k j.id).Returns r s gs n J rest lk (fun a N => One A.getLast? a N ∨ (a = none ∧ N = [] ∧ ¬ (s.tree r).Full)) := by
  obtain ⟨t, h1, rfl, h3, h4⟩ := h.token hj hp hn
  have hlen : t.ancestors.length < k := by
    have := congrArg List.length (C16_token_ancestors h1).1
    simp [Tree.upward] at this
    omega
  obtain ⟨A, B, hAB, ⟨o, o1, o2⟩, ⟨o', o1', o2'⟩⟩ := C21_sound_partial h1
  refine ⟨A, B, hAB, ?_, ?_⟩
  · have := (stepToken_comp true h3 hlen).heap h
    rw [show stepOf true t = .ok o from o1] at this
    refine this.returns hj h fun a L hg => ?_
    cases o with
    | some u =>
      obtain ⟨N, n1, n2⟩ := Got.one (P := B.head?) hg ⟨(o2 u rfl).2.symm, fun e he => by cases he; exact (o2 u rfl).1⟩
      exact ⟨N, n1, .inl n2⟩
    | none =>
      cases a with
      | some a => exact hg.elim
      | none =>
        by_cases hf : (s.tree r).Full
        · obtain ⟨A', B', hAB', ⟨o3, o4, o5⟩, -⟩ := C21_next_prev_partial (r := s.rootVal r) hf h1
          rw [o1] at o4
          cases o4
          obtain ⟨hA, hB⟩ := token_place h1 hAB
          obtain ⟨hA', hB'⟩ := token_place h1 hAB'
          have := o5.1
          rw [hB', ← hB] at this
          exact ⟨[], hg, .inl ⟨rfl, by rw [← this]; rfl⟩⟩
        · exact ⟨[], hg, .inr ⟨rfl, rfl, hf⟩⟩
  · have := (stepToken_comp false h3 hlen).heap h
    rw [show stepOf false t = .ok o' from o1'] at this
    refine this.returns hj h fun a L hg => ?_
    cases o' with
    | some u =>
      obtain ⟨N, n1, n2⟩ := Got.one (P := A.getLast?) hg ⟨(o2' u rfl).2.symm, fun e he => by cases he; exact (o2' u rfl).1⟩
      exact ⟨N, n1, .inl n2⟩
    | none =>
      cases a with
      | some a => exact hg.elim
      | none =>
        by_cases hf : (s.tree r).Full
        · obtain ⟨A', B', hAB', -, ⟨o3, o4, o5⟩⟩ := C21_next_prev_partial (r := s.rootVal r) hf h1
          rw [o1'] at o4
          cases o4
          obtain ⟨hA, hB⟩ := token_place h1 hAB
          obtain ⟨hA', hB'⟩ := token_place h1 hAB'
          have := o5.1
          rw [hA', ← hA] at this
          exact ⟨[], hg, .inl ⟨rfl, by rw [← this]; rfl⟩⟩
        · exact ⟨[], hg, .inr ⟨rfl, rfl, hf⟩⟩

/-! ### Positions -/

/-- **C50** `token_at_offset(o)`: panics if the offset is outside the closed range of the node; otherwise it finds the
non-empty tokens of the subtree whose closed range contains the offset. -/
theorem C50_token_at_offset (h : Running [r] s gs n J rest lk) {j : Live} (hj : j ∈ J) {P : List Nat}
    (hp : s.Loc j.obj r P) (hn : (s.tree j.obj).isNode = true) (o : Nat) :
    let a := blen ((s.tree r).before P)
    let b := a + blen (s.tree j.obj).text
    let find := look j.id >>= fun x => tokenAtOffset o x.green.subs.length j.id
    (¬ (a ≤ o ∧ o ≤ b) → find.Panics r s gs n J rest lk) ∧
    (a ≤ o → o ≤ b → find.Returns r s gs n J rest lk fun T N =>
      N.map Prod.fst = T.toList ∧ N.map Prod.snd = ((s.tree j.obj).tokenPaths P).filter ((s.tree r).touches o)) := by
  obtain ⟨m, h1, rfl, h3, h4, -, -⟩ := h.node hj hp hn
  have hc : Comp (look j.id >>= fun x => tokenAtOffset o x.green.subs.length j.id) (Live.snaps J) (m.tokenAtOffset o)
      (GotT (Live.snaps J)) := .look h3 (tokenAtOffset_comp o _ h3)
  obtain ⟨c1, c2⟩ := C17_token_at_offset h1 h4 o
  refine ⟨fun hr => ?_, fun ha hb => ?_⟩
  · have := hc.heap h
    rw [c1 hr] at this
    exact this.panics
  · obtain ⟨T, t1, t2, -⟩ := c2 ha hb
    have := hc.heap h
    rw [t1] at this
    refine this.returns hj h fun a L hg => ?_
    cases a <;> cases T <;> first | exact hg.elim | skip
    · exact ⟨[], hg, rfl, t2⟩
    · rename_i i t; exact ⟨[(i, .token t)], hg, rfl, t2⟩
    · rename_i i k t u; exact ⟨[(i, .token t), (k, .token u)], hg, rfl, t2⟩

/-- **C50** `covering_element(R)`: panics if the node does not contain the range; otherwise it finds a deepest element that
contains the range. -/
theorem C50_covering_element {bs : BinarySearch} (hbs : Conforming bs) (h : Running [r] s gs n J rest lk) {j : Live}
    (hj : j ∈ J) {P : List Nat} (hp : s.Loc j.obj r P) (hn : (s.tree j.obj).isNode = true) (R : TextRange) :
    let find := look j.id >>= fun x => coveringElement bs R x.green.subs.length j.id
    (¬ (s.tree r).covers R P → find.Panics r s gs n J rest lk) ∧
    ((s.tree r).covers R P → find.Returns r s gs n J rest lk fun a N => ∃ q, N = [(a, q)] ∧ P <+: q ∧
      (s.tree r).covers R q ∧ (∀ q' ∈ (s.tree r).kids q, ¬ (s.tree r).covers R q') ∧
      (R.start < R.stop → ∀ q', P <+: q' → (s.tree r).covers R q' → q' <+: q)) := by
  obtain ⟨m, h1, rfl, h3, -, -, -⟩ := h.node hj hp hn
  have hc : Comp (look j.id >>= fun x => coveringElement bs R x.green.subs.length j.id) (Live.snaps J) (m.coveringElement bs R)
      fun a b L' => L'.Perm ((a, b) :: Live.snaps J) := .look h3 (coveringElement_comp _ h3)
  obtain ⟨c1, c2⟩ := C18_covering_element hbs h1 R
  refine ⟨fun hr => ?_, fun hr => ?_⟩
  · have := hc.heap h
    rw [c1 hr] at this
    exact this.panics
  · obtain ⟨e, e1, -, e3⟩ := c2 hr
    have := hc.heap h
    rw [e1] at this
    exact this.returns hj h fun a L hg => ⟨[(a, e)], hg, e.path, rfl, e3⟩

/-- **C50** `child_or_token_at_range(R)`: panics if the range begins before the node; otherwise it finds a child that
contains the range, if there is one, and the only one if the range is not empty. -/
theorem C50_child_at_range {bs : BinarySearch} (hbs : Conforming bs) (h : Running [r] s gs n J rest lk) {j : Live}
    (hj : j ∈ J) {P : List Nat} (hp : s.Loc j.obj r P) (hn : (s.tree j.obj).isNode = true) (R : TextRange) :
    (R.start < blen ((s.tree r).before P) → (childAtRange bs R j.id).Panics r s gs n J rest lk) ∧
    (blen ((s.tree r).before P) ≤ R.start → (childAtRange bs R j.id).Returns r s gs n J rest lk fun a N =>
      (a = none ∧ N = [] ∧ ∀ q ∈ (s.tree r).kids P, ¬ (s.tree r).covers R q) ∨
      ∃ i q, a = some i ∧ N = [(i, q)] ∧ q ∈ (s.tree r).kids P ∧ (s.tree r).covers R q ∧
        (R.start < R.stop → ∀ q' ∈ (s.tree r).kids P, (s.tree r).covers R q' → q' = q)) := by
  obtain ⟨m, h1, rfl, h3, h4, -, -⟩ := h.node hj hp hn
  have hc := (childAtRange_comp (bs := bs) (range := R) h3).heap h
  obtain ⟨c1, c2⟩ := C19_child_at_range hbs h1 R
  have hstart : m.textRange.start = blen ((s.tree r).before m.path) := by
    obtain ⟨x, -, -, x3, -⟩ := C11_ranges h1
    exact x3
  rw [hstart] at c1 c2
  refine ⟨fun hr => ?_, fun hr => ?_⟩
  · rw [c1 hr] at hc
    exact hc.panics
  · rcases c2 hr with ⟨e1, e2⟩ | ⟨e, e1, e2, e3, e4, e5, -⟩
    · rw [e1] at hc
      refine hc.returns hj h fun a L hg => ?_
      cases a with
      | some a => exact hg.elim
      | none => exact ⟨[], hg, .inl ⟨rfl, rfl, e2⟩⟩
    · rw [e1] at hc
      refine hc.returns hj h fun a L hg => ?_
      cases a with
      | none => exact hg.elim
      | some a => exact ⟨[(a, e)], hg, .inr ⟨a, e.path, rfl, rfl, e3, e4, e5⟩⟩

/-- **C50** `SyntaxNodePtr::try_to_node(root)`: panics on a mutable tree, returns `None` if the node is not the root,
otherwise it finds the outermost node of the pointer's kind and range, provided the range is not empty. -/
theorem C50_try_to_node [Lang] {bs : BinarySearch} (hbs : Conforming bs) (h : Running [r] s gs n J rest lk) {j : Live}
    (hj : j ∈ J) {P : List Nat} (hp : s.Loc j.obj r P) (hn : (s.tree j.obj).isNode = true) (ptr : SyntaxNodePtr) :
    (s.mutable r = true → (tryToNode bs ptr j.id).Panics r s gs n J rest lk) ∧
    (s.mutable r = false → (tryToNode bs ptr j.id).Returns r s gs n J rest lk fun a N =>
      (P ≠ [] → a = none ∧ N = []) ∧
      (P = [] → (a = none ∧ N = [] ∧ (ptr.range.start < ptr.range.stop → ∀ q, ¬ (s.tree r).nodeAt ptr.kind ptr.range q)) ∨
        ∃ i q, a = some i ∧ N = [(i, q)] ∧ (s.tree r).nodeAt ptr.kind ptr.range q ∧
          (ptr.range.start < ptr.range.stop → ∀ q', (s.tree r).nodeAt ptr.kind ptr.range q' → q <+: q'))) := by
  obtain ⟨m, h1, rfl, h3, h4, -, -⟩ := h.node hj hp hn
  have hc := (tryToNode_comp (bs := bs) (ptr := ptr) h3).heap h
  have hm : m.mutable = s.mutable r := (C11_contents h1).2.2
  refine ⟨fun ht => ?_, fun him => ?_⟩
  · rw [SyntaxNodePtr.tryToNode, hm, ht] at hc
    exact hc.panics
  · obtain ⟨c1, c2⟩ := C30_resolve hbs (r := s.rootVal r) him h1 ptr
    by_cases hP : m.path = []
    · obtain ⟨x, x1, x2, x3⟩ := c2 hP
      rw [x1] at hc
      refine hc.returns hj h fun a L hg => ?_
      cases x with
      | none =>
        cases a with
        | some a => exact hg.elim
        | none => exact ⟨[], hg, fun hne => absurd hP hne, fun _ => .inl ⟨rfl, rfl, x3 rfl⟩⟩
      | some y =>
        cases a with
        | none => exact hg.elim
        | some a =>
          obtain ⟨-, y2, y3⟩ := x2 y rfl
          exact ⟨[(a, .node y)], hg, fun hne => absurd hP hne, fun _ => .inr ⟨a, y.path, rfl, rfl, y2, y3⟩⟩
    · rw [c1 hP] at hc
      refine hc.returns hj h fun a L hg => ?_
      cases a with
      | some a => exact hg.elim
      | none => exact ⟨[], hg, fun _ => ⟨rfl, rfl⟩, fun e => absurd e hP⟩

/-! ### Text -/

/-- **C50** `text()` and its slices: `R` is a part of the node's range, on character boundaries; `try_fold_chunks` calls
the closure on chunks that concatenate to the text in this range, and ends as the closure's calls say. -/
theorem C50_text_chunks (h : Running [r] s gs n J rest lk) {j : Live} (hj : j ∈ J) {P : List Nat} (hp : s.Loc j.obj r P)
    (hn : (s.tree j.obj).isNode = true) (R : TextRange) (hR : (s.tree r).covers R P) {x : List Char}
    (hx : bslice (s.tree r).text R.start R.stop = some x) :
    ∃ cs : List (List Char), cs.flatten = x ∧ ∀ (T E : Type) (init : T) (f : T → List Char → Res (Except E T)),
      (∀ acc c, f acc c ≠ .ub) →
      (tryFoldChunks R j.id init f).Answers [r] s gs n J rest lk (tryFold f init cs)
        fun a b L => a = b ∧ L.Perm (Live.snaps J) := by
  obtain ⟨m, h1, rfl, h3, h4, -, hcoh⟩ := h.node hj hp hn
  obtain ⟨t0, t1, t2, t3⟩ := hR
  rw [show (s.tree r).at? m.path = _ from h4] at t1
  cases t1
  obtain ⟨y, y1, y2, y3, y4, y5⟩ := C11_ranges h1
  rw [SElem.path_node, h4] at y1
  cases y1
  have hs : m.textRange.start = blen ((s.tree r).before m.path) := y3
  have hl : m.textRange.len = blen (s.tree j.obj).text := y4
  rw [TextRange.len] at hl
  have hle := m.textRange.le
  have hRle := R.le
  have hof : SyntaxText.Of (s.rootVal r) ⟨m, R⟩ := by
    refine .slice (.between (R.start - m.textRange.start) (R.stop - m.textRange.start)) (.text h1) ?_
    rw [SyntaxText.slice_eq _ _ (a := R.start - m.textRange.start) (b := R.stop - m.textRange.start) rfl rfl]
    have hle2 : R.start - m.textRange.start ≤ R.stop - m.textRange.start ∧
        (SyntaxText.new m).range.start + (R.stop - m.textRange.start) ≤ (SyntaxText.new m).range.stop := by
      simp only [SyntaxText.new]; omega
    rw [dif_pos hle2]
    simp only [SyntaxText.new]
    congr 2
    ext <;> simp only <;> omega
  have hstr : SyntaxText.str (s.rootVal r) ⟨m, R⟩ = some x := hx
  obtain ⟨cs, c1, c2, -⟩ := C26_chunks hcoh hof hstr
  refine ⟨cs, c1, fun T E init f hf => ?_⟩
  rw [← c2 T E init f]
  obtain ⟨ws, w1, -⟩ := SyntaxText.tokensWithRanges_ok hcoh hof
  exact (tryFoldChunks_comp (t := ⟨m, R⟩) hf ⟨ws, w1⟩ h3).heap h

/-! ### Replacing -/

/-- **C50** `replace_with` of a node: panics if the kinds differ; otherwise the result is the whole tree with the node
replaced (`next` supplies addresses for the new green nodes). -/
theorem C50_replace_with (h : Running [r] s gs n J rest lk) {j : Live} (hj : j ∈ J) {P : List Nat} (hp : s.Loc j.obj r P)
    (hn : (s.tree j.obj).isNode = true) {k : Nat} (hk : P.length < k) (next : Nat) (g : GNode) (hg : g.WF) :
    ((s.tree j.obj).kind ≠ g.kind → (replaceWith k next j.id g).Panics r s gs n J rest lk) ∧
    ((s.tree j.obj).kind = g.kind → (replaceWith k next j.id g).Returns r s gs n J rest lk fun a N =>
      N = [] ∧ a.WF ∧ a.tree = (s.tree r).set P g.tree) := by
  obtain ⟨m, h1, rfl, h3, h4, -, -⟩ := h.node hj hp hn
  have hlen : m.ancestors.length ≤ k := by
    have := congrArg List.length (C16_ancestors h1).1.1
    simp [Tree.upward] at this
    omega
  have hc := (replaceWith_comp k next m g hlen h3).heap h
  have hkind : m.kind = (s.tree j.obj).kind := by
    obtain ⟨x, x1, x2, -⟩ := C11_ranges h1
    rw [SElem.path_node, h4] at x1
    cases x1
    exact x2
  rw [← hkind]
  obtain ⟨c1, c2⟩ := C22_replace_node h1 next g hg
  refine ⟨fun hne => ?_, fun he => ?_⟩
  · rw [c1.mpr hne] at hc
    exact hc.panics
  · obtain ⟨g', g1, g2, g3, -⟩ := c2 he
    rw [g1] at hc
    refine hc.returns hj h fun a L hq => ?_
    obtain ⟨rfl, hl⟩ := hq
    exact ⟨[], hl, rfl, g2, g3⟩

/-- **C50** `replace_with` of a token. -/
theorem C50_replace_token_with (h : Running [r] s gs n J rest lk) {j : Live} (hj : j ∈ J) {P : List Nat}
    (hp : s.Loc j.obj r P) (hn : (s.tree j.obj).isNode = false) {k : Nat} (hk : P.length ≤ k) (next : Nat) (g : GToken) :
    ((s.tree j.obj).kind ≠ g.kind ∨ P = [] → (replaceTokenWith k next j.id g).Panics r s gs n J rest lk) ∧
    ((s.tree j.obj).kind = g.kind → P ≠ [] → (replaceTokenWith k next j.id g).Returns r s gs n J rest lk fun a N =>
      N = [] ∧ a.WF ∧ a.tree = (s.tree r).set P (.token g.kind g.text)) := by
  obtain ⟨t, h1, rfl, h3, h4⟩ := h.token hj hp hn
  have hlen : t.ancestors.length ≤ k := by
    have := congrArg List.length (C16_token_ancestors h1).1
    simp [Tree.upward] at this
    omega
  have hc := (replaceTokenWith_comp (next := next) (g := g) hlen h3).heap h
  have hkind : t.kind = (s.tree j.obj).kind := by
    obtain ⟨x, x1, x2, -⟩ := C11_ranges h1
    rw [show SElem.path (.token t) = t.path from rfl, h4] at x1
    cases x1
    exact x2
  rw [← hkind]
  obtain ⟨c1, c2⟩ := C22_replace_token h1 next g
  refine ⟨fun hne => ?_, fun he hP => ?_⟩
  · rw [c1.mpr hne] at hc
    exact hc.panics
  · obtain ⟨g', g1, g2, g3, -⟩ := c2 he hP
    rw [g1] at hc
    refine hc.returns hj h fun a L hq => ?_
    obtain ⟨rfl, hl⟩ := hq
    exact ⟨[], hl, rfl, g2, g3⟩

end

/-! ### Concrete cases

The mutable tree `[a b [cc]]` after an edit elsewhere (`demo2`); the program starts with a handle on the inner node or on
the top node, or on the token `b`. -/

theorem demo2_start0 : ∃ e, e.path = [] ∧ Running [0] demo2.s demo2.gs 1 [⟨0, 0, e⟩] [6, 5, 4, 3, 2, 1] [] :=
  C49_start_one demo2_hreach (by decide +kernel) demo2_loc0
theorem demo2_loc2 : demo2.s.Loc 2 0 [1] :=
  .child' (P := []) (q := 0) (by decide +kernel) (by decide +kernel) (by decide +kernel) demo2_loc0
theorem demo2_start2 : ∃ e, e.path = [1] ∧ Running [0] demo2.s demo2.gs 1 [⟨0, 2, e⟩] [6, 5, 4, 3, 1, 0] [] :=
  C49_start_one demo2_hreach (by decide +kernel) demo2_loc2

/-- All walks and lists from the top node. -/
example : ∃ e, Running [0] demo2.s demo2.gs 1 [⟨0, 0, e⟩] [6, 5, 4, 3, 2, 1] [] ∧
    (kids 0 >>= kidsAll false 4).Returns 0 demo2.s demo2.gs 1 [⟨0, 0, e⟩] [6, 5, 4, 3, 2, 1] [] (All [[0], [1], [2]]) ∧
    (kids 0 >>= kidsAll true 4).Returns 0 demo2.s demo2.gs 1 [⟨0, 0, e⟩] [6, 5, 4, 3, 2, 1] [] (All [[2]]) ∧
    (walk 0 >>= walkAll true (fun _ _ => false) 5).Returns 0 demo2.s demo2.gs 1 [⟨0, 0, e⟩] [6, 5, 4, 3, 2, 1] []
      (Events [.enter [], .enter [2], .leave [2], .leave []]) ∧
    (walk 0 >>= walkAll false (fun k _ => k == 10) 9).Returns 0 demo2.s demo2.gs 1 [⟨0, 0, e⟩] [6, 5, 4, 3, 2, 1] []
      (Events [.enter [], .enter [0], .leave [0], .enter [1], .leave [1], .enter [2], .leave [2], .leave []]) ∧
    (edge false 0).Returns 0 demo2.s demo2.gs 1 [⟨0, 0, e⟩] [6, 5, 4, 3, 2, 1] [] (One (some [2, 0])) ∧
    (kids 0 >>= castAll (· == 10) 4 4).Returns 0 demo2.s demo2.gs 1 [⟨0, 0, e⟩] [6, 5, 4, 3, 2, 1] [] (All [[2]]) := by
  obtain ⟨e, -, h⟩ := demo2_start0
  have ht : demo2.s.tree 0 = .node 20 [.token 1 ['a'], .token 1 ['b'], .node 10 [.token 2 ['c', 'c']]] := by decide +kernel
  have a := C50_children h (List.mem_singleton.mpr rfl) demo2_loc0 (by first | decide +kernel | (dsimp only; decide +kernel)) false (k := 4) (by first | decide +kernel | (dsimp only; decide +kernel))
  have b := C50_children h (List.mem_singleton.mpr rfl) demo2_loc0 (by first | decide +kernel | (dsimp only; decide +kernel)) true (k := 4) (by first | decide +kernel | (dsimp only; decide +kernel))
  have c := C50_preorder h (List.mem_singleton.mpr rfl) demo2_loc0 true (fun _ _ => false) (k := 5) (by first | decide +kernel | (dsimp only; decide +kernel))
  have d := C50_preorder h (List.mem_singleton.mpr rfl) demo2_loc0 false (fun k _ => k == 10) (k := 9) (by first | decide +kernel | (dsimp only; decide +kernel))
  have f := (C50_first_last_token h (List.mem_singleton.mpr rfl) demo2_loc0).2
  have g := C50_cast_children h (List.mem_singleton.mpr rfl) demo2_loc0 (by first | decide +kernel | (dsimp only; decide +kernel)) (· == 10) (k := 4) (by first | decide +kernel | (dsimp only; decide +kernel))
  simp only [ht] at a b c d f g
  exact ⟨e, h, a, b, c, d, f, g⟩

/-- From the token `b`. -/
example : ∃ e, Running [0] demo2.s demo2.gs 1 [⟨0, 2, e⟩] [6, 5, 4, 3, 1, 0] [] ∧
    (siblings 0 >>= succAll .nextSiblingOrToken 3).Returns 0 demo2.s demo2.gs 1 [⟨0, 2, e⟩] [6, 5, 4, 3, 1, 0] []
      (All [[1], [2]]) ∧
    (ancestors 0 >>= succAll .parent 3).Returns 0 demo2.s demo2.gs 1 [⟨0, 2, e⟩] [6, 5, 4, 3, 1, 0] [] (All [[]]) := by
  obtain ⟨e, -, h⟩ := demo2_start2
  have ht : demo2.s.tree 0 = .node 20 [.token 1 ['a'], .token 1 ['b'], .node 10 [.token 2 ['c', 'c']]] := by decide +kernel
  have h2 : demo2.s.tree 2 = .token 1 ['b'] := by decide +kernel
  have a := (C50_siblings_with_tokens h (List.mem_singleton.mpr rfl) demo2_loc2 (k := 3) (by first | decide +kernel | (dsimp only; decide +kernel))
    (k' := 3) (by first | decide +kernel | (dsimp only; decide +kernel))).1
  have b := C50_ancestors h (List.mem_singleton.mpr rfl) demo2_loc2 (k := 3) (by first | decide +kernel | (dsimp only; decide +kernel))
  simp only [ht, h2] at a b
  exact ⟨e, h, a, b⟩

/- The handle `h` exists, see `demo2_start`, `demo2_start0`, `demo2_start2`. -/
example {e : SElem} (h : Running [0] demo2.s demo2.gs 1 [⟨0, 3, e⟩] [6, 5, 4, 2, 1, 0] []) :=
  C50_siblings h (List.mem_singleton.mpr rfl) demo2_loc3 (by first | decide +kernel | (dsimp only; decide +kernel)) (k := 9) (by first | decide +kernel | (dsimp only; decide +kernel)) (k' := 9) (by first | decide +kernel | (dsimp only; decide +kernel))
example {e : SElem} (h : Running [0] demo2.s demo2.gs 1 [⟨0, 0, e⟩] [6, 5, 4, 3, 2, 1] []) :=
  C50_by_kind h (List.mem_singleton.mpr rfl) demo2_loc0 (by first | decide +kernel | (dsimp only; decide +kernel)) false (· == 1) (k := 9) (by first | decide +kernel | (dsimp only; decide +kernel))
example {e : SElem} (h : Running [0] demo2.s demo2.gs 1 [⟨0, 2, e⟩] [6, 5, 4, 3, 1, 0] []) :=
  C50_next_prev_token h (List.mem_singleton.mpr rfl) demo2_loc2 (by first | decide +kernel | (dsimp only; decide +kernel)) (k := 9) (by first | decide +kernel | (dsimp only; decide +kernel))
example {e : SElem} (h : Running [0] demo2.s demo2.gs 1 [⟨0, 0, e⟩] [6, 5, 4, 3, 2, 1] []) :=
  (C50_token_at_offset h (List.mem_singleton.mpr rfl) demo2_loc0 (by first | decide +kernel | (dsimp only; decide +kernel)) 1).2 (by first | decide +kernel | (dsimp only; decide +kernel)) (by first | decide +kernel | (dsimp only; decide +kernel))
example {e : SElem} (h : Running [0] demo2.s demo2.gs 1 [⟨0, 0, e⟩] [6, 5, 4, 3, 2, 1] []) :=
  (C50_covering_element C19_std_search h (List.mem_singleton.mpr rfl) demo2_loc0 (by first | decide +kernel | (dsimp only; decide +kernel))
    ⟨2, 4, by decide⟩).2 ⟨demo2.s.tree 0, by decide +kernel, by decide +kernel, by decide +kernel⟩
example {e : SElem} (h : Running [0] demo2.s demo2.gs 1 [⟨0, 0, e⟩] [6, 5, 4, 3, 2, 1] []) :=
  (C50_child_at_range C19_std_search h (List.mem_singleton.mpr rfl) demo2_loc0 (by first | decide +kernel | (dsimp only; decide +kernel))
    ⟨2, 4, by decide⟩).2 (by first | decide +kernel | (dsimp only; decide +kernel))
example {e : SElem} (h : Running [0] demo2.s demo2.gs 1 [⟨0, 0, e⟩] [6, 5, 4, 3, 2, 1] []) :=
  letI := rawLang
  (C50_try_to_node C19_std_search h (List.mem_singleton.mpr rfl) demo2_loc0 (by first | decide +kernel | (dsimp only; decide +kernel))
    ⟨(10 : SyntaxKind), ⟨2, 4, by decide⟩⟩).1 (by first | decide +kernel | (dsimp only; decide +kernel))
example {e : SElem} (h : Running [0] demo2.s demo2.gs 1 [⟨0, 0, e⟩] [6, 5, 4, 3, 2, 1] []) :=
  C50_text_chunks h (List.mem_singleton.mpr rfl) demo2_loc0 (by first | decide +kernel | (dsimp only; decide +kernel)) ⟨1, 3, by decide⟩
    ⟨demo2.s.tree 0, by decide +kernel, by decide +kernel, by decide +kernel⟩ (x := ['b', 'c']) (by first | decide +kernel | (dsimp only; decide +kernel))
example {e : SElem} (h : Running [0] demo2.s demo2.gs 1 [⟨0, 3, e⟩] [6, 5, 4, 2, 1, 0] []) :=
  (C50_replace_with h (List.mem_singleton.mpr rfl) demo2_loc3 (by first | decide +kernel | (dsimp only; decide +kernel)) (k := 9) (by first | decide +kernel | (dsimp only; decide +kernel)) 100
    (GNode.new 99 10 []) (GNode.wf_new _ _ _ (by simp))).2 (by first | decide +kernel | (dsimp only; decide +kernel))
example {e : SElem} (h : Running [0] demo2.s demo2.gs 1 [⟨0, 2, e⟩] [6, 5, 4, 3, 1, 0] []) :=
  (C50_replace_token_with h (List.mem_singleton.mpr rfl) demo2_loc2 (by first | decide +kernel | (dsimp only; decide +kernel)) (k := 9) (by first | decide +kernel | (dsimp only; decide +kernel)) 100
    ⟨99, 1, ['x']⟩).2 (by first | decide +kernel | (dsimp only; decide +kernel)) (by decide)

end Rowan
