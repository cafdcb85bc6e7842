import Verif.Cost
import Verif.Spec.Cost
import Verif.Props.Ast
/-!
# C66: documented running times
-/
namespace Rowan

/-! ### Counting does not change results -/

namespace Steps
variable {α β : Type}

theorem bind_val (x : Steps α) (f : α → Steps β) : (x >>= f).val = (x.val >>= fun a => (f a).val) := by
  show (Steps.bind x f).val = _
  rw [Steps.bind]
  cases x.val <;> rfl

theorem bind_steps_ok {x : Steps α} {a : α} (f : α → Steps β) (h : x.val = .ok a) :
    (x >>= f).steps = x.steps + (f a).steps := by
  show (Steps.bind x f).steps = _
  rw [Steps.bind, h]

theorem bind_steps_bad {x : Steps α} (f : α → Steps β) (h : ∀ a, x.val ≠ .ok a) : (x >>= f).steps = x.steps := by
  show (Steps.bind x f).steps = _
  rw [Steps.bind]
  cases hv : x.val with
  | ok a => exact absurd hv (h a)
  | _ => rfl

@[simp] theorem pure_val (a : α) : (pure a : Steps α).val = .ok a := rfl
@[simp] theorem pure_steps (a : α) : (pure a : Steps α).steps = 0 := rfl
@[simp] theorem lift_val (x : Res α) : (lift x).val = x := rfl
@[simp] theorem lift_steps (x : Res α) : (lift x).steps = 0 := rfl
@[simp] theorem tick_val (n : Nat) : (tick n).val = .ok () := rfl
@[simp] theorem tick_bind (n : Nat) (f : Unit → Steps β) : (tick n >>= f) = ⟨(f ()).val, n + (f ()).steps⟩ := rfl

end Steps

theorem stdSearchLoopC_fst (f : Nat → Ordering) : ∀ k base size,
    (stdSearchLoopC f k base size).1 = stdSearchLoop f k base size
  | 0, _, _ => rfl
  | k + 1, base, size => by
    rw [stdSearchLoopC, stdSearchLoop]
    split
    · exact stdSearchLoopC_fst f k _ _
    · rfl

theorem GNode.childAtRangeC_fst (cs : CountedSearch) (n : GNode) (rel : TextRange) :
    (n.childAtRangeC cs rel).1 = n.childAtRange cs.plain rel := by
  simp only [GNode.childAtRangeC, GNode.childAtRange, CountedSearch.plain]
  generalize hr : cs n.slice.length _ = x
  cases (n.slice[match x.1 with | .ok i => i | .err i => i - 1]?).filter fun c => c.relRange.containsRange rel <;> rfl

theorem SNode.childOrTokenAtRangeC_val (cs : CountedSearch) (n : SNode) (R : TextRange) :
    (n.childOrTokenAtRangeC cs R).val = n.childOrTokenAtRange cs.plain R := by
  rw [childOrTokenAtRangeC, childOrTokenAtRange, Steps.bind_val, Steps.lift_val]
  congr 1
  funext rel
  rw [Steps.tick_bind, ← GNode.childAtRangeC_fst]
  cases (n.green.childAtRangeC cs rel).1 with
  | none => rfl
  | some x => rfl

theorem coverLoopC_val (cs : CountedSearch) (R : TextRange) : ∀ k e, (coverLoopC cs R k e).val = coverLoop cs.plain R k e
  | 0, _ => rfl
  | k + 1, e => by
    rw [coverLoopC.eq_def, coverLoop.eq_def]
    dsimp only
    rw [Steps.tick_bind]
    dsimp only
    split
    · rfl
    · cases e with
      | token t => rfl
      | node n =>
        dsimp only
        rw [Steps.bind_val, SNode.childOrTokenAtRangeC_val]
        congr 1
        funext o
        cases o with
        | none => rfl
        | some it => exact coverLoopC_val cs R k it

theorem SyntaxNodePtr.findLoopC_val [Lang] (cs : CountedSearch) (ptr : SyntaxNodePtr) : ∀ k n,
    (findLoopC cs ptr k n).val = findLoop cs.plain ptr k n
  | 0, _ => rfl
  | k + 1, n => by
    rw [findLoopC, findLoop, Steps.tick_bind]
    dsimp only
    rw [Steps.bind_val, SNode.childOrTokenAtRangeC_val]
    congr 1
    funext o
    split
    · rfl
    · cases o.bind NodeOrToken.asNode with
      | none => rfl
      | some c => exact findLoopC_val cs ptr k c

/-! ### Binary search -/

/-- The number of comparisons grows with the logarithm of the length. -/
def CountedSearch.Logarithmic (cs : CountedSearch) : Prop := ∀ n f m, n ≤ 2 ^ m → (cs n f).2 ≤ m + 1

theorem stdSearchLoopC_steps (f : Nat → Ordering) (m : Nat) : ∀ k base size, size ≤ k → 1 ≤ size →
    ((stdSearchLoopC f k base size).2 ≤ m ↔ size ≤ 2 ^ m) := by
  induction m with
  | zero =>
    intro k base size hk h1
    cases k with
    | zero => omega
    | succ k =>
      rw [stdSearchLoopC]
      split
      · simp only [Nat.pow_zero]; omega
      · simp only [Nat.pow_zero]; omega
  | succ m ih =>
    intro k base size hk h1
    cases k with
    | zero => omega
    | succ k =>
      rw [stdSearchLoopC]
      split
      · have := ih k (if f (base + size / 2) = .gt then base else base + size / 2) (size - size / 2) (by omega) (by omega)
        dsimp only
        rw [Nat.add_le_add_iff_right, this, Nat.pow_succ]
        omega
      · have : 1 ≤ 2 ^ (m + 1) := Nat.one_le_two_pow
        simp only [Nat.zero_le, true_iff]; omega

/-- **C66.**  The binary search of the standard library makes at most `m + 1` comparisons in a list of at most `2 ^ m` elements, and
more in a longer one. -/
theorem C66_search (n : Nat) (f : Nat → Ordering) (m : Nat) :
    (stdSearchC n f).1 = stdSearch n f ∧ (0 < n → ((stdSearchC n f).2 ≤ m + 1 ↔ n ≤ 2 ^ m)) := by
  rw [stdSearchC, stdSearch]
  split
  · exact ⟨rfl, fun h => by omega⟩
  · refine ⟨by dsimp only; rw [stdSearchLoopC_fst]; rfl, fun _ => ?_⟩
    dsimp only
    rw [Nat.add_le_add_iff_right]
    exact stdSearchLoopC_steps f m n 0 n (Nat.le_refl _) (by omega)

theorem stdSearchC_plain : CountedSearch.plain stdSearchC = stdSearch := by
  funext n f; exact (C66_search n f 0).1

theorem stdSearchC_logarithmic : stdSearchC.Logarithmic := by
  intro n f m h
  by_cases hn : 0 < n
  · exact ((C66_search n f m).2 hn).mpr h
  · rw [stdSearchC, if_pos (by omega)]; simp

/-! ### `child_or_token_at_range` -/

theorem SNode.childOrTokenAtRangeC_steps {cs : CountedSearch} (hl : cs.Logarithmic) (n : SNode) (R : TextRange) {m : Nat}
    (hw : n.green.slice.length ≤ 2 ^ m) : (n.childOrTokenAtRangeC cs R).steps ≤ m + 2 := by
  rw [childOrTokenAtRangeC]
  cases hr : Res.ofOption (R.sub? n.offset) with
  | ok rel =>
    rw [Steps.bind_steps_ok _ (show (Steps.lift _).val = _ from rfl)]
    have : (n.green.childAtRangeC cs rel).2 ≤ m + 1 := hl _ _ m hw
    rw [Steps.tick_bind, Steps.lift_steps]
    cases (n.green.childAtRangeC cs rel).1 with
    | none => simp only [Steps.pure_steps]; omega
    | some x => simp only [Steps.tick_bind, Steps.pure_steps]; omega
  | _ => rw [Steps.bind_steps_bad _ (by simp), Steps.lift_steps]; omega

/-- The number of children of the node. -/
theorem width_slice {r : Root} {n : SNode} (h : Reach r (.node n)) : n.green.slice.length = r.tree.widthAt n.path := by
  obtain ⟨hv, rfl⟩ := h.valid
  obtain ⟨s, h1, -, h3, -⟩ := pre_index hv
  rw [Tree.widthAt]
  simp only [SElem.rootOf_node]
  rw [h1]; exact h3.symm

theorem widthAt_le {t : Tree} {w : Nat} (h : t.Wide w) (p : List Nat) : t.widthAt p ≤ w := by
  rw [Tree.widthAt]
  split
  next s hs => exact h p s hs
  · exact Nat.zero_le _

/-- **C66.**  `child_or_token_at_range` on an immutable tree: at most `m + 1` comparisons if the node has at most `2 ^ m` children, and at
most one handle is made. -/
theorem C66_child_at_range_partial {cs : CountedSearch} (hl : cs.Logarithmic) {r : Root} (_him : r.mutable = false) {n : SNode}
    (h : Reach r (.node n)) (R : TextRange) {m : Nat} (hw : r.tree.widthAt n.path ≤ 2 ^ m) :
    (n.childOrTokenAtRangeC cs R).val = n.childOrTokenAtRange cs.plain R ∧ (n.childOrTokenAtRangeC cs R).steps ≤ m + 2 :=
  ⟨n.childOrTokenAtRangeC_val cs R, n.childOrTokenAtRangeC_steps hl R (by rw [width_slice h]; exact hw)⟩

/-! ### `covering_element`, `try_to_node` -/

theorem childOrTokenAtRange_deeper {bs : BinarySearch} (hbs : Conforming bs) {r : Root} {n : SNode} (h : Reach r (.node n))
    {R : TextRange} {e : SElem} (he : n.childOrTokenAtRange bs R = .ok (some e)) :
    Reach r e ∧ e.path.length = n.path.length + 1 := by
  obtain ⟨h1, h2⟩ := C19_child_at_range hbs h R
  by_cases hlt : R.start < n.textRange.start
  · rw [h1 hlt] at he; cases he
  · rcases h2 (by omega) with ⟨h3, -⟩ | ⟨e', h3, h4, h5, -⟩
    · rw [h3] at he; cases he
    · rw [h3] at he; cases he
      refine ⟨h4, ?_⟩
      have hat := h.valid.1.at_path
      rw [h.valid.2] at hat
      obtain ⟨j, -, hj⟩ := (Tree.mem_kids hat).mp h5
      rw [hj]; simp

theorem Reach.depth_le {r : Root} {e : SElem} (h : Reach r e) {d : Nat} (hd : r.tree.Deep d) : e.path.length ≤ d := by
  have hat := h.valid.1.at_path
  rw [h.valid.2] at hat
  exact hd _ _ hat

theorem coverLoopC_steps {cs : CountedSearch} (hbs : Conforming cs.plain) (hl : cs.Logarithmic) {r : Root} (R : TextRange)
    {d m : Nat} (hd : r.tree.Deep d) (hw : r.tree.Wide (2 ^ m)) : ∀ (k : Nat) (e : SElem), Reach r e →
      (coverLoopC cs R k e).steps ≤ (d - e.path.length + 1) * (m + 3)
  | 0, _, _ => Nat.zero_le _
  | k + 1, e, he => by
    rw [coverLoopC.eq_def]
    dsimp only
    rw [Steps.tick_bind]
    have h1 : 1 * (m + 3) ≤ (d - e.path.length + 1) * (m + 3) := Nat.mul_le_mul_right _ (by omega)
    dsimp only
    split
    · simp only [Steps.lift_steps]; omega
    · cases e with
      | token t => simp only [Steps.pure_steps]; omega
      | node n =>
        dsimp only
        have hs := n.childOrTokenAtRangeC_steps hl R (m := m) (by rw [width_slice he]; exact widthAt_le hw _)
        cases hv : (n.childOrTokenAtRangeC cs R).val with
        | ok o =>
          rw [Steps.bind_steps_ok _ hv]
          cases o with
          | none => simp only [Steps.pure_steps]; omega
          | some c =>
            rw [SNode.childOrTokenAtRangeC_val] at hv
            obtain ⟨hc, hp⟩ := childOrTokenAtRange_deeper hbs he hv
            have ih := coverLoopC_steps hbs hl R hd hw k c hc
            have hdc := hc.depth_le hd
            have he' : (SElem.path (.node n)).length = n.path.length := rfl
            rw [he', show d - n.path.length + 1 = (d - c.path.length + 1) + 1 by omega, Nat.add_mul (d - c.path.length + 1) 1]
            dsimp only
            omega
        | _ => rw [Steps.bind_steps_bad _ (by rw [hv]; nofun)]; omega

/-- **C66.**  `covering_element` on an immutable tree: linear in the depth and logarithmic in the width.  (A step is a round of
the loop, a comparison, or a handle made.) -/
theorem C66_covering_element_partial {cs : CountedSearch} (hbs : Conforming cs.plain) (hl : cs.Logarithmic) {r : Root}
    (_him : r.mutable = false) {n : SNode} (h : Reach r (.node n)) (R : TextRange) {d m : Nat} (hd : r.tree.Deep d)
    (hw : r.tree.Wide (2 ^ m)) :
    (n.coveringElementC cs R).val = n.coveringElement cs.plain R ∧ (n.coveringElementC cs R).steps ≤ (d + 1) * (m + 3) :=
  ⟨coverLoopC_val .., Nat.le_trans (coverLoopC_steps hbs hl R hd hw _ _ h) (Nat.mul_le_mul_right _ (by omega))⟩

section
variable [Lang]

theorem SyntaxNodePtr.findLoopC_steps {cs : CountedSearch} (hbs : Conforming cs.plain) (hl : cs.Logarithmic) {r : Root}
    (ptr : SyntaxNodePtr) {d m : Nat} (hd : r.tree.Deep d) (hw : r.tree.Wide (2 ^ m)) : ∀ (k : Nat) (n : SNode),
      Reach r (.node n) → (findLoopC cs ptr k n).steps ≤ (d - n.path.length + 1) * (m + 3)
  | 0, _, _ => Nat.zero_le _
  | k + 1, n, he => by
    rw [findLoopC, Steps.tick_bind]
    have h1 : 1 * (m + 3) ≤ (d - n.path.length + 1) * (m + 3) := Nat.mul_le_mul_right _ (by omega)
    dsimp only
    have hs := n.childOrTokenAtRangeC_steps hl ptr.range (m := m) (by rw [width_slice he]; exact widthAt_le hw _)
    cases hv : (n.childOrTokenAtRangeC cs ptr.range).val with
    | ok o =>
      rw [Steps.bind_steps_ok _ hv]
      split
      · simp only [Steps.pure_steps]; omega
      · rw [SNode.childOrTokenAtRangeC_val] at hv
        match o, hv with
        | none, _ => simp only [Option.bind_none, Steps.pure_steps]; omega
        | some (.token t), _ => simp only [Option.bind_some, NodeOrToken.asNode, Steps.pure_steps]; omega
        | some (.node c), hv =>
          obtain ⟨hc, hp⟩ := childOrTokenAtRange_deeper hbs he hv
          have ih := findLoopC_steps hbs hl ptr hd hw k c hc
          have hdc := hc.depth_le hd
          have he' : (SElem.path (.node c)).length = c.path.length := rfl
          rw [he'] at hp hdc
          rw [show d - n.path.length + 1 = (d - c.path.length + 1) + 1 by omega, Nat.add_mul (d - c.path.length + 1) 1]
          simp only [Option.bind_some, NodeOrToken.asNode]
          omega
    | _ => rw [Steps.bind_steps_bad _ (by rw [hv]; nofun)]; omega

/-- **C66.**  `SyntaxNodePtr::try_to_node`: linear in the depth and logarithmic in the width of the tree.  (A step is an item of the
iterator, a comparison, or a handle made.) -/
theorem C66_try_to_node_partial {cs : CountedSearch} (hbs : Conforming cs.plain) (hl : cs.Logarithmic) {r : Root} {n : SNode}
    (h : Reach r (.node n)) (ptr : SyntaxNodePtr) {d m : Nat} (hd : r.tree.Deep d) (hw : r.tree.Wide (2 ^ m)) :
    (ptr.tryToNodeC cs n).val = ptr.tryToNode cs.plain n ∧ (ptr.tryToNodeC cs n).steps ≤ (d + 1) * (m + 3) := by
  rw [SyntaxNodePtr.tryToNodeC, SyntaxNodePtr.tryToNode]
  split
  · split
    · exact ⟨rfl, Nat.zero_le _⟩
    · exact ⟨ptr.findLoopC_val cs _ n,
        Nat.le_trans (ptr.findLoopC_steps hbs hl hd hw _ _ h) (Nat.mul_le_mul_right _ (by omega))⟩
  · exact ⟨rfl, Nat.zero_le _⟩

end

/-! ### `replace_with` -/

theorem Tree.widthsAbove_snoc (t : Tree) (p : List Nat) (i : Nat) : t.widthsAbove (p ++ [i]) = t.widthsAbove p + t.widthAt p := by
  simp only [Tree.widthsAbove, List.length_append, List.length_singleton, List.range_succ, List.map_append, List.map_cons,
    List.map_nil, List.sum_append, List.sum_cons, List.sum_nil, Nat.add_zero]
  congr 1
  · congr 1
    apply List.map_congr_left
    intro j hj
    rw [List.take_append_of_le_length (Nat.le_of_lt (List.mem_range.mp hj))]
  · rw [List.take_left]

theorem SNode.replaceWithC_spec {n : SNode} (hv : n.Valid) : ∀ (next : Nat) (g : GNode) (w : Work),
    n.replaceWithC next g w = match n.replaceWith next g with
      | .ok g' => .ok (g', ⟨w.nodes + n.path.length, w.copies + n.rootOf.tree.widthsAbove n.path⟩)
      | .panic => .panic
      | .ub => .ub
      | .diverge => .diverge := by
  induction n with
  | root m i old =>
    intro next g w
    rw [replaceWithC, replaceWith]
    split <;> rfl
  | child p i o old ih =>
    intro next g w
    obtain ⟨hp, -⟩ := hv
    rw [replaceWithC, replaceWith]
    split
    · rw [ih hp]
      obtain ⟨s, h1, -, h3, -⟩ := pre_index hp
      have hw : p.rootOf.tree.widthAt p.path = p.green.slice.length := by rw [Tree.widthAt, h1]; exact h3
      have ha : (SNode.child p i o old).rootOf.tree.widthsAbove (SNode.child p i o old).path
          = p.rootOf.tree.widthsAbove p.path + p.green.slice.length := by
        rw [← hw]; exact Tree.widthsAbove_snoc _ _ _
      rw [ha]
      have hl : (SNode.child p i o old).path.length = p.path.length + 1 := by rw [SNode.path]; simp
      rw [hl]
      cases p.replaceWith (next + 1) (p.green.replaceChild next i (.node g)) with
      | ok g' =>
        dsimp only
        congr 3 <;> omega
      | _ => rfl
    · rfl

/-- **C66.**  `SyntaxNode::replace_with` makes one green node for each node above the replaced one, and no others: that part of the
work is proportional to the depth.  But into each of them it copies all the children of the old one. -/
theorem C66_replace_partial {r : Root} {n : SNode} (h : Reach r (.node n)) (next : Nat) (g : GNode) :
    n.replaceWithC next g ⟨0, 0⟩ = match n.replaceWith next g with
      | .ok g' => .ok (g', ⟨n.path.length, r.tree.widthsAbove n.path⟩)
      | .panic => .panic
      | .ub => .ub
      | .diverge => .diverge := by
  obtain ⟨hv, rfl⟩ := h.valid
  rw [n.replaceWithC_spec hv]
  simp only [Nat.zero_add]
  rfl

/-- **C66.**  The same for tokens. -/
theorem C66_replace_token_partial {r : Root} {t : SToken} (h : Reach r (.token t)) (next : Nat) (g : GToken) :
    t.replaceWithC next g ⟨0, 0⟩ = match t.replaceWith next g with
      | .ok g' => .ok (g', ⟨t.path.length, r.tree.widthsAbove t.path⟩)
      | .panic => .panic
      | .ub => .ub
      | .diverge => .diverge := by
  obtain ⟨hv, rfl⟩ := h.valid
  rw [SToken.replaceWithC, SToken.replaceWith]
  split
  · cases t with
    | root m i g0 => rfl
    | child p i o g0 =>
      obtain ⟨hp, -⟩ := hv
      simp only [SToken.parent]
      rw [p.replaceWithC_spec hp]
      obtain ⟨s, h1, -, h3, -⟩ := pre_index hp
      have hw : p.rootOf.tree.widthAt p.path = p.green.slice.length := by rw [Tree.widthAt, h1]; exact h3
      have ha : (SElem.rootOf (.token (SToken.child p i o g0))).tree.widthsAbove (SToken.child p i o g0).path
          = p.rootOf.tree.widthsAbove p.path + p.green.slice.length := by
        rw [← hw]; exact Tree.widthsAbove_snoc _ _ _
      rw [ha]
      have hl : (SToken.child p i o g0).path.length = p.path.length + 1 := by rw [SToken.path]; simp
      rw [hl]
      generalize p.replaceWith _ _ = x
      cases x with
      | ok g' =>
        dsimp only
        congr 3 <;> omega
      | _ => rfl
  · rfl

/-- The copies are bounded by depth times width. -/
theorem C66_replace_bound {t : Tree} {w : Nat} (h : t.Wide w) (p : List Nat) : t.widthsAbove p ≤ p.length * w := by
  rw [Tree.widthsAbove]
  have : ∀ l : List Nat, (l.map fun i => t.widthAt (p.take i)).sum ≤ l.length * w := by
    intro l
    induction l with
    | nil => exact Nat.zero_le _
    | cons a l ih =>
      have := widthAt_le h (p.take a)
      simp only [List.map_cons, List.sum_cons, List.length_cons, Nat.add_mul]
      omega
  simpa using this (List.range p.length)

/-- A root with an empty node and `k` empty tokens. -/
def wideGreen (k : Nat) : GNode := GNode.new 2 0 (.node (GNode.new 1 1 []) :: List.replicate k (exTok 0 2 ""))
def wideRoot (k : Nat) : Root := ⟨false, 0, .node (wideGreen k)⟩
def wideKid (k : Nat) : SNode := .child (.root false 0 (wideGreen k)) 0 0 (GNode.new 1 1 [])

theorem wideGreen_wf (k : Nat) : (wideGreen k).WF := by
  refine GNode.wf_new _ _ _ ?_
  intro e he
  rcases List.mem_cons.mp he with rfl | he
  · exact GElem.wf_new _ _ _ (by simp)
  · rw [List.eq_of_mem_replicate he]; trivial

theorem wideKid_reach (k : Nat) : Reach (wideRoot k) (.node (wideKid k)) :=
  .firstChildOrToken (n := .root false 0 (wideGreen k)) (.top (wideGreen_wf k)) rfl

theorem wideRoot_tree (k : Nat) : (wideRoot k).tree = .node 0 (.node 1 [] :: List.replicate k (.token 2 [])) := by
  show (wideGreen k).tree = _
  rw [wideGreen, GNode.tree_new]
  simp [GElem.tree, exTok, GToken.new, GToken.tree]

theorem Tree.deep_of_kids {t : Tree} {d : Nat} (h : ∀ c ∈ t.children, 0 < d ∧ c.Deep (d - 1)) : t.Deep d := by
  intro p s hp
  cases p with
  | nil => exact Nat.zero_le _
  | cons i p =>
    rw [Tree.at?_cons] at hp
    obtain ⟨c, hc, hq⟩ := Option.bind_eq_some_iff.mp hp
    obtain ⟨h0, hd⟩ := h c (List.mem_of_getElem? hc)
    have := hd _ _ hq
    simp only [List.length_cons]; omega

theorem Tree.wide_of_kids {t : Tree} {w : Nat} (h0 : t.children.length ≤ w) (h : ∀ c ∈ t.children, c.Wide w) : t.Wide w := by
  intro p s hp
  cases p with
  | nil => rw [Tree.at?_nil] at hp; cases hp; exact h0
  | cons i p =>
    rw [Tree.at?_cons] at hp
    obtain ⟨c, hc, hq⟩ := Option.bind_eq_some_iff.mp hp
    exact h c (List.mem_of_getElem? hc) _ _ hq

theorem wideRoot_deep (k : Nat) : (wideRoot k).tree.Deep 1 := by
  rw [wideRoot_tree]
  refine Tree.deep_of_kids fun c hc => ⟨Nat.one_pos, Tree.deep_of_kids fun x hx => ?_⟩
  rcases List.mem_cons.mp hc with rfl | hm
  · cases hx
  · rw [List.eq_of_mem_replicate hm] at hx; cases hx

/-- **C66** is false as documented: in trees of depth 1, the work of `replace_with` exceeds every bound. -/
theorem C66_replace_not_proportional (c : Nat) : ∃ (r : Root) (n : SNode) (g g' : GNode) (w : Work), r.mutable = false ∧
    Reach r (.node n) ∧ r.tree.Deep 1 ∧ n.replaceWithC 3 g ⟨0, 0⟩ = .ok (g', w) ∧ c < w.copies := by
  refine ⟨wideRoot c, wideKid c, GNode.new 1 1 [], _, ⟨_, _⟩, rfl, wideKid_reach c, wideRoot_deep c, rfl, ?_⟩
  show c < 0 + (GNode.layout 0 _).1.length
  rw [GNode.layout_length]
  simp

/-! ### The hypotheses are met -/

theorem synRoot_tree : synRoot.tree = .node 1 [.token 2 ['a'], .node 3 [.node 4 [], .token 2 ['a'], .token 2 ['é']], .node 4 [],
    .token 5 ['b', 'c']] := by decide +kernel

theorem synRoot_deep : synRoot.tree.Deep 2 := by
  rw [synRoot_tree]
  refine Tree.deep_of_kids fun c hc => ⟨by decide, Tree.deep_of_kids fun x hx => ⟨by decide, Tree.deep_of_kids fun y hy => ?_⟩⟩
  simp only [Tree.children, List.mem_cons, List.not_mem_nil, or_false] at hc
  rcases hc with rfl | rfl | rfl | rfl <;> simp only [Tree.children, List.mem_cons, List.not_mem_nil, or_false] at hx
  rcases hx with rfl | rfl | rfl <;> simp only [Tree.children, List.not_mem_nil] at hy

theorem synRoot_wide : synRoot.tree.Wide (2 ^ 2) := by
  rw [synRoot_tree]
  refine Tree.wide_of_kids (by decide) fun c hc => Tree.wide_of_kids ?_ fun x hx => Tree.wide_of_kids ?_ fun y hy => ?_
  all_goals
    simp only [Tree.children, List.mem_cons, List.not_mem_nil, or_false] at hc
    rcases hc with rfl | rfl | rfl | rfl <;> try simp only [Tree.children, List.mem_cons, List.not_mem_nil, or_false] at hx
  all_goals first
    | decide
    | (rcases hx with rfl | rfl | rfl <;> first | decide | (simp only [Tree.children, List.not_mem_nil] at hy))

theorem conformingC : Conforming (CountedSearch.plain stdSearchC) := by rw [stdSearchC_plain]; exact stdSearch_conforming

example := C66_child_at_range_partial stdSearchC_logarithmic (r := synRoot) rfl synInner_reach ⟨1, 2, by decide⟩ (m := 2)
  (by decide +kernel)
example := C66_covering_element_partial conformingC stdSearchC_logarithmic (r := synRoot) rfl synTop_reach ⟨1, 2, by decide⟩
  synRoot_deep synRoot_wide
example [Lang] (ptr : SyntaxNodePtr) := C66_try_to_node_partial conformingC stdSearchC_logarithmic (r := synRoot) synTop_reach ptr
  synRoot_deep synRoot_wide
example : (synTop.coveringElementC stdSearchC ⟨1, 2, by decide⟩).steps = 11 := by decide +kernel
example := C66_replace_partial synInner_reach 20 (GNode.new 19 3 [])
example : (stdSearchC 8 fun i => compare i 3).2 = 4 ∧ (stdSearchC 9 fun i => compare i 3).2 = 5 := by decide +kernel

end Rowan
