import Verif.HeapContent
import Verif.HeapDemo
/-!
# C33, C35: detaching

The theorems are about any state a program over the cursor API can reach (`HReach`).  `s.Loc x r P` says
that handle `x` is at position `P` of the tree with top element `r`, `s.tree x` is the content of the
element `x`.
-/
namespace Rowan
open Cur (plus)

section
variable {s : HSt} {gs : List GElem} {hs lk : List Nat}

/-- C33.  Detaching an element of a mutable tree: it becomes the top element of a tree of its own with
unchanged content; its old tree is the old tree without it; elements below it go with it; everything else
stays where it was, except that later siblings (and what is below them) move one to the left. -/
theorem C33_detach {p r i : Nat} {P : List Nat} (h : HReach s gs hs lk) (hp : p ∈ hs)
    (hm : s.mutable p = true) (hl : s.Loc p r (P ++ [i])) :
    ∃ s', Cur.detach p s = .ok () s' ∧ HReach s' gs hs lk ∧
      s'.Loc p p [] ∧ s'.tree p = s.tree p ∧ s'.mutable p = true ∧
      ∀ x ∈ hs, ∀ r0 Q, s.Loc x r0 Q →
        (r0 ≠ r → s'.Loc x r0 Q ∧ s'.tree r0 = s.tree r0) ∧
        (r0 = r →
          match Tree.afterCut P i Q with
          | .stays Q' => s'.Loc x r Q' ∧ s'.tree r = (s.tree r).removeAt P i
          | .cut R => s'.Loc x p R) := by
  letI : Greens := ⟨gs⟩
  have ok := h.ok'
  obtain ⟨kids, hi⟩ := ok
  obtain ⟨v, hv⟩ := HSt.Views.exists_view hi
  have hr : (Call.detach p).Ready s gs hs hs :=
    ⟨.refl _, by simpa [Call.uses] using hp, by simp [Call.nodes], by simp⟩
  obtain ⟨h1, _⟩ := Call.exec_detach (rest := hs) ⟨kids, hi⟩ hr hv
  obtain ⟨s', e1, ⟨kids', hi'⟩, e3, e4⟩ := h1 hm
  have hpos : ∀ x ∈ hs, 0 < cnt (hs ++ lk) x := fun x hx => cnt_pos.mpr (List.mem_append_left _ hx)
  have hpp := hv.pos_eq (hpos p hp) hl
  have hcut : v.cut p = v.cutAt p r P i := by simp [View.cut, hpp]
  rw [hcut] at e4
  have hpr : p ≠ r := by
    rintro rfl
    have := (hl.unique (.root hl.live hl.root_live.2)).2
    simp at this
  have e0 : Cur.detach p s = .ok () s' := by
    simp only [Call.exec, H.bind_def] at e1
    split at e1 <;> cases e1
    assumption
  have htr : s.tree r = v.tree r := by
    have := (hv p (hpos p hp)).2.1
    rwa [hpp] at this
  have hpos' : (v.cutAt p r P i).pos p = (p, []) := by
    rw [View.cutAt_pos_eq, hpp]
    simp [cutLoc, Tree.afterCut_here]
  obtain ⟨p1, p2, p3⟩ := e4 p (hpos p hp)
  rw [hpos'] at p1 p2
  refine ⟨s', e0, .ok (rest := hs) (new := []) (.detach p) h hr e1, p1, ?_, ?_, ?_⟩
  · rw [p2, View.cutAt_tree_eq, if_pos rfl, ← htr, hi.tree_at hl]; rfl
  · rw [e3.mutable p (hpos p hp)]; exact hm
  · intro x hx r0 Q hxl
    have hxp := hv.pos_eq (hpos x hx) hxl
    obtain ⟨x1, x2, _⟩ := e4 x (hpos x hx)
    rw [View.cutAt_pos_eq, hxp] at x1 x2
    refine ⟨fun hne => ?_, fun he => ?_⟩
    · have hloc : cutLoc r p P i r0 Q = (r0, Q) := by simp [cutLoc, hne]
      simp only [hloc] at x1 x2
      have hnp : r0 ≠ p := by
        rintro rfl
        have := (hl.unique (.root hl.live hxl.root_live.2)).2
        simp at this
      rw [View.cutAt_tree_eq, if_neg hnp, if_neg hne] at x2
      have := (hv x (hpos x hx)).2.1
      rw [hxp] at this
      exact ⟨x1, x2.trans this.symm⟩
    · subst he
      cases hac : Tree.afterCut P i Q with
      | stays Q' =>
        have hloc : cutLoc r0 p P i r0 Q = (r0, Q') := by simp [cutLoc, hac]
        simp only [hloc] at x1 x2
        rw [View.cutAt_tree_eq, if_neg (Ne.symm hpr), if_pos rfl, ← htr] at x2
        exact ⟨x1, x2⟩
      | cut R =>
        have hloc : cutLoc r0 p P i r0 Q = (p, R) := by simp [cutLoc, hac]
        simp only [hloc] at x1
        exact x1

/-- C33.  Detaching the top element of a mutable tree does nothing. -/
theorem C33_detach_root {p : Nat} (h : HReach s gs hs lk) (hm : s.mutable p = true)
    (hl : s.Loc p p []) : Cur.detach p s = .ok () s := by
  letI : Greens := ⟨gs⟩
  obtain ⟨kids, hi⟩ := h.ok'
  exact Cur.detach_root hi hl.live hm hl.root_live.2

/-- C33.  Detaching an element of an immutable tree panics and changes nothing. -/
theorem C33_detach_immutable {p : Nat} (h : HReach s gs hs lk) (hp : p ∈ hs) (hm : s.mutable p = false) :
    Cur.detach p s = .panic .assert s := by
  letI : Greens := ⟨gs⟩
  obtain ⟨kids, hi⟩ := h.ok'
  exact Cur.detach_panic (hi.hlive p (cnt_pos.mpr (List.mem_append_left _ hp))) hm


/-- The children that a loop over `children()` (`nodes := true`) or `children_with_tokens()` is about. -/
def loopKids (nodes : Bool) (c : Tree) : Bool := !nodes || c.isNode

/-- C35, what really happens: `for c in q.children() { c.detach() }` (or with `children_with_tokens()`)
detaches only the *first* child it is about.  Nothing outside the elements above `q` changes its content. -/
theorem C35_detach_loop {nodes : Bool} {q : Nat} {k : SyntaxKind} {cs : List Tree} (h : HReach s gs hs lk)
    (hq : q ∈ hs) (hm : s.mutable q = true) (ht : s.tree q = .node k cs) (room : s.Room (3 * (cs.length + 1) + 1)) :
    ∃ s', Cur.detachEach nodes q s = .ok () s' ∧
      s'.tree q = .node k (cs.eraseP (loopKids nodes)) ∧
      ∀ x ∈ hs, ¬ s.Above x q → s'.tree x = s.tree x := by
  letI : Greens := ⟨gs⟩
  obtain ⟨kids, hi⟩ := h.ok'
  obtain ⟨v, hv⟩ := HSt.Views.exists_view hi
  have hpos : ∀ x ∈ hs, 0 < cnt (hs ++ lk) x := fun x hx => cnt_pos.mpr (List.mem_append_left _ hx)
  have hw := Cur.detachEach_view (nodes := nodes) hi (hpos q hq) hm (by rw [ht]; rfl) hv
  have hsub := (hv.sub_eq hi (hpos q hq)).trans (congrArg some ht)
  rw [H.wp] at hw
  cases hr : Cur.detachEach nodes q s with
  | abort => exact absurd hr (Cur.detachEach_no_abort (by rw [ht]; exact room))
  | ub => rw [hr] at hw; exact hw.elim
  | diverge => rw [hr] at hw; exact hw.elim
  | panic w s' => rw [hr] at hw; exact hw.elim
  | ok u s' =>
    rw [hr] at hw
    obtain ⟨⟨kids', hi'⟩, _, hw⟩ := hw
    refine ⟨s', rfl, ?_⟩
    rcases hw with ⟨e, j, hf, he, hv'⟩ | ⟨hn, hv'⟩
    · refine ⟨hv'.tree_eq hi' (hpos q hq) (View.cutKid_sub hsub hf he.1), fun x hx hna => ?_⟩
      refine hv'.tree_eq hi' (hpos x hx) ?_
      rw [View.cutKid_off hf he (hpos x hx) fun e => hna ((Call.above_iff hv (hpos x hx) (hpos q hq)).mpr e)]
      exact hv.sub_eq hi (hpos x hx)
    · refine ⟨hv'.tree_eq hi' (hpos q hq) ?_, fun x hx _ => hv'.tree_eq hi' (hpos x hx) (hv.sub_eq hi (hpos x hx))⟩
      rw [hsub, List.eraseP_of_forall_not fun c hc => ?_]
      rw [loopKids, View.no_firstKid hsub hn c hc]; simp

/-- C35 fails: if the loop is about at least two children, one of them is still there afterwards. -/
theorem C35_loop_leaves_children {nodes : Bool} {q : Nat} {k : SyntaxKind} {cs : List Tree}
    (h : HReach s gs hs lk) (hq : q ∈ hs) (hm : s.mutable q = true) (ht : s.tree q = .node k cs)
    (room : s.Room (3 * (cs.length + 1) + 1)) (h2 : 2 ≤ (cs.filter (loopKids nodes)).length) :
    ∃ s' cs', Cur.detachEach nodes q s = .ok () s' ∧
      s'.tree q = .node k cs' ∧ ∃ c ∈ cs', loopKids nodes c = true := by
  obtain ⟨s', e1, e2, _⟩ := C35_detach_loop (nodes := nodes) h hq hm ht room
  · refine ⟨s', _, e1, e2, ?_⟩
    clear e1 e2 ht room
    induction cs with
    | nil => simp at h2
    | cons d cs ih =>
      by_cases hd : loopKids nodes d = true
      · rw [List.filter_cons_of_pos hd, List.length_cons] at h2
        rw [List.eraseP_cons_of_pos hd]
        obtain ⟨c, hc⟩ := List.exists_mem_of_length_pos (l := cs.filter (loopKids nodes)) (by omega)
        exact ⟨c, (List.mem_filter.mp hc).1, (List.mem_filter.mp hc).2⟩
      · rw [List.filter_cons_of_neg hd] at h2
        rw [List.eraseP_cons_of_neg hd]
        obtain ⟨c, h1, h2⟩ := ih h2
        exact ⟨c, List.mem_cons_of_mem _ h1, h2⟩

/-- C35, the part that holds: if the loop is about at most one child, it detaches it. -/
theorem C35_partial {nodes : Bool} {q : Nat} {k : SyntaxKind} {cs : List Tree} (h : HReach s gs hs lk)
    (hq : q ∈ hs) (hm : s.mutable q = true) (ht : s.tree q = .node k cs)
    (room : s.Room (3 * (cs.length + 1) + 1)) (h1 : (cs.filter (loopKids nodes)).length ≤ 1) :
    ∃ s', Cur.detachEach nodes q s = .ok () s' ∧
      s'.tree q = .node k (cs.filter fun c => !loopKids nodes c) := by
  obtain ⟨s', e1, e2, _⟩ := C35_detach_loop (nodes := nodes) h hq hm ht room
  · refine ⟨s', e1, ?_⟩
    rw [e2]
    congr 1
    clear e1 e2 ht room
    induction cs with
    | nil => rfl
    | cons d cs ih =>
      by_cases hd : loopKids nodes d = true
      · rw [List.filter_cons_of_pos hd, List.length_cons] at h1
        rw [List.eraseP_cons_of_pos hd, List.filter_cons_of_neg (by simp [hd])]
        refine (List.filter_eq_self.mpr fun c hc => ?_).symm
        have : cs.filter (loopKids nodes) = [] := List.eq_nil_of_length_eq_zero (by omega)
        have := List.filter_eq_nil_iff.mp this c hc
        simpa using this
      · rw [List.filter_cons_of_neg hd] at h1
        rw [List.eraseP_cons_of_neg hd, List.filter_cons_of_pos (by simp [hd]), ih h1]

/-- C35 for the `by_kind` iterators: `for c in q.children().by_kind(m) { c.detach() }` (or with
`children_with_tokens()`) does detach every child it is about. -/
theorem C35_by_kind {nodes : Bool} {m : SyntaxKind → Bool} {q : Nat} {k : SyntaxKind} {cs : List Tree}
    (h : HReach s gs hs lk) (hq : q ∈ hs) (hm : s.mutable q = true) (ht : s.tree q = .node k cs) (room : s.Room (3 * (cs.length + 1) + 1)) :
    ∃ s', Cur.detachByKind nodes m q s = .ok () s' ∧
      s'.tree q = .node k (cs.filter fun c => !(loopKids nodes c && m c.kind)) ∧
      ∀ x ∈ hs, ¬ s.Above x q → s'.tree x = s.tree x := by
  letI : Greens := ⟨gs⟩
  obtain ⟨kids, hi⟩ := h.ok'
  obtain ⟨v, hv⟩ := HSt.Views.exists_view hi
  have hpos : ∀ x ∈ hs, 0 < cnt (hs ++ lk) x := fun x hx => cnt_pos.mpr (List.mem_append_left _ hx)
  have hw := Cur.detachByKind_view (nodes := nodes) (m := m) hi (hpos q hq) hm (by rw [ht]; rfl) hv
  have hsub := (hv.sub_eq hi (hpos q hq)).trans (congrArg some ht)
  have hok : (fun c => !okKind nodes m c) = fun c => !(loopKids nodes c && m c.kind) := by
    funext c
    cases nodes <;> simp [okKind, loopKids, Tree.nodeOf, Tree.ofKind]
  rw [H.wp] at hw
  cases hr : Cur.detachByKind nodes m q s with
  | abort => exact absurd hr (Cur.detachByKind_no_abort (by rw [ht]; exact room))
  | ub => rw [hr] at hw; exact hw.elim
  | diverge => rw [hr] at hw; exact hw.elim
  | panic w s' => rw [hr] at hw; exact hw.elim
  | ok u s' =>
    rw [hr] at hw
    obtain ⟨⟨kids', hi'⟩, _, w, hw, hv'⟩ := hw
    refine ⟨s', rfl, ?_, fun x hx hna => ?_⟩
    · rw [← hok]
      exact hv'.tree_eq hi' (hpos q hq) (View.cutKids_sub hw hsub)
    · refine hv'.tree_eq hi' (hpos x hx) ?_
      rw [View.cutKids_off hw (hpos q hq) (hpos x hx)
        fun e => hna ((Call.above_iff hv (hpos x hx) (hpos q hq)).mpr e)]
      exact hv.sub_eq hi (hpos x hx)

end

/-! ## Concrete cases -/

theorem demo_loc2 : demo.s.Loc 2 0 ([] ++ [1]) := .child' (q := 0) (by decide +kernel) (by decide +kernel) (by decide +kernel) (.root (by decide +kernel) (by decide +kernel))
theorem demo_loc0 : demo.s.Loc 0 0 [] := .root (by decide +kernel) (by decide +kernel)

/-- `C33_detach` applies to the token `b` of `demo`. -/
example : ∃ s', Cur.detach 2 demo.s = .ok () s' ∧ s'.tree 2 = .token 1 ['b'] := by
  obtain ⟨s', h1, _, _, h4, _⟩ := C33_detach demo_reach (by decide +kernel) (by decide +kernel) demo_loc2
  exact ⟨s', h1, h4.trans (by decide +kernel)⟩
example : (Cur.detach 2 demo.s).tree? 0 = some (.node 20 [.token 1 ['a'], .node 10 [.token 2 ['c', 'c']]]) := by
  decide +kernel
/-- `C33_detach_root` applies to its top node, `C33_detach_immutable` to the immutable tree. -/
example := C33_detach_root demo_reach (by decide +kernel) demo_loc0
example := C33_detach_immutable (p := 5) demo_reach (by decide +kernel) (by decide +kernel)

/-- The counterexample to C35: of the three children only the first is detached. -/
example : (Cur.detachEach false 0 demo.s).tree? 0 = some (.node 20 [.token 1 ['b'], .node 10 [.token 2 ['c', 'c']]]) := by
  decide +kernel
example := C35_loop_leaves_children (nodes := false) demo_reach (by decide +kernel) (by decide +kernel) demo_tree.1 (demo_room.mono (by decide)) (by decide +kernel)
/-- The loop over the child nodes: there is only one, `C35_partial` applies. -/
example := C35_partial (nodes := true) demo_reach (by decide +kernel) (by decide +kernel) demo_tree.1 (demo_room.mono (by decide)) (by decide +kernel)
example : (Cur.detachEach true 0 demo.s).tree? 0 = some (.node 20 [.token 1 ['a'], .token 1 ['b']]) := by
  decide +kernel
/-- With `by_kind` both tokens are detached. -/
example := C35_by_kind (nodes := false) (m := (· == 1)) demo_reach (by decide +kernel) (by decide +kernel) demo_tree.1 (demo_room.mono (by decide))
example : (Cur.detachByKind false (· == 1) 0 demo.s).tree? 0 = some (.node 20 [.node 10 [.token 2 ['c', 'c']]]) := by
  decide +kernel

end Rowan
