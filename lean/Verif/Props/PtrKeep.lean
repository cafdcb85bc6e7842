import Verif.Props.TextKeep
import Verif.Props.Borrow
/-!
# C88: edits behind a node do not disturb the pointers to it
-/
namespace Rowan

section
variable [Lang] {C C' : Conf} {x r : Nat} {P : List Nat}

/-- C88 in terms of kind and range.  In state `C`, `x` is a node at place `P` of the tree with top `r`, with the nonempty range `R`, and no node around it
has its kind.  The program goes on and edits only behind `x` or in other trees.  In state `C'`, the pointer with the kind and
range that `x` had in `C` resolves in the tree that `SyntaxNode::new_root` makes of the green node of the top to the node at
`P`, which has the content that `x` had. -/
theorem C88_resolves {bs : BinarySearch} (hbs : Conforming bs) (h : C.Reach) (hx : x ∈ C.hs) (hl : C.s.Loc x r P)
    (hn : (C.s.tree x).isNode = true) {R : TextRange} (hR : Cur.textRange x C.s = .ok R C.s) (hne : R.start < R.stop)
    (only : (C.s.tree r).OnlyBelow (Lang.fromRaw (C.s.tree x).kind) P)
    (run : C.Run (fun s c => c.Later s x) x C') (hr : r ∈ C'.hs) (hm : C'.s.mutable r = true) :
    ∃ g n, Cur.nodeGreen r C'.s = .ok (.owned g) C'.s ∧
      (SyntaxNodePtr.mk (Lang.fromRaw (C.s.tree x).kind) R).tryToNode bs (.newRoot g) = .ok (some n) ∧
      n.path = P ∧ n.green.tree = C.s.tree x := by
  letI : Greens := ⟨C'.gs⟩
  obtain ⟨l1, b1, a1, k1⟩ := run.later h hx hl
  obtain ⟨t1, s1⟩ := HReach.spans h hl
  rw [HSt.Spans, hR] at s1
  have hR1 := (HOut.ok.inj s1).1
  have at' : (C'.s.tree r).at? P = some (C.s.tree x) := a1.trans t1
  obtain ⟨raw, cs, hx1⟩ : ∃ raw cs, C.s.tree x = .node raw cs := by
    cases ht : C.s.tree x with
    | node k cs => exact ⟨k, cs, rfl⟩
    | token => rw [ht] at hn; cases hn
  have hrn : (C'.s.tree r).isNode = true := by
    cases ht : C'.s.tree r with
    | node => rfl
    | token k w =>
      rw [ht, hx1] at at'
      cases P with
      | nil => simp [Tree.at?] at at'
      | cons => simp [Tree.at?_cons, Tree.children] at at'
  have hr' := run.reach h
  obtain ⟨g, g1, g2⟩ := C54_mutable hr' hr hrn hm
  obtain ⟨g', hg'⟩ := @Cur.node_green ⟨[]⟩ _ _ hrn
  obtain ⟨kids, hi⟩ := HReach.ok' hr'
  have hlive := hi.hlive r (cnt_pos.mpr (List.mem_append_left _ hr))
  have e : g = g' := by
    have : Cur.nodeGreen r C'.s = .ok (.owned g') C'.s := by
      simp only [Cur.nodeGreen]
      rw [H.bind_ok (Cur.greenRef_ok hi hlive hg'), H.bind_ok (H.rd_ok hlive), hm]; rfl
    rw [g2] at this
    cases (HOut.ok.inj this).1
    rfl
  subst e
  have hw : GElem.WF (.node g) := by
    rw [← hg']
    exact hi.uni.wf _ (.inl (HInv.alive_subs (hi.alive hlive) (GElem.self_mem_subs _)))
  have ht' : Reach ⟨false, 0, .node g⟩ (.node (.newRoot g)) := Reach.top hw
  have htree : (Root.mk false 0 (.node g)).tree = C'.s.tree r := g1.symm
  obtain ⟨n, n1, n2, n3⟩ := tryToNode_outermost hbs (r := ⟨false, 0, .node g⟩) rfl ht' rfl
    (ptr := ⟨Lang.fromRaw (C.s.tree x).kind, R⟩) hne (Q := P)
    (by
      rw [htree]
      refine ⟨raw, cs, by rw [at', hx1], by rw [hx1]; rfl, by rw [b1, hR1], ?_⟩
      rw [b1, hR1, hx1]
      rfl)
    (by
      rintro A hA hAne ⟨raw', cs', q1, q2, -⟩
      rw [htree] at q1
      obtain ⟨es, q⟩ := k1 A raw' cs' hA q1
      exact only A raw' es hA hAne q q2)
  refine ⟨g, n, g2, n1, n3, ?_⟩
  have := (C11_contents n2).1
  rw [SElem.path_node, n3, htree, at'] at this
  exact (Option.some.inj this).symm

/-- **C88.**  `ptr` is the pointer that `SyntaxNodePtr::new` makes of the node `m` of an immutable tree, whose range is not empty and
which is in no node of its kind.  In state `C` the tree with top `r` is a mutable copy of that tree, and `x` is the copy of
`m`.  The program goes on and edits only behind `x` or in other trees.  In state `C'` the pointer resolves, in the tree that
`SyntaxNode::new_root` makes of the green node of `r`, to the node in the place of `m`, with the content of `m`. -/
theorem C88_ptr {bs : BinarySearch} (hbs : Conforming bs) {r0 : Root} {m : SNode} (hm0 : Reach r0 (.node m)) {ptr : SyntaxNodePtr}
    (hptr : SyntaxNodePtr.new m = .ok ptr) (hne : ptr.range.start < ptr.range.stop) (only : r0.tree.OnlyBelow ptr.kind m.path)
    (h : C.Reach) (hx : x ∈ C.hs) (copy : C.s.tree r = r0.tree) (hl : C.s.Loc x r m.path)
    (run : C.Run (fun s c => c.Later s x) x C') (hr : r ∈ C'.hs) (hm : C'.s.mutable r = true) :
    ∃ g n, Cur.nodeGreen r C'.s = .ok (.owned g) C'.s ∧ ptr.tryToNode bs (.newRoot g) = .ok (some n) ∧
      n.path = m.path ∧ n.green.tree = m.green.tree := by
  obtain ⟨t1, s1⟩ := HReach.spans h hl
  have c1 := (C11_contents hm0).1
  rw [SElem.path_node, ← copy, t1] at c1
  have c1 : C.s.tree x = m.green.tree := Option.some.inj c1
  obtain ⟨y, y1, y2, y3, y4, -⟩ := C11_ranges hm0
  rw [SElem.path_node, ← copy, t1] at y1
  cases y1
  have y3 : m.textRange.start = blen (r0.tree.before m.path) := y3
  have y4 : m.textRange.len = blen (C.s.tree x).text := y4
  have hp : ptr = ⟨Lang.fromRaw (C.s.tree x).kind, m.textRange⟩ := by
    rw [SyntaxNodePtr.new] at hptr
    split at hptr
    · cases hptr
      rw [← y2]
      rfl
    · cases hptr
  subst hp
  have hle := m.textRange.le
  rw [TextRange.len] at y4
  obtain ⟨g, n, g1, g2, g3, g4⟩ := C88_resolves hbs h hx hl (by rw [c1]; exact GNode.tree_isNode _) (R := m.textRange)
    (by
      rw [s1, copy]
      congr 1
      ext
      · exact y3.symm
      · show _ + _ = _
        omega) hne (by rw [copy]; exact only) run hr hm
  exact ⟨g, n, g1, g2, g3, g4.trans c1⟩

end

section
attribute [local instance] rawLang

/-- The tree of `demo87` as an immutable tree, and its first inner node. -/
def ptrInner : GNode := GNode.new 7 10 [exTok 0 1 "a", exTok 1 1 "b"]
def ptrGreen : GNode := GNode.new 9 20 [.node ptrInner, .node (GNode.new 8 10 [exTok 2 1 "ab"]), exTok 3 2 "z"]
def ptrFst : SNode := .child (.newRoot ptrGreen) 0 0 ptrInner
theorem ptrGreen_wf : GElem.WF (.node ptrGreen) := by
  refine (Made.node _ _ _ ?_).wf
  intro e he
  simp only [List.mem_cons, List.not_mem_nil, or_false] at he
  rcases he with rfl | rfl | rfl
  · refine .node _ _ _ ?_
    intro e he
    simp only [List.mem_cons, List.not_mem_nil, or_false] at he
    rcases he with rfl | rfl <;> exact .token ..
  · refine .node _ _ _ ?_
    intro e he
    simp only [List.mem_cons, List.not_mem_nil, or_false] at he
    subst he
    exact .token ..
  · exact .token ..
theorem ptrFst_reach : Reach ⟨false, 0, .node ptrGreen⟩ (.node ptrFst) := Reach.firstChild (Reach.top ptrGreen_wf) rfl

/-- In the copy `demo87` the token behind the inner nodes is detached; the pointer to the first inner node resolves in the
edited tree. -/
example : ∃ C' g n, demo87.Run (fun s c => c.Later s 1) 1 C' ∧ C'.s.tree 0 ≠ demo87.s.tree 0 ∧
    SyntaxNodePtr.new ptrFst = .ok ⟨(10 : SyntaxKind), ⟨0, 2, by decide⟩⟩ ∧ Cur.nodeGreen 0 C'.s = .ok (.owned g) C'.s ∧
    SyntaxNodePtr.tryToNode stdSearch ⟨(10 : SyntaxKind), ⟨0, 2, by decide⟩⟩ (.newRoot g) = .ok (some n) ∧ n.path = [0] ∧
    n.green.tree.text = ['a', 'b'] := by
  letI : Greens := ⟨demo87.gs⟩
  have key : (match (Call.detach 3).exec demo87.s with
      | .ok [] s' => decide (s'.tree 0 ≠ demo87.s.tree 0 ∧ s'.mutable 0 = true)
      | _ => false) = true := by decide +kernel
  split at key
  · rename_i s' he
    have run : demo87.Run (fun s c => c.Later s 1) 1 ⟨s', demo87.gs, [] ++ [3, 2, 1, 0], [] ++ demo87.lk⟩ := by
      refine .step (l := some (.detach 3, [3, 2, 1, 0])) .refl
        (.ok demo87 (.detach 3) (rest := [3, 2, 1, 0]) ⟨by decide +kernel, by simp [Call.uses], by simp [Call.nodes], by simp⟩ he) ?_
      rintro c rest ⟨⟩
      refine ⟨by simp, fun r P P' h1 h2 => ?_⟩
      obtain ⟨_, e1⟩ := demo87_loc1.unique h1
      obtain ⟨_, e2⟩ := demo87_loc3.unique h2
      subst e1 e2
      exact ⟨[], 0, 2, [], [], by decide, rfl, rfl⟩
    have key := of_decide_eq_true key
    have hnew : SyntaxNodePtr.new ptrFst = .ok ⟨(10 : SyntaxKind), ⟨0, 2, by decide⟩⟩ := by decide +kernel
    have ht : (Root.mk false 0 (.node ptrGreen)).tree =
        .node 20 [.node 10 [.token 1 ['a'], .token 1 ['b']], .node 10 [.token 1 ['a', 'b']], .token 2 ['z']] := by decide +kernel
    obtain ⟨g, n, h1, h2, h3, h4⟩ := C88_ptr stdSearch_conforming ptrFst_reach hnew (by decide)
      (by
        intro A raw cs hA hne hat
        have : A = [] := by
          obtain ⟨B, hB⟩ := hA
          match A, hB with
          | [], _ => rfl
          | [a], hB => exact absurd (by cases B with | nil => simpa using hB | cons => simp [ptrFst, SNode.path, SNode.newRoot] at hB) hne
          | a :: b :: A, hB => simp [ptrFst, SNode.path, SNode.newRoot] at hB
        subst this
        rw [ht] at hat
        cases hat
        decide)
      demo87_reach (x := 1) (r := 0) (by decide +kernel) (by rw [ht]; exact demo87_tree) demo87_loc1 run (by simp) key.2
    refine ⟨_, g, n, run, key.1, hnew, h1, h2, h3, ?_⟩
    rw [h4]
    decide +kernel
  · cases key

/-- A mutable tree `[[ab] z]` with inner and outer node of one kind: handle 0 the top node, 1 the inner node, 2 the token `z`. -/
def demo88 : Conf := after [
  .token 1 ['a', 'b'], .node 10 [0], .token 2 ['z'], .node 10 [1, 0],
  .root true 0, .call (.nav .firstChildOrToken 0), .call (.nav .nextSiblingOrToken 1)]
theorem demo88_reach : demo88.Reach := after_reach _
attribute [irreducible] demo88
theorem demo88_loc0 : demo88.s.Loc 0 0 [] := .root (by decide +kernel) (by decide +kernel)
theorem demo88_loc1 : demo88.s.Loc 1 0 [0] :=
  .child' (P := []) (q := 0) (by decide +kernel) (by decide +kernel) (by decide +kernel) demo88_loc0
theorem demo88_loc2 : demo88.s.Loc 2 0 [1] :=
  .child' (P := []) (q := 0) (by decide +kernel) (by decide +kernel) (by decide +kernel) demo88_loc0

/-- Why the node must not be in a node of its kind: `x` is at `[0]`, and all that is behind it is detached.  Then the pointer
resolves to the top node. -/
theorem C88_kind_needed : ∃ (C C' : Conf) (x : Nat) (g : GNode) (n : SNode), C.Reach ∧ x ∈ C.hs ∧ C.s.Loc x 0 [0] ∧
    (C.s.tree x).kind = 10 ∧ C.s.Spans x 0 2 ∧ C.Run (fun s c => c.Later s x) x C' ∧
    Cur.nodeGreen 0 C'.s = .ok (.owned g) C'.s ∧
    SyntaxNodePtr.tryToNode stdSearch ⟨(10 : SyntaxKind), ⟨0, 2, by decide⟩⟩ (.newRoot g) = .ok (some n) ∧ n.path = [] := by
  letI : Greens := ⟨demo88.gs⟩
  have key : (match (Call.detach 2).exec demo88.s with
      | .ok [] s' => match s'.green 0 with
        | .node g => match SyntaxNodePtr.tryToNode stdSearch ⟨(10 : SyntaxKind), ⟨0, 2, by decide⟩⟩ (.newRoot g) with
          | .ok (some n) => decide (n.path = [] ∧ s'.mutable 0 = true)
          | _ => false
        | _ => false
      | _ => false) = true := by decide +kernel
  split at key
  · rename_i s' he
    split at key
    · rename_i g hg
      split at key
      · rename_i n hn
        obtain ⟨k1, k2⟩ := of_decide_eq_true key
        have run : demo88.Run (fun s c => c.Later s 1) 1 ⟨s', demo88.gs, [] ++ [2, 1, 0], [] ++ demo88.lk⟩ := by
          refine .step (l := some (.detach 2, [2, 1, 0])) .refl
            (.ok demo88 (.detach 2) (rest := [2, 1, 0]) ⟨by decide +kernel, by simp [Call.uses], by simp [Call.nodes], by simp⟩ he) ?_
          rintro c rest ⟨⟩
          refine ⟨by simp, fun r P P' h1 h2 => ?_⟩
          obtain ⟨_, e1⟩ := demo88_loc1.unique h1
          obtain ⟨_, e2⟩ := demo88_loc2.unique h2
          subst e1 e2
          exact ⟨[], 0, 1, [], [], by decide, rfl, rfl⟩
        have hsp := (HReach.spans demo88_reach demo88_loc1).2
        have h1 : blen ((demo88.s.tree 0).before [0]) = 0 := by decide +kernel
        have h3 : blen (demo88.s.tree 1).text = 2 := by decide +kernel
        rw [h1, h3] at hsp
        obtain ⟨kids, hi⟩ := HReach.ok' (run.reach demo88_reach)
        have hlive := hi.hlive 0 (cnt_pos.mpr (List.mem_append_left _ (by simp)))
        refine ⟨demo88, _, 1, g, n, demo88_reach, by decide +kernel, demo88_loc1, by decide +kernel, hsp, run, ?_, hn, k1⟩
        simp only [Cur.nodeGreen]
        rw [H.bind_ok (Cur.greenRef_ok hi hlive hg), H.bind_ok (H.rd_ok hlive), k2]; rfl
      · cases key
    · cases key
  · cases key

end

end Rowan
