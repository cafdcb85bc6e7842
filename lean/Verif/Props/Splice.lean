import Verif.HeapContent
import Verif.EditCycle
import Verif.HeapDemo
import Verif.Spec.History
/-!
# C34, C40: `splice_children`

The theorems are about any state a program over the cursor API can reach (`HReach`); `s.tree x` is the content
of the element `x`, `s.Above x y` says that `x` is `y` or an ancestor of `y`.
-/
namespace Rowan
open Cur (plus)

section
variable {s : HSt} {gs : List GElem} {hs lk rest : List Nat}

/-- C34, what really happens: `q.splice_children(a..b, ins)` deletes only child `a` (if `a < b`), and inserts
the elements `ins` in front of what is then child `a`.  Elements that are neither above `q` nor above a moved
element keep their content. -/
theorem C34_splice {q a b : Nat} {ins : List Nat} {k : SyntaxKind} {cs : List Tree} (h : HReach s gs hs lk)
    (hh : hs.Perm (ins ++ rest)) (hq : q ∈ rest) (hm : s.mutable q = true) (ht : s.tree q = .node k cs)
    (ha : a ≤ cs.length) (hins : ∀ p ∈ ins, s.mutable p = true ∧ s.Apart p q) (hpw : ins.Pairwise s.Apart)
    (room : s.Room (3 * (cs.length + 1) + 1 + ins.length)) :
    ∃ s', Cur.splice q a b ins s = .ok () s' ∧
      s'.tree q = .node k (cs.take a ++ ins.map s.tree ++ cs.drop (if a < b then a + 1 else a)) ∧
      ∀ x ∈ rest, ¬ s.Above x q → (∀ p ∈ ins, s.Above x p → x = p) → s'.tree x = s.tree x := by
  letI : Greens := ⟨gs⟩
  obtain ⟨kids, hi⟩ := h.ok'
  obtain ⟨v, hv⟩ := HSt.Views.exists_view hi
  have hr : (Call.splice q a b ins).Ready s gs hs rest :=
    ⟨hh, by simpa [Call.uses] using hq, by simp [Call.nodes, ht, Tree.isNode], by simp⟩
  obtain ⟨e, hA, hV⟩ := Call.splice_agrees ⟨kids, hi⟩ hr hv
  have hna : Cur.splice q a b ins s ≠ .abort := fun e0 => by
    refine Call.no_abort (c := .splice q a b ins) (s := s) ?_ (by simp only [Call.exec, H.bind_def, e0])
    simp only [Call.cost, ht]; exact room
  have hV := (hV.resolve_left hna).1
  rw [plus_cnt, ← List.append_assoc, ← cnt_perm (hh.append_right lk)] at hV
  have hpos : ∀ x ∈ hs, 0 < cnt (hs ++ lk) x := fun x hx => cnt_pos.mpr (List.mem_append_left _ hx)
  have hpr : ∀ x ∈ rest, 0 < cnt (rest ++ lk) x := fun x hx => cnt_pos.mpr (List.mem_append_left _ hx)
  have hrs : ∀ x ∈ rest, x ∈ hs := fun x hx => hh.mem_iff.mpr (List.mem_append_right _ hx)
  have his : ∀ x ∈ ins, x ∈ hs := fun x hx => hh.mem_iff.mpr (List.mem_append_left _ hx)
  have hsub : ∀ x ∈ hs, v.sub x = some (s.tree x) := fun x hx => hv.sub_eq hi (hpos x hx)
  have hap : ∀ x ∈ hs, ∀ y ∈ hs, s.Apart x y → v.Apart x y := fun x hx y hy ⟨h1, h2⟩ =>
    ⟨fun e => h1 ((Call.above_iff hv (hpos x hx) (hpos y hy)).mpr e),
      fun e => h2 ((Call.above_iff hv (hpos y hy) (hpos x hx)).mpr e)⟩
  have hmut : ∀ x ∈ hs, v.mutable x = s.mutable x := fun x hx => (hv x (hpos x hx)).2.2.symm
  obtain ⟨w, hw1, hw2⟩ := View.splice_apart (hv.named hi) (hpos q (hrs q hq)) hV ((hmut q (hrs q hq)).trans hm)
    ((hsub q (hrs q hq)).trans (congrArg some ht)) ha
    (fun p hp => ⟨hpos p (his p hp), (hmut p (his p hp)).trans (hins p hp).1,
      hap p (his p hp) q (hrs q hq) (hins p hp).2⟩)
    (hpw.imp_of_mem fun hx hy h => hap _ (his _ hx) _ (his _ hy) h)
    (ts := ins.map s.tree) (by rw [List.map_map]; exact List.map_congr_left fun p hp => hsub p (his p hp))
  rcases hA with hA | hA
  · exact absurd hA hna
  · rw [hw1] at hA
    obtain ⟨s', e1, ⟨kids', hi'⟩, _, hv'⟩ := hA
    refine ⟨s', e1, hv'.tree_eq hi' (hpr q hq) hw2, fun x hx hxq hxp => ?_⟩
    refine hv'.tree_eq hi' (hpr x hx) ?_
    rw [View.splice_sub_off (hv.named hi) (hv.full hi) (hpos q (hrs q hq)) hV
      ((hsub q (hrs q hq)).trans (congrArg some ht)) (hpos x (hrs x hx))
      (fun e => hxq ((Call.above_iff hv (hpos x (hrs x hx)) (hpos q (hrs q hq))).mpr e))
      (fun p hp => hpos p (his p hp))
      (fun p hp e => hxp p hp ((Call.above_iff hv (hpos x (hrs x hx)) (hpos p (his p hp))).mpr e)) (by rw [hw1]; rfl)]
    exact hsub x (hrs x hx)

/-- C34, the part that holds: with a range of length 0 or 1 the children are the old ones with the children in
the range replaced by the elements. -/
theorem C34_partial {q a b : Nat} {ins : List Nat} {k : SyntaxKind} {cs : List Tree} (h : HReach s gs hs lk)
    (hh : hs.Perm (ins ++ rest)) (hq : q ∈ rest) (hm : s.mutable q = true) (ht : s.tree q = .node k cs)
    (hab : a ≤ b) (hb1 : b ≤ a + 1) (hb : b ≤ cs.length)
    (hins : ∀ p ∈ ins, s.mutable p = true ∧ s.Apart p q) (hpw : ins.Pairwise s.Apart)
    (room : s.Room (3 * (cs.length + 1) + 1 + ins.length)) :
    ∃ s', Cur.splice q a b ins s = .ok () s' ∧
      s'.tree q = .node k (cs.take a ++ ins.map s.tree ++ cs.drop b) := by
  obtain ⟨s', h1, h2, _⟩ := C34_splice (a := a) (b := b) h hh hq hm ht (Nat.le_trans hab hb) hins hpw room
  have e : (if a < b then a + 1 else a) = b := by split <;> omega
  rw [e] at h2
  exact ⟨s', h1, h2⟩

/-- C34 fails: with a range of length 2 or more, children in the range are left in place. -/
theorem C34_leaves_children {q a b : Nat} {ins : List Nat} {k : SyntaxKind} {cs : List Tree}
    (h : HReach s gs hs lk) (hh : hs.Perm (ins ++ rest)) (hq : q ∈ rest) (hm : s.mutable q = true)
    (ht : s.tree q = .node k cs) (hab : a + 2 ≤ b) (hb : b ≤ cs.length)
    (hins : ∀ p ∈ ins, s.mutable p = true ∧ s.Apart p q) (hpw : ins.Pairwise s.Apart)
    (room : s.Room (3 * (cs.length + 1) + 1 + ins.length)) :
    ∃ s', Cur.splice q a b ins s = .ok () s' ∧
      s'.tree q ≠ .node k (cs.take a ++ ins.map s.tree ++ cs.drop b) := by
  obtain ⟨s', h1, h2, _⟩ := C34_splice (a := a) (b := b) h hh hq hm ht (by omega) hins hpw room
  refine ⟨s', h1, fun e => ?_⟩
  rw [h2] at e
  have := congrArg List.length (Tree.node.inj e).2
  simp only [List.length_append, List.length_drop, List.length_take, List.length_map] at this
  split at this <;> omega

/-- C40 fails: moving an element below itself or below one of its descendants is not rejected, it never
returns.  (The run is cut off after an arbitrary number `n` of extra steps, see `H.loop`.) -/
theorem C40_cyclic_never_returns {q i p : Nat} {k : SyntaxKind} {cs : List Tree} (h : HReach s gs hs lk)
    (hh : hs.Perm ([p] ++ rest)) (hq : q ∈ rest) (hm : s.mutable q = true) (ht : s.tree q = .node k cs)
    (hi : i ≤ cs.length) (hpq : s.Above p q) (room : s.Room (3 * (cs.length + 1) + 2)) :
    ∀ n, Cur.splice q i i [p] { s with slack := n } = .diverge := by
  intro n
  letI : Greens := ⟨gs⟩
  obtain ⟨kids0, hi0⟩ := h.ok'
  obtain ⟨v, hv0⟩ := HSt.Views.exists_view hi0
  obtain ⟨kids, hi1⟩ := HOk.slack ⟨kids0, hi0⟩ n
  have hv := hv0.slack n
  have hr : (Call.splice q i i [p]).Ready { s with slack := n } gs hs rest :=
    ⟨hh, by simpa [Call.uses] using hq, by
      simp only [Call.nodes, List.mem_singleton]; rintro x rfl
      show (s.tree x).isNode = true
      rw [ht]; rfl, by simp⟩
  have hpos : ∀ x ∈ hs, 0 < cnt (hs ++ lk) x := fun x hx => cnt_pos.mpr (List.mem_append_left _ hx)
  have hqs : q ∈ hs := hh.mem_iff.mpr (List.mem_append_right _ hq)
  have hps : p ∈ hs := hh.mem_iff.mpr (by simp)
  have hab := (Call.above_iff hv0 (hpos p hps) (hpos q hqs)).mp hpq
  have hmp : s.mutable p = true := by
    obtain ⟨r, P, Q, l1, l2⟩ := hpq
    rw [← hi0.mutable_root l1, hi0.mutable_root l2]; exact hm
  obtain ⟨e, hA, _⟩ := Call.splice_agrees ⟨kids, hi1⟩ hr hv
  rw [View.splice_loops (hv0.named hi0) (hv0.full hi0) (hpos q hqs) (hpos p hps)
    ((hv0 q (hpos q hqs)).2.2.symm.trans hm) ((hv0 p (hpos p hps)).2.2.symm.trans hmp)
    ((hv0.sub_eq hi0 (hpos q hqs)).trans (congrArg some ht)) hi hab] at hA
  rcases hA with hA | hA
  · refine absurd (?_ : (Call.splice q i i [p]).exec { s with slack := n } = .abort) (Call.no_abort ?_)
    · simp only [Call.exec, H.bind_def, hA]
    · have e1 : (Call.splice q i i [p]).cost { s with slack := n } = 3 * (cs.length + 1) + 2 := by
        show 3 * ((s.tree q).children.length + 1) + 1 + 1 = _
        rw [ht]; rfl
      rw [e1]; exact room
  · exact hA

/-- C40: with an index that is too large, moving an element below itself or below one of its descendants is not
rejected either, and the panic comes too late: the element hangs below its own descendant. -/
theorem C40_cyclic_panics {q i p : Nat} {k : SyntaxKind} {cs : List Tree} (h : HReach s gs hs lk)
    (hh : hs.Perm ([p] ++ rest)) (hq : q ∈ rest) (hm : s.mutable q = true) (ht : s.tree q = .node k cs)
    (hi : cs.length < i) (hpq : s.Above p q) (room : s.Room (3 * (cs.length + 1) + 2)) :
    ∃ s', Cur.splice q i i [p] s = .panic .range s' ∧ s'.live p = true ∧ s'.parent p = some q ∧ s'.Up q p := by
  letI : Greens := ⟨gs⟩
  obtain ⟨kids, hi0⟩ := h.ok'
  obtain ⟨v, hv⟩ := HSt.Views.exists_view hi0
  have hr : (Call.splice q i i [p]).Ready s gs hs rest :=
    ⟨hh, by simpa [Call.uses] using hq, by
      simp only [Call.nodes, List.mem_singleton]; rintro x rfl
      rw [ht]; rfl, by simp⟩
  have hpos : ∀ x ∈ hs, 0 < cnt (hs ++ lk) x := fun x hx => cnt_pos.mpr (List.mem_append_left _ hx)
  have hqs : q ∈ hs := hh.mem_iff.mpr (List.mem_append_right _ hq)
  have hps : p ∈ hs := hh.mem_iff.mpr (by simp)
  have hab := (Call.above_iff hv (hpos p hps) (hpos q hqs)).mp hpq
  have hmp : s.mutable p = true := by
    obtain ⟨r, P, Q, l1, l2⟩ := hpq
    rw [← hi0.mutable_root l1, hi0.mutable_root l2]; exact hm
  obtain ⟨e, hA, _⟩ := Call.splice_agrees ⟨kids, hi0⟩ hr hv
  rw [View.splice_tangles (hv.named hi0) (hv.full hi0) (hpos q hqs) (hpos p hps)
    ((hv q (hpos q hqs)).2.2.symm.trans hm) ((hv p (hpos p hps)).2.2.symm.trans hmp)
    ((hv.sub_eq hi0 (hpos q hqs)).trans (congrArg some ht)) hi hab] at hA
  rcases hA with hA | ⟨s', _, h1, _, h2, h3, h4, _⟩
  · refine absurd (?_ : (Call.splice q i i [p]).exec s = .abort) (Call.no_abort ?_)
    · simp only [Call.exec, H.bind_def, hA]
    · have e1 : (Call.splice q i i [p]).cost s = 3 * (cs.length + 1) + 2 := by
        show 3 * ((s.tree q).children.length + 1) + 1 + 1 = _
        rw [ht]; rfl
      rw [e1]; exact room
  · exact ⟨s', h1, h2, h3, h4⟩

/-- C40: whatever else is moved along, and wherever, a splice that would put an element below itself does not
return normally. -/
theorem C40_cyclic_fails {q a b : Nat} {ins : List Nat} (h : HReach s gs hs lk)
    (hh : hs.Perm (ins ++ rest)) (hq : q ∈ rest) (hn : (s.tree q).isNode = true)
    (hpq : ∃ p ∈ ins, s.Above p q) (s' : HSt) : Cur.splice q a b ins s ≠ .ok () s' := by
  letI : Greens := ⟨gs⟩
  obtain ⟨kids, hi⟩ := h.ok'
  obtain ⟨v, hv⟩ := HSt.Views.exists_view hi
  have hr : (Call.splice q a b ins).Ready s gs hs rest :=
    ⟨hh, by simpa [Call.uses] using hq, by simpa [Call.nodes] using hn, by simp⟩
  have hpos : ∀ x ∈ hs, 0 < cnt (hs ++ lk) x := fun x hx => cnt_pos.mpr (List.mem_append_left _ hx)
  have hqs : q ∈ hs := hh.mem_iff.mpr (List.mem_append_right _ hq)
  have his : ∀ x ∈ ins, x ∈ hs := fun x hx => hh.mem_iff.mpr (List.mem_append_left _ hx)
  obtain ⟨e, hA, hV⟩ := Call.splice_agrees ⟨kids, hi⟩ hr hv
  intro e0
  rw [e0] at hA hV
  rcases hV with hV | ⟨hV, _⟩
  · cases hV
  rw [plus_cnt, ← List.append_assoc, ← cnt_perm (hh.append_right lk)] at hV
  obtain ⟨p, hp, hpq⟩ := hpq
  have hw : ∀ w, v.splice e q a b ins ≠ .done w := fun w =>
    View.splice_cyclic (hv.named hi) (hpos q hqs) hV (fun p hp => hpos p (his p hp))
      ⟨p, hp, (Call.above_iff hv (hpos p (his p hp)) (hpos q hqs)).mp hpq⟩
  rcases hA with hA | hA
  · cases hA
  · split at hA
    · next w hd => exact hw w hd
    · obtain ⟨_, a, _⟩ := hA; cases a
    · obtain ⟨_, _, a, _⟩ := hA; cases a
    · cases hA
    · obtain ⟨_, _, a, _⟩ := hA; cases a

/-- C40: every other call of the cursor API returns or panics, unless a reference count overflows. -/
theorem C40_others_return {c : Call} (h : HReach s gs hs lk) (hr : c.Ready s gs hs rest)
    (hc : ∀ q a b ins, c.Splices q a b ins → ∀ p ∈ ins, ¬ s.Above p q) (room : s.Room (c.cost s)) :
    (∃ new s', c.exec s = .ok new s') ∨ ∃ w s', c.exec s = .panic w s' := by
  have hna := Call.no_abort room
  letI : Greens := ⟨gs⟩
  obtain ⟨kids, hi⟩ := h.ok'
  obtain ⟨v, hv⟩ := HSt.Views.exists_view hi
  cases he : c.edits with
  | false =>
    have hw := Call.exec_stable ⟨kids, hi⟩ hr he
    rw [H.wp] at hw
    cases e : c.exec s with
    | ok a s' => exact .inl ⟨a, s', rfl⟩
    | panic w s' => exact .inr ⟨w, s', rfl⟩
    | abort => exact absurd e hna
    | ub => rw [e] at hw; exact hw.elim
    | diverge => rw [e] at hw; exact hw.elim
  | true =>
    rcases Call.edits_cases he with ⟨p, rfl⟩ | ⟨q, a, b, ins, sp⟩
    · obtain ⟨h1, h2⟩ := Call.exec_detach ⟨kids, hi⟩ hr hv
      cases hm : s.mutable p with
      | true => obtain ⟨s1, e1, _⟩ := h1 hm; exact .inl ⟨_, _, e1⟩
      | false => exact .inr ⟨_, _, h2 hm⟩
    · obtain ⟨x, r, h0, h1⟩ := Call.splice_acyclic ⟨kids, hi⟩ hr sp hv (hc q a b ins sp)
      have ha : r ≠ .abort := fun e => hna (by rw [h0, e]; rfl)
      have key : (∃ s', r = .ok () s') ∨ ∃ w s', r = .panic w s' := by
        rcases h1 with ⟨h1, h2, h3⟩ | h1
        · rcases h1 with h1 | h1
          · exact absurd h1 ha
          · split at h1
            · obtain ⟨s', e, _⟩ := h1; exact .inl ⟨s', e⟩
            · obtain ⟨s', e, _⟩ := h1; exact .inr ⟨_, s', e⟩
            · obtain ⟨s', _, e, _⟩ := h1; exact .inr ⟨_, s', e⟩
            · exact absurd ‹_› h2
            · exact absurd ‹_› (h3 _ _ _)
        · exact absurd h1 ha
      rcases key with ⟨s', e⟩ | ⟨w, s', e⟩
      · exact .inl ⟨[], s', by rw [h0, e]; rfl⟩
      · exact .inr ⟨w, s', by rw [h0, e]; rfl⟩

end

/-! ## Concrete cases -/

/-- A mutable tree `[a b [cc]]` as in `demo`, and a detached token `d`: handle 0 the top node, 1, 2, 3 its
children, 4 the token in 3, 6 the token `d`, 5 the top node of the tree that `d` was detached from. -/
def demo2 : Conf := after [
  .token 1 ['a'], .token 1 ['b'], .token 2 ['c', 'c'], .node 10 [0], .node 20 [3, 2, 0],
  .root true 0,
  .call (.nav .firstChildOrToken 0), .call (.nav .nextSiblingOrToken 1), .call (.nav .lastChildOrToken 0),
  .call (.nav .firstChildOrToken 3), .token 7 ['d'], .node 30 [0], .root true 0,
  .call (.nav .firstChildOrToken 5), .call (.detach 6)]
theorem demo2_reach : demo2.Reach := after_reach _
attribute [irreducible] demo2
theorem demo2_room : demo2.s.Room 1000 := demo2_reach.room (by decide +kernel) (by decide +kernel)
theorem demo2_tree : demo2.s.tree 0 = demoTree := by decide +kernel
theorem demo2_hs : demo2.hs.Perm ([6] ++ [5, 4, 3, 2, 1, 0]) := by decide +kernel
theorem demo2_loc0 : demo2.s.Loc 0 0 [] := .root (by decide +kernel) (by decide +kernel)
theorem demo2_loc3 : demo2.s.Loc 3 0 ([] ++ [2]) :=
  .child' (q := 0) (by decide +kernel) (by decide +kernel) (by decide +kernel) demo2_loc0
theorem demo2_loc6 : demo2.s.Loc 6 6 [] := .root (by decide +kernel) (by decide +kernel)

theorem demo2_apart : demo2.s.Apart 6 0 := by
  letI : Greens := ⟨[]⟩
  constructor <;>
  · rintro ⟨r, P, Q, l1, l2⟩
    first
    | have := (l1.unique demo2_loc6).1.symm.trans (l2.unique demo2_loc0).1
      cases this
    | have := (l1.unique demo2_loc0).1.symm.trans (l2.unique demo2_loc6).1
      cases this

/-- `C34_partial` applies: `b` is replaced by `d`. -/
example : ∃ s', Cur.splice 0 1 2 [6] demo2.s = .ok () s' ∧ s'.tree 0 =
    .node 20 [.token 1 ['a'], .token 7 ['d'], .node 10 [.token 2 ['c', 'c']]] := by
  obtain ⟨s', h1, h2⟩ := C34_partial (a := 1) (b := 2) demo2_reach demo2_hs (q := 0) (by decide +kernel)
    (by decide +kernel) demo2_tree (by decide) (by decide) (by decide)
    (by simp only [List.mem_singleton]; rintro p rfl; exact ⟨by decide +kernel, demo2_apart⟩) (by simp)
    (demo2_room.mono (by decide))
  exact ⟨s', h1, h2.trans (by decide +kernel)⟩

/-- The counterexample to C34: replacing all three children by `d` leaves two of them. -/
example : (Cur.splice 0 0 3 [6] demo2.s).tree? 0 =
    some (.node 20 [.token 7 ['d'], .token 1 ['b'], .node 10 [.token 2 ['c', 'c']]]) := by decide +kernel
example := C34_leaves_children (a := 0) (b := 3) demo2_reach demo2_hs (q := 0) (by decide +kernel)
    (by decide +kernel) demo2_tree (by decide) (by decide)
    (by simp only [List.mem_singleton]; rintro p rfl; exact ⟨by decide +kernel, demo2_apart⟩) (by simp)
    (demo2_room.mono (by decide))

/-- The counterexample to C40: the top node is to become a child of the inner node. -/
example : ∀ n, Cur.splice 3 0 0 [0] { demo2.s with slack := n } = .diverge :=
  C40_cyclic_never_returns (k := 10) (cs := [.token 2 ['c', 'c']]) (rest := [6, 5, 4, 3, 2, 1]) demo2_reach
    (by decide +kernel) (by decide +kernel) (by decide +kernel) (by decide +kernel) (by decide)
    ⟨0, [], [2], demo2_loc0, demo2_loc3⟩ (demo2_room.mono (by decide))
example := C40_cyclic_fails (q := 3) (a := 0) (b := 1) (ins := [6, 0]) (rest := [5, 4, 3, 2, 1]) demo2_reach
  (by decide +kernel) (by decide +kernel) (by decide +kernel) ⟨0, by simp, 0, [], [2], demo2_loc0, demo2_loc3⟩
example := C40_others_return (c := .splice 0 0 3 [6]) demo2_reach
  ⟨demo2_hs, by decide +kernel, by decide +kernel, fun _ _ e => by cases e⟩
  (by rintro _ _ _ _ ⟨⟩ p hp; rw [List.mem_singleton.mp hp]; exact demo2_apart.1)
  (by exact demo2_room.mono (by decide +kernel))

end Rowan
