import Verif.TextEqLemmas
import Verif.Props.StaleText
/-!
# C84: comparing the texts of mutable trees
-/
namespace Rowan
open RProg Prog

section
variable {T : List Nat} {r r' : Nat} {s : HSt} {gs : List GElem} {n : Nat} {J : List Live} {rest lk : List Nat}

theorem Running.nodeIn (h : Running T s gs n J rest lk) {j : Live} (hj : j ∈ J) {P : List Nat} (hp : s.Loc j.obj r P)
    (hn : (s.tree j.obj).isNode = true) {now : TextRange} (hnow : Cur.textRange j.obj s = .ok now s) :
    ∃ m : SNode, Reach (s.rootVal r) (.node m) ∧ (j.id, .node m) ∈ Live.snaps J ∧ m.textRange = now ∧
      (s.rootVal r).green.Coherent ∧ shown (s.tree r).text now now = some (s.tree j.obj).text := by
  letI : Greens := ⟨gs⟩
  have hcoh := h.coherent hp.root_live.1
  obtain ⟨r0, -, h1, h2, h3⟩ := h.snap j hj
  obtain ⟨rfl, e⟩ := hp.unique h1
  have hmem : (j.id, j.snap) ∈ Live.snaps J := List.mem_map_of_mem hj
  obtain ⟨hc, kids, hi⟩ := h.inv
  have hg : j.snap.green.tree = s.tree j.obj := by rw [← (h.snap j hj).green hi]; rfl
  have hat := hi.tree_at hp
  cases hs : j.snap with
  | token t =>
    rw [hs] at hg
    rw [← hg] at hn
    simp [GToken.tree, Tree.isNode] at hn
  | node m =>
    rw [hs] at h2 h3 hmem e
    rw [h2] at h3
    rw [Cur.textRange_ok hi hp] at hnow
    have e0 := (HOut.ok.inj hnow).1
    obtain ⟨y, y1, y2, y3, y4, y5⟩ := C11_ranges h3
    rw [← e] at y1 y3
    have y1 : (s.tree r).at? P = some y := y1
    rw [hat] at y1
    cases y1
    have hs : m.textRange.start = blen ((s.tree r).before P) := y3
    have hl : m.textRange.len = blen (s.tree j.obj).text := y4
    refine ⟨m, h3, hmem, ?_, hcoh, ?_⟩
    · rw [TextRange.len] at hl
      have hle := m.textRange.le
      rw [← e0]
      ext
      · exact hs
      · show m.textRange.stop = blen ((s.tree r).before P) + blen (s.tree j.obj).text
        omega
    · have := now.le
      rw [shown, Nat.max_self, Nat.min_self, if_pos this, ← e0, Tree.text_split hat]
      exact bslice_unique_of_append

/-- C84, the part that holds.  As long as both nodes have the ranges that they had when `text()` was called, `==` says
whether their texts are equal.  The nodes may be in one tree or in two. -/
theorem C84_partial (h : Running T s gs n J rest lk) {j j' : Live} (hj : j ∈ J) (hj' : j' ∈ J) {P P' : List Nat}
    (hp : s.Loc j.obj r P) (hp' : s.Loc j'.obj r' P') (hn : (s.tree j.obj).isNode = true)
    (hn' : (s.tree j'.obj).isNode = true) {R R' : TextRange} (hR : Cur.textRange j.obj s = .ok R s)
    (hR' : Cur.textRange j'.obj s = .ok R' s) :
    (Text.eq ⟨j.id, R⟩ ⟨j'.id, R'⟩).Answers T s gs n J rest lk (.ok (decide ((s.tree j.obj).text = (s.tree j'.obj).text)))
      fun a b L => a = b ∧ L.Perm (Live.snaps J) := by
  obtain ⟨m, h1, h2, rfl, hcoh, hsh⟩ := h.nodeIn hj hp hn hR
  obtain ⟨m', h1', h2', rfl, hcoh', hsh'⟩ := h.nodeIn hj' hp' hn' hR'
  obtain ⟨ws, w1, -⟩ := SyntaxText.tokensWithRanges_any hcoh h1 m.textRange
  obtain ⟨ws', w1', -⟩ := SyntaxText.tokensWithRanges_any hcoh' h1' m'.textRange
  have key := (Text.eq_comp (t := ⟨m, m.textRange⟩) (u := ⟨m', m'.textRange⟩) ⟨ws, w1⟩ ⟨ws', w1'⟩ h2 h2').heap h
  rw [shown, Nat.max_self, Nat.min_self, if_pos m.textRange.le] at hsh
  rw [shown, Nat.max_self, Nat.min_self, if_pos m'.textRange.le] at hsh'
  rw [show SyntaxText.eq ⟨m, m.textRange⟩ ⟨m', m'.textRange⟩ = _ from
    C29_eq hcoh hcoh' (.text h1) (.text h1') hsh hsh'] at key
  exact key

/-- **C84**, what really happens.  In any state, and however the ranges of the texts compare with the ranges that the nodes
have now, as long as no character is cut in two: `==` ends.  It says `true` if the ranges have the same length and what they
show is equal.  If it says `true`, the ranges have the same length, but of what is shown on one side it is only sure that
the other side starts with it. -/
theorem C84_eq (h : Running T s gs n J rest lk) {j j' : Live} (hj : j ∈ J) (hj' : j' ∈ J) {P P' : List Nat}
    (hp : s.Loc j.obj r P) (hp' : s.Loc j'.obj r' P') (hn : (s.tree j.obj).isNode = true)
    (hn' : (s.tree j'.obj).isNode = true) {now now' : TextRange} (hnow : Cur.textRange j.obj s = .ok now s)
    (hnow' : Cur.textRange j'.obj s = .ok now' s) {old old' : TextRange} {x y : List Char}
    (hx : shown (s.tree r).text now old = some x) (hy : shown (s.tree r').text now' old' = some y) :
    ∃ e, (Text.eq ⟨j.id, old⟩ ⟨j'.id, old'⟩).Answers T s gs n J rest lk (.ok e)
        (fun a b L => a = b ∧ L.Perm (Live.snaps J)) ∧
      (old.len = old'.len → x = y → e = true) ∧ (e = true → old.len = old'.len ∧ (x <+: y ∨ y <+: x)) := by
  obtain ⟨m, h1, h2, rfl, hcoh, -⟩ := h.nodeIn hj hp hn hnow
  obtain ⟨m', h1', h2', rfl, hcoh', -⟩ := h.nodeIn hj' hp' hn' hnow'
  obtain ⟨ws, w1, w2⟩ := SyntaxText.tokensWithRanges_any hcoh h1 old
  obtain ⟨ws', w1', w2'⟩ := SyntaxText.tokensWithRanges_any hcoh' h1' old'
  have key := (Text.eq_comp (t := ⟨m, old⟩) (u := ⟨m', old'⟩) ⟨ws, w1⟩ ⟨ws', w1'⟩ h2 h2').heap h
  have hl := shown_len hx
  rw [show (s.rootVal r).tree.text = (s.tree r).text from rfl, hx, Option.map_eq_some_iff] at w2
  rw [show (s.rootVal r').tree.text = (s.tree r').text from rfl, hy, Option.map_eq_some_iff] at w2'
  obtain ⟨cx, c1, rfl⟩ := w2
  obtain ⟨cy, c2, rfl⟩ := w2'
  obtain ⟨e, e1, e2, e3⟩ := SyntaxText.eq_any w1 w1' c1 c2 hl
  rw [e1] at key
  exact ⟨e, key, e2, e3⟩

/-- C84, a larger part that holds: the answer is right for all texts, however old, whose ranges have the same length, if what
is in view on both sides has the same length too. -/
theorem C84_same_length (h : Running T s gs n J rest lk) {j j' : Live} (hj : j ∈ J) (hj' : j' ∈ J) {P P' : List Nat}
    (hp : s.Loc j.obj r P) (hp' : s.Loc j'.obj r' P') (hn : (s.tree j.obj).isNode = true)
    (hn' : (s.tree j'.obj).isNode = true) {now now' : TextRange} (hnow : Cur.textRange j.obj s = .ok now s)
    (hnow' : Cur.textRange j'.obj s = .ok now' s) {old old' : TextRange} {x y : List Char}
    (hx : shown (s.tree r).text now old = some x) (hy : shown (s.tree r').text now' old' = some y)
    (hl : old.len = old'.len) (hb : blen x = blen y) :
    (Text.eq ⟨j.id, old⟩ ⟨j'.id, old'⟩).Answers T s gs n J rest lk (.ok (decide (x = y)))
      fun a b L => a = b ∧ L.Perm (Live.snaps J) := by
  obtain ⟨e, h1, h2, h3⟩ := C84_eq h hj hj' hp hp' hn hn' hnow hnow' hx hy
  have pre : ∀ {u w : List Char}, u <+: w → blen u = blen w → u = w := by
    rintro u _ ⟨z, rfl⟩ e
    rw [blen_append] at e
    have : z = [] := blen_eq_zero.mp (by omega)
    rw [this, List.append_nil]
  have he : e = decide (x = y) := by
    rw [Bool.eq_iff_iff, decide_eq_true_iff]
    refine ⟨fun he => ?_, h2 hl⟩
    rcases (h3 he).2 with q | q
    · exact pre q hb
    · exact (pre q hb.symm).symm
  rw [← he]
  exact h1

end

/-- A mutable tree `[[a b] z [qa]]`: handle 0 the top node, 1 the first inner node, 2 the token `z`, 3 the other inner node. -/
def demo84 : Conf := after [
  .token 1 ['a'], .token 1 ['b'], .node 10 [1, 0], .token 2 ['z'], .token 1 ['q', 'a'], .node 10 [0], .node 20 [3, 2, 0],
  .root true 0, .call (.nav .firstChildOrToken 0), .call (.nav .nextSiblingOrToken 1), .call (.nav .nextSiblingOrToken 2)]
theorem demo84_reach : demo84.Reach := after_reach _
attribute [irreducible] demo84
theorem demo84_tree : demo84.s.tree 0 =
    .node 20 [.node 10 [.token 1 ['a'], .token 1 ['b']], .token 2 ['z'], .node 10 [.token 1 ['q', 'a']]] := by decide +kernel

theorem demo84_loc0 : demo84.s.Loc 0 0 [] := .root (by decide +kernel) (by decide +kernel)
theorem demo84_loc1 : demo84.s.Loc 1 0 [0] :=
  .child' (P := []) (q := 0) (by decide +kernel) (by decide +kernel) (by decide +kernel) demo84_loc0
theorem demo84_loc2 : demo84.s.Loc 2 0 ([] ++ [1]) :=
  .child' (q := 0) (by decide +kernel) (by decide +kernel) (by decide +kernel) demo84_loc0
theorem demo84_loc3 : demo84.s.Loc 3 0 [2] :=
  .child' (P := []) (q := 0) (by decide +kernel) (by decide +kernel) (by decide +kernel) demo84_loc0

/-- The answer of the program in the given state, if it has one. -/
def answer (p : RProg Bool) (v : Env Nat) (s : HSt) : Option Bool :=
  match p.exec v s with
  | .ok (.ok a _) _ => some a
  | _ => none

/-- C84 fails.  `R` and `R'` are the ranges of the nodes `x` and `y` when their texts are taken.  Then another element is
detached, and nothing in `x` and `y` changes.  The texts of `x` and `y` differ, but now `==` says that they are equal; with
the sides changed, it says that they are not. -/
theorem C84_fails : ∃ (C : Conf) (p x y : Nat) (R R' : TextRange) (s' : HSt), C.Reach ∧ p ∈ C.hs ∧
    C.s.Spans x R.start R.len ∧ C.s.Spans y R'.start R'.len ∧ Cur.detach p C.s = .ok () s' ∧
    HReach s' C.gs C.hs C.lk ∧ s'.tree x = C.s.tree x ∧ s'.tree y = C.s.tree y ∧ (s'.tree x).text ≠ (s'.tree y).text ∧
    answer (Text.eq ⟨0, R⟩ ⟨1, R'⟩) ⟨2, [(0, x), (1, y)]⟩ s' = some true ∧
    answer (Text.eq ⟨1, R'⟩ ⟨0, R⟩) ⟨2, [(0, x), (1, y)]⟩ s' = some false := by
  obtain ⟨s', e1, e2, -⟩ := C33_detach demo84_reach (p := 2) (by decide +kernel) (by decide +kernel) demo84_loc2
  refine ⟨demo84, 2, 1, 3, ⟨0, 2, by decide⟩, ⟨3, 5, by decide⟩, s', demo84_reach, by decide +kernel, ?_, ?_, e1, e2, ?_⟩
  · have hsp := (HReach.spans demo84_reach demo84_loc1).2
    have h1 : blen ((demo84.s.tree 0).before [0]) = 0 := by rw [demo84_tree]; decide +kernel
    have h3 : blen (demo84.s.tree 1).text = 2 := by decide +kernel
    rw [h1, h3] at hsp
    exact hsp
  · have hsp := (HReach.spans demo84_reach demo84_loc3).2
    have h1 : blen ((demo84.s.tree 0).before [2]) = 3 := by rw [demo84_tree]; decide +kernel
    have h3 : blen (demo84.s.tree 3).text = 2 := by decide +kernel
    rw [h1, h3] at hsp
    exact hsp
  · have key : (match Cur.detach 2 demo84.s with
        | .ok _ s' => decide (s'.tree 1 = demo84.s.tree 1 ∧ s'.tree 3 = demo84.s.tree 3 ∧ (s'.tree 1).text ≠ (s'.tree 3).text ∧
            answer (Text.eq ⟨0, ⟨0, 2, by decide⟩⟩ ⟨1, ⟨3, 5, by decide⟩⟩) ⟨2, [(0, 1), (1, 3)]⟩ s' = some true ∧
            answer (Text.eq ⟨1, ⟨3, 5, by decide⟩⟩ ⟨0, ⟨0, 2, by decide⟩⟩) ⟨2, [(0, 1), (1, 3)]⟩ s' = some false)
        | _ => false) = true := by decide +kernel
    rw [e1] at key
    exact of_decide_eq_true key

/-- `C84_partial` and `C84_eq` apply to the inner nodes of `demo84`. -/
example : ∃ T J, J.map Live.obj = [1, 3] ∧ J.map Live.id = [0, 1] ∧ Running T demo84.s demo84.gs 2 J [2, 0] demo84.lk ∧
    (Text.eq ⟨0, ⟨0, 2, by decide⟩⟩ ⟨1, ⟨3, 5, by decide⟩⟩).Answers T demo84.s demo84.gs 2 J [2, 0] demo84.lk (.ok false)
      (fun a b L => a = b ∧ L.Perm (Live.snaps J)) ∧
    ∃ e, (Text.eq ⟨0, ⟨1, 3, by decide⟩⟩ ⟨1, ⟨2, 4, by decide⟩⟩).Answers T demo84.s demo84.gs 2 J [2, 0] demo84.lk (.ok e)
      (fun a b L => a = b ∧ L.Perm (Live.snaps J)) ∧ e ≠ true := by
  obtain ⟨T, J, hJ, hI, h, -⟩ := C49_start demo84_reach (xs := [1, 3]) (rest := [2, 0]) (by decide +kernel)
  refine ⟨T, J, hJ, hI, h, ?_⟩
  match J, hJ, hI, h with
  | [⟨_, _, e⟩, ⟨_, _, e'⟩], hJ, hI, h =>
    cases hJ
    cases hI
    have hs := (HReach.spans demo84_reach demo84_loc1).2
    have hs' := (HReach.spans demo84_reach demo84_loc3).2
    have h1 : blen ((demo84.s.tree 0).before [0]) = 0 := by rw [demo84_tree]; decide +kernel
    have h2 : blen (demo84.s.tree 1).text = 2 := by decide +kernel
    have h3 : blen ((demo84.s.tree 0).before [2]) = 3 := by rw [demo84_tree]; decide +kernel
    have h4 : blen (demo84.s.tree 3).text = 2 := by decide +kernel
    rw [h1, h2] at hs
    rw [h3, h4] at hs'
    have key := C84_partial h (j := ⟨0, 1, e⟩) (j' := ⟨1, 3, e'⟩) (by simp) (by simp) demo84_loc1 demo84_loc3
      (by dsimp only; decide +kernel) (by dsimp only; decide +kernel) hs hs'
    have h5 : decide ((demo84.s.tree 1).text = (demo84.s.tree 3).text) = false := by decide +kernel
    simp only [h5] at key
    refine ⟨key, ?_⟩
    have := C84_same_length h (j := ⟨0, 1, e⟩) (j' := ⟨1, 3, e'⟩) (by simp) (by simp) demo84_loc1 demo84_loc3
      (by dsimp only; decide +kernel) (by dsimp only; decide +kernel) hs hs' (old := ⟨1, 3, by decide⟩) (old' := ⟨4, 6, by decide⟩)
      (x := ['b']) (y := ['a']) (by rw [demo84_tree]; decide +kernel) (by rw [demo84_tree]; decide +kernel) (by decide) (by decide)
    obtain ⟨b, b1, -, b2⟩ := C84_eq h (j := ⟨0, 1, e⟩) (j' := ⟨1, 3, e'⟩) (by simp) (by simp) demo84_loc1 demo84_loc3
      (by dsimp only; decide +kernel) (by dsimp only; decide +kernel) hs hs' (old := ⟨1, 3, by decide⟩) (old' := ⟨2, 4, by decide⟩)
      (x := ['b']) (y := ['q']) (by rw [demo84_tree]; decide +kernel) (by rw [demo84_tree]; decide +kernel)
    exact ⟨b, b1, fun he => absurd (b2 he).2 (by decide)⟩

end Rowan
