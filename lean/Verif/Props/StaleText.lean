import Verif.StaleTextLemmas
import Verif.Props.TextEdit
/-!
# C82: texts that are kept while trees are edited
-/
namespace Rowan
open RProg Prog

section
variable {r : Nat} {s : HSt} {gs : List GElem} {n : Nat} {J : List Live} {rest lk : List Nat}

/-- **C82**, what really happens.  In any state, however the range of the text compares with the range that the node has
now: `to_string()` gives what the two ranges have in common, and panics if that would cut a character in two. -/
theorem C82_to_string (h : Running [r] s gs n J rest lk) {j : Live} (hj : j ∈ J) {P : List Nat} (hp : s.Loc j.obj r P)
    (hn : (s.tree j.obj).isNode = true) {now : TextRange} (hnow : Cur.textRange j.obj s = .ok now s) (old : TextRange) :
    (Text.toString ⟨j.id, old⟩).Answers [r] s gs n J rest lk
      (match shown (s.tree r).text now old with
        | some x => .ok (.ok x)
        | none => .panic)
      fun a b L => a = b ∧ L.Perm (Live.snaps J) := by
  obtain ⟨m, h1, rfl, h3, h4, -, hcoh⟩ := h.node hj hp hn
  have hR : m.textRange = now := by
    obtain ⟨hs, -, hr⟩ := h.reach
    letI : Greens := ⟨gs⟩
    obtain ⟨kids, hi⟩ := hr.ok'
    rw [Cur.textRange_ok hi hp] at hnow
    have e := (HOut.ok.inj hnow).1
    obtain ⟨y, y1, y2, y3, y4, y5⟩ := C11_ranges h1
    rw [SElem.path_node, h4] at y1
    cases y1
    have hs : m.textRange.start = blen ((s.tree r).before m.path) := y3
    have hl : m.textRange.len = blen (s.tree j.obj).text := y4
    rw [TextRange.len] at hl
    have hle := m.textRange.le
    rw [← e]
    ext
    · exact hs
    · show m.textRange.stop = blen ((s.tree r).before m.path) + blen (s.tree j.obj).text
      omega
  obtain ⟨ws, w1, w2⟩ := SyntaxText.tokensWithRanges_any hcoh h1 old
  have key := (tryFoldChunks_comp (t := ⟨m, old⟩) (E := Empty) (f := fun (out : List Char) chunk => .ok (.ok (out ++ chunk)))
    (init := []) (by intros; simp) ⟨ws, w1⟩ h3).heap h
  have e : SyntaxText.tryFoldChunks (E := Empty) ⟨m, old⟩ ([] : List Char) (fun out chunk => .ok (.ok (out ++ chunk))) =
      match shown (s.tree r).text now old with
        | some x => .ok (.ok x)
        | none => .panic := by
    rw [SyntaxText.tryFoldChunks, w1, Res.ok_bind, foldChunks_push, ← hR, show (s.tree r).text = (s.rootVal r).tree.text from rfl, ← w2]
    cases chunksOf ws <;> rfl
  rw [e] at key
  exact key

/-- C82, the part that holds: as long as the node has the range that it had when `text()` was called, the text is the
text of the node as it is now, and `len()` its length. -/
theorem C82_partial (h : Running [r] s gs n J rest lk) {j : Live} (hj : j ∈ J) {P : List Nat} (hp : s.Loc j.obj r P)
    (hn : (s.tree j.obj).isNode = true) {R : TextRange} (hR : Cur.textRange j.obj s = .ok R s) :
    (Text.toString ⟨j.id, R⟩).Answers [r] s gs n J rest lk (.ok (.ok (s.tree j.obj).text))
      (fun a b L => a = b ∧ L.Perm (Live.snaps J)) ∧
    (Text.mk j.id R).len = blen (s.tree j.obj).text := by
  have key := C82_to_string h hj hp hn hR R
  obtain ⟨hs, -, hr⟩ := h.reach
  letI : Greens := ⟨gs⟩
  obtain ⟨kids, hi⟩ := hr.ok'
  rw [Cur.textRange_ok hi hp] at hR
  have e := (HOut.ok.inj hR).1
  have hat := Tree.text_split (hi.tree_at hp)
  have hsh : shown (s.tree r).text R R = some (s.tree j.obj).text := by
    have := R.le
    rw [shown, Nat.max_self, Nat.min_self, if_pos this, ← e, hat]
    exact bslice_unique_of_append
  rw [hsh] at key
  refine ⟨key, ?_⟩
  rw [Text.len, TextRange.len, ← e]
  show blen _ + blen _ - blen _ = _
  omega

end

/-- Detaching a token in front of a node moves the node but not the texts taken of it. -/
theorem stale_case {C : Conf} {p x i j r : Nat} {rest : List Nat} (h : C.Reach) (hp : p ∈ C.hs) (hm : C.s.mutable p = true)
    (hx : C.hs.Perm (x :: rest)) (hl : C.s.Loc p r ([] ++ [i])) (hlx : C.s.Loc x r [j]) (hij : i < j)
    (hn : (C.s.tree x).isNode = true) {R : TextRange} :
    ∃ s' e, Cur.detach p C.s = .ok () s' ∧ s'.tree x = C.s.tree x ∧ Running [r] s' C.gs 1 [⟨0, x, e⟩] rest C.lk ∧
      (Text.toString ⟨0, R⟩).Answers [r] s' C.gs 1 [⟨0, x, e⟩] rest C.lk
        (match shown ((C.s.tree r).removeAt [] i).text
            ⟨blen (((C.s.tree r).removeAt [] i).before [j - 1]), blen (((C.s.tree r).removeAt [] i).before [j - 1]) + blen (C.s.tree x).text,
              Nat.le_add_right ..⟩ R with
          | some x => .ok (.ok x)
          | none => .panic)
        fun a b L => a = b ∧ L.Perm (Live.snaps [⟨0, x, e⟩]) := by
  obtain ⟨s', e1, hr', -, -, -, hall⟩ := C33_detach h hp hm hl
  have hxm : x ∈ C.hs := hx.mem_iff.mpr (List.mem_cons_self ..)
  have h2 := (hall x hxm r [j] hlx).2 rfl
  have hac : Tree.afterCut [] i [j] = .stays [j - 1] := by
    simp only [Tree.afterCut]
    rw [if_neg (by omega), if_pos (by omega)]
  rw [hac] at h2
  obtain ⟨l2, t2⟩ := h2
  have hxx : s'.tree x = C.s.tree x := by
    letI : Greens := ⟨C.gs⟩
    obtain ⟨kids, hi⟩ := hr'.ok'
    obtain ⟨kids0, hi0⟩ := HReach.ok' h
    have a1 := hi.tree_at l2
    have a0 := hi0.tree_at hlx
    rw [t2] at a1
    cases hT : C.s.tree r with
    | token k w => rw [hT] at a0; simp [Tree.at?_cons, Tree.children] at a0
    | node k cs =>
      rw [hT] at a0 a1
      simp only [Tree.removeAt, Tree.editKids, Tree.at?_nil, Tree.set, Tree.at?_cons, Tree.children, List.getElem?_eraseIdx] at a0 a1
      rw [if_neg (by omega), Nat.sub_add_cancel (by omega)] at a1
      rw [a0] at a1
      exact (Option.some.inj a1).symm
  obtain ⟨e, -, hrun⟩ := C49_start_one hr' hx l2
  have hsp := (hr'.spans l2).2
  rw [t2, hxx] at hsp
  have := C82_to_string (old := R) hrun (List.mem_singleton.mpr rfl) l2 (by rw [hxx]; exact hn) hsp
  rw [t2] at this
  exact ⟨s', e, e1, hxx, hrun, this⟩

/-- A mutable tree `[x [äb]]`: handle 0 the top node, 1 the token `x`, 2 the inner node. -/
def demo82 : Conf := after [
  .token 1 ['x'], .token 2 ['ä', 'b'], .node 10 [0], .node 20 [2, 0], .root true 0,
  .call (.nav .firstChildOrToken 0), .call (.nav .nextSiblingOrToken 1)]
theorem demo82_reach : demo82.Reach := after_reach _
attribute [irreducible] demo82
theorem demo82_tree : demo82.s.tree 0 = .node 20 [.token 1 ['x'], .node 10 [.token 2 ['ä', 'b']]] := by decide +kernel
theorem demo82_loc0 : demo82.s.Loc 0 0 [] := .root (by decide +kernel) (by decide +kernel)
theorem demo82_loc1 : demo82.s.Loc 1 0 ([] ++ [0]) :=
  .child' (q := 0) (by decide +kernel) (by decide +kernel) (by decide +kernel) demo82_loc0
theorem demo82_loc2 : demo82.s.Loc 2 0 [1] :=
  .child' (P := []) (q := 0) (by decide +kernel) (by decide +kernel) (by decide +kernel) demo82_loc0

/-- C82 fails.  `R` is the range of the node `x` when its text is taken.  Then another element is detached, and nothing in
`x` changes; `to_string()` of the text panics. -/
theorem C82_fails : ∃ (C : Conf) (p x r : Nat) (R : TextRange) (s' : HSt) (e : SElem) (rest : List Nat), C.Reach ∧ p ∈ C.hs ∧
    C.s.Spans x R.start R.len ∧ Cur.detach p C.s = .ok () s' ∧ s'.tree x = C.s.tree x ∧
    Running [r] s' C.gs 1 [⟨0, x, e⟩] rest C.lk ∧
    (Text.toString ⟨0, R⟩).Answers [r] s' C.gs 1 [⟨0, x, e⟩] rest C.lk .panic
      fun a (b : Except Empty (List Char)) L => a = b ∧ L.Perm (Live.snaps [⟨0, x, e⟩]) := by
  obtain ⟨s', e, e1, e2, e3, e4⟩ := stale_case (x := 2) (rest := [1, 0]) (R := ⟨1, 4, by decide⟩) demo82_reach (by decide +kernel)
    (by decide +kernel) (by decide +kernel) demo82_loc1 demo82_loc2 (by decide) (by decide +kernel)
  have hs : shown ((demo82.s.tree 0).removeAt [] 0).text
      ⟨blen (((demo82.s.tree 0).removeAt [] 0).before [1 - 1]), blen (((demo82.s.tree 0).removeAt [] 0).before [1 - 1]) + blen (demo82.s.tree 2).text,
        Nat.le_add_right ..⟩ ⟨1, 4, by decide⟩ = none := by
    have h2 : demo82.s.tree 2 = .node 10 [.token 2 ['ä', 'b']] := by decide +kernel
    rw [demo82_tree, h2]; decide +kernel
  rw [hs] at e4
  refine ⟨demo82, 1, 2, 0, ⟨1, 4, by decide⟩, s', e, _, demo82_reach, by decide +kernel, ?_, e1, e2, e3, e4⟩
  have hsp := (HReach.spans demo82_reach demo82_loc2).2
  have h1 : blen ((demo82.s.tree 0).before [1]) = 1 := by rw [demo82_tree]; decide +kernel
  have h3 : blen (demo82.s.tree 2).text = 3 := by decide +kernel
  rw [h1, h3] at hsp
  exact hsp

/-- C82 fails.  The same, but `to_string()` gives a part of the text of the node, while `len()` is the length of all of it. -/
theorem C82_wrong : ∃ (C : Conf) (p x r : Nat) (R : TextRange) (s' : HSt) (e : SElem) (rest : List Nat) (w : List Char), C.Reach ∧
    p ∈ C.hs ∧ C.s.Spans x R.start R.len ∧ Cur.detach p C.s = .ok () s' ∧ s'.tree x = C.s.tree x ∧
    Running [r] s' C.gs 1 [⟨0, x, e⟩] rest C.lk ∧
    (Text.toString ⟨0, R⟩).Answers [r] s' C.gs 1 [⟨0, x, e⟩] rest C.lk (.ok (.ok w))
      (fun a (b : Except Empty (List Char)) L => a = b ∧ L.Perm (Live.snaps [⟨0, x, e⟩])) ∧
    w ≠ (s'.tree x).text ∧ blen w < (Text.mk 0 R).len := by
  obtain ⟨s', e, e1, e2, e3, e4⟩ := stale_case (x := 3) (rest := [6, 5, 4, 2, 1, 0]) (R := ⟨2, 4, by decide⟩) demo2_reach
    (by decide +kernel) (by decide +kernel) (by decide +kernel) demo2_loc1 demo2_loc3 (by decide) (by decide +kernel)
  have ht : demo2.s.tree 3 = .node 10 [.token 2 ['c', 'c']] := by decide +kernel
  have hs : shown ((demo2.s.tree 0).removeAt [] 0).text
      ⟨blen (((demo2.s.tree 0).removeAt [] 0).before [2 - 1]), blen (((demo2.s.tree 0).removeAt [] 0).before [2 - 1]) + blen (demo2.s.tree 3).text,
        Nat.le_add_right ..⟩ ⟨2, 4, by decide⟩ = some ['c'] := by
    rw [demo2_tree, ht]; decide +kernel
  rw [hs] at e4
  refine ⟨demo2, 1, 3, 0, ⟨2, 4, by decide⟩, s', e, _, ['c'], demo2_reach, by decide +kernel, ?_, e1, e2, e3, e4, ?_, by decide⟩
  · have hsp := (HReach.spans demo2_reach demo2_loc3).2
    have h1 : blen ((demo2.s.tree 0).before ([] ++ [2])) = 2 := by rw [demo2_tree]; decide +kernel
    have h3 : blen (demo2.s.tree 3).text = 2 := by rw [ht]; decide +kernel
    rw [h1, h3] at hsp
    exact hsp
  · rw [e2, ht]; decide +kernel

/-- `C82_partial` and `C82_to_string` apply to the inner node of `demo82`. -/
example : ∃ e, Running [0] demo82.s demo82.gs 1 [⟨0, 2, e⟩] [1, 0] [] ∧
    (Text.toString ⟨0, ⟨1, 4, by decide⟩⟩).Answers [0] demo82.s demo82.gs 1 [⟨0, 2, e⟩] [1, 0] [] (.ok (.ok ['ä', 'b']))
      (fun a (b : Except Empty (List Char)) L => a = b ∧ L.Perm (Live.snaps [⟨0, 2, e⟩])) := by
  have hr : HReach demo82.s demo82.gs demo82.hs [] := by
    have h0 : demo82.lk = [] := by decide +kernel
    have := demo82_reach
    rw [Conf.Reach, h0] at this
    exact this
  obtain ⟨e, -, h⟩ := C49_start_one hr (x := 2) (rest := [1, 0]) (by decide +kernel) demo82_loc2
  have hsp := (HReach.spans hr demo82_loc2).2
  have h1 : blen ((demo82.s.tree 0).before [1]) = 1 := by rw [demo82_tree]; decide +kernel
  have h3 : blen (demo82.s.tree 2).text = 3 := by decide +kernel
  rw [h1, h3] at hsp
  have := (C82_partial h (List.mem_singleton.mpr rfl) demo82_loc2 (by dsimp only; decide +kernel) hsp).1
  have h4 : (demo82.s.tree 2).text = ['ä', 'b'] := by decide +kernel
  simp only [h4] at this
  exact ⟨e, h, this⟩

end Rowan
