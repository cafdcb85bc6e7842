import Verif.TextSlice
import Verif.Props.TextRead
/-!
# C86: slicing the texts of mutable trees
-/
namespace Rowan
open RProg Prog

namespace Prog
theorem Text.slice_eq (t : Text) (arg : RangeArg) {a b : Nat} (ha : arg.start.getD 0 = a) (hb : arg.stop.getD t.range.len = b) :
    t.slice arg = if h : a ≤ b ∧ t.range.start + b ≤ t.range.stop then
      (clone t.node >>= fun node => pure ⟨node, ⟨t.range.start + a, t.range.start + b, by omega⟩⟩) else .panic := by
  subst ha hb
  unfold slice Text.len
  generalize arg.start.getD 0 = a
  generalize arg.stop.getD t.range.len = b
  simp only
  by_cases h1 : a ≤ b
  · rw [if_pos h1, dif_pos (by omega)]
    have e : t.range.start + a + (b - a) = t.range.start + b := by omega
    by_cases h2 : t.range.start + b ≤ t.range.stop
    · rw [if_pos (by rw [TextRange.containsRange_iff]; simp only; omega), dif_pos ⟨h1, h2⟩]
      simp only [e]
    · rw [if_neg (by rw [TextRange.containsRange_iff]; simp only; omega), dif_neg (by omega)]
  · rw [if_neg h1, dif_neg (by omega)]
end Prog

/-- Slicing what is shown, if the node does not begin behind the place where the text begins. -/
theorem shown_slice {whole x : List Char} {now old : TextRange} (hx : shown whole now old = some x) (hle : now.start ≤ old.start)
    {a b : Nat} (hab : a ≤ b) (hb : b ≤ old.len) {sub : TextRange} (h1 : sub.start = old.start + a) (h2 : sub.stop = old.start + b) :
    shown whole now sub = bslice x (min a (blen x)) (min b (blen x)) := by
  have ho := old.le
  rw [TextRange.len] at hb
  rw [shown] at hx ⊢
  by_cases hc : max old.start now.start ≤ min old.stop now.stop
  · rw [if_pos hc, Nat.max_eq_left hle] at hx
    have hl : blen x = min old.stop now.stop - old.start := by
      obtain ⟨p, q, -, e1, e2⟩ := bslice_eq_some.mp hx
      rw [blen_append] at e2
      omega
    by_cases hs : max sub.start now.start ≤ min sub.stop now.stop
    · rw [if_pos hs]
      have e1 : max sub.start now.start = old.start + a := by omega
      have e2 : min sub.stop now.stop = old.start + min b (blen x) := by omega
      have e3 : min a (blen x) = a := by omega
      rw [e1, e2, e3]
      exact bslice_bslice hx (by omega) (by omega)
    · rw [if_neg hs, show min a (blen x) = blen x by omega, show min b (blen x) = blen x by omega]
      exact (bslice_eq_some.mpr ⟨x, [], by simp, rfl, by simp⟩).symm
  · rw [if_neg hc] at hx
    cases hx
    rw [if_neg (by omega)]
    simp [bslice, bsplit]

section
variable {T : List Nat} {r : Nat} {s : HSt} {gs : List GElem} {n : Nat} {J : List Live} {rest lk : List Nat}

/-- **C86** `slice`.  In any state, for a handle and any range `old` that goes with it; `a` and `b` are the given bounds,
defaulting to the start and the end.  If `a <= b <= len()`, the result is a new handle on the same node with the bytes
`a..b` of `old`; otherwise it is a panic. -/
theorem C86_slice (h : Running T s gs n J rest lk) {j : Live} (hj : j ∈ J) (old : TextRange) (arg : RangeArg) {a b : Nat}
    (ha : arg.start.getD 0 = a) (hb : arg.stop.getD old.len = b) :
    (∀ hle : a ≤ b ∧ b ≤ old.len, (Text.slice ⟨j.id, old⟩ arg).Answers T s gs n J rest lk
      (.ok (⟨old.start + a, old.start + b, by omega⟩ : TextRange))
      (fun u R L => u.range = R ∧ L.Perm ((u.node, j.snap) :: Live.snaps J))) ∧
    (¬ (a ≤ b ∧ b ≤ old.len) → (Text.slice ⟨j.id, old⟩ arg).Answers T s gs n J rest lk (.panic : Res TextRange)
      (fun u R L => u.range = R ∧ L.Perm ((u.node, j.snap) :: Live.snaps J))) := by
  have ho := old.le
  have hmem : (j.id, j.snap) ∈ Live.snaps J := List.mem_map_of_mem hj
  refine ⟨fun hle => Comp.heap ?_ h, fun hle => Comp.heap ?_ h⟩
  · rw [Text.slice_eq _ arg (a := a) (b := b) ha hb, dif_pos (by rw [TextRange.len] at hle; dsimp only; omega)]
    exact .clone hmem fun i => .pure ⟨rfl, .refl _⟩
  · rw [Text.slice_eq _ arg (a := a) (b := b) ha hb, dif_neg (by rw [TextRange.len] at hle; dsimp only; omega)]
    exact .panic

/-- **C86** what a slice shows: the common part of the sliced range and the range that the node has now. -/
theorem C86_shows (h : Running T s gs n J rest lk) {j : Live} (hj : j ∈ J) {P : List Nat} (hp : s.Loc j.obj r P)
    (hn : (s.tree j.obj).isNode = true) {now : TextRange} (hnow : Cur.textRange j.obj s = .ok now s) (old : TextRange)
    (arg : RangeArg) {a b : Nat} (ha : arg.start.getD 0 = a) (hb : arg.stop.getD old.len = b) (hle : a ≤ b ∧ b ≤ old.len) :
    (Text.sliceToString ⟨j.id, old⟩ arg).Answers T s gs n J rest lk
      (match shown (s.tree r).text now ⟨old.start + a, old.start + b, by omega⟩ with
        | some y => .ok (.ok y)
        | none => .panic)
      fun u y L => u = y ∧ L.Perm (Live.snaps J) := by
  have ho := old.le
  obtain ⟨m, h1, h2, rfl, hcoh, -⟩ := h.nodeIn hj hp hn hnow
  obtain ⟨ws, w1, w2⟩ := SyntaxText.tokensWithRanges_any hcoh h1 ⟨old.start + a, old.start + b, by omega⟩
  have e : SyntaxText.tryFoldChunks (E := Empty) ⟨m, ⟨old.start + a, old.start + b, by omega⟩⟩ ([] : List Char)
        (fun out chunk => .ok (.ok (out ++ chunk))) =
      match shown (s.tree r).text m.textRange ⟨old.start + a, old.start + b, by omega⟩ with
        | some x => .ok (.ok x)
        | none => .panic := by
    rw [SyntaxText.tryFoldChunks, w1, Res.ok_bind, foldChunks_push, show (s.tree r).text = (s.rootVal r).tree.text from rfl, ← w2]
    cases chunksOf ws <;> rfl
  rw [← e]
  refine Comp.heap ?_ h
  rw [Text.sliceToString, Text.slice_eq _ arg (a := a) (b := b) ha hb, dif_pos (by rw [TextRange.len] at hle; dsimp only; omega)]
  refine .clone h2 fun i => ?_
  refine .post (tryFoldChunks_comp (t := ⟨m, ⟨old.start + a, old.start + b, by omega⟩⟩) (by intros; simp) ⟨ws, w1⟩
    (List.mem_cons_self ..)) fun u y L _ hq => ?_
  obtain ⟨rfl, hq⟩ := hq
  exact .drop hq (.pure ⟨rfl, .refl _⟩)

/-- C86, the part that holds: if the node does not begin behind the place where the text begins, then the slice `a..b`
shows the bytes `a..b` of the string `x` that the text shows, as far as it has them. -/
theorem C86_partial (h : Running T s gs n J rest lk) {j : Live} (hj : j ∈ J) {P : List Nat} (hp : s.Loc j.obj r P)
    (hn : (s.tree j.obj).isNode = true) {now : TextRange} (hnow : Cur.textRange j.obj s = .ok now s) {old : TextRange}
    {x : List Char} (hx : shown (s.tree r).text now old = some x) (hst : now.start ≤ old.start)
    (arg : RangeArg) {a b : Nat} (ha : arg.start.getD 0 = a) (hb : arg.stop.getD old.len = b) (hle : a ≤ b ∧ b ≤ old.len) :
    (Text.sliceToString ⟨j.id, old⟩ arg).Answers T s gs n J rest lk
      (match bslice x (min a (blen x)) (min b (blen x)) with
        | some y => .ok (.ok y)
        | none => .panic)
      fun u y L => u = y ∧ L.Perm (Live.snaps J) := by
  have key := C86_shows h hj hp hn hnow old arg ha hb hle
  rw [shown_slice hx hst hle.1 hle.2 rfl rfl] at key
  exact key

end

/-- Two mutable trees, `[[ab]]` and `[z]`: handle 0 the top node of the first, 1 its inner node, 2 the top node of the
second. -/
def demo86 : Conf := after [
  .token 1 ['a', 'b'], .node 10 [0], .node 20 [0], .root true 0, .call (.nav .firstChildOrToken 0),
  .token 2 ['z'], .node 11 [0], .root true 0]
theorem demo86_reach : demo86.Reach := after_reach _
attribute [irreducible] demo86
theorem demo86_tree : demo86.s.tree 0 = .node 20 [.node 10 [.token 1 ['a', 'b']]] := by decide +kernel
theorem demo86_loc0 : demo86.s.Loc 0 0 [] := .root (by decide +kernel) (by decide +kernel)
theorem demo86_loc1 : demo86.s.Loc 1 0 [0] :=
  .child' (P := []) (q := 0) (by decide +kernel) (by decide +kernel) (by decide +kernel) demo86_loc0

/-- The string that the program returns in the given state, if it returns one. -/
def answerStr (p : RProg (Except Empty (List Char))) (v : Env Nat) (s : HSt) : Option (List Char) :=
  match p.exec v s with
  | .ok (.ok (.ok a) _) _ => some a
  | _ => none

/-- C86 fails.  `R` is the range of the node `x` when its text is taken.  Then an element is inserted in front of `x`, and
nothing in `x` changes.  The text still begins with `a`, but its slice `0..1` is empty. -/
theorem C86_fails : ∃ (C : Conf) (q p x : Nat) (R : TextRange) (s' : HSt) (hs : List Nat), C.Reach ∧ C.hs.Perm (p :: hs) ∧
    C.s.Spans x R.start R.len ∧ x ∈ hs ∧ Cur.splice q 0 0 [p] C.s = .ok () s' ∧ HReach s' C.gs hs C.lk ∧
    s'.tree x = C.s.tree x ∧
    answerStr (Text.toString ⟨0, R⟩) ⟨1, [(0, x)]⟩ s' = some ['a'] ∧
    answerStr (Text.sliceToString ⟨0, R⟩ (.between 0 1)) ⟨1, [(0, x)]⟩ s' = some [] := by
  have key : (match Cur.splice 0 0 0 [2] demo86.s with
      | .ok _ s' => decide (s'.tree 1 = demo86.s.tree 1 ∧
          answerStr (Text.toString ⟨0, ⟨0, 2, by decide⟩⟩) ⟨1, [(0, 1)]⟩ s' = some ['a'] ∧
          answerStr (Text.sliceToString ⟨0, ⟨0, 2, by decide⟩⟩ (.between 0 1)) ⟨1, [(0, 1)]⟩ s' = some [])
      | _ => false) = true := by decide +kernel
  cases e : Cur.splice 0 0 0 [2] demo86.s with
  | ok u s' =>
    rw [e] at key
    have hperm : demo86.hs.Perm [2, 1, 0] := by decide +kernel
    refine ⟨demo86, 0, 2, 1, ⟨0, 2, by decide⟩, s', [1, 0], demo86_reach, hperm, ?_, by simp, e, ?_, of_decide_eq_true key⟩
    · have hsp := (HReach.spans demo86_reach demo86_loc1).2
      have h1 : blen ((demo86.s.tree 0).before [0]) = 0 := by rw [demo86_tree]; decide +kernel
      have h3 : blen (demo86.s.tree 1).text = 2 := by decide +kernel
      rw [h1, h3] at hsp
      exact hsp
    · have := HReach.ok (.splice 0 0 0 [2]) demo86_reach (rest := [1, 0]) (new := []) (s' := s') ⟨hperm, by simp [Call.uses],
        by simp only [Call.nodes, List.mem_singleton, forall_eq]; decide +kernel, by simp⟩ (by simp only [Call.exec, H.bind_def, e]; rfl)
      simpa [Call.lost] using this
  | panic _ _ | abort | ub | diverge => rw [e] at key; cases key

/-- `C86_slice`, `C86_shows` and `C86_partial` apply to the second inner node of `demo84`, which begins at 3, and a range that
begins behind. -/
example : ∃ e, Running [0] demo84.s demo84.gs 1 [⟨0, 3, e⟩] [2, 1, 0] demo84.lk ∧
    (Text.slice ⟨0, ⟨4, 7, by decide⟩⟩ (.between 1 4)).Answers [0] demo84.s demo84.gs 1 [⟨0, 3, e⟩] [2, 1, 0] demo84.lk
      (.panic : Res TextRange) (fun u R L => u.range = R ∧ L.Perm ((u.node, e) :: Live.snaps [⟨0, 3, e⟩])) ∧
    (Text.sliceToString ⟨0, ⟨4, 7, by decide⟩⟩ (.between 0 2)).Answers [0] demo84.s demo84.gs 1 [⟨0, 3, e⟩] [2, 1, 0] demo84.lk
      (.ok (.ok ['a'])) (fun u y L => u = y ∧ L.Perm (Live.snaps [⟨0, 3, e⟩])) := by
  obtain ⟨e, -, h⟩ := C49_start_one demo84_reach (x := 3) (rest := [2, 1, 0]) (by decide +kernel) demo84_loc3
  have hs := (HReach.spans demo84_reach demo84_loc3).2
  have h1 : blen ((demo84.s.tree 0).before [2]) = 3 := by rw [demo84_tree]; decide +kernel
  have h2 : blen (demo84.s.tree 3).text = 2 := by decide +kernel
  rw [h1, h2] at hs
  have hn : (demo84.s.tree 3).isNode = true := by decide +kernel
  have hx : shown (demo84.s.tree 0).text (TextRange.mk 3 5 (by decide)) ⟨4, 7, by decide⟩ = some ['a'] := by
    rw [demo84_tree]; decide +kernel
  exact ⟨e, h, (C86_slice h (List.mem_singleton.mpr rfl) ⟨4, 7, by decide⟩ (.between 1 4) rfl rfl).2 (by decide),
    C86_partial h (List.mem_singleton.mpr rfl) demo84_loc3 hn hs hx (by decide) (.between 0 2) rfl rfl (by decide)⟩

end Rowan
