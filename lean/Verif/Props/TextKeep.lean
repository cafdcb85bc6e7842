import Verif.TextKeepLemmas
import Verif.Props.TextSlice
/-!
# C87: edits behind a node do not disturb its range and the texts kept of it

`Conf.Run P x C C'` says that a program gets from state `C` to state `C'` by any number of steps while it keeps the handle `x`,
and all its calls satisfy `P`.  `Call.Later s x c` says that what `c` takes out and puts in is in other trees than `x`
or behind `x`.
-/
namespace Rowan
open RProg Prog

section
variable {C C' : Conf} {x : Nat} {rest : List Nat}

/-- **C87** the element stays where it is: in the same tree, at the same place, with the same content and the same range. -/
theorem C87_range (h : C.Reach) (hx : x ∈ C.hs) (run : C.Run (fun s c => c.Later s x) x C') :
    C'.s.tree x = C.s.tree x ∧ (∀ a n, C.s.Spans x a n ↔ C'.s.Spans x a n) ∧
      ∀ r P, C.s.Loc x r P → C'.s.Loc x r P ∧ (C'.s.tree r).before P = (C.s.tree r).before P := by
  letI : Greens := ⟨C.gs⟩
  obtain ⟨r, P, hl⟩ := HReach.loc h hx
  obtain ⟨l1, b1, a1, -⟩ := run.later h hx hl
  obtain ⟨t1, s1⟩ := HReach.spans h hl
  obtain ⟨t2, s2⟩ := HReach.spans (run.reach h) l1
  have ht : C'.s.tree x = C.s.tree x := by
    rw [a1, t1] at t2
    exact (Option.some.inj t2).symm
  rw [ht, b1] at s2
  refine ⟨ht, fun a n => ⟨fun hs => ?_, fun hs => ?_⟩, fun r' P' hl' => ?_⟩
  · obtain ⟨rfl, rfl⟩ := s1.unique hs; exact s2
  · obtain ⟨rfl, rfl⟩ := s2.unique hs; exact s1
  · obtain ⟨rfl, rfl⟩ := hl.unique hl'; exact ⟨l1, b1⟩

/-- **C87** a text kept of a node: `R` is the range of the node when `text()` was called, in state `C`.  In the later state
`C'` the kept text still shows the text of the node, its length is right, and the slice `a..b` of it shows the bytes `a..b`
of that text (it panics only if these bounds cut a character in two). -/
theorem C87_text (h : C.Reach) (hp : C'.hs.Perm (x :: rest)) (hx : x ∈ C.hs) (hn : (C.s.tree x).isNode = true) {R : TextRange}
    (hR : Cur.textRange x C.s = .ok R C.s) (run : C.Run (fun s c => c.Later s x) x C') :
    ∃ r e, Running [r] C'.s C'.gs 1 [⟨0, x, e⟩] rest C'.lk ∧ C'.s.tree x = C.s.tree x ∧
      (Text.toString ⟨0, R⟩).Answers [r] C'.s C'.gs 1 [⟨0, x, e⟩] rest C'.lk (.ok (.ok (C.s.tree x).text))
        (fun u y L => u = y ∧ L.Perm [(0, e)]) ∧
      (Text.mk 0 R).len = blen (C.s.tree x).text ∧
      ∀ (arg : RangeArg) (a b : Nat), arg.start.getD 0 = a → arg.stop.getD R.len = b → a ≤ b → b ≤ blen (C.s.tree x).text →
        (Text.sliceToString ⟨0, R⟩ arg).Answers [r] C'.s C'.gs 1 [⟨0, x, e⟩] rest C'.lk
          (match bslice (C.s.tree x).text a b with
            | some y => .ok (.ok y)
            | none => .panic)
          fun u y L => u = y ∧ L.Perm [(0, e)] := by
  obtain ⟨r, P, hl⟩ := HReach.loc h hx
  obtain ⟨ht, hs, hl'⟩ := C87_range h hx run
  obtain ⟨l1, b1⟩ := hl' r P hl
  have hR1 : R = ⟨blen ((C.s.tree r).before P), blen ((C.s.tree r).before P) + blen (C.s.tree x).text, by omega⟩ := by
    have := (HReach.spans h hl).2
    rw [HSt.Spans, hR] at this
    exact (HOut.ok.inj this).1
  have hR' : Cur.textRange x C'.s = .ok R C'.s := by
    rw [hR1]
    exact (hs _ _).mp (HReach.spans h hl).2
  have hn' : (C'.s.tree x).isNode = true := by rw [ht]; exact hn
  obtain ⟨e, -, hrun⟩ := C49_start_one (run.reach h) hp l1
  obtain ⟨k1, k2⟩ := C82_partial hrun (List.mem_singleton.mpr rfl) l1 hn' hR'
  have hlen : R.len = blen (C.s.tree x).text := by rw [← ht]; exact k2
  rw [ht] at k1 k2
  refine ⟨r, e, hrun, ht, k1, k2, fun arg a b ha hb hab hbl => ?_⟩
  have hsh : shown (C'.s.tree r).text R R = some (C.s.tree x).text := by
    have := R.le
    rw [shown, Nat.max_self, Nat.min_self, if_pos this, Tree.text_split (HReach.spans (run.reach h) l1).1, ht, b1, hR1]
    exact bslice_unique_of_append
  have key := C86_partial hrun (List.mem_singleton.mpr rfl) l1 hn' hR' hsh (Nat.le_refl _) arg ha hb ⟨hab, by omega⟩
  rw [Nat.min_eq_left (by omega), Nat.min_eq_left hbl] at key
  exact key

/-- **C87** comparing two kept texts: if no edit was in front of or inside either node, `==` of the texts kept of them says
whether the texts of the nodes are equal. -/
theorem C87_eq {y : Nat} (h : C.Reach) (hp : C'.hs.Perm ([x, y] ++ rest)) (hx : x ∈ C.hs) (hy : y ∈ C.hs)
    (hn : (C.s.tree x).isNode = true) (hn' : (C.s.tree y).isNode = true) {R R' : TextRange}
    (hR : Cur.textRange x C.s = .ok R C.s) (hR' : Cur.textRange y C.s = .ok R' C.s)
    (run : C.Run (fun s c => c.Later s x) x C') (run' : C.Run (fun s c => c.Later s y) y C') :
    ∃ T J, J.map Live.obj = [x, y] ∧ J.map Live.id = [0, 1] ∧ Running T C'.s C'.gs 2 J rest C'.lk ∧
      (Text.eq ⟨0, R⟩ ⟨1, R'⟩).Answers T C'.s C'.gs 2 J rest C'.lk (.ok (decide ((C.s.tree x).text = (C.s.tree y).text)))
        fun a b L => a = b ∧ L.Perm (Live.snaps J) := by
  have keep : ∀ {x R}, x ∈ C.hs → Cur.textRange x C.s = .ok R C.s → C.Run (fun s c => c.Later s x) x C' →
      C'.s.tree x = C.s.tree x ∧ Cur.textRange x C'.s = .ok R C'.s := by
    intro x R hx hR run
    obtain ⟨r, P, hl⟩ := HReach.loc h hx
    obtain ⟨ht, hs, -⟩ := C87_range h hx run
    refine ⟨ht, ?_⟩
    have := (HReach.spans h hl).2
    have hR1 := this
    rw [HSt.Spans, hR] at hR1
    rw [(HOut.ok.inj hR1).1]
    exact (hs _ _).mp this
  obtain ⟨t1, r1⟩ := keep hx hR run
  obtain ⟨t2, r2⟩ := keep hy hR' run'
  obtain ⟨_, _, l1⟩ := HReach.loc (run.reach h) (run.held hx)
  obtain ⟨_, _, l2⟩ := HReach.loc (run.reach h) (run'.held hy)
  obtain ⟨T, J, hJ, hI, hrun, -⟩ := C49_start (run.reach h) hp
  refine ⟨T, J, hJ, hI, hrun, ?_⟩
  match J, hJ, hI, hrun with
  | [⟨i, x', e⟩, ⟨i', y', e'⟩], hJ, hI, hrun =>
    obtain ⟨rfl, rfl⟩ : x' = x ∧ y' = y := by simpa using hJ
    obtain ⟨rfl, rfl⟩ : i = 0 ∧ i' = 1 := by simpa [List.range, List.range.loop] using hI
    have key := C84_partial hrun (j := ⟨0, x', e⟩) (j' := ⟨1, y', e'⟩) (by simp) (by simp) l1 l2 (by rw [t1]; exact hn)
      (by rw [t2]; exact hn') r1 r2
    simp only [t1, t2] at key
    exact key

end

/-- Behind the first inner node of `demo84`, the token is deleted and the other inner node is put in its place. -/
example : ∃ C', demo84.Run (fun s c => c.Later s 1) 1 C' ∧ C'.hs = [2, 1, 0] ∧ C'.s.tree 0 ≠ demo84.s.tree 0 ∧
    C'.s.Spans 1 0 2 ∧ ∃ r e, (Text.toString ⟨0, ⟨0, 2, by decide⟩⟩).Answers [r] C'.s C'.gs 1 [⟨0, 1, e⟩] [2, 0] C'.lk (.ok (.ok ['a', 'b']))
      (fun u y L => u = y ∧ L.Perm [(0, e)]) := by
  letI : Greens := ⟨demo84.gs⟩
  have key : (match (Call.splice 0 1 2 [3]).exec demo84.s with
      | .ok [] s' => decide (s'.tree 0 ≠ demo84.s.tree 0)
      | _ => false) = true := by decide +kernel
  split at key
  · rename_i s' he
    have run : demo84.Run (fun s c => c.Later s 1) 1 ⟨s', demo84.gs, [] ++ [2, 1, 0], [] ++ demo84.lk⟩ := by
      refine .step (l := some (.splice 0 1 2 [3], [2, 1, 0])) .refl
        (.ok demo84 (.splice 0 1 2 [3]) (rest := [2, 1, 0])
          ⟨by decide +kernel, by simp [Call.uses], by simp only [Call.nodes, List.mem_singleton, forall_eq]; decide +kernel, by simp⟩ he) ?_
      rintro c rest ⟨⟩
      refine ⟨by simp, fun r P P' h1 h2 => ?_, fun p hp r P P' h1 h2 => ?_⟩
      · obtain ⟨_, e1⟩ := demo84_loc1.unique h1
        obtain ⟨_, e2⟩ := demo84_loc0.unique h2
        subst e1 e2
        exact ⟨[], 0, 1, [], [], by decide, rfl, rfl⟩
      · obtain ⟨_, e1⟩ := demo84_loc1.unique h1
        obtain rfl := List.mem_singleton.mp hp
        obtain ⟨_, e2⟩ := demo84_loc3.unique h2
        subst e1 e2
        exact ⟨[], 0, 2, [], [], by decide, rfl, rfl⟩
    have hsp := (HReach.spans demo84_reach demo84_loc1).2
    have h1 : blen ((demo84.s.tree 0).before [0]) = 0 := by rw [demo84_tree]; decide +kernel
    have h3 : blen (demo84.s.tree 1).text = 2 := by decide +kernel
    rw [h1, h3] at hsp
    have h4 : (demo84.s.tree 1).text = ['a', 'b'] := by decide +kernel
    have hin : 1 ∈ demo84.hs := by decide +kernel
    obtain ⟨r, e, -, -, k, -⟩ := C87_text (rest := [2, 0]) demo84_reach (show List.Perm [2, 1, 0] [1, 2, 0] by decide) hin (by decide +kernel) hsp run
    rw [h4] at k
    exact ⟨_, run, rfl, of_decide_eq_true key, ((C87_range demo84_reach hin run).2.1 _ _).mp hsp, r, e, k⟩
  · cases key

/-- A mutable tree `[[a b] [ab] z]`: handle 0 the top node, 1 and 2 the inner nodes, 3 the token `z`. -/
def demo87 : Conf := after [
  .token 1 ['a'], .token 1 ['b'], .node 10 [1, 0], .token 1 ['a', 'b'], .node 10 [0], .token 2 ['z'], .node 20 [3, 1, 0],
  .root true 0, .call (.nav .firstChildOrToken 0), .call (.nav .nextSiblingOrToken 1), .call (.nav .nextSiblingOrToken 2)]
theorem demo87_reach : demo87.Reach := after_reach _
attribute [irreducible] demo87
theorem demo87_tree : demo87.s.tree 0 =
    .node 20 [.node 10 [.token 1 ['a'], .token 1 ['b']], .node 10 [.token 1 ['a', 'b']], .token 2 ['z']] := by decide +kernel
theorem demo87_loc0 : demo87.s.Loc 0 0 [] := .root (by decide +kernel) (by decide +kernel)
theorem demo87_loc1 : demo87.s.Loc 1 0 [0] :=
  .child' (P := []) (q := 0) (by decide +kernel) (by decide +kernel) (by decide +kernel) demo87_loc0
theorem demo87_loc2 : demo87.s.Loc 2 0 [1] :=
  .child' (P := []) (q := 0) (by decide +kernel) (by decide +kernel) (by decide +kernel) demo87_loc0
theorem demo87_loc3 : demo87.s.Loc 3 0 [2] :=
  .child' (P := []) (q := 0) (by decide +kernel) (by decide +kernel) (by decide +kernel) demo87_loc0

/-- The token behind the two inner nodes of `demo87` is detached; the texts kept of the nodes compare as before. -/
example : ∃ C' T J, demo87.Run (fun s c => c.Later s 1) 1 C' ∧ C'.s.tree 0 ≠ demo87.s.tree 0 ∧ J.map Live.obj = [1, 2] ∧
    (Text.eq ⟨0, ⟨0, 2, by decide⟩⟩ ⟨1, ⟨2, 4, by decide⟩⟩).Answers T C'.s C'.gs 2 J [3, 0] C'.lk (.ok true)
      (fun a b L => a = b ∧ L.Perm (Live.snaps J)) := by
  letI : Greens := ⟨demo87.gs⟩
  have key : (match (Call.detach 3).exec demo87.s with
      | .ok [] s' => decide (s'.tree 0 ≠ demo87.s.tree 0)
      | _ => false) = true := by decide +kernel
  split at key
  · rename_i s' he
    have run : ∀ x i, x ∈ [3, 2, 1, 0] → i < 2 → demo87.s.Loc x 0 [i] →
        demo87.Run (fun s c => c.Later s x) x ⟨s', demo87.gs, [] ++ [3, 2, 1, 0], [] ++ demo87.lk⟩ := by
      intro x i hx hi hl
      refine .step (l := some (.detach 3, [3, 2, 1, 0])) .refl
        (.ok demo87 (.detach 3) (rest := [3, 2, 1, 0]) ⟨by decide +kernel, by simp [Call.uses], by simp [Call.nodes], by simp⟩ he) ?_
      rintro c rest ⟨⟩
      refine ⟨hx, fun r P P' h1 h2 => ?_⟩
      obtain ⟨_, e1⟩ := hl.unique h1
      obtain ⟨_, e2⟩ := demo87_loc3.unique h2
      subst e1 e2
      exact ⟨[], i, 2, [], [], hi, rfl, rfl⟩
    have s1 := (HReach.spans demo87_reach demo87_loc1).2
    have s2 := (HReach.spans demo87_reach demo87_loc2).2
    have h1 : blen ((demo87.s.tree 0).before [0]) = 0 := by rw [demo87_tree]; decide +kernel
    have h2 : blen (demo87.s.tree 1).text = 2 := by decide +kernel
    have h3 : blen ((demo87.s.tree 0).before [1]) = 2 := by rw [demo87_tree]; decide +kernel
    have h4 : blen (demo87.s.tree 2).text = 2 := by decide +kernel
    rw [h1, h2] at s1
    rw [h3, h4] at s2
    obtain ⟨T, J, hJ, -, -, k⟩ := C87_eq (rest := [3, 0]) demo87_reach (show List.Perm [3, 2, 1, 0] [1, 2, 3, 0] by decide)
      (by decide +kernel) (by decide +kernel) (by decide +kernel) (by decide +kernel) s1 s2
      (run 1 0 (by simp) (by decide) demo87_loc1) (run 2 1 (by simp) (by decide) demo87_loc2)
    have h5 : decide ((demo87.s.tree 1).text = (demo87.s.tree 2).text) = true := by decide +kernel
    rw [h5] at k
    exact ⟨_, T, J, run 1 0 (by simp) (by decide) demo87_loc1, of_decide_eq_true key, hJ, k⟩
  · cases key

end Rowan
