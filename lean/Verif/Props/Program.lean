import Verif.TraverseTree
import Verif.Props.Memory
/-!
# C49: programs that read see exactly the trees

A reading program (`RProg`) navigates, clones and drops handles, looks at elements, and decides what to do next from
everything it has seen.  Whatever happened before (trees made mutable and edited, other handles around, intermediate
objects created and freed), it computes on the heap what it computes on plain trees.
-/
namespace Rowan

/-- **C49, what a handle denotes.**  In every reachable state every handle denotes exactly one value: an element at one
position of one tree.  Its content is the subtree at this position. -/
theorem C49_denotes {s : HSt} {gs : List GElem} {hs lk : List Nat} (h : HReach s gs hs lk) {x : Nat} (hx : x ∈ hs) :
    ∃ r P e, s.Loc x r P ∧ s.Snap [r] x e ∧ e.path = P ∧ (s.tree r).at? P = some (s.tree x) ∧
      ∀ T e', s.Snap T x e' → e' = e := by
  letI : Greens := ⟨gs⟩
  obtain ⟨kids, hi⟩ := h.ok'
  obtain ⟨r, P, hl⟩ := h.loc hx
  obtain ⟨e, h1, h2⟩ := HSt.Snap.exist hi hl
  refine ⟨r, P, e, hl, h1, h2, hi.tree_at hl, ?_⟩
  rintro T e' ⟨r', hr', a, b, c⟩
  have hr : r' = r := (a.unique hl).1
  subst hr
  exact HSt.Snap.unique (T := [r']) hi ⟨r', List.mem_singleton.mpr rfl, a, b, c⟩ h1

/-- A handle that denotes a value is at the position of that value, in the tree named. -/
theorem C49_place {s : HSt} {gs : List GElem} {n r : Nat} {J : List Live} {rest lk : List Nat}
    (h : Running [r] s gs n J rest lk) {j : Live} (hj : j ∈ J) :
    s.Loc j.obj r j.snap.path ∧ (s.tree r).at? j.snap.path = some (s.tree j.obj) :=
  ⟨(h.at hj).2, (h.at_tree hj).1⟩

/-- Numbered from 0. -/
def Live.number : Nat → List (Nat × SElem) → List Live
  | _, [] => []
  | n, (x, e) :: l => ⟨n, x, e⟩ :: Live.number (n + 1) l

theorem Live.number_ids : ∀ (n : Nat) (l : List (Nat × SElem)), (Live.number n l).map Live.id = List.range' n l.length
  | _, [] => rfl
  | n, (x, e) :: l => by simp [Live.number, Live.number_ids (n + 1) l, List.range'_succ]

theorem Live.number_objs : ∀ (n : Nat) (l : List (Nat × SElem)), (Live.number n l).map Live.obj = l.map Prod.fst
  | _, [] => rfl
  | n, (x, e) :: l => by simp [Live.number, Live.number_objs (n + 1) l]

theorem Live.mem_number : ∀ {n : Nat} {l : List (Nat × SElem)} {j : Live}, j ∈ Live.number n l → (j.obj, j.snap) ∈ l
  | _, [], _, h => nomatch h
  | n, (x, e) :: l, j, h => by
    rcases List.mem_cons.mp h with rfl | h
    · exact List.mem_cons_self ..
    · exact List.mem_cons_of_mem _ (Live.mem_number h)

/-- **C49, any moment is a start.**  In every reachable state a reading program can be started with any of the handles. -/
theorem C49_start {s : HSt} {gs : List GElem} {hs xs rest lk : List Nat} (h : HReach s gs hs lk)
    (hp : hs.Perm (xs ++ rest)) :
    ∃ T J, J.map Live.obj = xs ∧ J.map Live.id = List.range xs.length ∧ Running T s gs xs.length J rest lk ∧
      ∀ r ∈ T, s.live r = true ∧ s.parent r = none := by
  letI : Greens := ⟨gs⟩
  have : ∀ ys : List Nat, (∀ y ∈ ys, y ∈ hs) → ∃ T, ∃ l : List (Nat × SElem), l.map Prod.fst = ys ∧
      (∀ x ∈ l, s.Snap T x.1 x.2) ∧ ∀ r ∈ T, s.live r = true ∧ s.parent r = none := by
    intro ys
    induction ys with
    | nil => exact fun _ => ⟨[], [], rfl, nofun, nofun⟩
    | cons y ys ih =>
      intro hy
      obtain ⟨T, l, h1, h2, h3⟩ := ih fun z hz => hy z (List.mem_cons_of_mem _ hz)
      obtain ⟨r, P, e, a, b, -, -⟩ := C49_denotes h (hy y (List.mem_cons_self ..))
      refine ⟨r :: T, (y, e) :: l, by simp [h1], ?_, ?_⟩
      · intro x hx
        rcases List.mem_cons.mp hx with rfl | hx
        · obtain ⟨r', hr', c⟩ := b
          exact ⟨r', by rw [List.mem_singleton.mp hr']; exact List.mem_cons_self .., c⟩
        · obtain ⟨r', hr', c⟩ := h2 x hx
          exact ⟨r', List.mem_cons_of_mem _ hr', c⟩
      · intro r' hr'
        rcases List.mem_cons.mp hr' with rfl | hr'
        · exact a.root_live
        · exact h3 r' hr'
  obtain ⟨T, l, h1, h2, h3⟩ := this xs fun y hy => hp.mem_iff.mpr (List.mem_append.mpr (.inl hy))
  have hlen : l.length = xs.length := by rw [← h1]; simp
  refine ⟨T, Live.number 0 l, by rw [Live.number_objs, h1], by rw [Live.number_ids, hlen, List.range_eq_range'], ?_, h3⟩
  refine ⟨⟨hs, by rw [Live.number_objs, h1]; exact hp, h⟩, ?_, ?_, ?_⟩
  · rw [Live.number_ids]; exact List.nodup_range'
  · intro j hj
    have : j.id ∈ (Live.number 0 l).map Live.id := List.mem_map_of_mem hj
    rw [Live.number_ids] at this
    have := List.mem_range'_1.mp this
    omega
  · intro j hj
    exact h2 _ (Live.mem_number hj)

/-- The same with one handle, so that the tree is known. -/
theorem C49_start_one {s : HSt} {gs : List GElem} {hs rest lk : List Nat} {x : Nat} (h : HReach s gs hs lk)
    (hp : hs.Perm (x :: rest)) {r : Nat} {P : List Nat} (hl : s.Loc x r P) :
    ∃ e, e.path = P ∧ Running [r] s gs 1 [⟨0, x, e⟩] rest lk := by
  letI : Greens := ⟨gs⟩
  obtain ⟨kids, hi⟩ := h.ok'
  obtain ⟨e, h1, h2⟩ := HSt.Snap.exist hi hl
  refine ⟨e, h2, ⟨hs, hp, h⟩, by simp, ?_, ?_⟩
  · intro j hj; rw [List.mem_singleton.mp hj]; exact Nat.zero_lt_one
  · intro j hj; rw [List.mem_singleton.mp hj]; exact h1

/-- **C49.**  A program that reads, run on the heap, ends as it ends on plain trees: the same result, the same panic,
the same loop, and handles that denote the same elements.  What the handles of others denote is unchanged.  The only other
outcome is the abort when a reference count would overflow, for which at least `rcMax - 2` handles must exist.  The program
loses no handles except those of whole immutable trees that it passes to `to_next_sibling` (C39). -/
theorem C49_reading {α : Type} (p : RProg α) {s : HSt} {gs : List GElem} {n : Nat} {J : List Live}
    {T rest lk : List Nat} (h : Running T s gs n J rest lk) (hu : p.eval ⟨n, Live.snaps J⟩ ≠ .misuse) :
    (p.exec ⟨n, Live.objs J⟩ s = .abort ∧
      Cur.rcMax ≤ p.peak ⟨n, Live.snaps J⟩ + (rest ++ lk).length + 2) ∨
    ∃ o s' lk', p.exec ⟨n, Live.objs J⟩ s = .ok o s' ∧
      SameOut T s' gs rest (lk' ++ lk) (p.eval ⟨n, Live.snaps J⟩) o ∧ SameSnaps rest s s' ∧
      lk'.length ≤ p.lost ⟨n, Live.snaps J⟩ :=
  p.exec_eval h hu

/-- **C49**, without the exception: if the run and everybody else together never hold `2^32 - 3` handles. -/
theorem C49_no_abort {α : Type} (p : RProg α) {s : HSt} {gs : List GElem} {n : Nat} {J : List Live}
    {T rest lk : List Nat} (h : Running T s gs n J rest lk) (hu : p.eval ⟨n, Live.snaps J⟩ ≠ .misuse)
    (hb : p.peak ⟨n, Live.snaps J⟩ + (rest ++ lk).length + 2 < Cur.rcMax) :
    ∃ o s' lk', p.exec ⟨n, Live.objs J⟩ s = .ok o s' ∧
      SameOut T s' gs rest (lk' ++ lk) (p.eval ⟨n, Live.snaps J⟩) o ∧ SameSnaps rest s s' ∧
      lk'.length ≤ p.lost ⟨n, Live.snaps J⟩ := by
  rcases p.exec_eval h hu with ⟨-, e⟩ | e
  · omega
  · exact e

/-- **C49, nothing else matters.**  Two runs that start with handles for the same elements give the same results, however
different the two heaps are (other handles, other trees, other reference counts, other objects in memory). -/
theorem C49_only_the_tree {α : Type} (p : RProg α) {s t : HSt} {gs gs' : List GElem} {n : Nat} {J K : List Live}
    {T T' rest rest' lk lk' : List Nat} (h : Running T s gs n J rest lk) (h' : Running T' t gs' n K rest' lk')
    (he : Live.snaps J = Live.snaps K) {a b : α} {v w : Env Nat} {s' t' : HSt}
    (hu : p.eval ⟨n, Live.snaps J⟩ ≠ .misuse)
    (e1 : p.exec ⟨n, Live.objs J⟩ s = .ok (.ok a v) s') (e2 : p.exec ⟨n, Live.objs K⟩ t = .ok (.ok b w) t') : a = b := by
  have one : ∀ {s : HSt} {gs : List GElem} {J : List Live} {T rest lk : List Nat} {a : α} {v : Env Nat} {s' : HSt},
      Running T s gs n J rest lk → p.eval ⟨n, Live.snaps J⟩ ≠ .misuse → p.exec ⟨n, Live.objs J⟩ s = .ok (.ok a v) s' →
      ∃ u, p.eval ⟨n, Live.snaps J⟩ = .ok a u := by
    intro s gs J T rest lk a v s' h hu e
    rcases p.exec_eval h hu with ⟨e0, -⟩ | ⟨o, s1, lk', e0, h1, -⟩
    · rw [e] at e0; cases e0
    · rw [e] at e0; cases e0
      cases hv : p.eval ⟨n, Live.snaps J⟩ with
      | ok a' u => rw [hv] at h1; exact ⟨u, by rw [h1.1]⟩
      | panic u => rw [hv] at h1; exact h1.elim
      | diverge => rw [hv] at h1; exact h1.elim
      | misuse => rw [hv] at h1; exact h1.elim
  obtain ⟨u, h1⟩ := one h hu e1
  obtain ⟨u', h2⟩ := one h' (by rw [← he]; exact hu) e2
  rw [← he, h1] at h2
  cases h2; rfl

/-! ### A concrete case

After an edit (`demo2`: element 6 was detached from its tree), a program starts on the mutable tree of element 0 while
somebody else holds the six other handles. -/

example := C49_denotes (x := 3) demo2_reach (by decide +kernel)

theorem demo2_hreach : HReach demo2.s demo2.gs demo2.hs [] := by
  have h : HReach demo2.s demo2.gs demo2.hs demo2.lk := demo2_reach
  rw [demo2_lk] at h; exact h

theorem demo2_start : ∃ e, e.path = [2] ∧ Running [0] demo2.s demo2.gs 1 [⟨0, 3, e⟩] [6, 5, 4, 2, 1, 0] [] :=
  C49_start_one demo2_hreach (by decide +kernel) demo2_loc3

example := C49_start (xs := [3, 6]) (rest := [5, 4, 2, 1, 0]) demo2_hreach (by decide +kernel)

/-- Go up, then to the first child, look at it, and drop both handles. -/
def demoProg : RProg SyntaxKind := do
  match ← Prog.nav .parent 0 with
  | none => .panic
  | some p => do
    match ← Prog.nav .firstChildOrToken p with
    | none => .panic
    | some c => do
      let o ← Prog.look c
      Prog.drop p
      Prog.drop c
      pure o.kind

/-- `C49_no_abort` applies. -/
example : ∃ e o s' lk', (Prog.nav .parent 0).exec ⟨1, [(0, 3)]⟩ demo2.s = .ok o s' ∧
    SameOut [0] s' demo2.gs [6, 5, 4, 2, 1, 0] lk' ((Prog.nav .parent 0).eval ⟨1, [(0, e)]⟩) o := by
  obtain ⟨e, -, h⟩ := demo2_start
  have hev : (Prog.nav .parent 0).eval ⟨1, [(0, e)]⟩ ≠ .misuse := by
    cases e <;> simp only [Prog.nav, RProg.eval, Env.get, List.lookup, beq_self_eq_true, Nav.fits, Nav.onNodes] <;> simp <;> split <;> simp
  have hpk : (Prog.nav .parent 0).peak ⟨1, [(0, e)]⟩ ≤ 2 := by
    simp only [Prog.nav, RProg.peak, Env.get, List.lookup, beq_self_eq_true]
    cases Nav.parent.on e <;> simp [Env.add]
  obtain ⟨o, s', lk', h1, h2, -⟩ := C49_no_abort (Prog.nav .parent 0) h hev (Nat.lt_of_le_of_lt
    (Nat.add_le_add_right (Nat.add_le_add_right hpk _) _) (by decide))
  exact ⟨e, o, s', _, h1, h2⟩

/-- The run on the heap returns kind 1 and holds only the handle it started with. -/
example : (match demoProg.exec ⟨1, [(0, 3)]⟩ demo2.s with
    | .ok (.ok k v) _ => decide (k = 1 ∧ v.held = [(0, 3)])
    | _ => false) = true := by decide +kernel

end Rowan
