import Verif.ForestFrozen
import Verif.Props.Unwind
/-!
# C61: programs that edit see exactly a forest of plain trees

An editing program (`EProg`) plants trees, navigates, clones, drops and forgets handles, clones trees, detaches, splices and
attaches elements, looks at elements, compares them, catches panics, and decides what to do next from everything it has seen.  `EProg.exec`
runs it on the heap of cursor objects; `EProg.run` runs it on a forest (Spec/Forest.lean): numbered plain trees, and for each handle a tree
number and a position.
-/
namespace Rowan
variable {s : HSt} {gs : List GElem} {lk : List Nat} {F : Forest} {w : Env Nat}

/-- The forest without trees. -/
def Forest.empty : Forest := ⟨⟨0, []⟩, fun _ => .token 0 [], fun _ => false, 0, false⟩

/-- **C61, the start of the program.** -/
theorem C61_init (gtop slack : Nat) : Tracks { HSt.empty gtop with slack := slack } [] [] Forest.empty ⟨0, []⟩ :=
  ⟨.init gtop slack, rfl, nofun, [], id, rfl, rfl, by simp, nofun, nofun, nofun⟩

/-- Handles numbered from `n`. -/
def Item.number (f : Nat → Nat × List Nat) : Nat → List Nat → List Item
  | _, [] => []
  | n, x :: xs => ⟨n, x, (f x).1, (f x).2⟩ :: Item.number f (n + 1) xs

theorem Item.number_ids (f : Nat → Nat × List Nat) : ∀ (n : Nat) (l : List Nat),
    (Item.number f n l).map Item.id = List.range' n l.length
  | _, [] => rfl
  | n, x :: l => by simp [Item.number, Item.number_ids f (n + 1) l, List.range'_succ]

theorem Item.number_objs (f : Nat → Nat × List Nat) : ∀ (n : Nat) (l : List Nat), (Item.number f n l).map Item.obj = l
  | _, [] => rfl
  | n, x :: l => by simp [Item.number, Item.number_objs f (n + 1) l]

theorem Item.mem_number (f : Nat → Nat × List Nat) : ∀ {n : Nat} {l : List Nat} {j : Item}, j ∈ Item.number f n l →
    j.obj ∈ l ∧ j.tree = (f j.obj).1 ∧ j.path = (f j.obj).2
  | _, [], _, h => nomatch h
  | n, x :: l, j, h => by
    rcases List.mem_cons.mp h with rfl | h
    · exact ⟨List.mem_cons_self .., rfl, rfl⟩
    · have := Item.mem_number f h
      exact ⟨List.mem_cons_of_mem _ this.1, this.2⟩

/-- **C61, any moment is a start.**  Every state that any program can reach stands for a forest: the handles are numbered
0, 1, …, in their order. -/
theorem C61_start {hs : List Nat} (h : HReach s gs hs lk) :
    ∃ F w, Tracks s gs lk F w ∧ w.held.map Prod.snd = hs ∧ w.held.map Prod.fst = List.range hs.length := by
  obtain ⟨v, hv⟩ := C36_view h
  letI : Greens := ⟨gs⟩
  have hb : ∀ l : List Nat, ∃ n, ∀ x ∈ l, (v.pos x).1 < n := by
    intro l
    induction l with
    | nil => exact ⟨0, nofun⟩
    | cons y l ih =>
      obtain ⟨n, hn⟩ := ih
      refine ⟨n + (v.pos y).1 + 1, fun x hx => ?_⟩
      rcases List.mem_cons.mp hx with rfl | hx
      · omega
      · have := hn x hx; omega
  obtain ⟨n, hn⟩ := hb hs
  have hJ := Item.number_objs v.pos 0 hs
  -- whether a tree is mutable is what its top element says
  refine ⟨⟨⟨hs.length, Item.places (Item.number v.pos 0 hs)⟩, v.tree, s.mutable, n, decide (lk ≠ [])⟩,
    ⟨hs.length, Item.objs (Item.number v.pos 0 hs)⟩, ⟨?_, rfl, fun hlk => decide_eq_true hlk, Item.number v.pos 0 hs, id, rfl, rfl, ?_, ?_, ?_, ?_⟩, ?_, ?_⟩
  · rw [Item.objs_snd, hJ]; exact h
  · rw [Item.number_ids]; exact List.nodup_range'
  · intro j hj
    have : j.id ∈ (Item.number v.pos 0 hs).map Item.id := List.mem_map_of_mem hj
    rw [Item.number_ids] at this
    have := List.mem_range'_1.mp this
    simp only; omega
  · intro j hj
    obtain ⟨h1, h2, h3⟩ := Item.mem_number v.pos hj
    obtain ⟨a, b, c⟩ := hv j.obj (cnt_pos.mpr (List.mem_append_left _ h1))
    simp only [id, h2, h3]
    obtain ⟨kids, hi⟩ := h.ok'
    exact ⟨a, b, (hi.mutable_root a).symm, hn _ h1⟩
  · intro i _ j _ e; exact e
  · simp only; rw [Item.objs_snd, hJ]
  · simp only [Item.objs, List.map_map]
    have := Item.number_ids v.pos 0 hs
    rw [List.range_eq_range', ← this]
    rfl

/-- **C61.**  A program, run on the heap, ends as it ends on the forest: the same result, a panic, or a loop; a panic that it
catches does not change this.  Afterwards, also after a panic, the heap stands for the forest that is left, and at most `lost`
more handles are lost.  If the program ends with a panic that left an element hanging in no tree (`broken`), its handles can
be dropped, in any order.  The only other outcome is the abort when a reference count would overflow; for this the bound `peak`
on the number of handles, and those lost before, must reach `rcMax`.  Programs that misuse handles do not compile, and nothing
is said about programs that catch a panic that left an element hanging in no tree, or compare two different elements of equal
content and range (`wild`). -/
theorem C61_run {α : Type} (p : EProg α) (h : Tracks s gs lk F w) (hu : p.run F ≠ .misuse) (hw : p.run F ≠ .wild) :
    (p.exec w s = .abort ∧ Cur.rcMax ≤ p.peak F + lk.length) ∨
    match p.run F with
    | .ok (a, F') => ∃ w' s' lk', p.exec w s = .ok (.ok a w') s' ∧ Tracks s' gs lk' F' w' ∧
        lk'.length ≤ lk.length + p.lost F
    | .panic F' => ∃ w' s' lk', p.exec w s = .ok (.panic w') s' ∧ Tracks s' gs lk' F' w' ∧
        lk'.length ≤ lk.length + p.lost F
    | .broken => ∃ w' s', p.exec w s = .ok (.panic w') s' ∧ Droppable s' (w'.held.map Prod.snd)
    | .diverge => p.exec w s = .diverge
    | .wild | .misuse => False :=
  p.exec_run h hu hw

/-- **C61, without the exception.** -/
theorem C61_no_abort {α : Type} (p : EProg α) (h : Tracks s gs lk F w) (hb : p.peak F + lk.length < Cur.rcMax) {a : α}
    {F' : Forest} (e : p.run F = .ok (a, F')) :
    ∃ w' s' lk', p.exec w s = .ok (.ok a w') s' ∧ Tracks s' gs lk' F' w' ∧ lk'.length ≤ lk.length + p.lost F := by
  rcases p.exec_run h (by rw [e]; nofun) (by rw [e]; nofun) with ⟨-, h1⟩ | h1
  · omega
  · rw [e] at h1; exact h1

/-- **C61, unwinding.**  After a panic the handles that the program holds are dropped, in an order that depends on its frames:
this succeeds in every order. -/
theorem C61_unwind {α : Type} (p : EProg α) (h : Tracks s gs lk F w) (hu : p.run F ≠ .misuse) (hw : p.run F ≠ .wild)
    {w' : Env Nat} {s' : HSt} (e : p.exec w s = .ok (.panic w') s') {D : List Nat} (hD : D.Perm (w'.held.map Prod.snd)) :
    ∃ s'', Cur.dropAll D s' = .ok () s'' ∧ (p.run F ≠ .broken → ∃ lk', HReach s'' gs [] lk' ∧ lk'.length ≤ lk.length + p.lost F) := by
  rcases p.exec_run h hu hw with ⟨h1, -⟩ | h1
  · rw [e] at h1; cases h1
  · cases hr : p.run F with
    | misuse => exact absurd hr hu
    | wild => exact absurd hr hw
    | diverge => rw [hr] at h1; have h1 : _ = _ := h1; rw [e] at h1; cases h1
    | ok o =>
      rw [hr] at h1; obtain ⟨w1, s1, l1, h1, -⟩ := h1; rw [e] at h1; cases h1
    | broken =>
      rw [hr] at h1; obtain ⟨w1, s1, h1, h2⟩ := h1
      rw [e] at h1; cases h1
      obtain ⟨s'', h3⟩ := h2 D [] (by simpa using hD.symm)
      exact ⟨s'', h3, fun h => absurd rfl h⟩
    | panic F' =>
      rw [hr] at h1; obtain ⟨w1, s1, l1, h1, h2, h3⟩ := h1
      rw [e] at h1; cases h1
      obtain ⟨s'', hs', e1, hp1, hr1, -⟩ := h2.reach.stepDropAll (D := D) (rest := []) (by simpa using hD.symm)
      rw [hp1.eq_nil] at hr1
      exact ⟨s'', e1, fun _ => ⟨l1, hr1, h3⟩⟩

/-- **C61, unwinding frees everything.**  If no handle is lost, no cursor object is left after the unwinding, and no green node
is held by one. -/
theorem C61_unwind_frees {α : Type} (p : EProg α) (h : Tracks s gs [] F w) (hu : p.run F ≠ .misuse) (hw : p.run F ≠ .wild)
    (hb : p.run F ≠ .broken) (hl : p.lost F = 0) {w' : Env Nat} {s' : HSt} (e : p.exec w s = .ok (.panic w') s') {D : List Nat}
    (hD : D.Perm (w'.held.map Prod.snd)) :
    ∃ s'', Cur.dropAll D s' = .ok () s'' ∧ (∀ x, s''.live x = false) ∧ s''.owned = [] := by
  obtain ⟨s'', h1, h2⟩ := C61_unwind p h hu hw e hD
  obtain ⟨lk', h3, h4⟩ := h2 hb
  have : lk' = [] := List.length_eq_zero_iff.mp (by simpa [hl] using h4)
  subst this
  exact ⟨s'', h1, C39_partial h3⟩

/-- **C61, nothing else matters.**  Two runs from heaps that stand for the same forest, however different the objects in
them, both panic, or give the same result; and they leave heaps that stand for the same forest. -/
theorem C61_only_the_forest {α : Type} (p : EProg α) {t : HSt} {gs' : List GElem} {lk' : List Nat} {u : Env Nat}
    (h : Tracks s gs lk F w) (h' : Tracks t gs' lk' F u) (hu : p.run F ≠ .misuse) (hw : p.run F ≠ .wild) {o o' : EOut α}
    {s' t' : HSt} (e1 : p.exec w s = .ok o s') (e2 : p.exec u t = .ok o' t') :
    match o, o' with
    | .ok a w', .ok b u' => a = b ∧ ∃ F' l l', Tracks s' gs l F' w' ∧ Tracks t' gs' l' F' u'
    | .panic w', .panic u' => p.run F = .broken ∨ ∃ F' l l', Tracks s' gs l F' w' ∧ Tracks t' gs' l' F' u'
    | _, _ => False := by
  rcases p.exec_run h hu hw with ⟨h1, -⟩ | h1
  · rw [e1] at h1; cases h1
  rcases p.exec_run h' hu hw with ⟨h2, -⟩ | h2
  · rw [e2] at h2; cases h2
  rw [e1] at h1
  rw [e2] at h2
  cases hr : p.run F with
  | misuse => exact absurd hr hu
  | wild => exact absurd hr hw
  | diverge => rw [hr] at h1; cases h1
  | ok x =>
    obtain ⟨a, F'⟩ := x
    rw [hr] at h1 h2
    obtain ⟨w1, s1, l1, h1, h3, -⟩ := h1
    obtain ⟨w2, s2, l2, h2, h4, -⟩ := h2
    cases h1; cases h2
    exact ⟨rfl, F', l1, l2, h3, h4⟩
  | panic F' =>
    rw [hr] at h1 h2
    obtain ⟨w1, s1, l1, h1, h3, -⟩ := h1
    obtain ⟨w2, s2, l2, h2, h4, -⟩ := h2
    cases h1; cases h2
    exact .inr ⟨F', l1, l2, h3, h4⟩
  | broken =>
    rw [hr] at h1 h2
    obtain ⟨w1, s1, h1, -⟩ := h1
    obtain ⟨w2, s2, h2, -⟩ := h2
    cases h1; cases h2
    exact .inl rfl

/-- Handles of a forest are numbered below `next`, their trees below `fresh`. -/
theorem Tracks.low (h : Tracks s gs lk F w) {n : Nat} {x : Nat × List Nat} (e : F.env.get n = some x) :
    n < F.env.next ∧ x.1 < F.fresh := by
  obtain ⟨v, J, top, hS⟩ := h.sync
  obtain ⟨j, hj, rfl, rfl, -⟩ := hS.get e
  exact ⟨by rw [hS.next]; exact hS.low j hj, hS.sees.low j hj⟩

/-- **C61, immutable trees.**  No program changes an immutable tree, or moves a handle that points into one: neither one that
returns, nor one that panics. -/
theorem C61_immutable {α : Type} (p : EProg α) (h : Tracks s gs lk F w) {w' : Env Nat} {s' : HSt}
    (hu : p.run F ≠ .misuse) (hw : p.run F ≠ .wild) (hb : p.run F ≠ .broken)
    (e : (∃ a, p.exec w s = .ok (.ok a w') s') ∨ p.exec w s = .ok (.panic w') s') {n r : Nat} {P : List Nat}
    (hn : F.env.get n = some (r, P)) (hm : F.mutable r = false) :
    ∃ F' l, Tracks s' gs l F' w' ∧ F'.tree r = F.tree r ∧ F'.mutable r = false ∧
      ∀ x, F'.env.get n = some x → x = (r, P) := by
  have k0 : F.Keeps r (F.tree r) n P :=
    ⟨(h.low hn).2, hm, rfl, (h.low hn).1, fun x hx => by rw [hn] at hx; cases hx; rfl⟩
  rcases p.exec_run h hu hw with ⟨h1, -⟩ | h1
  · rcases e with ⟨a, e⟩ | e <;> rw [e] at h1 <;> cases h1
  · cases hr : p.run F with
    | misuse => exact absurd hr hu
    | wild => exact absurd hr hw
    | broken => exact absurd hr hb
    | diverge =>
      rw [hr] at h1
      have h1 : _ = _ := h1
      rcases e with ⟨a, e⟩ | e <;> rw [e] at h1 <;> cases h1
    | panic F1 =>
      rw [hr] at h1
      obtain ⟨w1, s1, l1, h1, h2, -⟩ := h1
      have k := Forest.Keeps.run p k0 (.inr hr)
      rcases e with ⟨a, e⟩ | e <;> rw [e] at h1 <;> cases h1
      exact ⟨F1, l1, h2, k.tree, k.mutb, k.get⟩
    | ok o =>
      obtain ⟨a1, F1⟩ := o
      rw [hr] at h1
      obtain ⟨w1, s1, l1, h1, h2, -⟩ := h1
      have k := Forest.Keeps.run p k0 (.inl ⟨a1, hr⟩)
      rcases e with ⟨a, e⟩ | e <;> rw [e] at h1 <;> cases h1
      exact ⟨F1, l1, h2, k.tree, k.mutb, k.get⟩

/-- **C61, taking out and putting back.**  Detach a child of a mutable node, and attach it where it was: every tree and every
other handle are as before. -/
theorem C61_move_back (h : Tracks s gs lk F w) {p q r i : Nat} {Q : List Nat} {c : Tree}
    (hp : F.env.get p = some (r, Q ++ [i])) (hq : F.env.get q = some (r, Q)) (hm : F.mutable r = true)
    (hc : F.sub (r, Q ++ [i]) = some c) (hb : (Prog.move p q i).peak F + lk.length < Cur.rcMax) :
    ∃ F' w' s' l, (Prog.move p q i).exec w s = .ok (.ok () w') s' ∧ Tracks s' gs l F' w' ∧
      F'.env.get p = none ∧ (∀ h, h ≠ p → F'.env.get h = F.env.get h) ∧
      ∀ n, n < F.fresh → F'.tree n = F.tree n ∧ F'.mutable n = F.mutable n := by
  obtain ⟨F', h1, h2⟩ := Forest.move_back hp hq hm hc fun n x hx => (h.low hx).2
  obtain ⟨w', s', l, h3, h4, -⟩ := C61_no_abort _ h hb h1
  exact ⟨F', w', s', l, h3, h4, h2⟩

/-! ### A concrete case

Plant a mutable tree, detach its second child, plant it in front of the first, and look at the trees on the way. -/

namespace Prog
def ask (r : Req) : EProg Nat := .req r fun
  | .done (some n) => .ret n
  | _ => .panic
def act (r : Req) : EProg Unit := .req r fun
  | .done _ => .ret ()
  | .panicked => .panic
/-- `catch_unwind` around a step: did it panic? -/
def attempt (r : Req) : EProg Bool := .req r fun
  | .done _ => .ret false
  | .panicked => .ret true
def see (n : Nat) : EProg Sight := .look n .ret
end Prog

def demoEdit : EProg (List Tree × Option Nat × TextRange) := do
  let root ← Prog.ask (.plant true 1 [.token 2 ['a'], .node 3 [.token 4 ['b', 'c']], .token 5 ['d']])
  let a ← Prog.ask (.nav .firstChildOrToken root)
  let n ← Prog.ask (.nav .nextSibling a)
  Prog.act (.detach n)
  let o1 ← Prog.see root
  let o2 ← Prog.see n
  Prog.act (.attach root 0 n)
  let o3 ← Prog.see root
  let o4 ← Prog.see a
  pure ([o1.content, o2.content, o3.content], o4.index, o4.range)

/-- What the program returns. -/
def FOut.result {α : Type} : FOut (α × Forest) → Option α
  | .ok (a, _) => some a
  | _ => none

def demoEdit_value : List Tree × Option Nat × TextRange :=
  ([.node 1 [.token 2 ['a'], .token 5 ['d']], .node 3 [.token 4 ['b', 'c']],
    .node 1 [.node 3 [.token 4 ['b', 'c']], .token 2 ['a'], .token 5 ['d']]], some 1, TextRange.at_ 2 1)

theorem demoEdit_run : (demoEdit.run Forest.empty).result = some demoEdit_value := by decide +kernel

/-- The theorem applies, and tells what the run on the heap does. -/
example : ∃ w' s', demoEdit.exec ⟨0, []⟩ { HSt.empty 0 with slack := 0 } = .ok (.ok demoEdit_value w') s' := by
  cases hr : demoEdit.run Forest.empty with
  | ok o =>
    obtain ⟨a, F'⟩ := o
    have := demoEdit_run
    rw [hr] at this
    cases this
    obtain ⟨w', s', -, h, -⟩ := C61_no_abort demoEdit (C61_init 0 0) (by decide +kernel) hr
    exact ⟨w', s', h⟩
  | _ => have := demoEdit_run; rw [hr] at this; cases this

/-- The heap, run directly. -/
example : (match demoEdit.exec ⟨0, []⟩ { HSt.empty 0 with slack := 0 } with
    | .ok (.ok a _) _ => decide (a = demoEdit_value)
    | _ => false) = true := by decide +kernel

/-- After the edits of `demo2` the state stands for a forest with seven handles. -/
example := C61_start demo2_reach

/-- An immutable tree (handle 0), a mutable copy of it (handle 1) and the second child of the copy (handles 2, 3). -/
def demoSetup : EProg Unit := do
  let t ← Prog.ask (.plant false 1 [.token 2 ['a'], .node 3 [.token 4 ['b', 'c']], .token 5 ['d']])
  let u ← Prog.ask (.cloneForUpdate t)
  let a ← Prog.ask (.nav .firstChildOrToken u)
  let _ ← Prog.ask (.toNext false a)
  pure ()

def demoForest : Forest :=
  match demoSetup.run Forest.empty with
  | .ok (_, F) => F
  | _ => Forest.empty

theorem demoForest_tracks : ∃ w s, Tracks s [] [] demoForest w := by
  cases hr : demoSetup.run Forest.empty with
  | ok o =>
    obtain ⟨a, F'⟩ := o
    obtain ⟨w', s', l, -, h, hl⟩ := C61_no_abort demoSetup (C61_init 0 0) (by decide +kernel) hr
    have h0 : demoSetup.lost Forest.empty = 0 := by decide +kernel
    have : l = [] := List.eq_nil_of_length_eq_zero (by simpa [h0] using hl)
    subst this
    have : demoForest = F' := by rw [demoForest, hr]
    rw [this]
    exact ⟨w', s', h⟩
  | _ =>
    have : (demoSetup.run Forest.empty).result = some () := by decide +kernel
    rw [hr] at this; cases this

theorem demoForest_facts : demoForest.env.get 0 = some (0, []) ∧ demoForest.env.get 1 = some (1, []) ∧
    demoForest.env.get 3 = some (1, [] ++ [1]) ∧ demoForest.mutable 0 = false ∧ demoForest.mutable 1 = true ∧
    demoForest.sub (1, [] ++ [1]) = some (.node 3 [.token 4 ['b', 'c']]) := by decide +kernel

/-- `C61_move_back` applies. -/
example {s : HSt} {w : Env Nat} (h : Tracks s [] [] demoForest w) := by
  obtain ⟨-, h1, h3, -, hm, hc⟩ := demoForest_facts
  exact C61_move_back h h3 h1 hm hc (by decide +kernel)

/-- `C61_immutable` applies to the detachment of the second child of the copy. -/
example {s s' : HSt} {w w' : Env Nat} {lk : List Nat} (h : Tracks s [] lk demoForest w)
    (e : (Prog.act (.detach 3)).exec w s = .ok (.ok () w') s') := by
  obtain ⟨h0, -, -, hm, -⟩ := demoForest_facts
  have hr : ((Prog.act (.detach 3)).run demoForest).result = some () := by decide +kernel
  exact C61_immutable _ h (fun hx => by rw [hx] at hr; cases hr) (fun hx => by rw [hx] at hr; cases hr)
    (fun hx => by rw [hx] at hr; cases hr) (.inl ⟨_, e⟩) h0 hm

/-! ### Panics

The program tries to attach a node of an immutable tree: this panics.  It catches the panic, and tries to attach a mutable
token at an index that is too large, which panics again; the token is gone, because nobody else has a handle on it.  Then it
attaches a mutable copy of the node, and detaches the immutable tree: this panics a third time, and ends the program. -/

def demoCatch : EProg (List Bool × List Tree) := do
  let root ← Prog.ask (.plant true 1 [.token 2 ['a'], .token 5 ['d']])
  let tok ← Prog.ask (.nav .lastChildOrToken root)
  let other ← Prog.ask (.plant false 3 [.token 4 ['b', 'c']])
  let again ← Prog.ask (.clone other)
  let b1 ← Prog.attempt (.attach root 0 again)
  let b2 ← Prog.attempt (.attach root 7 tok)
  let o1 ← Prog.see root
  let copy ← Prog.ask (.cloneForUpdate other)
  let b3 ← Prog.attempt (.attach root 0 copy)
  let o2 ← Prog.see root
  let o3 ← Prog.see other
  pure ([b1, b2, b3], [o1.content, o2.content, o3.content])

def demoCatch_value : List Bool × List Tree :=
  ([true, true, false], [.node 1 [.token 2 ['a']], .node 1 [.node 3 [.token 4 ['b', 'c']], .token 2 ['a']],
    .node 3 [.token 4 ['b', 'c']]])

theorem demoCatch_run : (demoCatch.run Forest.empty).result = some demoCatch_value := by decide +kernel

example : ∃ w' s', demoCatch.exec ⟨0, []⟩ { HSt.empty 0 with slack := 0 } = .ok (.ok demoCatch_value w') s' := by
  cases hr : demoCatch.run Forest.empty with
  | ok o =>
    obtain ⟨a, F'⟩ := o
    have := demoCatch_run
    rw [hr] at this
    cases this
    obtain ⟨w', s', -, h, -⟩ := C61_no_abort demoCatch (C61_init 0 0) (by decide +kernel) hr
    exact ⟨w', s', h⟩
  | _ => have := demoCatch_run; rw [hr] at this; cases this

/-- The heap, run directly. -/
example : (match demoCatch.exec ⟨0, []⟩ { HSt.empty 0 with slack := 0 } with
    | .ok (.ok a _) _ => decide (a = demoCatch_value)
    | _ => false) = true := by decide +kernel

/-- It ends with a panic. -/
def demoPanic : EProg Unit := do
  let _ ← demoCatch
  Prog.act (.detach 2)

/-- How a run ends, in a word. -/
def FOut.word {β : Type} : FOut β → String
  | .ok _ => "ok"
  | .panic _ => "panic"
  | .broken => "broken"
  | .wild => "wild"
  | .diverge => "diverge"
  | .misuse => "misuse"

theorem demoPanic_run : (demoPanic.run Forest.empty).word = "panic" := by decide +kernel

/-- Whatever the order in which the unwinding drops the handles, everything is freed. -/
example {w' : Env Nat} {s' : HSt} (e : demoPanic.exec ⟨0, []⟩ { HSt.empty 0 with slack := 0 } = .ok (.panic w') s')
    {D : List Nat} (hD : D.Perm (w'.held.map Prod.snd)) := by
  have h := demoPanic_run
  exact C61_unwind_frees demoPanic (C61_init 0 0) (fun hr => by rw [hr] at h; simp [FOut.word] at h)
    (fun hr => by rw [hr] at h; simp [FOut.word] at h) (fun hr => by rw [hr] at h; simp [FOut.word] at h) (by decide +kernel) e hD

/-- The program does end so, with two handles. -/
example : (match demoPanic.exec ⟨0, []⟩ { HSt.empty 0 with slack := 0 } with
    | .ok (.panic w) _ => decide (w.held.length = 2)
    | _ => false) = true := by decide +kernel

/-- With another handle on the token, the second attempt leaves the token hanging in no tree.  If the program lets the panic
pass, its handles can be dropped. -/
def demoBroken (catches : Bool) : EProg Bool := do
  let root ← Prog.ask (.plant true 1 [.token 2 ['a'], .token 5 ['d']])
  let tok ← Prog.ask (.nav .lastChildOrToken root)
  let _ ← Prog.ask (.clone tok)
  if catches then Prog.attempt (.attach root 7 tok)
  else do
    Prog.act (.attach root 7 tok)
    pure false

theorem demoBroken_run : ((demoBroken false).run Forest.empty).word = "broken" ∧
    ((demoBroken true).run Forest.empty).word = "wild" := by decide +kernel

example {w' : Env Nat} {s' : HSt} (e : (demoBroken false).exec ⟨0, []⟩ { HSt.empty 0 with slack := 0 } = .ok (.panic w') s')
    {D : List Nat} (hD : D.Perm (w'.held.map Prod.snd)) : ∃ s'', Cur.dropAll D s' = .ok () s'' := by
  have h := demoBroken_run.1
  obtain ⟨s'', h1, -⟩ := C61_unwind (demoBroken false) (C61_init 0 0) (fun hr => by rw [hr] at h; simp [FOut.word] at h)
    (fun hr => by rw [hr] at h; simp [FOut.word] at h) e hD
  exact ⟨s'', h1⟩

end Rowan
