import Verif.Spec.EditLaws
import Verif.EditLawsMore
import Verif.Props.DetachAll
/-!
# C72: laws of moving elements

Two programs made of a few calls of `detach` and `splice_children` that have the same effect (`SameEffect`,
`Verif/Spec/EditLaws.lean`): both return, and then the same forest stands for what they leave, or both panic, or neither ends.
A handle on an element is needed for every call that takes it by value, so a program that moves one element twice holds two
handles on it; the program with the shorter way drops the other handle.
-/
namespace Rowan
open EProg
variable {s : HSt} {gs : List GElem} {lk : List Nat} {F : Forest} {w : Env Nat}

theorem Tracks.seen {α : Type} (h : Tracks s gs lk F w) (p : EProg α) (hu : p.run F ≠ .misuse) (hw : p.run F ≠ .wild)
    (hb : p.peak F + lk.length < Cur.rcMax) : (p.run F).Seen gs (p.exec w s) := by
  rcases C61_run p h hu hw with ⟨-, h1⟩ | h1
  · omega
  cases hr : p.run F with
  | ok o =>
    rw [hr] at h1
    obtain ⟨w', s', l, e, t, -⟩ := h1
    rw [e]
    exact ⟨rfl, l, t⟩
  | panic G =>
    rw [hr] at h1
    obtain ⟨w', s', l, e, t, -⟩ := h1
    rw [e]
    exact ⟨l, t⟩
  | broken =>
    rw [hr] at h1
    obtain ⟨w', s', e, -⟩ := h1
    rw [e]
    trivial
  | diverge =>
    rw [hr] at h1
    rw [h1]
    trivial
  | wild => exact absurd hr hw
  | misuse => exact absurd hr hu

theorem SameEffect.of_run {α : Type} {p p' : EProg α} (h : Tracks s gs lk F w) (hu : p.run F ≠ .misuse) (hw : p.run F ≠ .wild)
    (e : p'.run F = p.run F) (hb : p.peak F + lk.length < Cur.rcMax) (hb' : p'.peak F + lk.length < Cur.rcMax) :
    SameEffect gs s w F p p' := by
  refine ⟨h.seen p hu hw hb, ?_⟩
  have := h.seen p' (by rwa [e]) (by rwa [e]) hb'
  rwa [e] at this

theorem SameEffect.of_twin {α : Type} {p p' : EProg α} (h : Tracks s gs lk F w) {a : α} {G G' : Forest}
    (e : p.run F = .ok (a, G)) (e' : p'.run F = .ok (a, G')) (ht : G'.Twin G) (hb : p.peak F + lk.length < Cur.rcMax)
    (hb' : p'.peak F + lk.length < Cur.rcMax) : SameEffect gs s w F p p' := by
  refine ⟨h.seen p (by rw [e]; nofun) (by rw [e]; nofun) hb, ?_⟩
  obtain ⟨w', s', l, h1, h2, -⟩ := C61_no_abort p' h hb' e'
  rw [h1, e]
  exact ⟨rfl, l, h2.twin ht⟩

/-- **C72, detaching before inserting.**  `splice_children` detaches what it inserts: detaching the first of the elements before
the call changes nothing, whether the call returns or panics. -/
theorem C72_detach_first (h : Tracks s gs lk F w) {q a c : Nat} {cs : List Nat} {z x : Nat × List Nat}
    (hu : (splice q a a (c :: cs)).run F ≠ .misuse) (hq : F.env.get q = some z) (hm : F.mutable z.1 = true)
    (hc : F.env.get c = some x) (hmc : F.mutable x.1 = true)
    (hb : (splice q a a (c :: cs)).peak F + lk.length < Cur.rcMax)
    (hb' : (detach c >>= fun _ => splice q a a (c :: cs)).peak F + lk.length < Cur.rcMax) :
    SameEffect gs s w F (splice q a a (c :: cs)) (detach c >>= fun _ => splice q a a (c :: cs)) := by
  refine SameEffect.of_run h hu (splice_run_not_wild _ _ _ _) ?_ hb hb'
  obtain ⟨z', h1, h2, h3, h4, h5⟩ := Forest.splice_legal (splice_run_legal hu)
  rw [hq] at h1
  cases h1
  rw [run_then (run_detach hc hmc), run_splice, run_splice, Forest.splice_cut h.sound hq h2 hm hc hmc h3 h4 h5]

/-- **C72, deleting before inserting.**  Replacing the child `a` by new children (an upper bound above `a` deletes the child `a`,
C10) is the same as detaching it and inserting the new children in its place. -/
theorem C72_delete_first (h : Tracks s gs lk F w) {q a b d : Nat} {ins : List Nat} {z : Nat × List Nat}
    (hu : (splice q a b ins).run F ≠ .misuse) (hq : F.env.get q = some z) (hm : F.mutable z.1 = true)
    (hd : F.env.get d = some (z.1, z.2 ++ [a])) (hab : a < b)
    (hb : (splice q a b ins).peak F + lk.length < Cur.rcMax)
    (hb' : (detach d >>= fun _ => splice q a a ins).peak F + lk.length < Cur.rcMax) :
    SameEffect gs s w F (splice q a b ins) (detach d >>= fun _ => splice q a a ins) := by
  refine SameEffect.of_run h hu (splice_run_not_wild _ _ _ _) ?_ hb hb'
  obtain ⟨z', h1, h2, h3, h4, h5⟩ := Forest.splice_legal (splice_run_legal hu)
  rw [hq] at h1
  cases h1
  rw [run_then (run_detach hd hm), run_splice, run_splice, Forest.splice_delete h.sound hq h2 hm hd hab h3 h4 h5]

/-- **C72, one by one.**  Inserting the elements `ps` and `qs` by one call is the same as inserting `ps` and then, behind them,
`qs`: when the first of the two calls returns, the second one ends as the single call ends, by returning or by a panic. -/
theorem C72_one_by_one (h : Tracks s gs lk F w) {q a b : Nat} {ps qs : List Nat} {F1 : Forest}
    (hu : (splice q a b (ps ++ qs)).run F ≠ .misuse) (hr : (splice q a b ps).run F = .ok ((), F1))
    (hb : (splice q a b (ps ++ qs)).peak F + lk.length < Cur.rcMax)
    (hb' : (splice q a b ps >>= fun _ => splice q (a + ps.length) (a + ps.length) qs).peak F + lk.length < Cur.rcMax) :
    SameEffect gs s w F (splice q a b (ps ++ qs))
      (splice q a b ps >>= fun _ => splice q (a + ps.length) (a + ps.length) qs) := by
  refine SameEffect.of_run h hu (splice_run_not_wild _ _ _ _) ?_ hb hb'
  obtain ⟨z', h1, h2, h3, h4, h5⟩ := Forest.splice_legal (splice_run_legal hu)
  rw [run_then hr, run_splice, run_splice,
    Forest.splice_append h.sound (splice_run_ok hr) h3 h4 h5 fun _ z _ hw => Forest.width_sub hw]

/-- **C72, putting back.**  Detaching a child and inserting it where it was is the same as doing nothing. -/
theorem C72_put_back (h : Tracks s gs lk F w) {c q r i : Nat} {Q : List Nat} (hc : F.env.get c = some (r, Q ++ [i]))
    (hq : F.env.get q = some (r, Q)) (hm : F.mutable r = true) (hb : (drop c).peak F + lk.length < Cur.rcMax)
    (hb' : (detach c >>= fun _ => splice q i i [c]).peak F + lk.length < Cur.rcMax) :
    SameEffect gs s w F (drop c) (detach c >>= fun _ => splice q i i [c]) := by
  have hqc : q ≠ c := by
    rintro rfl
    rw [hc] at hq
    have := congrArg List.length (Prod.mk.inj (Option.some.inj hq)).2
    simp at this
  obtain ⟨G, h1, h2⟩ := Forest.splice_stay h.sound hc hq hm hqc
  obtain ⟨z, g1, g2, g3, g4, g5⟩ := Forest.splice_legal (by rw [h1]; nofun)
  rw [hq] at g1
  cases g1
  refine SameEffect.of_twin h (drop_run hc) ?_ h2 hb hb'
  rw [run_then (run_detach hc hm), run_splice, Forest.splice_cut h.sound hq g2 hm hc hm g3 g4 g5, h1]

/-- **C72, staying.**  Inserting a child where it is, is the same as doing nothing. -/
theorem C72_stay (h : Tracks s gs lk F w) {c q r i : Nat} {Q : List Nat} (hc : F.env.get c = some (r, Q ++ [i]))
    (hq : F.env.get q = some (r, Q)) (hm : F.mutable r = true) (hb : (drop c).peak F + lk.length < Cur.rcMax)
    (hb' : (splice q i i [c]).peak F + lk.length < Cur.rcMax) :
    SameEffect gs s w F (drop c) (splice q i i [c]) := by
  have hqc : q ≠ c := by
    rintro rfl
    rw [hc] at hq
    have := congrArg List.length (Prod.mk.inj (Option.some.inj hq)).2
    simp at this
  obtain ⟨G, h1, h2⟩ := Forest.splice_stay h.sound hc hq hm hqc
  exact SameEffect.of_twin h (drop_run hc) (run_splice_ok h1) h2 hb hb'

/-- **C72, detours.**  An element that is inserted somewhere, by a call that returns, and then detached: only that it is detached
can be seen. -/
theorem C72_detour (h : Tracks s gs lk F w) {c c' z j : Nat} {x : Nat × List Nat} {F1 : Forest}
    (hr : (splice z j j [c]).run F = .ok ((), F1)) (hx : F.env.get c = some x) (hx' : F.env.get c' = some x) (hcc : c' ≠ c)
    (hb : (drop c >>= fun _ => detach c').peak F + lk.length < Cur.rcMax)
    (hb' : (splice z j j [c] >>= fun _ => detach c').peak F + lk.length < Cur.rcMax) :
    SameEffect gs s w F (drop c >>= fun _ => detach c') (splice z j j [c] >>= fun _ => detach c') := by
  obtain ⟨x1, g1, g2, g3, -⟩ := Forest.splice_detour h.sound (splice_run_ok hr) hx hx' hcc
  refine SameEffect.of_twin (a := ()) (G := (F.cut x).dels [c]) h ?_ ?_ g3 hb hb'
  · obtain ⟨_, _, _, _, _, _, -, e, -, -, -, e', -⟩ := Forest.splice_one_ok (splice_run_ok hr) h.sound
    rw [hx] at e
    cases e
    have gc' : (F.dels [c]).env.get c' = some x := by rw [Forest.get_dels_of (by simpa using hcc)]; exact hx'
    rw [run_then (drop_run hx), run_detach gc' e', Forest.cut_dels]
  · rw [run_then hr, run_detach g1 g2]

/-- **C72, moving twice.**  An element that is inserted somewhere, by a call that returns, and then inserted somewhere else: only
the last place can be seen. -/
theorem C72_move_twice (h : Tracks s gs lk F w) {c c' z j q i : Nat} {x : Nat × List Nat} {F1 F2 : Forest}
    (hr : (splice z j j [c]).run F = .ok ((), F1)) (hr' : (drop c >>= fun _ => splice q i i [c']).run F = .ok ((), F2))
    (hx : F.env.get c = some x) (hx' : F.env.get c' = some x) (hcc : c' ≠ c)
    (hb : (drop c >>= fun _ => splice q i i [c']).peak F + lk.length < Cur.rcMax)
    (hb' : (splice z j j [c] >>= fun _ => splice q i i [c']).peak F + lk.length < Cur.rcMax) :
    SameEffect gs s w F (drop c >>= fun _ => splice q i i [c']) (splice z j j [c] >>= fun _ => splice q i i [c']) := by
  have e2 := hr'
  rw [run_then (drop_run hx)] at e2
  obtain ⟨G1, h1, h2⟩ := Forest.splice_move_twice h.sound (splice_run_ok hr) (splice_run_ok e2) hx hx' hcc
  refine SameEffect.of_twin h hr' ?_ h2 hb hb'
  rw [run_then hr]
  exact run_splice_ok h1

/-- **C72, there and back.**  A child of `q` that is inserted somewhere, by a call that returns, and then inserted where it was:
nothing can be seen. -/
theorem C72_there_and_back (h : Tracks s gs lk F w) {c c' z j q r i : Nat} {Q : List Nat} {F1 : Forest}
    (hr : (splice z j j [c]).run F = .ok ((), F1)) (hx : F.env.get c = some (r, Q ++ [i]))
    (hx' : F.env.get c' = some (r, Q ++ [i])) (hq : F.env.get q = some (r, Q)) (hm : F.mutable r = true) (hcc : c' ≠ c)
    (hb : (drop c >>= fun _ => drop c').peak F + lk.length < Cur.rcMax)
    (hb' : (splice z j j [c] >>= fun _ => splice q i i [c']).peak F + lk.length < Cur.rcMax) :
    SameEffect gs s w F (drop c >>= fun _ => drop c') (splice z j j [c] >>= fun _ => splice q i i [c']) := by
  have hne : ∀ m, F.env.get m = some (r, Q ++ [i]) → q ≠ m := by
    rintro m hm' rfl
    rw [hm'] at hq
    have := congrArg List.length (Prod.mk.inj (Option.some.inj hq)).2
    simp at this
  have hqc := hne c hx
  have gc' : (F.dels [c]).env.get c' = some (r, Q ++ [i]) := by rw [Forest.get_dels_of (by simpa using hcc)]; exact hx'
  obtain ⟨G, h1, h2⟩ := Forest.splice_stay (h.sound.dels [c]) gc'
    (by rw [Forest.get_dels_of (by simpa using hqc)]; exact hq) hm (hne c' hx')
  obtain ⟨G1, g1, g2⟩ := Forest.splice_move_twice h.sound (splice_run_ok hr) h1 hx hx' hcc
  refine SameEffect.of_twin h (a := ()) ?_ ?_ (g2.trans h2) hb hb'
  · rw [run_then (drop_run hx), drop_run gc']
  · rw [run_then hr]
    exact run_splice_ok g1

/-- **C72, detaching twice.**  Detaching an element again changes nothing. -/
theorem C72_detach_twice (h : Tracks s gs lk F w) {c : Nat} {x : Nat × List Nat} (hx : F.env.get c = some x)
    (hm : F.mutable x.1 = true) (hb : (detach c).peak F + lk.length < Cur.rcMax)
    (hb' : (detach c >>= fun _ => detach c).peak F + lk.length < Cur.rcMax) :
    SameEffect gs s w F (detach c) (detach c >>= fun _ => detach c) := by
  have e := run_detach hx hm
  refine SameEffect.of_run h (by rw [e]; nofun) (by rw [e]; nofun) ?_ hb hb'
  obtain ⟨y, hy⟩ := Forest.get_cut_self hx
  have hmy : (F.cut x).mutable y = true := by
    obtain ⟨y', h1, h2⟩ := Forest.get_cut (x := x) hx
    rw [hy] at h1
    cases h1
    exact (h2 (h.sound.get hx).1 (h.sound.get hx).1).trans hm
  rw [run_then e, run_detach hy hmy, e, Forest.cut_nil]

/-- **C72, assembling a tree.**  Roots are inserted into different nodes, which may be nodes of the inserted trees: when the calls
return in one order they return in the other one, with the same effect. -/
theorem C72_assemble (h : Tracks s gs lk F w) {q q' c c' i i' y y' : Nat} {z z' : Nat × List Nat} {F2 : Forest}
    (hr : (splice q i i [c] >>= fun _ => splice q' i' i' [c']).run F = .ok ((), F2)) (hq : F.env.get q = some z)
    (hq' : F.env.get q' = some z') (hzz : z ≠ z') (hc : F.env.get c = some (y, [])) (hc' : F.env.get c' = some (y', []))
    (hyy : y ≠ y') (hqc : q ≠ c')
    (hb : (splice q i i [c] >>= fun _ => splice q' i' i' [c']).peak F + lk.length < Cur.rcMax)
    (hb' : (splice q' i' i' [c'] >>= fun _ => splice q i i [c]).peak F + lk.length < Cur.rcMax) :
    SameEffect gs s w F (splice q i i [c] >>= fun _ => splice q' i' i' [c'])
      (splice q' i' i' [c'] >>= fun _ => splice q i i [c]) := by
  obtain ⟨u, F1, e1, e2⟩ := run_unbind _ _ hr
  obtain ⟨G1, G2, h1, h2, h3⟩ := Forest.splice_swap h.sound hq hq' hc hc' hyy hzz hqc (splice_run_ok e1) (splice_run_ok e2)
  refine SameEffect.of_twin h hr ?_ h3 hb hb'
  rw [run_then (run_splice_ok h1)]
  exact run_splice_ok h2

/-- **C72, inserting from the right or from the left.**  Roots are inserted into the same node, the one that comes last first, or
with the index that allows for the other one. -/
theorem C72_same_node (h : Tracks s gs lk F w) {q c c' i i' y y' : Nat} {z : Nat × List Nat} {F2 : Forest}
    (hr : (splice q i' i' [c'] >>= fun _ => splice q i i [c]).run F = .ok ((), F2)) (hq : F.env.get q = some z)
    (hc : F.env.get c = some (y, [])) (hc' : F.env.get c' = some (y', [])) (hyy : y ≠ y') (hii : i ≤ i')
    (hb : (splice q i' i' [c'] >>= fun _ => splice q i i [c]).peak F + lk.length < Cur.rcMax)
    (hb' : (splice q i i [c] >>= fun _ => splice q (i' + 1) (i' + 1) [c']).peak F + lk.length < Cur.rcMax) :
    SameEffect gs s w F (splice q i' i' [c'] >>= fun _ => splice q i i [c])
      (splice q i i [c] >>= fun _ => splice q (i' + 1) (i' + 1) [c']) := by
  obtain ⟨u, F1, e1, e2⟩ := run_unbind _ _ hr
  obtain ⟨G1, G2, h1, h2, h3⟩ := Forest.splice_swap_same h.sound hq hc hc' hyy hii (splice_run_ok e1) (splice_run_ok e2)
  refine SameEffect.of_twin h hr ?_ h3 hb hb'
  rw [run_then (run_splice_ok h1)]
  exact run_splice_ok h2

/-- **C72, as observed by a program.**  Programs with the same effect can be exchanged for each other: whatever follows, `k`, has
the same outcome after both. -/
theorem C72_unobservable {α β : Type} {p p' : EProg α} (hs : SameEffect gs s w F p p') (k : α → EProg β) {a : α} {G : Forest}
    (hr : p.run F = .ok (a, G)) (hu : (k a).run G ≠ .misuse) (hw : (k a).run G ≠ .wild) {o o' : EOut β} {s' t' : HSt}
    (e1 : (p >>= k).exec w s = .ok o s') (e2 : (p' >>= k).exec w s = .ok o' t') :
    match o, o' with
    | .ok b w', .ok b' u' => b = b' ∧ ∃ F' l l', Tracks s' gs l F' w' ∧ Tracks t' gs l' F' u'
    | .panic w', .panic u' => (k a).run G = .broken ∨ ∃ F' l l', Tracks s' gs l F' w' ∧ Tracks t' gs l' F' u'
    | _, _ => False := by
  obtain ⟨h1, h2⟩ := hs
  rw [hr] at h1 h2
  cases x1 : p.exec w s with
  | ok r1 s1 =>
    cases r1 with
    | ok a1 w1 =>
      rw [x1] at h1
      obtain ⟨rfl, l1, t1⟩ := h1
      cases x2 : p'.exec w s with
      | ok r2 s2 =>
        cases r2 with
        | ok a2 w2 =>
          rw [x2] at h2
          obtain ⟨rfl, l2, t2⟩ := h2
          rw [exec_bind _ _ x1] at e1
          rw [exec_bind _ _ x2] at e2
          have := C61_only_the_forest (k a) t1 t2 hu hw e1 e2
          cases o <;> cases o' <;> exact this
        | _ => rw [x2] at h2; exact h2.elim
      | _ => rw [x2] at h2; exact h2.elim
    | _ => rw [x1] at h1; exact h1.elim
  | _ => rw [x1] at h1; exact h1.elim

def demoLawsSetup : EProg Unit := do
  let a ← Prog.ask (.plant true 1 [.token 2 ['a'], .node 3 [.token 2 ['b'], .token 4 ['c']], .node 5 [.token 2 ['d']]])
  let b ← Prog.ask (.nav .firstChild a)
  let c ← Prog.ask (.nav .firstChildOrToken b)
  let _ ← Prog.ask (.nav .nextSibling b)
  let _ ← Prog.ask (.clone c)
  let _ ← Prog.ask (.plant true 7 [.token 2 ['x']])
  let _ ← Prog.ask (.plant true 8 [])
  pure ()

def demoLaws : Forest :=
  match demoLawsSetup.run Forest.empty with
  | .ok (_, F) => F
  | _ => Forest.empty

theorem demoLaws_tracks : ∃ w s, Tracks s [] [] demoLaws w := by
  cases hr : demoLawsSetup.run Forest.empty with
  | ok o =>
    obtain ⟨a, F'⟩ := o
    obtain ⟨w', s', l, -, h, hl⟩ := C61_no_abort demoLawsSetup (C61_init 0 0) (by decide +kernel) hr
    have h0 : demoLawsSetup.lost Forest.empty = 0 := by decide +kernel
    have : l = [] := List.eq_nil_of_length_eq_zero (by simpa [h0] using hl)
    subst this
    have : demoLaws = F' := by rw [demoLaws, hr]
    rw [this]
    exact ⟨w', s', h⟩
  | _ =>
    have : (demoLawsSetup.run Forest.empty).result = some () := by decide +kernel
    rw [hr] at this; cases this

theorem demoLaws_facts : demoLaws.env.get 0 = some (0, []) ∧ demoLaws.env.get 1 = some (0, [1]) ∧
    demoLaws.env.get 2 = some (0, [1, 0]) ∧ demoLaws.env.get 3 = some (0, [2]) ∧ demoLaws.env.get 4 = some (0, [1, 0]) ∧
    demoLaws.env.get 5 = some (1, []) ∧ demoLaws.env.get 6 = some (2, []) ∧ demoLaws.mutable 0 = true ∧
    demoLaws.mutable 1 = true ∧ demoLaws.mutable 2 = true := by decide +kernel

attribute [irreducible] demoLaws

theorem FOut.of_ok {o : FOut (Unit × Forest)} (h : o.word = "ok") : ∃ G, o = .ok ((), G) := by
  cases o with
  | ok p => exact ⟨p.2, rfl⟩
  | _ => simp [FOut.word] at h

theorem FOut.legal {o : FOut (Unit × Forest)} (h : o.word ≠ "misuse") : o ≠ .misuse := by
  rintro rfl
  exact h rfl

/-- **C72, only the first.**  Detaching the other elements before the call can be seen: when one of them is a child of the node,
the places of the inserted elements change. -/
theorem C72_only_the_first : ∃ s w F, Tracks s [] [] F w ∧ (splice 0 2 2 [5, 1]).run F ≠ .misuse ∧
    ¬ SameEffect [] s w F (splice 0 2 2 [5, 1]) (detach 1 >>= fun _ => splice 0 2 2 [5, 1]) := by
  obtain ⟨w, s, h⟩ := demoLaws_tracks
  obtain ⟨G, hG⟩ := FOut.of_ok (o := (splice 0 2 2 [5, 1]).run demoLaws) (by decide +kernel)
  obtain ⟨G', hG'⟩ := FOut.of_ok (o := (detach 1 >>= fun _ => splice 0 2 2 [5, 1]).run demoLaws) (by decide +kernel)
  refine ⟨s, w, demoLaws, h, by rw [hG]; nofun, ?_⟩
  rintro ⟨-, h2⟩
  have d1 : ((splice 0 2 2 [5, 1] >>= fun _ => see 0).run demoLaws).result.map (·.content) =
      some (.node 1 [.token 2 ['a'], .node 7 [.token 2 ['x']], .node 5 [.token 2 ['d']], .node 3 [.token 2 ['b'], .token 4 ['c']]]) := by
    decide +kernel
  have d2 : (((detach 1 >>= fun _ => splice 0 2 2 [5, 1]) >>= fun _ => see 0).run demoLaws).result.map (·.content) =
      some (.node 1 [.token 2 ['a'], .node 5 [.token 2 ['d']], .node 7 [.token 2 ['x']], .node 3 [.token 2 ['b'], .token 4 ['c']]]) := by
    decide +kernel
  have hb : (((detach 1 >>= fun _ => splice 0 2 2 [5, 1]) >>= fun _ => see 0).peak demoLaws) + ([] : List Nat).length < Cur.rcMax := by
    decide +kernel
  obtain ⟨w', s', l, e1, -, -⟩ := C61_no_abort _ h (by decide +kernel) hG'
  rw [hG, e1] at h2
  obtain ⟨-, l', t⟩ := h2
  rw [run_then hG] at d1
  cases x1 : (see 0).run G with
  | ok o1 =>
    rw [x1] at d1
    cases x2 : (((detach 1 >>= fun _ => splice 0 2 2 [5, 1]) >>= fun _ => see 0).run demoLaws) with
    | ok o2 =>
      rw [x2] at d2
      obtain ⟨w2, s2, l2, y2, -, -⟩ := C61_no_abort _ h hb x2
      rw [exec_bind _ _ e1] at y2
      have y1 := C61_run (see 0) t (by rw [x1]; nofun) (by rw [x1]; nofun)
      rw [x1, y2] at y1
      rcases y1 with ⟨y1, -⟩ | ⟨_, _, _, y1, -⟩
      · cases y1
      · have e := (EOut.ok.inj (HOut.ok.inj y1).1).1
        simp only [FOut.result, Option.map_some, Option.some.injEq] at d1 d2
        rw [← e, d2] at d1
        simp at d1
    | _ => rw [x2] at d2; cases d2
  | _ => rw [x1] at d1; cases d1

/-! ### The hypotheses are met -/

section
variable {s : HSt} {w : Env Nat}

/-- A token of the node is moved to the end of the root, together with a root. -/
example (h : Tracks s [] [] demoLaws w) :
    SameEffect [] s w demoLaws (splice 0 3 3 [2, 5]) (detach 2 >>= fun _ => splice 0 3 3 [2, 5]) :=
  C72_detach_first h (FOut.legal (by decide +kernel)) demoLaws_facts.1 demoLaws_facts.2.2.2.2.2.2.2.1 demoLaws_facts.2.2.1
    demoLaws_facts.2.2.2.2.2.2.2.1 (by decide +kernel) (by decide +kernel)

/-- The same with an index that is too large: both programs panic. -/
example (h : Tracks s [] [] demoLaws w) :
    SameEffect [] s w demoLaws (splice 0 4 4 [3, 5]) (detach 3 >>= fun _ => splice 0 4 4 [3, 5]) ∧
      ((splice 0 4 4 [3, 5]).run demoLaws).word = "panic" :=
  ⟨C72_detach_first h (FOut.legal (by decide +kernel)) demoLaws_facts.1 demoLaws_facts.2.2.2.2.2.2.2.1 demoLaws_facts.2.2.2.1
    demoLaws_facts.2.2.2.2.2.2.2.1 (by decide +kernel) (by decide +kernel), by decide +kernel⟩

/-- The node in the middle is replaced by a root and by one of its own tokens. -/
example (h : Tracks s [] [] demoLaws w) :
    SameEffect [] s w demoLaws (splice 0 1 2 [5, 2]) (detach 1 >>= fun _ => splice 0 1 1 [5, 2]) ∧
      ((splice 0 1 2 [5, 2]).run demoLaws).word = "ok" :=
  ⟨C72_delete_first h (FOut.legal (by decide +kernel)) demoLaws_facts.1 demoLaws_facts.2.2.2.2.2.2.2.1 demoLaws_facts.2.1
    (by decide) (by decide +kernel) (by decide +kernel), by decide +kernel⟩

/-- Two elements and then two more, while the first child goes. -/
example (h : Tracks s [] [] demoLaws w) :
    SameEffect [] s w demoLaws (splice 0 0 1 ([5, 2] ++ [6, 3])) (splice 0 0 1 [5, 2] >>= fun _ => splice 0 2 2 [6, 3]) ∧
      ((splice 0 0 1 ([5, 2] ++ [6, 3])).run demoLaws).word = "ok" := by
  obtain ⟨G, hG⟩ := FOut.of_ok (o := (splice 0 0 1 [5, 2]).run demoLaws) (by decide +kernel)
  exact ⟨C72_one_by_one h (FOut.legal (by decide +kernel)) hG (by decide +kernel) (by decide +kernel), by decide +kernel⟩

/-- The node in the middle is taken out and put back. -/
example (h : Tracks s [] [] demoLaws w) : SameEffect [] s w demoLaws (drop 1) (detach 1 >>= fun _ => splice 0 1 1 [1]) ∧
    SameEffect [] s w demoLaws (drop 1) (splice 0 1 1 [1]) :=
  ⟨C72_put_back (Q := []) h demoLaws_facts.2.1 demoLaws_facts.1 demoLaws_facts.2.2.2.2.2.2.2.1 (by decide +kernel) (by decide +kernel),
    C72_stay (Q := []) h demoLaws_facts.2.1 demoLaws_facts.1 demoLaws_facts.2.2.2.2.2.2.2.1 (by decide +kernel) (by decide +kernel)⟩

/-- A token is inserted elsewhere and then detached; inserted into a root; put back. -/
example (h : Tracks s [] [] demoLaws w) :
    SameEffect [] s w demoLaws (drop 2 >>= fun _ => detach 4) (splice 3 1 1 [2] >>= fun _ => detach 4) ∧
    SameEffect [] s w demoLaws (drop 2 >>= fun _ => splice 5 0 0 [4]) (splice 3 1 1 [2] >>= fun _ => splice 5 0 0 [4]) ∧
    SameEffect [] s w demoLaws (drop 2 >>= fun _ => drop 4) (splice 3 1 1 [2] >>= fun _ => splice 1 0 0 [4]) := by
  obtain ⟨G, hG⟩ := FOut.of_ok (o := (splice 3 1 1 [2]).run demoLaws) (by decide +kernel)
  obtain ⟨G', hG'⟩ := FOut.of_ok (o := (drop 2 >>= fun _ => splice 5 0 0 [4]).run demoLaws) (by decide +kernel)
  exact ⟨C72_detour h hG demoLaws_facts.2.2.1 demoLaws_facts.2.2.2.2.1 (by decide) (by decide +kernel) (by decide +kernel),
    C72_move_twice h hG hG' demoLaws_facts.2.2.1 demoLaws_facts.2.2.2.2.1 (by decide) (by decide +kernel) (by decide +kernel),
    C72_there_and_back (Q := [1]) h hG demoLaws_facts.2.2.1 demoLaws_facts.2.2.2.2.1 demoLaws_facts.2.1
      demoLaws_facts.2.2.2.2.2.2.2.1 (by decide) (by decide +kernel) (by decide +kernel)⟩

example (h : Tracks s [] [] demoLaws w) : SameEffect [] s w demoLaws (detach 1) (detach 1 >>= fun _ => detach 1) :=
  C72_detach_twice h demoLaws_facts.2.1 demoLaws_facts.2.2.2.2.2.2.2.1 (by decide +kernel) (by decide +kernel)

/-- A root is inserted into the node, and the other one into the last node; both into the root, at the same index. -/
example (h : Tracks s [] [] demoLaws w) :
    SameEffect [] s w demoLaws (splice 1 1 1 [5] >>= fun _ => splice 3 0 0 [6]) (splice 3 0 0 [6] >>= fun _ => splice 1 1 1 [5]) ∧
    SameEffect [] s w demoLaws (splice 0 2 2 [6] >>= fun _ => splice 0 2 2 [5]) (splice 0 2 2 [5] >>= fun _ => splice 0 3 3 [6]) := by
  obtain ⟨G, hG⟩ := FOut.of_ok (o := (splice 1 1 1 [5] >>= fun _ => splice 3 0 0 [6]).run demoLaws) (by decide +kernel)
  obtain ⟨G', hG'⟩ := FOut.of_ok (o := (splice 0 2 2 [6] >>= fun _ => splice 0 2 2 [5]).run demoLaws) (by decide +kernel)
  obtain ⟨h0, h1, -, h3, -, h5, h6, -⟩ := demoLaws_facts
  exact ⟨C72_assemble h hG h1 h3 (by decide) h5 h6 (by decide) (by decide) (by decide +kernel) (by decide +kernel),
    C72_same_node h hG' h0 h5 h6 (by decide) (by decide) (by decide +kernel) (by decide +kernel)⟩

/-- The last law but one, used: what one sees of the root afterwards. -/
example (h : Tracks s [] [] demoLaws w) {o o' : EOut Sight} {s' t' : HSt}
    (e1 : ((drop 2 >>= fun _ => drop 4) >>= fun _ => see 0).exec w s = .ok o s')
    (e2 : ((splice 3 1 1 [2] >>= fun _ => splice 1 0 0 [4]) >>= fun _ => see 0).exec w s = .ok o' t') :
    match o, o' with
    | .ok b _, .ok b' _ => b = b'
    | .panic _, .panic _ => True
    | _, _ => False := by
  obtain ⟨G, hG⟩ := FOut.of_ok (o := (splice 3 1 1 [2]).run demoLaws) (by decide +kernel)
  obtain ⟨G', hG'⟩ := FOut.of_ok (o := (drop 2 >>= fun _ => drop 4).run demoLaws) (by decide +kernel)
  have hr : (((drop 2 >>= fun _ => drop 4) >>= fun _ => see 0).run demoLaws).word = "ok" := by decide +kernel
  rw [run_then hG'] at hr
  have := C72_unobservable (C72_there_and_back (Q := [1]) h hG demoLaws_facts.2.2.1 demoLaws_facts.2.2.2.2.1 demoLaws_facts.2.1
      demoLaws_facts.2.2.2.2.2.2.2.1 (by decide) (by decide +kernel) (by decide +kernel)) (fun _ => see 0) hG'
    (fun hx => by rw [hx] at hr; simp [FOut.word] at hr) (fun hx => by rw [hx] at hr; simp [FOut.word] at hr) e1 e2
  cases o <;> cases o' <;> first | exact this.1 | trivial | exact this
end

/-- The heap, run directly: there and back. -/
example : (match (demoLawsSetup >>= fun _ => splice 3 1 1 [2] >>= fun _ => splice 1 0 0 [4] >>= fun _ => see 0).exec ⟨0, []⟩
      { HSt.empty 0 with slack := 0 } with
    | .ok (.ok o _) _ => decide (o.content = .node 1 [.token 2 ['a'], .node 3 [.token 2 ['b'], .token 4 ['c']], .node 5 [.token 2 ['d']]])
    | _ => false) = true := by decide +kernel

end Rowan
