import Verif.FrameAfter
import Verif.Props.EditLaws
/-!
# C73: trees that a program has no handle in

A program that holds further handles `bs`, in trees of their own, and does not use them: it ends as it ends without them, and
leaves those handles and trees as they are.  "Does not use them" is said by the run without them, which is then not a misuse.
The runs on forests are those of C61 (`Verif/Spec/Forest.lean`), the rest of the vocabulary is in `Verif/Spec/Frame.lean`.
-/
namespace Rowan
open EProg
variable {s : HSt} {gs : List GElem} {lk : List Nat} {F : Forest} {w : Env Nat}

theorem Tracks.aside (h : Tracks s gs lk F w) {bs : List Nat} (hb : ∀ b ∈ bs, (F.env.get b).isSome) (ha : F.Apart bs) : F.Aside bs :=
  ⟨ha, fun e he => (h.sound e he).1, fun b hb' => by
    obtain ⟨x, hx⟩ := Option.isSome_iff_exists.mp (hb b hb')
    exact (h.low hx).1⟩

theorem FOut.Framed.of_step {α : Type} {bs : List Nat} {o o' : FOut (α × Forest)} (h : Forest.FramedStep bs F (fun _ _ => True) o o') :
    o.Framed bs F o' := by
  cases o with
  | ok x =>
    cases o' with
    | ok y => exact ⟨h.1, h.2.1, h.2.2.1.keeps, h.2.2.1.aside.apart⟩
    | _ => exact h.elim
  | panic x =>
    cases o' with
    | panic y => exact ⟨h.1, h.2.keeps, h.2.aside.apart⟩
    | _ => exact h.elim
  | misuse => cases o' <;> trivial
  | _ => cases o' <;> first | trivial | exact h.elim

/-- **C73, on forests.**  The run with the handles `bs` ends as the run without them. -/
theorem C73_run {α : Type} (p : EProg α) (h : Tracks s gs lk F w) {bs : List Nat} (hb : ∀ b ∈ bs, (F.env.get b).isSome)
    (ha : F.Apart bs) : (p.run (F.dels bs)).Framed bs F (p.run F) :=
  .of_step (run_aside p (h.aside hb ha))

/-- **C73, on the heap.**  The outcome of a program on the heap is that of its run without the handles `bs`: the same result or a
panic, and then the heap stands for a forest in which the handles `bs` are where they were, in the same trees, and the rest is
what the run without them leaves; or a panic that leaves an element hanging in no tree; or no end. -/
theorem C73_heap {α : Type} (p : EProg α) (h : Tracks s gs lk F w) {bs : List Nat} (hb : ∀ b ∈ bs, (F.env.get b).isSome)
    (ha : F.Apart bs) (hu : p.run (F.dels bs) ≠ .misuse) (hw : p.run (F.dels bs) ≠ .wild) (he : p.exec w s ≠ .abort) :
    match p.run (F.dels bs), p.exec w s with
    | .ok (a, G), .ok (.ok b w') s' => a = b ∧ ∃ F' l, Tracks s' gs l F' w' ∧ F'.dels bs = G ∧ F.Spares bs F' ∧ F'.Apart bs
    | .panic G, .ok (.panic w') s' => ∃ F' l, Tracks s' gs l F' w' ∧ F'.dels bs = G ∧ F.Spares bs F' ∧ F'.Apart bs
    | .broken, .ok (.panic _) _ => True
    | .diverge, .diverge => True
    | _, _ => False := by
  have hr := C73_run p h hb ha
  cases h1 : p.run (F.dels bs) with
  | misuse => exact absurd h1 hu
  | wild => exact absurd h1 hw
  | ok x =>
    obtain ⟨a, G⟩ := x
    cases h2 : p.run F with
    | ok y =>
      obtain ⟨b, G'⟩ := y
      rw [h1, h2] at hr
      obtain ⟨rfl, rfl, h3, h4⟩ := hr
      rcases C61_run p h (by rw [h2]; nofun) (by rw [h2]; nofun) with ⟨e, -⟩ | e
      · exact absurd e he
      · rw [h2] at e
        obtain ⟨w', s', l, e, t, -⟩ := e
        rw [e]
        exact ⟨rfl, G', l, t, rfl, h3, h4⟩
    | _ => rw [h1, h2] at hr; exact hr.elim
  | panic G =>
    cases h2 : p.run F with
    | panic G' =>
      rw [h1, h2] at hr
      obtain ⟨rfl, h3, h4⟩ := hr
      rcases C61_run p h (by rw [h2]; nofun) (by rw [h2]; nofun) with ⟨e, -⟩ | e
      · exact absurd e he
      · rw [h2] at e
        obtain ⟨w', s', l, e, t, -⟩ := e
        rw [e]
        exact ⟨G', l, t, rfl, h3, h4⟩
    | _ => rw [h1, h2] at hr; exact hr.elim
  | broken =>
    cases h2 : p.run F with
    | broken =>
      rcases C61_run p h (by rw [h2]; nofun) (by rw [h2]; nofun) with ⟨e, -⟩ | e
      · exact absurd e he
      · rw [h2] at e
        obtain ⟨w', s', e, -⟩ := e
        rw [e]
        trivial
    | _ => rw [h1, h2] at hr; exact hr.elim
  | diverge =>
    cases h2 : p.run F with
    | diverge =>
      rcases C61_run p h (by rw [h2]; nofun) (by rw [h2]; nofun) with ⟨e, -⟩ | e
      · exact absurd e he
      · rw [h2] at e
        have e : p.exec w s = _ := e
        rw [e]
        trivial
    | _ => rw [h1, h2] at hr; exact hr.elim

/-- **C73, programs that return.** -/
theorem C73_returns {α : Type} {p : EProg α} (h : Tracks s gs lk F w) {bs : List Nat} (hb : ∀ b ∈ bs, (F.env.get b).isSome)
    (ha : F.Apart bs) {a : α} {G : Forest} (hp : p.run (F.dels bs) = .ok (a, G)) (he : p.exec w s ≠ .abort) :
    ∃ w' s' F' l, p.exec w s = .ok (.ok a w') s' ∧ Tracks s' gs l F' w' ∧ F'.dels bs = G ∧ F.Spares bs F' ∧ F'.Apart bs := by
  have := C73_heap p h hb ha (by rw [hp]; nofun) (by rw [hp]; nofun) he
  rw [hp] at this
  generalize p.exec w s = x at this ⊢
  cases x with
  | ok o t =>
    cases o with
    | ok b u =>
      obtain ⟨rfl, F', l, h1⟩ := this
      exact ⟨u, t, F', l, rfl, h1⟩
    | _ => exact this.elim
  | _ => exact this.elim

/-- Outcomes of runs on forests that a program cannot tell apart. -/
def FOut.Agree {α : Type} : FOut (α × Forest) → FOut (α × Forest) → Prop
  | .ok (a, _), .ok (b, _) => a = b
  | .panic _, .panic _ => True
  | .broken, .broken => True
  | .diverge, .diverge => True
  | _, _ => False

theorem FOut.Agree.symm {α : Type} {o o' : FOut (α × Forest)} (h : o.Agree o') : o'.Agree o := by
  cases o <;> cases o' <;> first | exact h.elim | trivial | exact Eq.symm h

theorem HOut.Agree.of_runs {α : Type} {q : EProg α} {t : HSt} {gs' : List GElem} {lk' : List Nat} {G : Forest} {u : Env Nat}
    (h : Tracks s gs lk F w) (h' : Tracks t gs' lk' G u) (hr : (q.run F).Agree (q.run G)) (e1 : q.exec w s ≠ .abort)
    (e2 : q.exec u t ≠ .abort) : (q.exec w s).Agree (q.exec u t) := by
  have g1 := C61_run q h (by intro e; rw [e] at hr; exact hr) (by intro e; rw [e] at hr; exact hr)
  have g2 := C61_run q h' (by intro e; rw [e] at hr; exact hr.symm) (by intro e; rw [e] at hr; exact hr.symm)
  replace g1 := g1.resolve_left fun e => e1 e.1
  replace g2 := g2.resolve_left fun e => e2 e.1
  cases x1 : q.run F with
  | ok x =>
    cases x2 : q.run G with
    | ok y =>
      rw [x1, x2] at hr
      rw [x1] at g1
      rw [x2] at g2
      obtain ⟨_, _, _, g1, -⟩ := g1
      obtain ⟨_, _, _, g2, -⟩ := g2
      rw [g1, g2]
      exact hr
    | _ => rw [x1, x2] at hr; exact hr.elim
  | panic x =>
    cases x2 : q.run G with
    | panic y =>
      rw [x1] at g1
      rw [x2] at g2
      obtain ⟨_, _, _, g1, -⟩ := g1
      obtain ⟨_, _, _, g2, -⟩ := g2
      rw [g1, g2]
      trivial
    | _ => rw [x1, x2] at hr; exact hr.elim
  | broken =>
    cases x2 : q.run G with
    | broken =>
      rw [x1] at g1
      rw [x2] at g2
      obtain ⟨_, _, g1, -⟩ := g1
      obtain ⟨_, _, g2, -⟩ := g2
      rw [g1, g2]
      trivial
    | _ => rw [x1, x2] at hr; exact hr.elim
  | diverge =>
    cases x2 : q.run G with
    | diverge =>
      rw [x1] at g1
      rw [x2] at g2
      have g1 : q.exec w s = _ := g1
      have g2 : q.exec u t = _ := g2
      rw [g1, g2]
      trivial
    | _ => rw [x1, x2] at hr; exact hr.elim
  | wild => rw [x1] at hr; exact hr.elim
  | misuse => rw [x1] at hr; exact hr.elim

theorem FOut.Framed.agree {α : Type} {bs : List Nat} {o o' : FOut (α × Forest)} (h : o.Framed bs F o') (hu : o ≠ .misuse)
    (hw : o ≠ .wild) : o.Agree o' := by
  cases o with
  | misuse => exact absurd rfl hu
  | wild => exact absurd rfl hw
  | ok x => cases o' <;> first | exact h.1 | exact h.elim
  | _ => cases o' <;> first | exact h.elim | trivial

theorem FOut.Agree.trans {α : Type} {o o' o'' : FOut (α × Forest)} (h : o.Agree o') (h' : o'.Agree o'') : o.Agree o'' := by
  cases o <;> cases o' <;> cases o'' <;> first | exact h.elim | exact h'.elim | trivial | exact Eq.trans h h'

/-- **C73, other trees do not matter.**  The program ends on a heap with further handles, in trees of their own, that it does not
use, as on a heap without them: with the same result, or a panic, or not at all. -/
theorem C73_independent {α : Type} (p : EProg α) {t : HSt} {gs' : List GElem} {lk' : List Nat} {u : Env Nat} {bs : List Nat}
    (h : Tracks s gs lk F w) (h' : Tracks t gs' lk' (F.dels bs) u) (hb : ∀ b ∈ bs, (F.env.get b).isSome) (ha : F.Apart bs)
    (hu : p.run (F.dels bs) ≠ .misuse) (hw : p.run (F.dels bs) ≠ .wild) (e1 : p.exec w s ≠ .abort) (e2 : p.exec u t ≠ .abort) :
    (p.exec w s).Agree (p.exec u t) :=
  .of_runs h h' ((C73_run p h hb ha).agree hu hw).symm e1 e2

/-- **C73, what is seen of other trees.**  What `q` does, which uses handles `bs` in trees of their own only, is the same before
and after `p`, which uses none of them and returns without losing a handle (C39): the same result, or a panic, or no end.  The
number of the first handle that `q` creates is `w'.next` after `p`; so it is in the run before `p`. -/
theorem C73_after {α β : Type} {p : EProg α} (q : EProg β) (h : Tracks s gs lk F w) {bs : List Nat}
    (hb : ∀ b ∈ bs, (F.env.get b).isSome) (ha : F.Apart bs) {a : α} {G : Forest} (hp : p.run (F.dels bs) = .ok (a, G))
    (hl : G.leaked = F.leaked) {w' : Env Nat} {s' : HSt} (e : p.exec w s = .ok (.ok a w') s')
    (hu : q.run (F.only bs w'.next) ≠ .misuse) (hw : q.run (F.only bs w'.next) ≠ .wild)
    (e1 : q.exec ⟨w'.next, w.held⟩ s ≠ .abort) (e2 : q.exec w' s' ≠ .abort) :
    (q.exec ⟨w'.next, w.held⟩ s).Agree (q.exec w' s') := by
  have hs := run_aside p (h.aside hb ha)
  cases h2 : p.run F with
  | ok y =>
    obtain ⟨b, F'⟩ := y
    rw [hp, h2] at hs
    obtain ⟨rfl, rfl, hk, -⟩ := hs
    rcases C61_run p h (by rw [h2]; nofun) (by rw [h2]; nofun) with ⟨e', -⟩ | e'
    · rw [e] at e'; cases e'
    rw [h2] at e'
    obtain ⟨w1, s1, l, e', ht, -⟩ := e'
    rw [e] at e'
    cases e'
    have hn : w.next ≤ w'.next := by
      rw [← h.next, ← ht.next]
      exact run_next p a h2
    have hr := h.raise hn
    -- before `p`
    have hb1 : ∀ b ∈ F.env.others bs, (F.env.get b).isSome := by
      intro b hb'
      simp only [Env.others, List.mem_filter, List.mem_map] at hb'
      obtain ⟨⟨e, he, rfl⟩, -⟩ := hb'
      exact Env.isSome_get he
    have hb2 : ∀ b ∈ F'.env.others bs, (F'.env.get b).isSome := by
      intro b hb'
      simp only [Env.others, List.mem_filter, List.mem_map] at hb'
      obtain ⟨⟨e, he, rfl⟩, -⟩ := hb'
      exact Env.isSome_get he
    have r1 := C73_run q hr (bs := F.env.others bs) hb1 (Forest.apart_others ha)
    have r2 := C73_run q ht (bs := F'.env.others bs) hb2 (Forest.apart_others hk.aside.apart)
    rw [Forest.dels_others] at r1
    have e3 : F'.dels (F'.env.others bs) = F'.only bs w'.next := by
      rw [← ht.next]
      exact Forest.dels_others F' bs F'.env.next
    rw [e3] at r2
    have r3 := run_pair q (hk.pair h.sound hl w'.next)
    have r4 : (q.run (F.only bs w'.next)).Agree (q.run (F'.only bs w'.next)) := by
      cases x1 : q.run (F.only bs w'.next) with
      | misuse => exact absurd x1 hu
      | wild => exact absurd x1 hw
      | ok x =>
        cases x2 : q.run (F'.only bs w'.next) <;> rw [x1, x2] at r3 <;> first | exact r3.1 | exact r3.elim
      | _ => cases x2 : q.run (F'.only bs w'.next) <;> rw [x1, x2] at r3 <;> first | exact r3.elim | trivial
    have hu' : q.run (F'.only bs w'.next) ≠ .misuse := by
      intro e; rw [e] at r4; cases h5 : q.run (F.only bs w'.next) <;> rw [h5] at r4 <;> exact r4
    have hw' : q.run (F'.only bs w'.next) ≠ .wild := by
      intro e; rw [e] at r4; cases h5 : q.run (F.only bs w'.next) <;> rw [h5] at r4 <;> exact r4
    exact .of_runs hr ht (((r1.agree hu hw).symm.trans r4).trans (r2.agree hu' hw')) e1 e2
  | _ => rw [hp, h2] at hs; exact hs.elim

/-! ### The hypotheses are met -/

theorem demoLaws_apart : demoLaws.Apart [5, 6] ∧ (∀ b ∈ [5, 6], (demoLaws.env.get b).isSome) ∧ ¬ demoLaws.Apart [1] := by
  unfold Forest.Apart
  refine ⟨?_, ?_, ?_⟩ <;> decide +kernel

section
variable {s : HSt} {w : Env Nat}

/-- The token of the node in the middle is moved, and the node taken out; the other trees stay. -/
example (h : Tracks s [] [] demoLaws w) (he : (detach 1 >>= fun _ => splice 0 1 1 [2]).exec w s ≠ .abort) :
    ∃ w' s' F' l, (detach 1 >>= fun _ => splice 0 1 1 [2]).exec w s = .ok (.ok () w') s' ∧ Tracks s' [] l F' w' ∧
      demoLaws.Spares [5, 6] F' := by
  obtain ⟨G, hG⟩ := FOut.of_ok (o := (detach 1 >>= fun _ => splice 0 1 1 [2]).run (demoLaws.dels [5, 6])) (by decide +kernel)
  obtain ⟨w', s', F', l, h1, h2, -, h3, -⟩ := C73_returns h demoLaws_apart.2.1 demoLaws_apart.1 hG he
  exact ⟨w', s', F', l, h1, h2, h3⟩

/-- There is a heap without the other trees: there, the program ends in the same way. -/
example (h : Tracks s [] [] demoLaws w) : ∃ u t l, Tracks t [] l (demoLaws.dels [5, 6]) u ∧ ∀ p : EProg Sight,
    p.run (demoLaws.dels [5, 6]) ≠ .misuse → p.run (demoLaws.dels [5, 6]) ≠ .wild → p.exec w s ≠ .abort → p.exec u t ≠ .abort →
    (p.exec w s).Agree (p.exec u t) := by
  have e : (drop 5 >>= fun _ => drop 6).run demoLaws = .ok ((), demoLaws.dels [5, 6]) := by
    rw [run_then (drop_run demoLaws_facts.2.2.2.2.2.1), drop_run (x := (2, [])), Forest.dels_dels]
    · rfl
    · rw [Forest.get_dels_of (by decide)]
      exact demoLaws_facts.2.2.2.2.2.2.1
  obtain ⟨u, t, l, -, h1, -⟩ := C61_no_abort _ h (by decide +kernel) e
  exact ⟨u, t, l, h1, fun p hu hw e1 e2 => C73_independent p h h1 demoLaws_apart.2.1 demoLaws_apart.1 hu hw e1 e2⟩

/-- The first child of another tree is found and detached, and then the root is looked at: before and after that. -/
def demoOther : EProg Sight :=
  nav .firstChildOrToken 5 >>= fun o =>
    match o with
    | some h => detach h >>= fun _ => see 5
    | none => see 5

theorem demoOther_content : ((demoOther.run (demoLaws.only [5, 6] 7)).result.map (·.content)) = some (.node 7 []) ∧
    (((see 5).run demoLaws).result.map (·.content)) = some (.node 7 [.token 2 ['x']]) := by decide +kernel

example (h : Tracks s [] [] demoLaws w) {w' : Env Nat} {s' : HSt}
    (e : (detach 1 >>= fun _ => splice 0 1 1 [2]).exec w s = .ok (.ok () w') s') (hn : w'.next = 7)
    (e1 : demoOther.exec ⟨7, w.held⟩ s ≠ .abort) (e2 : demoOther.exec w' s' ≠ .abort) :
    (demoOther.exec ⟨7, w.held⟩ s).Agree (demoOther.exec w' s') := by
  obtain ⟨G, hG⟩ := FOut.of_ok (o := (detach 1 >>= fun _ => splice 0 1 1 [2]).run (demoLaws.dels [5, 6])) (by decide +kernel)
  have hl : ∀ G, (detach 1 >>= fun _ => splice 0 1 1 [2]).run (demoLaws.dels [5, 6]) = .ok ((), G) → G.leaked = demoLaws.leaked := by
    have : (match (detach 1 >>= fun _ => splice 0 1 1 [2]).run (demoLaws.dels [5, 6]) with
      | .ok (_, G) => G.leaked == demoLaws.leaked
      | _ => false) = true := by decide +kernel
    intro G hG
    rw [hG] at this
    simpa using this
  have hr := demoOther_content.1
  have := C73_after demoOther h demoLaws_apart.2.1 demoLaws_apart.1 hG (hl G hG) e (hn ▸ ?_) (hn ▸ ?_) (hn ▸ e1) e2
  · rwa [hn] at this
  · intro e; rw [e] at hr; cases hr
  · intro e; rw [e] at hr; cases hr

end

end Rowan
