import Verif.Props.Program
import Verif.Props.Memory
import Verif.Props.SExprEval
/-!
# C49: a reading program that panics and is unwound

Unwinding drops the handles that the program holds, in an order that depends on its frames: the theorems are about every
order.
-/
namespace Rowan

theorem HReach.stepDropAll {gs : List GElem} {rest lk : List Nat} : ∀ {D : List Nat} {s : HSt} {hs : List Nat}, HReach s gs hs lk →
    hs.Perm (D ++ rest) → ∃ s' hs', Cur.dropAll D s = .ok () s' ∧ hs'.Perm rest ∧ HReach s' gs hs' lk ∧ SameSnaps rest s s'
  | [], s, hs, h, hp => ⟨s, hs, rfl, hp, h, fun _ _ _ _ hz => hz⟩
  | x :: D, s, hs, h, hp => by
    obtain ⟨s1, e1, h1, ss⟩ := h.stepDrop (x := x) (rest := D ++ rest) hp
    obtain ⟨s2, hs2, e2, hp2, h2, ss2⟩ := HReach.stepDropAll (D := D) h1 (.refl _)
    refine ⟨s2, hs2, ?_, hp2, h2, (ss.mono fun w hw => List.mem_append_right _ hw).trans ss2⟩
    simp only [Cur.dropAll, H.bind_def, e1, e2]

/-- **C49, unwinding.**  When a reading program panics, dropping the handles that it holds succeeds, in any order.  Afterwards
only the handles of others are held, and they denote what they denoted before the program. -/
theorem C49_unwind {α : Type} (p : RProg α) {s s1 : HSt} {gs : List GElem} {n : Nat} {J : List Live} {T rest lk : List Nat}
    (h : Running T s gs n J rest lk) (hu : p.eval ⟨n, Live.snaps J⟩ ≠ .misuse) {v : Env Nat}
    (he : p.exec ⟨n, Live.objs J⟩ s = .ok (.panic v) s1) {D : List Nat} (hD : D.Perm (v.held.map Prod.snd)) :
    ∃ s' hs' lk', Cur.dropAll D s1 = .ok () s' ∧ hs'.Perm rest ∧ HReach s' gs hs' (lk' ++ lk) ∧ SameSnaps rest s s' ∧
      lk'.length ≤ p.lost ⟨n, Live.snaps J⟩ := by
  rcases C49_reading p h hu with ⟨e, -⟩ | ⟨o, s2, lk', e, h1, h2, h3⟩
  · rw [he] at e; cases e
  · rw [he] at e; cases e
    cases hv : p.eval ⟨n, Live.snaps J⟩ with
    | ok a u => rw [hv] at h1; exact h1.elim
    | diverge => rw [hv] at h1; exact h1.elim
    | misuse => exact absurd hv hu
    | panic u =>
      rw [hv] at h1
      obtain ⟨-, K, -, hK, hR⟩ := h1
      obtain ⟨hs, hp, hr⟩ := hR.reach
      have hDK : D.Perm (K.map Live.obj) := by
        rw [hK] at hD
        simpa [Live.objs, Function.comp_def] using hD
      obtain ⟨s', hs', e1, hp1, hr1, ss⟩ := hr.stepDropAll (hp.trans (hDK.symm.append_right rest))
      exact ⟨s', hs', lk', e1, hp1, hr1, h2.trans ss, h3⟩

/-- **C49, unwinding.**  If nobody else holds handles and none is lost, nothing is left after a panic: every cursor object is
freed. -/
theorem C49_unwind_frees {α : Type} (p : RProg α) {s s1 : HSt} {gs : List GElem} {n : Nat} {J : List Live} {T : List Nat}
    (h : Running T s gs n J [] []) (hu : p.eval ⟨n, Live.snaps J⟩ ≠ .misuse) (hl : p.lost ⟨n, Live.snaps J⟩ = 0) {v : Env Nat}
    (he : p.exec ⟨n, Live.objs J⟩ s = .ok (.panic v) s1) {D : List Nat} (hD : D.Perm (v.held.map Prod.snd)) :
    ∃ s', Cur.dropAll D s1 = .ok () s' ∧ (∀ x, s'.live x = false) ∧ s'.owned = [] := by
  obtain ⟨s', hs', lk', e, hp, hr, -, h3⟩ := C49_unwind p h hu he hD
  have : lk' = [] := List.length_eq_zero_iff.mp (by omega)
  subst this
  rw [hp.eq_nil] at hr
  exact ⟨s', e, C39_partial hr⟩

/-! ### A concrete case -/

/-- A program that panics while it holds two handles it has made. -/
def unwindProg : RProg Unit := do
  let _ ← Prog.clone 0
  let _ ← Prog.clone 0
  .panic

theorem unwindProg_eval (e : SElem) : unwindProg.eval ⟨1, [(0, e)]⟩ = .panic ⟨3, [(2, e), (1, e), (0, e)]⟩ := by
  simp [unwindProg, Prog.clone, Bind.bind, RProg.bind, RProg.eval, Env.get, Env.add, List.lookup]

example : ∃ s1 v s' hs', unwindProg.exec ⟨1, [(0, 3)]⟩ demo2.s = .ok (.panic v) s1 ∧ v.held.length = 3 ∧
    Cur.dropAll (v.held.map Prod.snd) s1 = .ok () s' ∧ hs'.Perm [6, 5, 4, 2, 1, 0] ∧
    HReach s' demo2.gs hs' ([] ++ []) := by
  obtain ⟨e, -, h⟩ := demo2_start
  have hu : unwindProg.eval ⟨1, Live.snaps [⟨0, 3, e⟩]⟩ ≠ .misuse := by
    show unwindProg.eval ⟨1, [(0, e)]⟩ ≠ .misuse
    rw [unwindProg_eval]; nofun
  have hpk : unwindProg.peak ⟨1, Live.snaps [⟨0, 3, e⟩]⟩ = 3 := by
    simp [unwindProg, Prog.clone, Bind.bind, RProg.bind, RProg.peak, Env.get, Env.add, List.lookup, Live.snaps]
  have hlo : unwindProg.lost ⟨1, Live.snaps [⟨0, 3, e⟩]⟩ = 0 := by
    simp [unwindProg, Prog.clone, Bind.bind, RProg.bind, RProg.lost, Env.get, Env.add, List.lookup, Live.snaps]
  obtain ⟨o, s1, lk', e1, h1, -, h3⟩ := C49_no_abort unwindProg h hu (by rw [hpk]; decide)
  rw [show unwindProg.eval ⟨1, Live.snaps [⟨0, 3, e⟩]⟩ = _ from unwindProg_eval e] at h1
  cases o with
  | panic v =>
    obtain ⟨-, K, hK, hK', -⟩ := h1
    have hlen : v.held.length = 3 := by
      rw [hK', Live.objs, List.length_map, ← List.length_map (f := fun j : Live => (j.id, j.snap))]
      exact (congrArg List.length hK).symm
    obtain ⟨s', hs', lk2, e2, hp, hr, -, h4⟩ := C49_unwind unwindProg h hu e1 (.refl _)
    have : lk2 = [] := List.length_eq_zero_iff.mp (by omega)
    subst this
    exact ⟨s1, v, s', hs', e1, hlen, e2, hp, hr⟩
  | ok a v => exact h1.elim
  | diverge => exact h1.elim
  | misuse => exact h1.elim

/-- The premises of `C49_unwind_frees` can be met, for any tree. -/
example (k : SyntaxKind) (ts : List Tree) : ∃ s gs x e s1 v s', s.tree x = .node k ts ∧ Running [x] s gs 1 [⟨0, x, e⟩] [] [] ∧
    unwindProg.exec ⟨1, [(0, x)]⟩ s = .ok (.panic v) s1 ∧ Cur.dropAll (v.held.map Prod.snd) s1 = .ok () s' ∧
    ∀ y, s'.live y = false := by
  obtain ⟨s, gs, x, e, -, ht, h⟩ := SExpr.C60_heap k ts
  have hu : unwindProg.eval ⟨1, Live.snaps [⟨0, x, e⟩]⟩ ≠ .misuse := by
    show unwindProg.eval ⟨1, [(0, e)]⟩ ≠ .misuse
    rw [unwindProg_eval]; nofun
  have hpk : unwindProg.peak ⟨1, Live.snaps [⟨0, x, e⟩]⟩ = 3 := by
    simp [unwindProg, Prog.clone, Bind.bind, RProg.bind, RProg.peak, Env.get, Env.add, List.lookup, Live.snaps]
  have hlo : unwindProg.lost ⟨1, Live.snaps [⟨0, x, e⟩]⟩ = 0 := by
    simp [unwindProg, Prog.clone, Bind.bind, RProg.bind, RProg.lost, Env.get, Env.add, List.lookup, Live.snaps]
  obtain ⟨o, s1, lk', e1, h1, -, -⟩ := C49_no_abort unwindProg h hu (by rw [hpk]; decide)
  rw [show unwindProg.eval ⟨1, Live.snaps [⟨0, x, e⟩]⟩ = _ from unwindProg_eval e] at h1
  cases o with
  | panic v =>
    obtain ⟨s', e2, h2, -⟩ := C49_unwind_frees unwindProg h hu hlo e1 (.refl _)
    exact ⟨s, gs, x, e, s1, v, s', ht, h, e1, e2, h2⟩
  | ok a v => exact h1.elim
  | diverge => exact h1.elim
  | misuse => exact h1.elim

end Rowan
