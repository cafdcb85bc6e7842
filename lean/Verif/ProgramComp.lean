import Verif.ProgramRun
import Verif.Spec.Traverse
/-!
# Reasoning about reading programs on snapshots

`p.Comp L r Q`: run with the handles `L`, the program `p` ends the way `r` does; if `r` is `ok b`, it returns some `a`
with handles `L'` such that `Q a b L'`.

Unless their comments cite lines of `/repo`, the definitions in this file are vocabulary of the proofs and model no code.
-/
namespace Rowan

structure Env.Ok (v : Env SElem) : Prop where
  ids : (v.held.map Prod.fst).Nodup
  low : ∀ p ∈ v.held, p.1 < v.next

namespace Env.Ok
variable {v : Env SElem} {h : Nat} {e : SElem}

theorem get (hv : v.Ok) (hm : (h, e) ∈ v.held) : v.get h = some e := by
  obtain ⟨n, F⟩ := v
  simp only [Env.get] at *
  have hn := hv.ids
  clear hv
  induction F with
  | nil => cases hm
  | cons p F ih =>
    simp only [List.map_cons, List.nodup_cons] at hn
    rw [List.lookup_cons]
    rcases List.mem_cons.mp hm with rfl | hm
    · simp
    · have : h ≠ p.1 := fun e1 => hn.1 (e1 ▸ List.mem_map.mpr ⟨_, hm, rfl⟩)
      rw [show (h == p.1) = false by simpa using this]
      exact ih hm hn.2

theorem add (hv : v.Ok) : (v.add e).Ok where
  ids := by
    simp only [Env.add, List.map_cons, List.nodup_cons]
    refine ⟨fun hm => ?_, hv.ids⟩
    obtain ⟨p, hp, e1⟩ := List.mem_map.mp hm
    exact absurd (hv.low p hp) (by omega)
  low := by
    intro p hp
    rcases List.mem_cons.mp hp with rfl | hp
    · exact Nat.lt_succ_self _
    · exact Nat.lt_succ_of_lt (hv.low p hp)

theorem del (hv : v.Ok) : (v.del h).Ok where
  ids := hv.ids.sublist ((List.filter_sublist (l := v.held)).map Prod.fst)
  low := fun p hp => hv.low p (List.mem_filter.mp hp).1

theorem del_perm (hv : v.Ok) {F : List (Nat × SElem)} (hp : v.held.Perm ((h, e) :: F)) : (v.del h).held.Perm F := by
  have h1 : (v.del h).held.Perm (((h, e) :: F).filter fun p => p.1 != h) := hp.filter _
  have hn : (((h, e) :: F).map Prod.fst).Nodup := (hp.map Prod.fst).nodup_iff.mp hv.ids
  simp only [List.map_cons, List.nodup_cons] at hn
  rw [List.filter_cons_of_neg (by simp), List.filter_eq_self.mpr] at h1
  · exact h1
  · intro p hp
    simp only [bne_iff_ne, ne_eq]
    intro e1
    exact hn.1 (e1 ▸ List.mem_map.mpr ⟨p, hp, rfl⟩)

end Env.Ok

namespace RProg

theorem eval_bind {α β : Type} (p : RProg α) (f : α → RProg β) (v : Env SElem) :
    (p >>= f).eval v = (p.eval v).bind fun a w => (f a).eval w := by
  show (p.bind f).eval v = _
  induction p generalizing v with
  | ret a => rfl
  | panic => rfl
  | diverge => rfl
  | nav g h k ih =>
    simp only [RProg.bind, eval]
    split
    · rfl
    · split
      · split <;> exact ih ..
      · rfl
  | toNext b h k ih =>
    simp only [RProg.bind, eval]
    split
    · rfl
    · split <;> exact ih ..
  | clone h k ih | drop h k ih | look h k ih =>
    simp only [RProg.bind, eval]
    split
    · rfl
    · exact ih ..

/-- What the continuation loses after the run. -/
def after {α : Type} (f : α → Env SElem → Nat) : Out SElem α → Nat
  | .ok a w => f a w
  | _ => 0

theorem lost_bind {α β : Type} (p : RProg α) (f : α → RProg β) (v : Env SElem) (hm : p.eval v ≠ .misuse) :
    (p >>= f).lost v = p.lost v + after (fun a w => (f a).lost w) (p.eval v) := by
  show (p.bind f).lost v = _
  induction p generalizing v with
  | ret a => simp [RProg.bind, lost, eval, after]
  | panic => rfl
  | diverge => rfl
  | nav g h k ih =>
    simp only [RProg.bind, eval, lost] at hm ⊢
    split
    · rfl
    · rename_i e he
      simp only [he] at hm ⊢
      by_cases hg : g.fits e = true
      · simp only [hg, if_true] at hm ⊢
        split <;> exact ih _ _ (by simp_all)
      · simp [hg] at hm
  | toNext b h k ih =>
    simp only [RProg.bind, eval, lost] at hm ⊢
    split
    · rfl
    · rename_i e he
      simp only [he] at hm ⊢
      split
      · rw [ih _ _ (by simp_all)]; omega
      · exact ih _ _ (by simp_all)
  | clone h k ih =>
    simp only [RProg.bind, eval, lost] at hm ⊢
    split
    · rfl
    · exact ih _ _ (by simp_all)
  | drop h k ih =>
    simp only [RProg.bind, eval, lost] at hm ⊢
    split
    · rfl
    · exact ih _ (by simp_all)
  | look h k ih =>
    simp only [RProg.bind, eval, lost] at hm ⊢
    split
    · rfl
    · exact ih _ _ (by simp_all)

/-- How a run ends; see the head of this file. -/
def Ends {α β : Type} (p : RProg α) (v : Env SElem) (Q : α → β → List (Nat × SElem) → Prop) : Res β → Prop
  | .ok b => ∃ a w, p.eval v = .ok a w ∧ w.Ok ∧ ∃ L', w.held.Perm L' ∧ Q a b L'
  | .panic => ∃ w, p.eval v = .panic w
  | .diverge => p.eval v = .diverge
  | .ub => False

/-- See the head of this file. -/
def Comp {α β : Type} (p : RProg α) (L : List (Nat × SElem)) (r : Res β)
    (Q : α → β → List (Nat × SElem) → Prop) : Prop :=
  ∀ v : Env SElem, v.Ok → v.held.Perm L → p.lost v = 0 ∧ p.Ends v Q r

theorem Ends.fine {α β : Type} {p : RProg α} {v : Env SElem} {Q : α → β → List (Nat × SElem) → Prop} {r : Res β}
    (h : p.Ends v Q r) : p.eval v ≠ .misuse := by
  cases r with
  | ok b => obtain ⟨a, w, e, _⟩ := h; rw [e]; nofun
  | panic => obtain ⟨w, e⟩ := h; rw [e]; nofun
  | diverge => rw [show p.eval v = .diverge from h]; nofun
  | ub => exact h.elim

namespace Comp
variable {α β γ δ : Type} {L F : List (Nat × SElem)} {h : Nat} {e z : SElem}

theorem ret {a : α} {b : β} {Q : α → β → List (Nat × SElem) → Prop} (hq : Q a b L) : Comp (.ret a) L (.ok b) Q :=
  fun v hv hp => ⟨rfl, a, v, rfl, hv, L, hp, hq⟩

theorem pure {a : α} {b : β} {Q : α → β → List (Nat × SElem) → Prop} (hq : Q a b L) :
    Comp (Pure.pure a : RProg α) L (.ok b) Q := ret hq

theorem panic {Q : α → β → List (Nat × SElem) → Prop} : Comp (.panic : RProg α) L (.panic) Q :=
  fun v _ _ => ⟨rfl, v, rfl⟩

theorem diverge {Q : α → β → List (Nat × SElem) → Prop} : Comp (.diverge : RProg α) L (.diverge) Q :=
  fun _ _ _ => ⟨rfl, rfl⟩

theorem perm {p : RProg α} {r : Res β} {Q} {L' : List (Nat × SElem)} (hp : L.Perm L') (hc : Comp p L' r Q) :
    Comp p L r Q := fun v hv hl => hc v hv (hl.trans hp)

theorem mono {p : RProg α} {r : Res β} {Q Q' : α → β → List (Nat × SElem) → Prop} (hc : Comp p L r Q)
    (hq : ∀ a b L', r = .ok b → Q a b L' → Q' a b L') : Comp p L r Q' := by
  intro v hv hl
  have := hc v hv hl
  refine ⟨this.1, ?_⟩
  have := this.2
  cases r with
  | ok b =>
    obtain ⟨a, w, h1, h2, L', h3, h4⟩ := this
    exact ⟨a, w, h1, h2, L', h3, hq _ _ _ rfl h4⟩
  | _ => exact this

theorem bind {p : RProg α} {f : α → RProg γ} {r : Res β} {g : β → Res δ}
    {R : α → β → List (Nat × SElem) → Prop} {Q : γ → δ → List (Nat × SElem) → Prop} (hp : Comp p L r R)
    (hf : ∀ a b L', r = .ok b → R a b L' → Comp (f a) L' (g b) Q) : Comp (p >>= f) L (r >>= g) Q := by
  intro v hv hl
  have h1 := hp v hv hl
  unfold Ends
  rw [eval_bind, lost_bind _ _ _ h1.2.fine]
  obtain ⟨h0, h1⟩ := h1
  rw [h0]
  cases r with
  | ok b =>
    obtain ⟨a, w, h1, h2, L', h3, h4⟩ := h1
    rw [h1]
    have := hf a b L' rfl h4 w h2 h3
    exact ⟨by simp [after, this.1], this.2⟩
  | panic => obtain ⟨w, h1⟩ := h1; rw [h1]; exact ⟨rfl, w, rfl⟩
  | diverge => rw [show eval p v = .diverge from h1]; exact ⟨rfl, rfl⟩
  | ub => exact h1.elim

/-- A step of the program that the function on values does not have. -/
theorem step {p : RProg α} {f : α → RProg γ} {b : β} {r : Res δ}
    {R : α → β → List (Nat × SElem) → Prop} {Q : γ → δ → List (Nat × SElem) → Prop} (hp : Comp p L (.ok b) R)
    (hf : ∀ a L', R a b L' → Comp (f a) L' r Q) : Comp (p >>= f) L r Q := by
  exact bind (g := fun _ : β => r) (Q := Q) (f := f) hp fun a b' L' e h => by
    cases e
    exact hf a L' h

theorem ite {c : Bool} {p q : RProg α} {r r' : Res β} {Q : α → β → List (Nat × SElem) → Prop}
    (h1 : c = true → Comp p L r Q) (h2 : c = false → Comp q L r' Q) :
    Comp (if c then p else q) L (if c then r else r') Q := by
  cases c with
  | true => exact h1 rfl
  | false => exact h2 rfl

/-! ### The operations -/

theorem nav {f : Nav} {k : Option Nat → RProg α} {r : Res β} {Q : α → β → List (Nat × SElem) → Prop}
    (hm : (h, e) ∈ L) (hf : f.fits e = true)
    (hk : match f.on e with
      | none => Comp (k none) L r Q
      | some z => ∀ i, Comp (k (some i)) ((i, z) :: L) r Q) : Comp (Prog.nav f h >>= k) L r Q := by
  intro v hv hl
  have hg := hv.get (hl.mem_iff.mpr hm)
  show lost (.nav f h k) v = 0 ∧ Ends (.nav f h k) v Q r
  have he : ∀ o w, (RProg.nav f h k).eval v = (k o).eval w → Ends (k o) w Q r → Ends (.nav f h k) v Q r := by
    intro o w e1 e2; unfold Ends at e2 ⊢; rw [e1]; exact e2
  cases ho : f.on e with
  | none =>
    rw [ho] at hk
    have := hk v hv hl
    refine ⟨by simp only [lost, hg, ho]; exact this.1, he none v ?_ this.2⟩
    simp only [eval, hg, hf, ho, if_true]
  | some z =>
    rw [ho] at hk
    have := hk v.next (v.add z) hv.add (hl.cons _)
    refine ⟨by simp only [lost, hg, ho]; exact this.1, he _ _ ?_ this.2⟩
    simp only [eval, hg, hf, ho, if_true]

theorem toNext {nodes : Bool} {k : Option Nat → RProg α} {r : Res β} {Q : α → β → List (Nat × SElem) → Prop}
    (hm : L.Perm ((h, e) :: F)) (hp : e.parent ≠ none)
    (hk : match e.nextOf nodes with
      | none => Comp (k none) F r Q
      | some z => ∀ i, Comp (k (some i)) ((i, z) :: F) r Q) : Comp (Prog.toNext nodes h >>= k) L r Q := by
  intro v hv hl
  have hg := hv.get (hl.mem_iff.mpr (hm.mem_iff.mpr (List.mem_cons_self ..)))
  show lost (.toNext nodes h k) v = 0 ∧ Ends (.toNext nodes h k) v Q r
  have hd := hv.del_perm (hl.trans hm)
  have he : ∀ o w, (RProg.toNext nodes h k).eval v = (k o).eval w → Ends (k o) w Q r →
      Ends (.toNext nodes h k) v Q r := by
    intro o w e1 e2; unfold Ends at e2 ⊢; rw [e1]; exact e2
  cases ho : e.nextOf nodes with
  | none =>
    rw [ho] at hk
    have := hk _ hv.del hd
    refine ⟨by simp only [lost, hg, ho, hp, if_false]; exact this.1, he none _ ?_ this.2⟩
    simp only [eval, hg, ho]
  | some z =>
    rw [ho] at hk
    have := hk v.next ((v.del h).add z) hv.del.add (hd.cons _)
    refine ⟨by simp only [lost, hg, ho]; exact this.1, he _ _ ?_ this.2⟩
    simp only [eval, hg, ho]

theorem clone {k : Nat → RProg α} {r : Res β} {Q : α → β → List (Nat × SElem) → Prop}
    (hm : (h, e) ∈ L) (hk : ∀ i, Comp (k i) ((i, e) :: L) r Q) : Comp (Prog.clone h >>= k) L r Q := by
  intro v hv hl
  have hg := hv.get (hl.mem_iff.mpr hm)
  show lost (.clone h k) v = 0 ∧ Ends (.clone h k) v Q r
  have := hk v.next (v.add e) hv.add (hl.cons _)
  unfold Ends at this ⊢
  simpa only [eval, lost, hg] using this

theorem drop {k : Unit → RProg α} {r : Res β} {Q : α → β → List (Nat × SElem) → Prop}
    (hm : L.Perm ((h, e) :: F)) (hk : Comp (k ()) F r Q) : Comp (Prog.drop h >>= k) L r Q := by
  intro v hv hl
  have hg := hv.get (hl.mem_iff.mpr (hm.mem_iff.mpr (List.mem_cons_self ..)))
  show lost (.drop h (k ())) v = 0 ∧ Ends (.drop h (k ())) v Q r
  have := hk _ hv.del (hv.del_perm (hl.trans hm))
  unfold Ends at this ⊢
  simpa only [eval, lost, hg] using this

theorem look {k : Obs → RProg α} {r : Res β} {Q : α → β → List (Nat × SElem) → Prop}
    (hm : (h, e) ∈ L) (hk : Comp (k e.obs) L r Q) : Comp (Prog.look h >>= k) L r Q := by
  intro v hv hl
  have hg := hv.get (hl.mem_iff.mpr hm)
  show lost (.look h k) v = 0 ∧ Ends (.look h k) v Q r
  have := hk v hv hl
  unfold Ends at this ⊢
  simpa only [eval, lost, hg] using this

end Comp

end RProg
end Rowan
