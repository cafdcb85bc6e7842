import Verif.DetachOrder
import Verif.DetachAll
import Verif.Spec.Detach
/-!
# Runs of `detachAll`, and what they leave

The definitions in this file are vocabulary of the proofs and model no code.
-/
namespace Rowan

namespace Forest
variable {F G : Forest}

theorem get_cut {m : Nat} {x y : Nat × List Nat} (hy : F.env.get m = some y) :
    ∃ z, (F.cut x).env.get m = some z ∧ (y.1 < F.fresh → x.1 < F.fresh → (F.cut x).mutable z.1 = F.mutable y.1) := by
  obtain ⟨r, X⟩ := x
  rcases List.eq_nil_or_concat X with rfl | ⟨Q, i, rfl⟩
  · exact ⟨y, hy, fun _ _ => rfl⟩
  · rw [List.concat_eq_append, cut_snoc]
    refine ⟨cutLoc r F.fresh Q i y.1 y.2, by simp [cutAt, Env.get_map, hy], fun h1 h2 => ?_⟩
    simp only [cutLoc]
    split
    · next e =>
      split
      · simp only [cutAt, Nat.ne_of_lt h2, if_false, e]
      · simp only [cutAt, if_true, e]
    · simp only [cutAt, Nat.ne_of_lt h1, if_false]

theorem ids_cut (F : Forest) (x : Nat × List Nat) : (F.cut x).env.held.map Prod.fst = F.env.held.map Prod.fst := by
  obtain ⟨r, X⟩ := x
  rcases List.eq_nil_or_concat X with rfl | ⟨Q, i, rfl⟩
  · rfl
  · rw [List.concat_eq_append, cut_snoc]; simp [cutAt, Env.map]

theorem held_cut (F : Forest) (x : Nat × List Nat) : (F.cut x).env.held.length = F.env.held.length := by
  have := congrArg List.length (ids_cut F x)
  simpa using this

theorem ids_cuts (F : Forest) (hs : List Nat) : (F.cuts hs).env.held.map Prod.fst = F.env.held.map Prod.fst := by
  induction hs generalizing F with
  | nil => rfl
  | cons h hs ih =>
    rw [cuts]
    split
    · exact ih F
    · rw [ih, ids_cut]

theorem cuts_mutable (hF : F.Sound) {hs : List Nat} {m : Nat} {y : Nat × List Nat} (hy : F.env.get m = some y) :
    ∃ z, (F.cuts hs).env.get m = some z ∧ (F.cuts hs).mutable z.1 = F.mutable y.1 := by
  induction hs generalizing F y with
  | nil => exact ⟨y, hy, rfl⟩
  | cons h hs ih =>
    rw [cuts]
    split
    · exact ih hF hy
    · next x hx =>
      obtain ⟨z, hz, hz'⟩ := get_cut (x := x) hy
      obtain ⟨z', h1, h2⟩ := ih (hF.cut (hF.get hx).1 (hF.get hx).2) hz
      exact ⟨z', h1, h2.trans (hz' (hF.get hy).1 (hF.get hx).1)⟩

/-- All handles of the list are held, and in mutable trees. -/
def Free (F : Forest) (hs : List Nat) : Prop := ∀ h ∈ hs, ∃ x, F.env.get h = some x ∧ F.mutable x.1 = true

theorem Free.cut (hF : F.Sound) {h : Nat} {hs : List Nat} {x : Nat × List Nat} (hx : F.env.get h = some x) (hm : F.Free hs) :
    (F.cut x).Free hs := by
  intro g hg
  obtain ⟨y, hy, hm'⟩ := hm g hg
  obtain ⟨z, hz, hz'⟩ := get_cut (x := x) hy
  exact ⟨z, hz, by rw [hz' (hF.get hy).1 (hF.get hx).1]; exact hm'⟩
end Forest

namespace EProg
open Forest

/-- The run of `detachAll`. -/
theorem Runs.detachAll {F : Forest} (hF : F.Sound) {hs : List Nat} (hm : F.Free hs) :
    Runs (some F.env.held.length) (EProg.detachAll hs) F () (F.cuts hs) := by
  induction hs generalizing F with
  | nil => exact ⟨rfl, fun n _ => ⟨Nat.zero_le _, rfl⟩⟩
  | cons h hs ih =>
    obtain ⟨x, hx, hxm⟩ := hm h (by simp)
    have hlen := held_cut F x
    have := ih (F := F.cut x) (hF.cut (hF.get hx).1 (hF.get hx).2) (Free.cut hF hx fun g hg => hm g (by simp [hg]))
    rw [hlen] at this
    rw [cuts, hx]
    refine Runs.bind (a := ()) (F' := F.cut x) ⟨?_, ?_⟩ this
    · simp [EProg.detach, EProg.run, Req.on, hx, hxm]
    · rintro n ⟨⟩
      simp [EProg.detach, EProg.peak, EProg.lost, Req.on, Req.cost, Req.lost, hx, hxm]

/-- An immutable element is refused. -/
theorem detachAll_refused {F : Forest} (hF : F.Sound) {hs : List Nat} (hh : ∀ h ∈ hs, (F.env.get h).isSome)
    (hm : ¬ F.Free hs) : ∃ F', (EProg.detachAll hs).run F = .panic F' ∧ (EProg.detachAll hs).peak F ≤ F.env.held.length := by
  induction hs generalizing F with
  | nil => exact absurd nofun hm
  | cons h hs ih =>
    obtain ⟨x, hx⟩ := Option.isSome_iff_exists.mp (hh h (by simp))
    cases hxm : F.mutable x.1 with
    | false => 
      exact ⟨F, by simp [EProg.detachAll, EProg.detach, bind_def, EProg.bind, EProg.run, Req.on, hx, hxm],
        by simp [EProg.detachAll, EProg.detach, bind_def, EProg.bind, peak, Req.on, Req.cost, hx, hxm]⟩
    | true =>
      have h1 : (EProg.detachAll (h :: hs)).run F = (EProg.detachAll hs).run (F.cut x) := by
        simp [EProg.detachAll, EProg.detach, bind_def, EProg.bind, EProg.run, Req.on, hx, hxm]
      have h2 : (EProg.detachAll (h :: hs)).peak F = max F.env.held.length ((EProg.detachAll hs).peak (F.cut x)) := by
        simp [EProg.detachAll, EProg.detach, bind_def, EProg.bind, EProg.peak, Req.on, Req.cost, Req.lost, hx, hxm]
      rw [h1, h2]
      have h3 := held_cut F x
      suffices hsuff : ∃ F', (EProg.detachAll hs).run (F.cut x) = .panic F' ∧
          (EProg.detachAll hs).peak (F.cut x) ≤ (F.cut x).env.held.length by
        obtain ⟨F', g1, g2⟩ := hsuff
        exact ⟨F', g1, by omega⟩
      refine ih (hF.cut (hF.get hx).1 (hF.get hx).2) (fun g hg => ?_) fun hfree => hm fun g hg => ?_
      · obtain ⟨y, hy⟩ := Option.isSome_iff_exists.mp (hh g (by simp [hg]))
        obtain ⟨z, hz, -⟩ := get_cut (x := x) hy
        rw [hz]; rfl
      · rcases List.mem_cons.mp hg with rfl | hg'
        · exact ⟨x, hx, hxm⟩
        · obtain ⟨y, hy⟩ := Option.isSome_iff_exists.mp (hh g (by simp [hg']))
          obtain ⟨z, hz, hz'⟩ := get_cut (x := x) hy
          obtain ⟨z', hz1, hz2⟩ := hfree g hg'
          rw [hz] at hz1
          cases hz1
          exact ⟨y, hy, by rw [← hz' (hF.get hy).1 (hF.get hx).1]; exact hz2⟩

/-- What a program does on the heap before `f`, it does before whatever follows. -/
theorem exec_bind {α β : Type} (f : α → EProg β) : ∀ (p : EProg α) {w w' : Env Nat} {s s' : HSt} {a : α},
    p.exec w s = .ok (.ok a w') s' → (p >>= f).exec w s = (f a).exec w' s'
  | .ret a, w, w', s, s', _, e => by cases e; rfl
  | .panic, w, w', s, s', _, e => by cases e
  | .diverge, w, w', s, s', _, e => by cases e
  | .look h k, w, w', s, s', a, e => by
    simp only [bind_def, EProg.bind, exec] at e ⊢
    cases hg : w.get h with
    | none => rw [hg] at e; cases e
    | some p =>
      simp only [hg, H.bind_def] at e ⊢
      cases ho : Cur.sight p s with
      | ok o s1 => simp only [ho] at e ⊢; exact exec_bind f (k o) e
      | _ => simp only [ho] at e; cases e
  | .same h h' k, w, w', s, s', a, e => by
    simp only [bind_def, EProg.bind, exec] at e ⊢
    cases hg : w.get h with
    | none => rw [hg] at e; cases e
    | some p =>
      cases hg' : w.get h' with
      | none => rw [hg, hg'] at e; cases e
      | some q =>
        simp only [hg, hg', H.bind_def] at e ⊢
        cases ho : Cur.eq p q s with
        | ok o s1 => simp only [ho] at e ⊢; exact exec_bind f (k o) e
        | _ => simp only [ho] at e; cases e
  | .req r k, w, w', s, s', a, e => by
    simp only [bind_def, EProg.bind, exec, H.bind_def] at e ⊢
    cases ho : H.caught (r.exec w) s with
    | ok o s1 =>
      simp only [ho] at e ⊢
      match o with
      | none => exact exec_bind f (k .panicked) e
      | some none => cases e
      | some (some none) => exact exec_bind f (k (.done none)) e
      | some (some (some x)) => exact exec_bind f (k (.done (some w.next))) e
    | _ => simp only [ho] at e; cases e
end EProg

/-! ### The heap does not know the numbers of the trees -/

section
variable {s : HSt} {gs : List GElem} {lk : List Nat} {F G : Forest} {w : Env Nat}

theorem Tracks.like (h : Tracks s gs lk F w) (hl : F.Like G) : Tracks s gs lk G w := by
  obtain ⟨σ, h1, h2⟩ := hl
  obtain ⟨J, top, a1, a2, a3, a4, a5, a6⟩ := h.same
  have hinv : ∃ ρ : Nat → Nat, ∀ n, ρ (σ n) = n := by
    classical
    refine ⟨fun m => if hm : ∃ n, σ n = m then hm.choose else 0, fun n => ?_⟩
    have hm : ∃ n', σ n' = σ n := ⟨n, rfl⟩
    simp only [dif_pos hm]
    exact h1.inj _ _ hm.choose_spec
  obtain ⟨ρ, hρ⟩ := hinv
  refine ⟨h.reach, ?_, fun hlk => by rw [h1.leaked]; exact h.leak hlk, J.map (fun j => { j with tree := σ j.tree }), fun m => top (ρ m),
    ?_, ?_, ?_, ?_, ?_, ?_⟩
  · rw [h1.env]; exact h.next
  · rw [a1]; simp [Item.objs]
  · rw [h1.env]
    simp only [Env.map]
    rw [a2]
    simp [Item.places]
  · rw [List.map_map]; exact a3
  · intro j hj
    obtain ⟨j, hj', rfl⟩ := List.mem_map.mp hj
    exact a4 j hj'
  · intro j hj
    obtain ⟨j, hj', rfl⟩ := List.mem_map.mp hj
    obtain ⟨b1, b2, b3, b4⟩ := a5 j hj'
    simp only [hρ]
    refine ⟨b1, b2.trans (h1.tree _ b4).symm, b3.trans (h1.mutable _ b4).symm, ?_⟩
    rw [h1.fresh]
    refine Nat.lt_of_not_le fun hle => ?_
    have := h1.inj _ _ (h2 _ hle)
    omega
  · intro i hi j hj
    obtain ⟨i, hi', rfl⟩ := List.mem_map.mp hi
    obtain ⟨j, hj', rfl⟩ := List.mem_map.mp hj
    simp only [hρ]
    intro e
    rw [a6 i hi' j hj' e]

/-- Every handle denotes an element. -/
theorem Tracks.sound (h : Tracks s gs lk F w) : F.Sound := by
  obtain ⟨J, top, a1, a2, a3, a4, a5, a6⟩ := h.same
  letI : Greens := ⟨gs⟩
  obtain ⟨kids, hi⟩ := h.reach.ok'
  intro e he
  rw [a2] at he
  obtain ⟨j, hj, rfl⟩ := List.mem_map.mp he
  obtain ⟨b1, b2, b3, b4⟩ := a5 j hj
  refine ⟨b4, ?_⟩
  rw [Forest.sub]
  simp only
  rw [← b2, hi.tree_at b1]
  rfl
end
end Rowan
