import Verif.HeapCycle
import Verif.HeapCount
/-!
# What edits elsewhere leave alone

Unless their comments cite lines of `/repo`, the definitions in this file are vocabulary of the proofs and model no code.
-/
namespace Rowan
set_option linter.unusedSectionVars false
variable [Greens]

/-- Following `parent()` from `y` leads to `x`, and the objects passed before `x` are `l`. -/
inductive HSt.Route (s : HSt) (x : Nat) : Nat → List Nat → Prop
  | nil : Route s x x []
  | cons {y w l} : s.parent y = some w → Route s x w l → Route s x y (y :: l)

/-- For the objects with a handle below `x`: `x` is still there with the same content, and what lies between it and the
handle is unchanged. -/
def Still (hc : Nat → Nat) (x : Nat) (s s' : HSt) : Prop :=
  ∀ y l, 0 < hc y → s.Route x y l →
    s'.live x = true ∧ s'.green x = s.green x ∧ s'.mutable x = s.mutable x ∧
      ∀ z ∈ l, s'.live z = true ∧ Keeps s s' z

namespace HSt.Route
variable {s s' : HSt} {x y : Nat} {l : List Nat}

theorem up (h : s.Route x y l) : s.Up y x := by
  induction h with
  | nil => exact .refl
  | cons hp _ ih => exact .step hp ih

theorem up_mem (h : s.Route x y l) {z : Nat} (hz : z ∈ l) : s.Up y z := by
  induction h with
  | nil => cases hz
  | cons hp _ ih =>
    rcases List.mem_cons.mp hz with rfl | hz
    · exact .refl
    · exact .step hp (ih hz)

theorem congr (h : s.Route x y l) (hk : ∀ z ∈ l, s'.parent z = s.parent z) : s'.Route x y l := by
  induction h with
  | nil => exact .nil
  | cons hp _ ih =>
    exact .cons ((hk _ (by simp)).trans hp) (ih fun z hz => hk z (List.mem_cons_of_mem _ hz))

end HSt.Route

theorem HSt.Up.route {s : HSt} {x y : Nat} (h : s.Up y x) : ∃ l, s.Route x y l := by
  induction h with
  | refl => exact ⟨[], .nil⟩
  | step hp _ ih => obtain ⟨l, h⟩ := ih; exact ⟨_, .cons hp h⟩

theorem HInv.up_acyclic {s : HSt} {hc : Nat → Nat} {kids : Nat → List Nat} {z : Option Nat} {bad : List Nat}
    (h : HInv s hc kids z bad) {p q : Nat} (hl : s.live p = true) (hp : s.parent p = some q) : ¬ s.Up q p := by
  intro hu
  obtain ⟨l, hch⟩ := h.chain q (h.parentOk p q hl hp).1
  exact Cur.kids_not_chain h hch ((h.kidsMem q p).mpr ⟨hl, hp⟩) (hu.mem hch)

theorem HInv.parent_of_loc {s : HSt} {hc : Nat → Nat} {kids : Nat → List Nat} {z : Option Nat} {bad : List Nat}
    (h : HInv s hc kids z bad) {e q r j : Nat} {P : List Nat} (he : s.Loc e r (P ++ [j])) (hq : s.Loc q r P)
    (hm : s.mutable q = true) : s.parent e = some q := by
  generalize hR : P ++ [j] = R at he
  cases he with
  | root => simp at hR
  | @child _ q' _ path _ hpq hq' =>
    obtain ⟨rfl, _⟩ := List.append_inj' hR rfl
    rw [hpq, h.loc_inj hq hq' hm]

namespace Still
variable {hc hc' : Nat → Nat} {x : Nat} {s s1 s2 s' : HSt} {kids kids' : Nat → List Nat}

theorem mono (h : Still hc x s s') (hle : ∀ y, 0 < hc' y → 0 < hc y) : Still hc' x s s' :=
  fun y l hy => h y l (hle y hy)

theorem trans (h : Still hc x s s1) (h' : Still hc x s1 s2) : Still hc x s s2 := by
  intro y l hy hr
  obtain ⟨a1, a2, a3, a4⟩ := h y l hy hr
  obtain ⟨b1, b2, b3, b4⟩ := h' y l hy (hr.congr fun z hz => (a4 z hz).2.parent)
  exact ⟨b1, b2.trans a2, b3.trans a3, fun z hz => ⟨(b4 z hz).1, (a4 z hz).2.trans (b4 z hz).2⟩⟩

theorem of_stable {hc0 : Nat → Nat} {z : Option Nat} {bad : List Nat} (hi : HInv s hc0 kids z bad)
    (hle : ∀ y, 0 < hc y → 0 < hc0 y) (h : Stable hc s s') : Still hc x s s' := by
  intro y l hy hr
  obtain ⟨lc, hch⟩ := hi.chain y (hi.hlive y (hle y hy))
  have hk : ∀ w, s.Up y w → s'.live w = true ∧ Keeps s s' w := fun w hw => h w ⟨y, lc, hy, hch, hw.mem hch⟩
  obtain ⟨a, b⟩ := hk x hr.up
  exact ⟨a, b.green, b.mutable, fun w hw => hk w (hr.up_mem hw)⟩

theorem refl {z : Option Nat} {bad : List Nat} (hi : HInv s hc kids z bad) : Still hc x s s :=
  of_stable hi (fun _ h => h) (.refl fun _ ⟨_, _, _, b, d⟩ => b.live_of_mem d)

/-- An edit at the children of `q`, which moves `p`, leaves `x` alone unless `x` is `q` or an ancestor of `q`. -/
theorem of_local {q p : Nat} {z z' : Option Nat} {bad bad' : List Nat} (hi : HInv s hc kids z bad)
    (hi' : HInv s' hc kids' z' bad') (lo : Cur.Local s s' q p) (hq : ¬ s.Up q x) (hp : s.Up p x → x = p) :
    Still hc x s s' := by
  intro y l hy hr
  have hl := hi.hlive y hy
  have hl' := hi'.hlive y hy
  clear hy
  induction hr with
  | nil => exact ⟨hl', lo.green _ hl' hq, lo.mutable _ hl', fun z hz => nomatch hz⟩
  | @cons y w l hpy hr ih =>
    have hyp : y ≠ p := by
      rintro rfl
      have := hp (.step hpy hr.up)
      rw [this] at hr
      exact hi.up_acyclic hl hpy hr.up
    have hpy' : s'.parent y = some w := (lo.parent y hl' hyp).trans hpy
    obtain ⟨a, b, c, d⟩ := ih (hi.parentOk _ _ hl hpy).1 (hi'.parentOk _ _ hl' hpy').1
    refine ⟨a, b, c, fun v hv => ?_⟩
    rcases List.mem_cons.mp hv with rfl | hv
    · refine ⟨hl', lo.parent _ hl' hyp, lo.index _ hl' hyp ?_, lo.green _ hl' ?_, lo.mutable _ hl', lo.offset _ hl'⟩
      · rw [hpy]; rintro ⟨⟩; exact hq hr.up
      · intro hu; exact hq (hu.trans (.step hpy hr.up))
    · exact d v hv

end Still

/-- What detaching `p` leaves alone. -/
structure CutStill (hc : Nat → Nat) (p : Nat) (s s' : HSt) : Prop where
  up : ∀ y x, 0 < hc y → s'.Up y x → s.Up y x
  still : ∀ x, (s.Up p x → x = p) → Still hc x s s'

/-- What removing children of `q` leaves alone. -/
structure OffStill (hc : Nat → Nat) (q : Nat) (s s' : HSt) : Prop where
  up : ∀ y x, 0 < hc y → s'.Up y x → s.Up y x
  still : ∀ x, ¬ s.Up q x → Still hc x s s'

section
variable {hc hc' : Nat → Nat} {x p q : Nat} {s s1 s2 s' : HSt} {kids kids' : Nat → List Nat}

theorem Stable.up {hc0 : Nat → Nat} {z : Option Nat} {bad : List Nat} (hi : HInv s hc0 kids z bad)
    (hle : ∀ y, 0 < hc y → 0 < hc0 y) (h : Stable hc s s') {y : Nat} (hy : 0 < hc y) (hu : s'.Up y x) :
    s.Up y x := by
  obtain ⟨l, hch⟩ := hi.chain y (hi.hlive y (hle y hy))
  have hk : ∀ w ∈ l, s'.parent w = s.parent w := fun w hw => (h w ⟨y, l, hy, hch, hw⟩).2.parent
  clear hy
  induction hu generalizing l with
  | refl => exact .refl
  | @step y w x hp _ ih =>
    have hp0 : s.parent y = some w := (hk y hch.self_mem).symm.trans hp
    refine .step hp0 ?_
    cases hch with
    | root _ h0 => rw [h0] at hp0; cases hp0
    | step _ h1 hc =>
      rw [h1] at hp0; cases hp0
      exact ih _ hc fun v hv => hk v (List.mem_cons_of_mem _ hv)

theorem CutStill.of_local {z z' : Option Nat} {bad bad' : List Nat} (hi : HInv s hc kids z bad)
    (hi' : HInv s' hc kids' z' bad') (hl : s.live p = true) (hpq : s.parent p = some q) (hp' : s'.parent p = none)
    (lo : Cur.Local s s' q p) : CutStill hc p s s' := by
  refine ⟨fun y x hy hu => ?_, fun x hx => .of_local hi hi' lo (fun hu => ?_) hx⟩
  · have hl' := hi'.hlive y hy
    clear hy
    induction hu with
    | refl => exact .refl
    | @step y w x hp _ ih =>
      have hyp : y ≠ p := by rintro rfl; rw [hp'] at hp; cases hp
      exact .step ((lo.parent y hl' hyp).symm.trans hp) (ih (hi'.parentOk _ _ hl' hp).1)
  · have := hx (.step hpq hu)
    rw [this] at hu
    exact hi.up_acyclic hl hpq hu

theorem CutStill.refl {z : Option Nat} {bad : List Nat} (hi : HInv s hc kids z bad) : CutStill hc p s s :=
  ⟨fun _ _ _ h => h, fun _ _ => .refl hi⟩

theorem CutStill.mono (h : CutStill hc p s s') (hle : ∀ y, 0 < hc' y → 0 < hc y) : CutStill hc' p s s' :=
  ⟨fun y x hy => h.up y x (hle y hy), fun x hx => (h.still x hx).mono hle⟩

theorem CutStill.off (h : CutStill hc p s s') (hp : s.parent p = some q) : OffStill hc q s s' :=
  ⟨h.up, fun x hx => h.still x fun hu => by
    cases hu with
    | refl => rfl
    | step e hu => rw [hp] at e; cases e; exact absurd hu hx⟩

namespace OffStill

theorem mono (h : OffStill hc q s s') (hle : ∀ y, 0 < hc' y → 0 < hc y) : OffStill hc' q s s' :=
  ⟨fun y x hy => h.up y x (hle y hy), fun x hx => (h.still x hx).mono hle⟩

theorem trans (hq : 0 < hc q) (h : OffStill hc q s s1) (h' : OffStill hc q s1 s2) : OffStill hc q s s2 :=
  ⟨fun y x hy hu => h.up y x hy (h'.up y x hy hu),
    fun x hx => (h.still x hx).trans (h'.still x fun hu => hx (h.up q x hq hu))⟩

theorem of_stable {hc0 : Nat → Nat} {z : Option Nat} {bad : List Nat} (hi : HInv s hc0 kids z bad)
    (hle : ∀ y, 0 < hc y → 0 < hc0 y) (h : Stable hc s s') : OffStill hc q s s' :=
  ⟨fun _ _ hy hu => h.up hi hle hy hu, fun _ _ => .of_stable hi hle h⟩

end OffStill
end

end Rowan
