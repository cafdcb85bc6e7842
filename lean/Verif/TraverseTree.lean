import Verif.ProgramHeap
import Verif.TraverseAll
import Verif.Props.Walk
import Verif.Props.TokenOrder
import Verif.Props.Position
import Verif.Props.Handles
/-!
# From snapshots to positions in the tree

Unless their comments cite lines of `/repo`, the definitions in this file are vocabulary of the proofs and model no code.
-/
namespace Rowan

section
variable {r : Nat} {s : HSt} {gs : List GElem} {n : Nat} {J : List Live} {rest lk : List Nat}

/-- The value that stands for the whole tree. -/
def HSt.rootVal (s : HSt) (r : Nat) : Root := ⟨s.mutable r, s.index r, s.green r⟩

theorem HSt.rootVal_tree (s : HSt) (r : Nat) : (s.rootVal r).tree = s.tree r := rfl

theorem Running.inv {T : List Nat} (h : Running T s gs n J rest lk) :
    letI : Greens := ⟨gs⟩; ∃ hc kids, HInv s hc kids none [] := by
  letI : Greens := ⟨gs⟩
  obtain ⟨hs, _, hr⟩ := h.reach
  obtain ⟨kids, hi⟩ := hr.ok'
  exact ⟨_, kids, hi⟩

theorem Running.at (h : Running [r] s gs n J rest lk) {j : Live} (hj : j ∈ J) :
    Reach (s.rootVal r) j.snap ∧ s.Loc j.obj r j.snap.path := by
  obtain ⟨r', hr', h1, h2, h3⟩ := h.snap j hj
  rw [List.mem_singleton] at hr'
  subst hr'
  exact ⟨by rw [h2] at h3; exact h3, h1⟩

theorem Running.at_tree (h : Running [r] s gs n J rest lk) {j : Live} (hj : j ∈ J) :
    (s.tree r).at? j.snap.path = some (s.tree j.obj) ∧ j.snap.green.tree = s.tree j.obj := by
  letI : Greens := ⟨gs⟩
  obtain ⟨hc, kids, hi⟩ := h.inv
  exact ⟨hi.tree_at (h.at hj).2, by rw [← (h.snap j hj).green hi]; rfl⟩

theorem Running.coherent {T : List Nat} (h : Running T s gs n J rest lk) (hr : s.live r = true) :
    (s.rootVal r).green.Coherent := by
  letI : Greens := ⟨gs⟩
  obtain ⟨hc, kids, hi⟩ := h.inv
  have := hi.alive hr
  intro a ha b hb e
  have ku := fun x hx => HSt.Known.subs (.inl this) (y := x) hx
  exact hi.uni.coh a b (ku a ha) (ku b hb) e

theorem RProg.Answers.returns {α β : Type} {p : RProg α} {b : β} {Q : α → β → List (Nat × SElem) → Prop}
    {Q' : α → List (Nat × List Nat) → Prop} {j : Live} (hj : j ∈ J) (h0 : Running [r] s gs n J rest lk)
    (h : p.Answers [r] s gs n J rest lk (.ok b) Q)
    (hq : ∀ a L, Q a b L → ∃ N, L.Perm (N ++ Live.snaps J) ∧ Q' a (N.map fun x => (x.1, x.2.path))) :
    p.Returns r s gs n J rest lk Q' := by
  rcases h with e | ⟨s', h1, a, n', J', e, h2, L, h3, h4⟩
  · exact .inl e
  · obtain ⟨N, h5, h6⟩ := hq a L h4
    have hp := h3.trans h5
    have mem : ∀ x ∈ N ++ Live.snaps J, ∃ j ∈ J', j.id = x.1 ∧ j.snap = x.2 := by
      intro x hx
      obtain ⟨j, hj, rfl⟩ := List.mem_map.mp (hp.mem_iff.mpr hx)
      exact ⟨j, hj, rfl, rfl⟩
    refine .inr ⟨a, s', n', J', _, e, h2, ?_, h1, ?_, ?_, h6⟩
    · obtain ⟨j', hj', -, e2⟩ := mem (j.id, j.snap) (List.mem_append.mpr (.inr (List.mem_map_of_mem hj)))
      have v1 := (h0.at hj).1.valid.2
      have v2 := (h2.at hj').1.valid.2
      rw [e2, v1] at v2
      exact (congrArg Root.tree v2).symm
    · have := hp.map fun x : Nat × SElem => (x.1, x.2.path)
      simpa [Live.places, Live.snaps, List.map_map, Function.comp_def] using this
    · intro x hx
      obtain ⟨y, hy, rfl⟩ := List.mem_map.mp hx
      obtain ⟨j', hj', e1, e2⟩ := mem y (List.mem_append.mpr (.inl hy))
      exact ⟨j', hj', e1, e2 ▸ (h2.at hj').2⟩

theorem RProg.Answers.panics {α β : Type} {p : RProg α} {Q : α → β → List (Nat × SElem) → Prop}
    (h : p.Answers [r] s gs n J rest lk .panic Q) : p.Panics r s gs n J rest lk := by
  rcases h with e | ⟨s', h1, n', J', e, h2⟩
  · exact .inl e
  · exact .inr ⟨s', n', J', e, h2, h1⟩

namespace RProg
variable {F L : List (Nat × SElem)}

theorem Got.one {R : Root} {a : Option Nat} {b : Option SElem} {P : Option (List Nat)} (hg : Got F a b L) (hp : PointsTo R b P) :
    ∃ N, L.Perm (N ++ F) ∧ One P a (N.map fun x => (x.1, x.2.path)) := by
  rw [← hp.1]
  rcases hg.cases with ⟨rfl, rfl, h⟩ | ⟨i, z, rfl, rfl, h⟩
  · exact ⟨[], h, rfl, rfl⟩
  · exact ⟨[(i, z)], h, rfl, rfl⟩

theorem GotL.all {R : Root} : ∀ {as : List Nat} {bs : List SElem} {Ps : List (List Nat)} {L : List (Nat × SElem)}, GotL F as bs L →
    PointsToAll R bs Ps → ∃ N, L.Perm (N ++ F) ∧ All Ps as (N.map fun x => (x.1, x.2.path))
  | [], [], _, _, hg, hp => by rw [← hp.1]; exact ⟨[], hg, rfl, rfl⟩
  | a :: as, b :: bs, _, _, ⟨F', hl, hg⟩, hp => by
    rw [← hp.1]
    obtain ⟨N, h1, h2, h3⟩ := hg.all (R := R) (Ps := bs.map SElem.path) ⟨rfl, fun e he => hp.2 e (List.mem_cons_of_mem _ he)⟩
    exact ⟨(a, b) :: N, hl.trans (h1.cons _), by simpa using h2, by simpa using h3⟩
  | [], _ :: _, _, _, hg, _ => hg.elim
  | _ :: _, [], _, _, hg, _ => hg.elim
end RProg

namespace Prog
variable {F L : List (Nat × SElem)}

theorem GotEs.events : ∀ {as : List (WalkEvent Nat)} {bs : List (WalkEvent SElem)} {L : List (Nat × SElem)}, GotEs F as bs L →
    ∃ N, L.Perm (N ++ F) ∧ RProg.Events (bs.map (·.map SElem.path)) as (N.map fun x => (x.1, x.2.path))
  | [], [], _, hg => ⟨[], hg, rfl, rfl⟩
  | a :: as, b :: bs, _, ⟨F', hl, hg⟩ => by
    obtain ⟨N, h1, h2, h3⟩ := GotEs.events hg
    cases a <;> cases b <;> first | exact hl.elim | skip
    all_goals
      rename_i a b
      exact ⟨(a, b) :: N, List.Perm.trans hl (h1.cons _), by simpa [WalkEvent.elem] using h2, by simpa using h3⟩
  | [], _ :: _, _, hg => hg.elim
  | _ :: _, [], _, hg => hg.elim
end Prog

end
end Rowan
