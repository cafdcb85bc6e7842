import Verif.HeapReach
import Verif.EditContent
/-!
# What a call of the cursor API shows
-/
namespace Rowan
set_option linter.unusedSectionVars false
variable [Greens]
open Cur (plus)

namespace Call
open Cur
variable {s s' : HSt} {hs rest lk new : List Nat} {c : Call} {v : View}

/-- What the handles show after a call that returns. -/
theorem shows (h : HOk s (cnt (hs ++ lk))) (hr : c.Ready s Greens.held hs rest)
    (hv : s.Views (cnt (hs ++ lk)) v) (e : c.exec s = .ok new s') :
    ∃ v', s'.Views (cnt (new ++ rest ++ (c.lost s ++ lk))) v' ∧ c.Shows v (rest ++ lk) new v' ∧
      Kept (cnt (rest ++ lk)) s s' := by
  have hle : ∀ x, 0 < cnt (rest ++ lk) x → 0 < cnt (hs ++ lk) x := fun x hx => by
    rw [hr.cnt_eq]; exact Nat.lt_of_lt_of_le hx (le_plus ..)
  cases he : c.edits with
  | false =>
    obtain ⟨kids, hi⟩ := h
    obtain ⟨v', h1, h2⟩ := wp_result (shows_stable ⟨kids, hi⟩ hr he hv) e
    exact ⟨v', h1, h2, .of_stable' hi hle (wp_result (exec_stable ⟨kids, hi⟩ hr he) e).2⟩
  | true =>
    rcases Call.edits_cases he with ⟨p, rfl⟩ | ⟨q, a, b, ins, sp⟩
    · obtain ⟨h1, h2⟩ := Call.exec_detach h hr hv
      cases hm : s.mutable p with
      | true =>
        obtain ⟨s1, e1, e2, e3, e4⟩ := h1 hm
        rw [e] at e1; cases e1
        exact ⟨_, e4, ⟨rfl, rfl⟩, e3⟩
      | false => rw [e] at h2; cases h2 hm
    · obtain ⟨x, r, h0, h1, h2⟩ := Call.exec_splice h hr sp hv
      obtain ⟨_, rfl, rfl⟩ := HOut.map_ok (h0.symm.trans e)
      rw [plus_cnt] at h2
      rw [sp.uses.2.2.2.2]
      rcases h1 with h1 | h1
      · cases h1
      · split at h1
        · next v' hd =>
          obtain ⟨_, a, _, c, d⟩ := h1; cases a
          refine ⟨v', d, ?_, c⟩
          cases sp with
          | splice =>
            refine ⟨rfl, x, ?_, hd⟩
            rcases h2 with h2 | h2
            · cases h2
            · exact h2.1
          | attach =>
            rw [View.splice] at hd
            split at hd
            · cases hd
            · next hm =>
              rw [View.deleted, if_neg (by omega)] at hd
              exact ⟨rfl, by simpa using hm, hd⟩
        · obtain ⟨_, a, b, _⟩ := h1; cases a
        · obtain ⟨_, _, a, b, _⟩ := h1; cases a
        · cases h1
        · obtain ⟨_, _, a, _⟩ := h1; cases a

end Call

/-- The step bound of loops is not part of the invariant. -/
theorem HOk.slack {s : HSt} {hc : Nat → Nat} (h : HOk s hc) (n : Nat) : HOk { s with slack := n } hc := by
  obtain ⟨kids, h1, h2, h3, h4, h5, h6, h7, h8, h9, h10, h11, h12, h13, h14, h15, h16, h17⟩ := h
  refine ⟨kids, h1, h2, h3, h4, h5, h6, h7, h8, h9, h10, h11, fun p hl => ?_, fun p hl hm => ?_, h14, h15, h16, ?_⟩
  · obtain ⟨l, hch⟩ := h12 p hl
    exact ⟨l, hch.congr fun w hw => ⟨hch.live_of_mem hw, rfl⟩⟩
  · exact ⟨(h13 p hl hm).head, (h13 p hl hm).ring, (h13 p hl hm).sorted⟩
  · exact h17

theorem HSt.Views.slack {s : HSt} {hc : Nat → Nat} {v : View} (h : s.Views hc v) (n : Nat) :
    ({ s with slack := n } : HSt).Views hc v := by
  have : ∀ x r P, s.Loc x r P → ({ s with slack := n } : HSt).Loc x r P := by
    intro x r P hl
    induction hl with
    | root a b => exact .root a b
    | child a b _ ih => exact .child (s := { s with slack := n }) a b ih
  intro x hx
  obtain ⟨a, b, c⟩ := h x hx
  exact ⟨this _ _ _ a, b, c⟩

/-! ### Views of reachable states -/

theorem HSt.Views.pos_eq {s : HSt} {hc : Nat → Nat} {v : View} (h : s.Views hc v) {x r : Nat} {P : List Nat}
    (hx : 0 < hc x) (hl : s.Loc x r P) : v.pos x = (r, P) := by
  obtain ⟨a, b⟩ := (h x hx).1.unique hl
  exact Prod.ext a b

theorem HSt.Views.full {s : HSt} {hc : Nat → Nat} {kids : Nat → List Nat} {v : View}
    (hi : HInv s hc kids none []) (h : s.Views hc v) : v.Full fun x => 0 < hc x := fun x hx => by
  rw [h.sub_eq hi hx]; rfl

/-- Content and position of the handles after a call, given a view. -/
theorem HSt.Views.tree_eq {s : HSt} {hc : Nat → Nat} {kids : Nat → List Nat} {v : View}
    (hi : HInv s hc kids none []) (h : s.Views hc v) {x : Nat} {t : Tree} (hx : 0 < hc x)
    (ht : v.sub x = some t) : s.tree x = t := by
  rw [h.sub_eq hi hx] at ht
  exact Option.some.inj ht

end Rowan
