import Verif.HeapShows
import Verif.Spec.History
/-!
# What histories keep
-/
namespace Rowan
open Cur (plus)

namespace Call
open Cur
section
set_option linter.unusedSectionVars false
variable [Greens]
variable {s s' : HSt} {hs rest lk new : List Nat} {v : View}

/-- What the handles show after a call that moves elements has returned or panicked. -/
theorem splice_after {c : Call} {q a b : Nat} {ins : List Nat} (h : HOk s (cnt (hs ++ lk)))
    (hr : c.Ready s Greens.held hs rest) (sp : c.Splices q a b ins) (hv : s.Views (cnt (hs ++ lk)) v)
    (e : c.exec s = .ok new s' ∨ c.exec s = .panic .assert s' ∨
      c.exec s = .panic .range s' ∧ a + ins.length ≤ 2 ^ 32 ∧ ∀ p ∈ ins, ∀ y, ¬ s'.Stray p y) :
    ∃ x w, v.Victim (cnt (hs ++ lk)) x q a b ∧ (v.splice x q a b ins).view? = some w ∧
      Kept (cnt (rest ++ lk)) s s' ∧ s'.Views (cnt (rest ++ lk)) w := by
  obtain ⟨x, r, red, h1, h2⟩ := exec_splice h hr sp hv
  have hc := hr.cnt_eq (lk := lk)
  have ht := (sp.uses (s := s)).1
  rw [ht] at hc
  rw [← hc] at h2
  have hpos : ∀ y ∈ hs, 0 < cnt (hs ++ lk) y := fun y hy => cnt_pos.mpr (List.mem_append_left _ hy)
  refine ⟨x, ?_⟩
  rw [red] at e
  cases r with
  | abort => simp [HOut.map] at e
  | ub => simp [HOut.map] at e
  | diverge => simp [HOut.map] at e
  | ok u s1 =>
    simp only [HOut.map, HOut.ok.injEq, reduceCtorEq, false_and, or_false] at e
    obtain ⟨_, rfl⟩ := e
    obtain ⟨h2', _⟩ := h2.resolve_left (by simp)
    have h1 := h1.resolve_left (by simp)
    split at h1
    · obtain ⟨_, a, _, b, c⟩ := h1; cases a
      exact ⟨_, h2', by rw [‹v.splice _ _ _ _ _ = _›]; rfl, b, c⟩
    · obtain ⟨_, a, _⟩ := h1; cases a
    · obtain ⟨_, _, a, _⟩ := h1; cases a
    · cases h1
    · obtain ⟨_, _, a, _⟩ := h1; cases a
  | panic w s1 =>
    obtain ⟨h2', h3⟩ := h2.resolve_left (by simp)
    have h1 := h1.resolve_left (by simp)
    cases w with
    | assert =>
      simp only [HOut.map, HOut.panic.injEq, reduceCtorEq, false_and, or_false, false_or, true_and] at e
      subst e
      split at h1
      · obtain ⟨_, a, _⟩ := h1; cases a
      · obtain ⟨_, a, _, b, c⟩ := h1; cases a
        exact ⟨_, h2', by rw [‹v.splice _ _ _ _ _ = _›]; rfl, b, c⟩
      · obtain ⟨_, _, a, _⟩ := h1; cases a
      · cases h1
      · obtain ⟨_, _, a, _⟩ := h1; cases a
    | range =>
      simp only [HOut.map, HOut.panic.injEq, reduceCtorEq, false_and, false_or, true_and] at e
      obtain ⟨rfl, e2⟩ := e
      split at h1
      · obtain ⟨_, a, _⟩ := h1; cases a
      · obtain ⟨_, a, _⟩ := h1; cases a
      · rename_i w p j ho
        obtain ⟨_, k, a, _, hn⟩ := h1; cases a
        obtain ⟨hp, hj⟩ := View.splice_outOfRange ho
        obtain ⟨_, b, c, d, t⟩ := hn (by have := e2.1; omega)
        refine ⟨w, h2', by rw [ho]; rfl, b, fun y hy => c y ?_⟩
        rw [outside, if_neg ?_]; exact hy
        intro hyp
        obtain ⟨l, hch, hl⟩ := d y hy
        have := hch.live_of_mem (hl.mpr hyp)
        obtain ⟨z, hz⟩ := t this
        exact e2.2 p hp z hz
      · cases h1
      · rename_i y p j ho
        obtain ⟨_, _, a, _, _, _, _, b⟩ := h1; cases a
        obtain ⟨_, hp, hj⟩ := View.splice_tangled ho
        exact absurd (b (by have := e2.1; omega)) (e2.2 p hp y)
end
end Call

namespace Conf
variable {C C' : Conf} {l : Option (Call × List Nat)} {x : Nat}

theorem Step.reach (h : C.Reach) (st : Step C l C') : C'.Reach := by
  cases st with
  | token k text => exact .token k text h
  | node k es he => exact .node k es h he
  | green hh => exact .green h hh
  | sub he hx => exact .sub h he hx
  | dropGreen hg => exact .dropGreen h hg
  | ok c hr e => exact .ok c h hr e
  | caught c hr e => exact .caught c h hr e
  | unwound c hr sp e hd => exact .unwound c h hr sp e hd

theorem Run.reach {P : HSt → Call → Prop} (h : C.Reach) (r : Run P x C C') : C'.Reach := by
  induction r with
  | refl => exact h
  | step _ st _ ih => exact st.reach ih

theorem Run.held {P : HSt → Call → Prop} (h : x ∈ C.hs) (r : Run P x C C') : x ∈ C'.hs := by
  induction r with
  | refl => exact h
  | step _ st hx ih =>
    cases st with
    | token | node | green | sub | dropGreen => exact ih
    | ok c hr e => exact List.mem_append_right _ (hx _ _ rfl).1
    | caught c hr e => exact (hx _ _ rfl).1
    | unwound c hr sp e hd => exact (hx _ _ rfl).1

/-- The step leaves the cursor heap alone, up to the next free address for green objects. -/
theorem Step.none_heap (st : Step C none C') : ∃ n, C'.s = { C.s with gtop := n } := by
  cases st with
  | token => exact ⟨_, rfl⟩
  | node => exact ⟨_, rfl⟩
  | green => exact ⟨C.s.gtop, rfl⟩
  | sub => exact ⟨C.s.gtop, rfl⟩
  | dropGreen => exact ⟨C.s.gtop, rfl⟩

/-- What a step keeps for a handle that the program keeps. -/
theorem Step.kept (h : C.Reach) (hx : x ∈ C.hs) (st : Step C l C') (hl : ∀ c rest, l = some (c, rest) → x ∈ rest) :
    Kept (cnt [x]) C.s C'.s ∧ ((∀ c rest, l = some (c, rest) → ¬ c.Alters C.s x) → C'.s.tree x = C.s.tree x) := by
  letI : Greens := ⟨C.gs⟩
  cases l with
  | none =>
    obtain ⟨n, e⟩ := st.none_heap
    rw [e]
    refine ⟨⟨fun _ _ => rfl, fun y l _ _ hc x hx => ⟨hc.live_of_mem hx, rfl, rfl, rfl, rfl, rfl⟩, fun _ _ => ⟨rfl, rfl⟩,
      fun _ _ _ => rfl⟩, fun _ => rfl⟩
  | some cr =>
    obtain ⟨c, rest⟩ := cr
    have hxr := hl c rest rfl
    obtain ⟨kids, hi⟩ := HReach.ok' h
    obtain ⟨v, hv⟩ := HSt.Views.exists_view hi
    have hpos : ∀ x ∈ C.hs, 0 < cnt (C.hs ++ C.lk) x := fun x hx => cnt_pos.mpr (List.mem_append_left _ hx)
    have hle : ∀ y, 0 < cnt [x] y → 0 < cnt (rest ++ C.lk) y := fun y hy => by
      rw [cnt_pos, List.mem_singleton] at hy
      subst hy; exact cnt_pos.mpr (List.mem_append_left _ hxr)
    have hrl : ∀ {y}, 0 < cnt (rest ++ C.lk) y → c.Ready C.s C.gs C.hs rest → 0 < cnt (C.hs ++ C.lk) y :=
      fun hy hr => cnt_pos.mpr <| by
        rcases List.mem_append.mp (cnt_pos.mp hy) with hy | hy
        · exact List.mem_append_left _ (hr.mem_rest hy)
        · exact List.mem_append_right _ hy
    have hx1 : 0 < cnt [x] x := cnt_pos.mpr (by simp)
    -- calls that do not edit
    have stable : ∀ {s'}, c.Ready C.s C.gs C.hs rest → Stable (cnt (rest ++ C.lk)) C.s s' →
        Kept (cnt [x]) C.s s' ∧ ((∀ c' rest', some (c, rest) = some (c', rest') → ¬ c'.Alters C.s x) →
          s'.tree x = C.s.tree x) := fun hr hst => by
      refine ⟨Kept.mono (.of_stable' hi (fun y hy => hrl hy hr) hst) hle, fun _ => ?_⟩
      obtain ⟨l, hch⟩ := hi.chain x (hi.hlive x (hpos x hx))
      rw [HSt.tree, (hst x ⟨x, l, hle x hx1, hch, hch.self_mem⟩).2.green]; rfl
    have splice : ∀ {s' q a b ins new}, c.Splices q a b ins → c.Ready C.s C.gs C.hs rest →
        (c.exec C.s = .ok new s' ∨ c.exec C.s = .panic .assert s' ∨
          c.exec C.s = .panic .range s' ∧ a + ins.length ≤ 2 ^ 32 ∧ ∀ p ∈ ins, ∀ y, ¬ s'.Stray p y) →
        HOk s' (cnt (rest ++ C.lk)) →
        Kept (cnt [x]) C.s s' ∧ ((∀ c' rest', some (c, rest) = some (c', rest') → ¬ c'.Alters C.s x) →
          s'.tree x = C.s.tree x) := by
      rintro s' q a b ins new sp hr e ⟨kids', hi'⟩
      obtain ⟨y, w, h1, h2, h3, h4⟩ := Call.splice_after ⟨kids, hi⟩ hr sp hv e
      refine ⟨h3.mono hle, fun hn => ?_⟩
      have hn := hn _ _ rfl
      obtain ⟨u1, u2, u3, _⟩ := sp.uses (s := C.s)
      have hn : ¬ (C.s.Above x q ∨ ∃ p ∈ ins, C.s.Above x p ∧ x ≠ p) := by
        cases sp with
        | splice => exact hn
        | attach => simpa [Call.Alters] using hn
      have hq := hr.mem_rest (hr.held q (by rw [u2]; simp))
      have hty := hr.typed q (by rw [u3]; simp)
      obtain ⟨k, cs, ht⟩ : ∃ k cs, C.s.tree q = .node k cs := by
        cases ht : C.s.tree q with
        | node k cs => exact ⟨k, cs, rfl⟩
        | token => rw [ht] at hty; cases hty
      refine h4.tree_eq hi' (hle x hx1) ?_
      rw [View.splice_sub_off (hv.named hi) (hv.full hi) (hpos q hq) h1
        ((hv.sub_eq hi (hpos q hq)).trans (congrArg some ht)) (hpos x hx)
        (fun e => hn (.inl ((Call.above_iff hv (hpos x hx) (hpos q hq)).mpr e)))
        (fun p hp => hpos p (hr.mem_takes (by rw [u1]; exact hp)))
        (fun p hp e => Decidable.byContradiction fun hne =>
          hn (.inr ⟨p, hp, (Call.above_iff hv (hpos x hx) (hpos p (hr.mem_takes (by rw [u1]; exact hp)))).mpr e, hne⟩)) h2]
      exact hv.sub_eq hi (hpos x hx)
    have hC' := HReach.ok' (st.reach h)
    cases st with
    | @ok _ new s' _ hr e =>
      cases he : c.edits with
      | false => exact stable hr (Call.wp_result (Call.exec_stable ⟨kids, hi⟩ hr he) e).2
      | true =>
        rcases Call.edits_cases he with ⟨p, rfl⟩ | ⟨q, a, b, ins, sp⟩
        · obtain ⟨h1, h2⟩ := Call.exec_detach ⟨kids, hi⟩ hr hv
          cases hm : C.s.mutable p with
          | false => rw [e] at h2; cases h2 hm
          | true =>
            obtain ⟨s1, e1, ⟨kids', hi'⟩, e3, e4⟩ := h1 hm
            rw [e] at e1; cases e1
            refine ⟨e3.mono hle, fun hn => ?_⟩
            have hn := hn _ _ rfl
            have hp := hr.mem_rest (hr.held p (by simp [Call.uses]))
            refine e4.tree_eq hi' (hle x hx1) ?_
            rw [View.cut_sub_off (hv.named hi) (hpos p hp) (hpos x hx) (hv.full hi p (hpos p hp)) fun e =>
              Decidable.byContradiction fun hne => hn ⟨(Call.above_iff hv (hpos x hx) (hpos p hp)).mpr e, hne⟩]
            exact hv.sub_eq hi (hpos x hx)
        · obtain ⟨_, _, h0, _⟩ := Call.exec_splice ⟨kids, hi⟩ hr sp hv
          obtain ⟨_, _, rfl⟩ := HOut.map_ok (h0.symm.trans e)
          rw [sp.uses.2.2.2.2] at hC'
          exact splice sp hr (.inl e) hC'
    | caught _ hr e =>
      cases he : c.edits with
      | false =>
        have := Call.exec_stable ⟨kids, hi⟩ hr he
        simp only [H.wp, e] at this
        obtain ⟨_, rfl, _⟩ := this
        exact stable hr (.refl fun x ⟨y, l, _, b, d⟩ => b.live_of_mem d)
      | true =>
        rcases Call.edits_cases he with ⟨p, rfl⟩ | ⟨q, a, b, ins, sp⟩
        · obtain ⟨h1, h2⟩ := Call.exec_detach ⟨kids, hi⟩ hr hv
          cases hm : C.s.mutable p with
          | false =>
            rw [h2 hm] at e; cases e
            exact stable hr (.refl fun x ⟨y, l, _, b, d⟩ => b.live_of_mem d)
          | true => obtain ⟨s1, e1, _⟩ := h1 hm; rw [e] at e1; cases e1
        · exact splice (new := []) sp hr (.inr (.inl e)) hC'
    | unwound c hr sp e hd => exact splice (new := []) sp hr (.inr (.inr ⟨e, hd⟩)) hC'

/-- What a history keeps for a handle that the program keeps. -/
theorem Run.kept {P : HSt → Call → Prop} (h : C.Reach) (hx : x ∈ C.hs) (r : Run P x C C') :
    Kept (cnt [x]) C.s C'.s := by
  letI : Greens := ⟨[]⟩
  induction r with
  | refl => exact .rfl' _
  | step r st hl ih =>
    exact ih.trans (st.kept (r.reach h) (r.held hx) fun c rest e => (hl c rest e).1).1

end Conf
end Rowan
