import Verif.ForestLemmas
import Verif.Props.Memory
/-!
# Steps of editing programs on the heap and on forests
-/
namespace Rowan

/-! ### Calls that return -/

namespace Call
open Cur
variable [Greens] {s : HSt} {hs rest lk : List Nat} {c : Call}

/-- Calls that are not edits return, except `clone_for_update` on a mutable tree. -/
theorem exec_returns (h : HOk s (cnt (hs ++ lk))) (hr : c.Ready s Greens.held hs rest) (he : c.edits = false)
    (hm : ∀ p, c = cloneForUpdate p → s.mutable p = false) :
    H.wp c.exec s (fun _ _ => True) (fun _ _ => False) := by
  rw [hr.cnt_eq] at h
  obtain ⟨kids, h⟩ := h
  have hl : ∀ {x}, x ∈ c.uses → 0 < cnt (rest ++ lk) x ∧ s.live x = true := hr.live h
  cases c with
  | detach p => simp [edits] at he
  | splice q a b ins => simp [edits] at he
  | attach q i p => simp [edits] at he
  | newRoot m g =>
    have hU := held_uni h (hr.green m g rfl)
    cases m with
    | false =>
      obtain ⟨x, s', e1, e2, e3⟩ := newRoot_ok h hU
      exact H.wp_step e1 (H.wp_pure trivial)
    | true =>
      obtain ⟨x, s', e1, e2, e3⟩ := newRootMut_ok h hU
      exact H.wp_step e1 (H.wp_pure trivial)
  | clone p =>
    obtain ⟨h1, h2⟩ := hl (x := p) (by simp [uses])
    simp only [exec, Cur.clone]
    rcases incRc_ok h h2 with e | ⟨e1, e2⟩
    · simp [H.wp, H.bind_def, e]
    · exact H.wp_bind.mpr (H.wp_step e1 (H.wp_pure (H.wp_pure trivial)))
  | drop p =>
    have h' : HOk s (inc (cnt (rest ++ lk)) p) := ⟨kids, h⟩
    obtain ⟨s', e1, e2, _, e4⟩ := drop_stable h'
    exact H.wp_step e1 (H.wp_pure trivial)
  | forget p => exact H.wp_pure trivial
  | read p =>
    obtain ⟨h1, h2⟩ := hl (x := p) (by simp [uses])
    obtain ⟨l, hch⟩ := h.chain p h2
    obtain ⟨r, P, hloc⟩ := hch.loc
    exact H.wp_step (kind_ok h h2) (H.wp_step (textRange_ok h hloc) (H.wp_step (index_ok h2) (H.wp_pure trivial)))
  | nav f p =>
    obtain ⟨h1, h2⟩ := hl (x := p) (by simp [uses])
    obtain ⟨l, hch⟩ := h.chain p h2
    obtain ⟨r, P, hloc⟩ := hch.loc
    have := nav_wp f h hloc fun hn => hr.typed p (by simp [nodes, hn])
    exact H.wp_seq this fun o s' _ => H.wp_pure trivial
  | toNext nodes p =>
    have h' : HInv s (inc (cnt (rest ++ lk)) p) kids none [] := h
    have h2 : s.live p = true := h'.hlive p (by simp)
    obtain ⟨l, hch⟩ := h.chain p h2
    obtain ⟨r, P, hloc⟩ := hch.loc
    exact H.wp_seq (toNextOf_wp h' hloc) fun o s' _ => H.wp_pure trivial
  | cloneSubtree p =>
    obtain ⟨h1, h2⟩ := hl (x := p) (by simp [uses])
    obtain ⟨n, hg⟩ := node_green (hr.typed p (by simp [nodes]))
    obtain ⟨x, s', e1, e2, e3⟩ := cloneSubtree_ok h h2 hg
    exact H.wp_step e1 (H.wp_pure trivial)
  | cloneForUpdate p =>
    obtain ⟨h1, h2⟩ := hl (x := p) (by simp [uses])
    obtain ⟨n, hg⟩ := node_green (hr.typed p (by simp [nodes]))
    obtain ⟨l, hch⟩ := h.chain p h2
    obtain ⟨r, P, hloc⟩ := hch.loc
    exact H.wp_seq (cloneForUpdate_wp h hloc (hm p rfl) hg) fun x s' _ => H.wp_pure trivial

end Call

/-! ### Building trees -/

theorem HSt.Loc.withGtop {s : HSt} {x r : Nat} {P : List Nat} (g : Nat) (h : s.Loc x r P) :
    HSt.Loc { s with gtop := g } x r P := by
  induction h with
  | root h1 h2 => exact .root h1 h2
  | child h1 h2 _ ih => exact .child h1 h2 ih

theorem Cur.growAll_ok (ts : List Tree) : ∀ {s : HSt} {gs : List GElem} {hs lk : List Nat}, HReach s gs hs lk →
    ∃ gtop gs', ∃ es : List GElem, Cur.growAll ts s = .ok es { s with gtop := gtop } ∧
      HReach { s with gtop := gtop } gs' hs lk ∧ es.map GElem.tree = ts ∧ (∀ e ∈ es, e ∈ gs') ∧ ∀ e ∈ gs, e ∈ gs' := by
  refine Tree.rec_1 (motive_1 := fun t => ∀ {s : HSt} {gs : List GElem} {hs lk : List Nat}, HReach s gs hs lk →
    ∃ gtop gs' g, Cur.grow t s = .ok g { s with gtop := gtop } ∧ HReach { s with gtop := gtop } (g :: gs') hs lk ∧
      g.tree = t ∧ ∀ e ∈ gs, e ∈ gs')
    (motive_2 := fun ts => ∀ {s : HSt} {gs : List GElem} {hs lk : List Nat}, HReach s gs hs lk →
    ∃ gtop gs', ∃ es : List GElem, Cur.growAll ts s = .ok es { s with gtop := gtop } ∧
      HReach { s with gtop := gtop } gs' hs lk ∧ es.map GElem.tree = ts ∧ (∀ e ∈ es, e ∈ gs') ∧ ∀ e ∈ gs, e ∈ gs') ?_ ?_ ?_ ?_ ts
  · intro k text s gs hs lk h
    exact ⟨_, _, _, rfl, HReach.token k text h, rfl, fun e he => he⟩
  · intro k cs ih s gs hs lk h
    obtain ⟨g1, gs', es, h0, h1, h2, h3, h4⟩ := ih h
    refine ⟨g1 + 1, gs', _, ?_, HReach.node (s := { s with gtop := g1 }) k es h1 h3, ?_, h4⟩
    · rw [Cur.grow, H.bind_ok h0]; rfl
    · rw [GElem.tree, GNode.tree_new, h2]
  · intro s gs hs lk h
    exact ⟨s.gtop, gs, [], rfl, h, rfl, nofun, fun e he => he⟩
  · intro t ts ih1 ih2 s gs hs lk h
    obtain ⟨g1, gs1, g, h0, h1, h2, h3⟩ := ih1 h
    obtain ⟨g2, gs2, es, h0', h4, h5, h6, h7⟩ := ih2 h1
    refine ⟨g2, gs2, g :: es, ?_, h4, by rw [List.map_cons, h2, h5], ?_, fun e he => h7 e (List.mem_cons_of_mem _ (h3 e he))⟩
    · rw [Cur.growAll, H.bind_ok h0, H.bind_ok h0']; rfl
    · intro e he
      rcases List.mem_cons.mp he with rfl | he
      · exact h7 _ (List.mem_cons_self ..)
      · exact h6 e he

/-! ### `clone_for_update` and reference counts -/

theorem HSt.Loc.withRc {s : HSt} {x r p n : Nat} {P : List Nat} (h : s.Loc x r P) : (s.setRc p n).Loc x r P := by
  induction h with
  | root h1 h2 => exact .root h1 h2
  | child h1 h2 _ ih => exact .child h1 h2 ih

theorem Cur.parentNode_some {s s' : HSt} {p q : Nat} (e : Cur.parentNode p s = .ok (some q) s') :
    s.parent p = some q ∧ s' = s.setRc q (s.rc q + 1) := by
  by_cases hl : s.live p = true
  · simp only [Cur.parentNode, H.bind_def, H.rd_ok hl] at e
    cases hp : s.parent p with
    | none => rw [hp] at e; cases e
    | some y =>
      rw [hp] at e
      simp only [H.bind_def] at e
      by_cases hy : s.live y = true
      · simp only [H.rd_ok hy, H.dbg] at e
        by_cases hg : (NodeOrToken.asNode (s.green y)).isSome = true
        · rw [if_pos hg] at e
          simp only [H.pure_apply, Cur.incRc, H.bind_def, H.rd_ok hy] at e
          by_cases hm : s.rc y = rcMax
          · rw [if_pos hm] at e; cases e
          · rw [if_neg hm] at e
            simp only [H.wr, hy, if_true] at e
            cases e
            exact ⟨rfl, rfl⟩
        · rw [if_neg hg] at e; cases e
      · simp only [H.rd, if_neg hy] at e
        cases e
  · simp only [Cur.parentNode, H.bind_def, H.rd, if_neg hl] at e
    cases e

namespace Bump

theorem bind0E {α β : Type} {pan : Bool} {m : H α} {f : α → H β} {s : HSt} {k : Nat} (h : Bump pan m s 0)
    (hf : ∀ a s', m s = .ok a s' → Bump pan (f a) s' k) : Bump pan (m >>= f) s k :=
  (bindE h hf).mono (Nat.le_of_eq (Nat.zero_add k))

/-- `clone_for_update` increments a reference count at most twice for each level of the tree. -/
theorem cloneForUpdateLoc : ∀ (n p r : Nat) (P : List Nat) (s : HSt), s.Loc p r P →
    Bump true (Cur.cloneForUpdateLoop n p) s (2 * (P.length + 1))
  | 0, _, _, _, _, _ => Bump.diverge
  | n + 1, p, r, P, s, h => by
    refine bind0E rd fun m s1 e1 => bind0E (assert _) fun _ s2 e2 => ?_
    have e1' : s1 = s := by
      have hl : s.live p = true := by cases h <;> assumption
      rw [H.rd_ok hl] at e1; cases e1; rfl
    have e2' : s2 = s := by
      rw [e1'] at e2
      simp only [H.assert] at e2
      split at e2
      · cases e2; rfl
      · cases e2
    subst e2'
    refine mono (k1 := 1 + (2 * P.length + 1)) (bindE (parentNode ..) fun o s3 e3 => ?_) (by omega)
    cases o with
    | none => exact bind0 (greenRef ..) fun _ _ => newRootMut ..
    | some q =>
      obtain ⟨hp, rfl⟩ := Cur.parentNode_some e3
      cases h with
      | root _ h2 => rw [hp] at h2; cases h2
      | @child _ q' _ P' h1 h2 h3 =>
        rw [hp] at h2
        cases h2
        have ih := cloneForUpdateLoc n q r P' _ (h3.withRc (p := q) (n := s2.rc q + 1))
        rw [List.length_append, List.length_singleton]
        exact bind ih fun _ _ => bind0 (greenRef ..) fun _ _ => bind0 rd fun _ _ =>
          bind0 (offset ..) fun _ _ => bind (k2 := 0) (newChild ..) fun _ _ => bind0 (drop ..) fun _ _ => pure _

theorem cloneForUpdate {p r : Nat} {P : List Nat} {s : HSt} (h : s.Loc p r P) :
    Bump true (Call.cloneForUpdate p).exec s (2 * (P.length + 1)) :=
  bind (k2 := 0) (loop fun _ => cloneForUpdateLoc _ _ _ _ _ h) fun _ _ => pure _

end Bump

end Rowan
