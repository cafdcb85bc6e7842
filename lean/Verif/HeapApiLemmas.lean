import Verif.Spec.Api
import Verif.HeapByKind
/-!
# Programs over the cursor API keep the heap invariant
-/
namespace Rowan
set_option linter.unusedSectionVars false
variable [Greens]
open Cur (plus)

theorem plus_cnt (l ps : List Nat) : plus (cnt l) ps = cnt (ps ++ l) := by
  funext x
  induction ps with
  | nil => rfl
  | cons p ps ih =>
    show inc (plus (cnt l) ps) p x = _
    simp only [inc, upd, cnt, List.cons_append, List.count_cons] at *
    by_cases h : x = p
    · subst h; simp [← ih]
    · have : ¬ p = x := fun e => h e.symm
      simp [h, this, ← ih]

theorem cnt_perm {l l' : List Nat} (h : l.Perm l') : cnt l = cnt l' := by
  funext x; exact h.count_eq x

theorem inc_cnt (l : List Nat) (p : Nat) : inc (cnt l) p = cnt (p :: l) := plus_cnt l [p]

theorem incO_cnt (l : List Nat) (o : Option Nat) : incO (cnt l) o = cnt (o.toList ++ l) := by
  cases o with
  | none => rfl
  | some p => exact inc_cnt l p

theorem cnt_pos {l : List Nat} {x : Nat} : 0 < cnt l x ↔ x ∈ l := List.count_pos_iff

namespace Cur
variable {s : HSt} {hc : Nat → Nat} {kids : Nat → List Nat} {v : View}

theorem parent_wp {p r : Nat} {P : List Nat} (h : HInv s hc kids none []) (hl : s.Loc p r P) :
    H.wp (parent p) s (fun o s' => NavStep s s' (incO hc o) ∧
      s'.LocO o r (Nav.parent.target (s.tree r) P)) (fun _ _ => False) := by
  cases hl with
  | root hl hp =>
    exact H.wp_ok (parentNode_none hl hp) ⟨⟨⟨kids, h⟩, .refl s, rfl, rfl⟩, by simp [Nav.target, HSt.LocO]⟩
  | @child _ q _ path hl hp hq =>
    rcases parentNode_ok h hl hp with e | ⟨e1, e2⟩
    · simp [H.wp, parent, e]
    · obtain ⟨l, hch⟩ := h.chain q hq.live
      refine H.wp_ok e1 ⟨⟨⟨kids, e2⟩, incRc_grows s q, rfl, rfl⟩, ?_⟩
      have := (incRc_grows s q).loc hq hch
      simpa [Nav.target, HSt.LocO] using this

theorem nav_wp (f : Nav) {p r : Nat} {P : List Nat} (h : HInv s hc kids none []) (hl : s.Loc p r P)
    (hn : f.onNodes = true → (s.tree p).isNode = true) :
    H.wp (f.run p) s (fun o s' => NavStep s s' (incO hc o) ∧
      s'.LocO o r (f.target (s.tree r) P)) (fun _ _ => False) := by
  cases f with
  | parent => exact parent_wp h hl
  | nextSibling => exact nextSibling_wp h hl
  | nextSiblingByKind m => exact nextSiblingByKind_wp h hl m
  | prevSibling => exact prevSibling_wp h hl
  | nextSiblingOrToken => exact nextSiblingOrToken_wp h hl
  | nextSiblingOrTokenByKind m => exact nextSiblingOrTokenByKind_wp h hl m
  | prevSiblingOrToken => exact prevSiblingOrToken_wp h hl
  | firstChild => exact firstChild_wp h hl (node_green (hn rfl)).choose_spec
  | firstChildByKind m => exact firstChildByKind_wp h hl (node_green (hn rfl)).choose_spec m
  | lastChild => exact lastChild_wp h hl (node_green (hn rfl)).choose_spec
  | firstChildOrToken => exact firstChildOrToken_wp h hl (node_green (hn rfl)).choose_spec
  | firstChildOrTokenByKind m => exact firstChildOrTokenByKind_wp h hl (node_green (hn rfl)).choose_spec m
  | lastChildOrToken => exact lastChildOrToken_wp h hl (node_green (hn rfl)).choose_spec
  | childAt i => exact childAt_wp h hl (node_green (hn rfl)).choose_spec i

theorem kind_ok {z : Option Nat} (h : HInv s hc kids z []) {p : Nat} (hl : s.live p = true) :
    kind p s = .ok (s.tree p).kind s := by
  simp only [kind]
  rw [H.bind_ok (green_ok h hl)]
  show HOut.ok _ _ = _
  rw [HSt.tree]
  cases s.green p with
  | node n => simp
  | token t => cases t; rfl

theorem textRange_ok {z : Option Nat} (h : HInv s hc kids z []) {p r : Nat} {P : List Nat}
    (hl : s.Loc p r P) :
    textRange p s = .ok (TextRange.at_ (blen ((s.tree r).before P)) (blen (s.tree p).text)) s := by
  simp only [textRange]
  rw [H.bind_ok (offset_ok h hl), H.bind_ok (green_ok h hl.live)]
  show HOut.ok _ _ = _
  rw [GElem.textLen_eq _ (h.uni.wf _ (.inl (h.alive hl.live)))]
  rfl

theorem index_ok {p : Nat} (hl : s.live p = true) : index p s = .ok (s.index p) s := H.rd_ok hl

theorem toNextOf_lost {nodes : Bool} {p : Nat} (hl : s.live p = true) (h1 : s.parent p = none)
    (h2 : s.rc p = 1) (h3 : s.mutable p = false) : toNextOf nodes p s = .ok none s := by
  have hct : canTakePtr p s = .ok true s := by
    simp only [canTakePtr]
    rw [H.bind_ok (H.rd_ok hl), H.bind_ok (H.rd_ok hl), h2, h3]; rfl
  have htn : ∀ sel, takeNext sel p s = .ok none s := by
    intro sel
    simp only [takeNext]
    rw [H.bind_ok (parentNode_none hl h1)]; rfl
  cases nodes with
  | false =>
    simp only [toNextOf, toNextSiblingOrToken, Bool.false_eq_true, if_false]
    rw [H.bind_ok hct]; exact htn _
  | true =>
    simp only [toNextOf, toNextSibling, if_true]
    rw [H.bind_ok hct]; exact htn _

end Cur

namespace Call
open Cur
variable {s : HSt} {hs rest lk : List Nat} {c : Call}

theorem Ready.cnt_eq (hr : c.Ready s Greens.held hs rest) : cnt (hs ++ lk) = plus (cnt (rest ++ lk)) c.takes := by
  rw [plus_cnt, ← List.append_assoc]
  exact cnt_perm (hr.split.append_right _)

theorem Ready.live (hr : c.Ready s Greens.held hs rest) {kids : Nat → List Nat}
    (h : HInv s (plus (cnt (rest ++ lk)) c.takes) kids none []) {x : Nat} (hx : x ∈ c.uses) :
    0 < cnt (rest ++ lk) x ∧ s.live x = true := by
  have : 0 < cnt (rest ++ lk) x := cnt_pos.mpr (List.mem_append_left _ (hr.held x hx))
  exact ⟨this, h.hlive x (Nat.lt_of_lt_of_le this (le_plus ..))⟩

/-- What calls other than `detach` and `splice_children` do. -/
theorem exec_stable (h : HOk s (cnt (hs ++ lk))) (hr : c.Ready s Greens.held hs rest) (he : c.edits = false) :
    H.wp c.exec s
      (fun new s' => HOk s' (cnt (new ++ rest ++ (c.lost s ++ lk))) ∧ Stable (cnt (rest ++ lk)) s s')
      (fun w s' => w = .assert ∧ s' = s ∧ c.takes = []) := by
  rw [hr.cnt_eq] at h
  obtain ⟨kids, h⟩ := h
  have hrefl : Stable (cnt (rest ++ lk)) s s := .refl fun x ⟨y, l, _, b, d⟩ => b.live_of_mem d
  have hl : ∀ {x}, x ∈ c.uses → 0 < cnt (rest ++ lk) x ∧ s.live x = true := hr.live h
  cases c with
  | detach p => simp [edits] at he
  | splice q a b ins => simp [edits] at he
  | attach q i p => simp [edits] at he
  | newRoot m g =>
    have hU := held_uni h (hr.green m g rfl)
    cases m with
    | false =>
      obtain ⟨x, s', e1, e2, e3⟩ := newRoot_ok h hU
      refine H.wp_step e1 (H.wp_pure ⟨?_, .of_grows e3.grows⟩)
      rw [show plus (cnt (rest ++ lk)) (takes (.newRoot false g)) = cnt (rest ++ lk) from rfl, inc_cnt] at e2
      exact e2
    | true =>
      obtain ⟨x, s', e1, e2, e3⟩ := newRootMut_ok h hU
      refine H.wp_step e1 (H.wp_pure ⟨?_, .of_grows e3.grows⟩)
      rw [show plus (cnt (rest ++ lk)) (takes (.newRoot true g)) = cnt (rest ++ lk) from rfl, inc_cnt] at e2
      exact e2
  | clone p =>
    obtain ⟨h1, h2⟩ := hl (x := p) (by simp [uses])
    simp only [exec, Cur.clone]
    rcases incRc_ok h h2 with e | ⟨e1, e2⟩
    · simp [H.wp, H.bind_def, e]
    · refine H.wp_bind.mpr (H.wp_step e1 (H.wp_pure (H.wp_pure ⟨⟨kids, ?_⟩, .of_grows (incRc_grows s p)⟩)))
      rw [show plus (cnt (rest ++ lk)) (takes (.clone p)) = cnt (rest ++ lk) from rfl, inc_cnt] at e2
      exact e2
  | drop p =>
    have h' : HOk s (inc (cnt (rest ++ lk)) p) := ⟨kids, h⟩
    obtain ⟨s', e1, e2, _, e4⟩ := drop_stable h'
    exact H.wp_step e1 (H.wp_pure ⟨e2, e4⟩)
  | forget p =>
    refine H.wp_pure ⟨⟨kids, ?_⟩, hrefl⟩
    rw [show plus (cnt (rest ++ lk)) (takes (.forget p)) = cnt (p :: (rest ++ lk)) from inc_cnt ..,
      cnt_perm (l' := [] ++ rest ++ ([p] ++ lk)) (by simpa using List.perm_middle.symm)] at h
    exact h
  | read p =>
    obtain ⟨h1, h2⟩ := hl (x := p) (by simp [uses])
    obtain ⟨l, hch⟩ := h.chain p h2
    obtain ⟨r, P, hloc⟩ := hch.loc
    simp only [exec]
    refine H.wp_step (kind_ok h h2) (H.wp_step (textRange_ok h hloc) (H.wp_step (index_ok h2) ?_))
    exact H.wp_pure ⟨⟨kids, h⟩, hrefl⟩
  | nav f p =>
    obtain ⟨h1, h2⟩ := hl (x := p) (by simp [uses])
    obtain ⟨l, hch⟩ := h.chain p h2
    obtain ⟨r, P, hloc⟩ := hch.loc
    have := nav_wp f h hloc fun hn => hr.typed p (by simp [nodes, hn])
    refine H.wp_mono (H.wp_seq this ?_) (fun _ _ h => h) (fun _ _ h => h.elim)
    rintro o s' ⟨a, b⟩
    have ok := a.ok
    rw [show plus (cnt (rest ++ lk)) (takes (.nav f p)) = cnt (rest ++ lk) from rfl, incO_cnt] at ok
    refine H.wp_pure ⟨?_, .of_grows a.grows⟩
    simpa [lost, List.append_assoc] using ok
  | toNext nodes p =>
    have h' : HInv s (inc (cnt (rest ++ lk)) p) kids none [] := h
    have h2 : s.live p = true := h'.hlive p (by simp)
    by_cases hlost : s.parent p = none ∧ s.rc p = 1 ∧ s.mutable p = false
    · refine H.wp_step (toNextOf_lost h2 hlost.1 hlost.2.1 hlost.2.2) (H.wp_pure ⟨?_, hrefl⟩)
      rw [inc_cnt] at h'
      rw [lost, if_pos hlost]
      refine ⟨kids, ?_⟩
      rw [show cnt (none.toList ++ rest ++ ([p] ++ lk)) = cnt (p :: (rest ++ lk)) from
        cnt_perm (by simp)]
      exact h'
    · obtain ⟨l, hch⟩ := h.chain p h2
      obtain ⟨r, P, hloc⟩ := hch.loc
      refine H.wp_mono (H.wp_seq (toNextOf_wp h' hloc) ?_) (fun _ _ h => h) (fun _ _ h => h.elim)
      rintro o s' ⟨a, b, _⟩
      refine H.wp_pure ⟨?_, b⟩
      rcases a with a | ⟨_, _, a1, a2, a3⟩
      · rw [incO_cnt] at a
        rw [lost, if_neg hlost]
        simpa [List.append_assoc] using a
      · exact absurd ⟨a1, a2, a3⟩ hlost
  | cloneSubtree p =>
    obtain ⟨h1, h2⟩ := hl (x := p) (by simp [uses])
    obtain ⟨n, hg⟩ := node_green (hr.typed p (by simp [nodes]))
    obtain ⟨x, s', e1, e2, e3⟩ := cloneSubtree_ok h h2 hg
    refine H.wp_step e1 (H.wp_pure ⟨?_, .of_grows e3.grows⟩)
    rw [show plus (cnt (rest ++ lk)) (takes (.cloneSubtree p)) = cnt (rest ++ lk) from rfl, inc_cnt] at e2
    exact e2
  | cloneForUpdate p =>
    obtain ⟨h1, h2⟩ := hl (x := p) (by simp [uses])
    obtain ⟨n, hg⟩ := node_green (hr.typed p (by simp [nodes]))
    obtain ⟨l, hch⟩ := h.chain p h2
    obtain ⟨r, P, hloc⟩ := hch.loc
    simp only [exec]
    cases hm : s.mutable p with
    | true =>
      rw [H.wp, H.bind_def, cloneForUpdate_panic h2 hm]
      exact ⟨rfl, rfl, rfl⟩
    | false =>
      refine H.wp_mono (H.wp_seq (cloneForUpdate_wp h hloc hm hg) ?_) (fun _ _ h => h)
        (fun _ _ h => h.elim)
      rintro x s' ⟨a, b⟩
      refine H.wp_pure ⟨?_, .of_grows b.grows⟩
      rw [show plus (cnt (rest ++ lk)) (takes (.cloneForUpdate p)) = cnt (rest ++ lk) from rfl, inc_cnt] at a
      exact a

/-- What `detach` does. -/
theorem exec_detach {p : Nat} {v : View} (h : HOk s (cnt (hs ++ lk))) (hr : (detach p).Ready s Greens.held hs rest)
    (hv : s.Views (cnt (hs ++ lk)) v) :
    (s.mutable p = true → ∃ s', (detach p).exec s = .ok [] s' ∧ HOk s' (cnt (rest ++ lk)) ∧
      Kept (cnt (rest ++ lk)) s s' ∧ s'.Views (cnt (rest ++ lk)) (v.cut p)) ∧
    (s.mutable p = false → (detach p).exec s = .panic .assert s) := by
  rw [hr.cnt_eq] at h hv
  obtain ⟨kids, h⟩ := h
  obtain ⟨h1, h2⟩ := hr.live h (x := p) (by simp [uses])
  refine ⟨fun hm => ?_, fun hm => ?_⟩
  · obtain ⟨s', e1, e2, e3, e4, _⟩ := detach_view h h1 hm hv
    refine ⟨s', ?_, e2, e3, e4⟩
    simp only [exec]
    rw [H.bind_ok e1]; rfl
  · simp only [exec]
    rw [H.bind_def, detach_panic h2 hm]

/-- What `splice_children` does. -/
theorem splice_agrees {q a b : Nat} {ins : List Nat} {v : View} (h : HOk s (cnt (hs ++ lk)))
    (hr : (splice q a b ins).Ready s Greens.held hs rest) (hv : s.Views (cnt (hs ++ lk)) v) :
    ∃ e, Agrees (cnt (rest ++ lk)) s (v.splice e q a b ins) (Cur.splice q a b ins s) ∧
      (Cur.splice q a b ins s = .abort ∨ v.Victim (plus (cnt (rest ++ lk)) ins) e q a b ∧ ((∀ p ∈ ins, ¬ v.Above p q) →
        v.splice e q a b ins ≠ .loops ∧ ∀ y z j, v.splice e q a b ins ≠ .tangled y z j)) := by
  rw [hr.cnt_eq] at h hv
  obtain ⟨kids, h⟩ := h
  obtain ⟨h1, h2⟩ := hr.live h (x := q) (by simp [uses])
  exact splice_view h h1 (hr.typed q (by simp [nodes])) hv

/-- What a round of the insertion loop of `splice_children` does. -/
theorem attach_agrees {q i p : Nat} {v : View} (h : HOk s (cnt (hs ++ lk)))
    (hr : (attach q i p).Ready s Greens.held hs rest) (hv : s.Views (cnt (hs ++ lk)) v) :
    Agrees (cnt (rest ++ lk)) s (v.splice 0 q i i [p]) (Cur.spliceInsert q i [p] s) ∧
      ((∀ x ∈ [p], ¬ v.Above x q) → v.splice 0 q i i [p] ≠ .loops ∧ ∀ y z j, v.splice 0 q i i [p] ≠ .tangled y z j) := by
  rw [hr.cnt_eq] at h hv
  obtain ⟨kids, h⟩ := h
  obtain ⟨h1, h2⟩ := hr.live h (x := q) (by simp [uses])
  have hle : ∀ x, 0 < cnt (rest ++ lk) x → 0 < plus (cnt (rest ++ lk)) [p] x := fun x hx =>
    Nat.lt_of_lt_of_le hx (le_plus ..)
  have hvm := (hv q (hle q h1)).2.2
  have hd : v.deleted 0 q i i = v := by rw [View.deleted, if_neg (by omega)]
  rw [View.splice, hd]
  cases hm : s.mutable q with
  | true =>
    rw [if_neg (by rw [← hvm, hm]; simp)]
    exact ⟨spliceInsert_view h1 [p] i s v kids h hm (hr.typed q (by simp [nodes])) hv, fun hna =>
      View.insertAll_acyclic (A := fun x => 0 < plus (cnt (rest ++ lk)) [p] x) (hle q h1) [p] i v (hv.named h)
        fun x hx => ⟨mem_plus hx, hna x hx⟩⟩
  | false =>
    rw [if_pos (by rw [← hvm, hm])]
    refine ⟨?_, fun _ => by simp⟩
    obtain ⟨s2, kids2, e2, h3, g2⟩ := dropAll_bad (hc := cnt (rest ++ lk)) [p] s kids h
    refine .inr ⟨s2, ?_, ⟨kids2, h3⟩, Kept.of_shrinks h h3 hle g2,
      (hv.mono hle).of_stable' h (.of_shrinks g2 h3)⟩
    have e1 : Cur.attach q i p s = .panic .assert s := by
      simp only [Cur.attach]
      rw [H.bind_ok (H.rd_ok h2), H.bind_def, H.assert_fail hm]
    simp [Cur.spliceInsert, H.bind_def, H.onPanic, e1, e2]

/-- What calls that move elements do. -/
theorem exec_splice {q a b : Nat} {ins : List Nat} {v : View} (h : HOk s (cnt (hs ++ lk)))
    (hr : c.Ready s Greens.held hs rest) (sp : c.Splices q a b ins) (hv : s.Views (cnt (hs ++ lk)) v) :
    ∃ e r, c.exec s = r.map (fun _ => []) ∧ Agrees (cnt (rest ++ lk)) s (v.splice e q a b ins) r ∧
      (r = .abort ∨ v.Victim (plus (cnt (rest ++ lk)) ins) e q a b ∧ ((∀ p ∈ ins, ¬ v.Above p q) →
        v.splice e q a b ins ≠ .loops ∧ ∀ y z j, v.splice e q a b ins ≠ .tangled y z j)) := by
  cases sp with
  | splice =>
    obtain ⟨e, h1⟩ := splice_agrees h hr hv
    refine ⟨e, _, ?_, h1⟩
    simp only [exec, H.bind_def]
    cases Cur.splice q a b ins s <;> rfl
  | @attach _ _ p =>
    obtain ⟨h1, h2⟩ := attach_agrees h hr hv
    refine ⟨0, _, ?_, h1, .inr ⟨fun _ h => absurd h (Nat.lt_irrefl a), h2⟩⟩
    simp only [exec, H.bind_def]
    cases Cur.spliceInsert q a [p] s <;> rfl

/-- The arguments of calls that move elements. -/
theorem Splices.uses {q a b : Nat} {ins : List Nat} (sp : c.Splices q a b ins) :
    c.takes = ins ∧ c.uses = [q] ∧ c.nodes = [q] ∧ c.edits = true ∧ c.lost s = [] := by
  cases sp <;> exact ⟨rfl, rfl, rfl, rfl, rfl⟩

end Call

end Rowan
