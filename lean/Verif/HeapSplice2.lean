import Verif.HeapSplice
import Verif.ViewLemmas
/-!
# `splice_children` and detaching in loops: results
-/
namespace Rowan
set_option linter.unusedSectionVars false
variable [Greens]

/-- Views of heaps name trees by their top elements. -/
theorem HSt.Views.named {s : HSt} {hc : Nat → Nat} {kids : Nat → List Nat} {v : View} (hv : s.Views hc v)
    (h : HInv s hc kids none []) : v.Named (fun x => 0 < hc x) := by
  refine ⟨?_, ?_, ?_⟩
  · intro x hx hx2
    obtain ⟨h1, _, _⟩ := hv x hx
    rw [hx2] at h1
    exact h1.nil_root.1.symm
  · intro x y hx hy e
    obtain ⟨h1, _, _⟩ := hv x hx
    obtain ⟨h2, _, _⟩ := hv y hy
    rw [e] at h1
    obtain ⟨a, b⟩ := h1.root_live
    exact (h2.unique (.root a b)).2
  · intro x y hx hy hm e
    obtain ⟨h1, _, h3⟩ := hv x hx
    obtain ⟨h2, _, h4⟩ := hv y hy
    rw [e] at h1
    exact (h.loc_inj h2 h1 (h4.trans hm)).symm

theorem View.above_of_deleted {v : View} {hc : Nat → Nat} {e q a b x : Nat} (he : v.Victim hc e q a b)
    (hm : v.mutable q = true)     (hx : (v.deleted e q a b).Above x q) : v.Above x q := by
  rw [View.deleted] at hx
  split at hx
  · obtain ⟨he, _⟩ := he hm (by omega) (by omega)
    obtain ⟨x1, x2⟩ := hx
    change (cutLoc (v.pos q).1 e (v.pos q).2 a (v.pos x).1 (v.pos x).2).1 =
      (cutLoc (v.pos q).1 e (v.pos q).2 a (v.pos q).1 (v.pos q).2).1 at x1
    change (cutLoc (v.pos q).1 e (v.pos q).2 a (v.pos x).1 (v.pos x).2).2 <+:
      (cutLoc (v.pos q).1 e (v.pos q).2 a (v.pos q).1 (v.pos q).2).2 at x2
    have hqq : cutLoc (v.pos q).1 e (v.pos q).2 a (v.pos q).1 (v.pos q).2 =
        ((v.pos q).1, (v.pos q).2) := by simp [cutLoc]
    rw [hqq] at x1 x2
    rcases View.cutLoc_cases (v.pos q).1 e (v.pos q).2 a (v.pos x).1 (v.pos x).2 with
      ⟨e0, Q', e1, e2⟩ | ⟨e0, R, e1, e2⟩ | ⟨e0, e2⟩ <;> rw [e2] at x1 x2
    · exact ⟨e0, Tree.afterCut_prefix e1 (Tree.afterCut_self ..) x2⟩
    · exact absurd x1 he
    · exact ⟨x1, x2⟩
  · exact hx

namespace Cur
variable {s : HSt} {hc : Nat → Nat} {kids : Nat → List Nat} {v : View}

theorem node_green {q : Nat} (hn : (s.tree q).isNode = true) : ∃ n, s.green q = .node n := by
  rw [HSt.tree] at hn
  cases hg : s.green q with
  | node n => exact ⟨n, rfl⟩
  | token t => rw [hg] at hn; cases t; simp [Tree.isNode, GToken.tree] at hn

theorem incRc_grows (s : HSt) (p : Nat) : Grows s (s.setRc p (s.rc p + 1)) :=
  ⟨fun _ hx => ⟨hx, rfl, rfl, rfl, rfl, rfl⟩, Nat.le_refl _⟩

theorem spliceDeleteAll_view {q a b : Nat} (h : HInv s hc kids none []) (hq : 0 < hc q)
    (hm : s.mutable q = true) (hn : (s.tree q).isNode = true) (hv : s.Views hc v) :
    H.wp (spliceDeleteAll q a b) s
      (fun _ s' => HOk s' hc ∧ Kept hc s s' ∧ (∃ e, v.Victim hc e q a b ∧
        s'.Views hc (v.deleted e q a b)) ∧ OffStill hc q s s')
      (fun _ _ => False) := by
  obtain ⟨n, hg⟩ := node_green hn
  obtain ⟨hlq, ht, _⟩ := hv q hq
  simp only [spliceDeleteAll]
  refine H.wp_step (greenRef_ok h hlq.live hg) ?_
  rcases incRc_ok h hlq.live with e | ⟨e1, e2⟩
  · simp [H.wp, H.bind_def, e]
  refine H.wp_step e1 ?_
  have gr := incRc_grows s q
  have st : Stable hc s (s.setRc q (s.rc q + 1)) := .of_grows gr
  have hw := width_eq h hv hq hg
  have hlen : n.slice.length = n.children.length := (GNode.children_length n).symm
  obtain ⟨lq, hchq⟩ := h.chain q hlq.live
  have := spliceDelete_view (v := v) (a := a) (b := b) (n := n) hq (n.slice.length + 1) 0 _ kids
    { parent := q } e2 rfl rfl (gr.loc hlq hchq) hm hg (hv.of_stable' h st)
    ht (.inl ⟨rfl, rfl, rfl⟩) (by omega) (by omega)
  refine H.wp_mono this ?_ (fun _ _ h => h)
  rintro _ s' ⟨a1, a2, a3, a4⟩
  refine ⟨a1, (Kept.of_stable' h (fun _ hx => hx) st).trans a2, ?_,
    (OffStill.of_stable h (fun _ hx => hx) st).trans hq a4⟩
  rw [Nat.max_eq_left (Nat.zero_le a), ← hw] at a3
  rcases a3 with ⟨b1, b2, e, be, b3⟩ | ⟨b1, b2⟩
  · refine ⟨e, fun _ _ _ => be, ?_⟩
    rw [View.deleted, if_pos ⟨b1, b2⟩]; exact b3
  · refine ⟨0, fun _ h1 h2 => absurd ⟨h1, h2⟩ b1, ?_⟩
    rw [View.deleted, if_neg b1]; exact b2

theorem mem_plus {ps : List Nat} {p : Nat} (hp : p ∈ ps) : 0 < plus hc ps p := by
  induction ps with
  | nil => cases hp
  | cons a ps ih =>
    rcases List.mem_cons.mp hp with rfl | hp
    · simp [plus]
    · exact Nat.lt_of_lt_of_le (ih hp) (le_inc ..)

theorem splice_view {q a b : Nat} {ins : List Nat} (h : HInv s (plus hc ins) kids none [])
    (hq : 0 < hc q) (hn : (s.tree q).isNode = true) (hv : s.Views (plus hc ins) v) :
    ∃ e, Agrees hc s (v.splice e q a b ins) (splice q a b ins s) ∧
      (splice q a b ins s = .abort ∨ v.Victim (plus hc ins) e q a b ∧ ((∀ p ∈ ins, ¬ v.Above p q) →
        v.splice e q a b ins ≠ .loops ∧ ∀ y z j, v.splice e q a b ins ≠ .tangled y z j)) := by
  have hle : ∀ x, 0 < hc x → 0 < plus hc ins x := fun x hx => Nat.lt_of_lt_of_le hx (le_plus ..)
  have hlq := h.hlive q (hle q hq)
  simp only [splice, View.splice]
  rw [H.bind_ok (H.rd_ok hlq)]
  have hvm := (hv q (hle q hq)).2.2
  by_cases hm : s.mutable q = true
  · have hnm : ¬ v.mutable q = false := by rw [← hvm, hm]; simp
    simp only [if_neg hnm]
    have e1 : H.onPanic (H.assert (s.mutable q)) (dropAll ins) s = .ok () s := by
      simp [H.onPanic, H.assert_ok hm]
    rw [H.bind_ok e1]
    have hd := spliceDeleteAll_view (a := a) (b := b) h (hle q hq) hm hn hv
    rw [H.wp] at hd
    cases hr : spliceDeleteAll q a b s with
    | abort => exact ⟨0, .inl (by simp [H.bind_def, hr]), .inl (by simp [H.bind_def, hr])⟩
    | ub => simp [hr] at hd
    | diverge => simp [hr] at hd
    | panic w s' => simp [hr] at hd
    | ok u s1 =>
      simp only [hr] at hd
      obtain ⟨⟨kids1, h1⟩, k1, ⟨e, he, v1⟩, _⟩ := hd
      refine ⟨e, ?_, .inr ⟨he, fun hna => ?_⟩⟩
      case refine_2 =>
        refine View.insertAll_acyclic (A := fun x => 0 < plus hc ins x) (hle q hq) ins a _ (v1.named h1) fun p hp => ⟨?_, fun hx => ?_⟩
        · exact mem_plus hp
        · exact hna p hp (View.above_of_deleted he (by rw [← hvm]; exact hm) hx)
      rw [H.bind_ok hr]
      exact (spliceInsert_view hq ins a s1 _ kids1 h1 (by rw [k1.mutable q (hle q hq)]; exact hm)
        (by rw [(k1.same q (hle q hq)).1]; exact hn) v1).weaken (k1.mono hle)
  · have hm' : s.mutable q = false := by simpa using hm
    obtain ⟨s2, kids2, e2, h2, g2⟩ := dropAll_bad (hc := hc) ins s kids h
    refine ⟨0, ?_⟩
    have hvm' : v.mutable q = false := by rw [← hvm, hm']
    rw [if_pos hvm']
    refine ⟨?_, .inr ⟨fun hx => (nomatch hvm'.symm.trans hx), fun _ => by simp⟩⟩
    refine .inr ⟨s2, ?_, ⟨kids2, h2⟩, Kept.of_shrinks h h2 hle g2,
      (hv.mono hle).of_stable' h (.of_shrinks g2 h2)⟩
    simp [H.bind_def, H.onPanic, H.assert_fail (s := s) hm', e2]

/-- `for c in q.children() { c.detach() }`. -/
theorem detachEach_view {nodes : Bool} {q : Nat} (h : HInv s hc kids none []) (hq : 0 < hc q)
    (hm : s.mutable q = true) (hn : (s.tree q).isNode = true) (hv : s.Views hc v) :
    H.wp (detachEach nodes q) s
      (fun _ s' => HOk s' hc ∧ Kept hc s s' ∧
        ((∃ e j, v.firstKid (fun c => !nodes || c.isNode) q j ∧
            v.IsAt hc e (v.pos q).1 ((v.pos q).2 ++ [j]) ∧
            s'.Views hc (v.cutAt e (v.pos q).1 (v.pos q).2 j)) ∨
          ((∀ j, ¬ v.firstKid (fun c => !nodes || c.isNode) q j) ∧ s'.Views hc v)))
      (fun _ _ => False) := by
  obtain ⟨n, hg⟩ := node_green hn
  obtain ⟨hlq, ht, _⟩ := hv q hq
  simp only [detachEach]
  refine H.wp_step (greenRef_ok h hlq.live hg) ?_
  rcases incRc_ok h hlq.live with e | ⟨e1, e2⟩
  · simp [H.wp, H.bind_def, e]
  refine H.wp_step e1 ?_
  have gr := incRc_grows s q
  have st : Stable hc s (s.setRc q (s.rc q + 1)) := .of_grows gr
  have hle2 : ∀ x, 0 < hc x → 0 < inc hc q x := fun x hx => Nat.lt_of_lt_of_le hx (le_inc ..)
  obtain ⟨lq, hchq⟩ := h.chain q hlq.live
  have v0 := hv.of_stable' h st
  have k0 := Kept.of_stable' h (fun _ hx => hx) st
  have hsub := hv.sub_eq h hq
  generalize hs0 : s.setRc q (s.rc q + 1) = s0 at *
  have ht0 : s0.tree = s.tree := by rw [← hs0]; rfl
  have hlq0 : s0.Loc q (v.pos q).1 (v.pos q).2 := gr.loc hlq hchq
  simp only [spliceDelete]
  refine H.wp_seq (step_wp (it := { nodes, parent := q }) (hc := hc) (q := q) e2 rfl hlq0
    (by rw [← hs0]; exact hg) (.first rfl rfl)) ?_
  rintro ⟨o, it'⟩ s1 ⟨hit, h1, st1, l1⟩
  have hit : it' = { nodes, parent := q, next := o, init := true } := hit
  subst hit
  have hkids : (s0.tree (v.pos q).1).kids (v.pos q).2 =
      (List.range (s.tree q).children.length).map fun i => (v.pos q).2 ++ [i] := by
    rw [ht0, Tree.kids_eq (h.tree_at hlq)]
  have hsat : ∀ j c, (s.tree q).children[j]? = some c →
      (!nodes || (s0.tree (v.pos q).1).sat Tree.isNode ((v.pos q).2 ++ [j])) = (!nodes || c.isNode) := by
    intro j c hj
    rw [ht0, Tree.sat, Tree.at?_snoc, h.tree_at hlq, Option.bind_some, hj]
  have v1 := v0.of_stable' e2 (st1.mono hle2)
  have k1 := Kept.of_stable' e2 hle2 (st1.mono hle2)
  simp only [pick, hkids, List.find?_map] at l1
  cases hf : (List.range (s.tree q).children.length).find?
      ((fun p => !nodes || (s0.tree (v.pos q).1).sat Tree.isNode p) ∘ fun i => (v.pos q).2 ++ [i]) with
  | none =>
    rw [hf] at l1
    have : o = none := l1.eq_none
    subst this
    simp only []
    obtain ⟨s4, e4, h4, st4⟩ := drop_iter (it := { nodes, parent := q, next := none, init := true })
      h1 rfl rfl
    obtain ⟨kids1, h1⟩ := h1
    refine H.wp_ok e4 ⟨h4, (k0.trans k1).trans (.of_stable' h1 hle2 st4), .inr ⟨?_, ?_⟩⟩
    · rintro j ⟨t, c, a1, a2, a3, _⟩
      rw [hsub] at a1; cases a1
      have := List.find?_eq_none.mp hf j
        (by simp; exact (List.getElem?_eq_some_iff.mp a2).1)
      simp only [Function.comp_apply, hsat j c a2] at this
      exact this a3
    · exact v1.of_stable' h1 st4
  | some j =>
    rw [hf] at l1
    obtain ⟨e, he, l1⟩ := l1.eq_some
    have he' : o = some e := he
    subst he'
    simp only [Nat.zero_le, decide_true, Bool.true_and, Nat.zero_lt_succ, detachIf, if_true]
    obtain ⟨kids1, h1⟩ := h1
    obtain ⟨lq0, hchq0⟩ := e2.chain q hlq0.live
    have hlq1 : s1.Loc q (v.pos q).1 (v.pos q).2 := st1.loc (hle2 q hq) hlq0 hchq0
    have hkq : Keeps s0 s1 q := (st1 q ⟨q, lq0, hle2 q hq, hchq0, hchq0.self_mem⟩).2
    have hkr : Keeps s0 s1 (v.pos q).1 :=
      (st1 _ ⟨q, lq0, hle2 q hq, hchq0, hlq0.chain_mem hchq0⟩).2
    obtain ⟨f1, f2, f3⟩ := List.find?_range_eq_some.mp hf
    have hjlt : j < (s.tree q).children.length := by simpa using f2
    obtain ⟨m, hm'⟩ : ∃ m, n.slice.length = m + 1 := by
      have : (s.tree q).children.length = n.slice.length := by
        rw [HSt.tree, hg]
        show n.tree.children.length = _
        rw [GNode.tree_eq, ← GNode.children_length]; simp [Tree.children]
      exact ⟨n.slice.length - 1, by omega⟩
    rw [hm']
    have hhit := spliceDelete_hit (nodes := nodes) (a := 0) (b := m + 1 + 1) (fuel := m) (i := 0 + 1)
      h1 hq hlq1 (by rw [hkq.mutable, ← hs0]; exact hm) (by rw [hkq.green, ← hs0]; exact hg) l1 v1
      (by rw [HSt.tree, hkr.green, ← hs0]; exact ht)
    refine H.wp_mono hhit ?_ (fun _ _ h => h)
    rintro _ s2 ⟨a1, a2, a3, _⟩
    have hme : s1.mutable e = true := by
      rw [← h1.mutable_root l1, h1.mutable_root hlq1, hkq.mutable, ← hs0]; exact hm
    refine ⟨a1, (k0.trans k1).trans a2, .inl ⟨e, j, ?_, v1.isAt h1 l1 hme, a3⟩⟩
    refine ⟨_, (s.tree q).children[j], hsub, by simp, ?_, ?_⟩
    · have := f1
      simp only [Function.comp_apply, hsat j _ (List.getElem?_eq_getElem hjlt)] at this
      exact this
    · intro j' hj' c' hc'
      have := f3 j' hj'
      simp only [Function.comp_apply, hsat j' c' hc'] at this
      simpa using this

end Cur
end Rowan
