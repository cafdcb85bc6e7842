import Verif.HeapSplice2
import Verif.Props.Edit
/-!
# Detaching while iterating over `children().by_kind(..)`
-/
namespace Rowan
set_option linter.unusedSectionVars false
variable [Greens]

theorem scan_none {t u : Tree} {P : List Nat} (hu : t.at? P = some u) (ok : Tree → Bool) {lo : Nat}
    (h : ((t.kids P).drop lo).find? (t.sat ok) = none) {j : Nat} {c : Tree} (hlo : lo ≤ j)
    (hj : u.children[j]? = some c) : ok c = false := by
  rw [Tree.kids_eq hu, ← List.map_drop, List.range_eq_range', List.drop_range', List.find?_map,
    Option.map_eq_none_iff, List.find?_range'_eq_none] at h
  have hlt := (List.getElem?_eq_some_iff.mp hj).1
  have := h j (by omega) (by omega)
  simpa [Tree.sat, Tree.at?_snoc, hu, hj] using this

theorem scan_some {t u : Tree} {P Q : List Nat} (hu : t.at? P = some u) (ok : Tree → Bool) {lo : Nat}
    (h : ((t.kids P).drop lo).find? (t.sat ok) = some Q) :
    ∃ j c, Q = P ++ [j] ∧ lo ≤ j ∧ u.children[j]? = some c ∧ ok c = true ∧
      ∀ j' c', lo ≤ j' → j' < j → u.children[j']? = some c' → ok c' = false := by
  rw [Tree.kids_eq hu, ← List.map_drop, List.range_eq_range', List.drop_range', List.find?_map,
    Option.map_eq_some_iff] at h
  obtain ⟨j, h, rfl⟩ := h
  obtain ⟨h1, h2, h3⟩ := List.find?_range'_eq_some.mp h
  rw [List.mem_range'_1] at h2
  have hlt : j < u.children.length := by omega
  have hj := List.getElem?_eq_getElem hlt
  refine ⟨j, _, rfl, by omega, hj, ?_, ?_⟩
  · simpa [Tree.sat, Tree.at?_snoc, hu, hj] using h1
  · intro j' c' a b hj'
    have := h3 j' (by omega) b
    simpa [Tree.sat, Tree.at?_snoc, hu, hj'] using this

/-- What `by_kind(m)` looks for. (Specification vocabulary; compare src/cursor.rs:1401-1475.) -/
def okKind (nodes : Bool) (m : SyntaxKind → Bool) : Tree → Bool :=
  if nodes then Tree.nodeOf m else Tree.ofKind m

theorem View.cutAt_pos {v : View} {e q j r : Nat} {P : List Nat} (hp : v.pos q = (r, P)) :
    (v.cutAt e r P j).pos q = (r, P) := by
  show cutLoc r e P j (v.pos q).1 (v.pos q).2 = _
  simp [hp, cutLoc]

theorem View.cutAt_sub {v : View} {e q j r : Nat} {P : List Nat} {k : SyntaxKind} {cs : List Tree}
    (hp : v.pos q = (r, P)) (he : e ≠ r) (hs : v.sub q = some (.node k cs)) :
    (v.cutAt e r P j).sub q = some (.node k (cs.eraseIdx j)) := by
  rw [View.sub, View.cutAt_pos hp]
  rw [View.sub, hp] at hs
  show (if r = e then _ else if r = r then (v.tree r).removeAt P j else v.tree r).at? P = _
  have := Tree.at?_set_self hs (.node k (cs.eraseIdx j)) []
  rw [List.append_nil] at this
  rw [if_neg (Ne.symm he), if_pos rfl, Tree.removeAt, Tree.editKids_eq hs]
  exact this.trans (by simp)

namespace Cur
variable {s : HSt} {hc : Nat → Nat} {kids : Nat → List Nat} {v : View}

theorem firstByKind_wp {nodes : Bool} {m : SyntaxKind → Bool} {q r : Nat} {P : List Nat} {n : GNode}
    (h : HInv s hc kids none []) (hq : s.Loc q r P) (hg : s.green q = .node n) :
    H.wp (firstByKind nodes m q) s (fun o s' => NavStep s s' (incO hc o) ∧
      s'.LocO o r (((s.tree r).kids P).find? ((s.tree r).sat (okKind nodes m)))) (fun _ _ => False) := by
  cases nodes with
  | false => exact firstChildOrTokenByKind_wp h hq hg m
  | true => exact firstChildByKind_wp h hq hg m

theorem nextByKind_wp {nodes : Bool} {m : SyntaxKind → Bool} {e r : Nat} {P : List Nat}
    (h : HInv s hc kids none []) (he : s.Loc e r P) :
    H.wp (nextByKind nodes m e) s (fun o s' => NavStep s s' (incO hc o) ∧
      s'.LocO o r (((s.tree r).later P).find? ((s.tree r).sat (okKind nodes m)))) (fun _ _ => False) := by
  cases nodes with
  | false => exact nextSiblingOrTokenByKind_wp h he m
  | true => exact nextSiblingByKind_wp h he m

theorem detachByKindLoop_view {nodes : Bool} {m : SyntaxKind → Bool} {q : Nat} (hq : 0 < hc q) :
    ∀ (fuel : Nat) (o : Option Nat) (s : HSt) (kids : Nat → List Nat) (v : View),
    HInv s (incO hc o) kids none [] → s.mutable q = true → (s.tree q).isNode = true → s.Views hc v →
    (match o with
      | none => ∀ j, ¬ v.firstKid (okKind nodes m) q j
      | some e => ∃ j, v.firstKid (okKind nodes m) q j ∧ s.Loc e (v.pos q).1 ((v.pos q).2 ++ [j])) →
    v.width q < fuel →
    H.wp (detachByKindLoop m fuel { nodes, next := o }) s
      (fun _ s' => HOk s' hc ∧ Kept hc s s' ∧
        ∃ w, View.CutKids hc (okKind nodes m) q v w ∧ s'.Views hc w) (fun _ _ => False) := by
  intro fuel
  induction fuel with
  | zero => intros; omega
  | succ fuel ih =>
    intro o s kids v h hm hn hv ho hfuel
    simp only [detachByKindLoop, ByKind.step, ByKind.advance]
    cases o with
    | none =>
      exact H.wp_pure ⟨⟨kids, h⟩, .rfl' s, v, .done ho, hv⟩
    | some e =>
      obtain ⟨j, hfk, hle⟩ := ho
      have h : HInv s (inc hc e) kids none [] := h
      have hle1 : ∀ x, 0 < hc x → 0 < inc hc e x := fun x hx => Nat.lt_of_lt_of_le hx (le_inc ..)
      obtain ⟨hlq, ht, _⟩ := hv q hq
      have hat : (s.tree (v.pos q).1).at? (v.pos q).2 = some (s.tree q) := h.tree_at hlq
      have hsub : v.sub q = some (s.tree q) := by rw [View.sub, ← ht, hat]
      obtain ⟨k, cs, hT⟩ : ∃ k cs, s.tree q = .node k cs := by
        cases hT : s.tree q with
        | node k cs => exact ⟨k, cs, rfl⟩
        | token k x => rw [hT] at hn; cases hn
      rw [hT] at hat hsub
      obtain ⟨t', c, f1, f2, f3, f4⟩ := hfk
      have hfk : v.firstKid (okKind nodes m) q j := ⟨t', c, f1, f2, f3, f4⟩
      rw [hsub] at f1; cases f1
      have hjlt : j < cs.length := (List.getElem?_eq_some_iff.mp f2).1
      have hw : v.width q = cs.length := by rw [View.width, hsub]; rfl
      generalize hr : (v.pos q).1 = r at *
      generalize hP : (v.pos q).2 = P at *
      have hpos : v.pos q = (r, P) := Prod.ext hr hP
      have her : e ≠ r := by
        rintro rfl
        have := (hle.unique (.root hle.live hlq.root_live.2)).2
        simp at this
      refine H.wp_bind.mpr (H.wp_seq (nextByKind_wp (nodes := nodes) (m := m) h hle) ?_)
      rintro o s1 ⟨⟨⟨kids1, h1⟩, g1, -, -⟩, l1⟩
      refine H.wp_pure ?_
      simp only []
      have st1 : Stable (inc hc e) s s1 := .of_grows g1
      have v1 : s1.Views hc v := hv.of_stable' h (st1.mono hle1)
      have k1 : Kept hc s s1 := .of_stable' h hle1 (st1.mono hle1)
      obtain ⟨lq, hchq⟩ := h.chain q hlq.live
      obtain ⟨le, hche⟩ := h.chain e hle.live
      have hlq1 := g1.loc hlq hchq
      have hle1' := g1.loc hle hche
      have hle2 : ∀ x, 0 < hc x → 0 < incO (inc hc e) o x := fun x hx =>
        Nat.lt_of_lt_of_le (hle1 x hx) (le_incO ..)
      have hm1 : s1.mutable q = true := by rw [k1.mutable q hq]; exact hm
      have hme1 : s1.mutable e = true := by
        rw [← h1.mutable_root hle1', h1.mutable_root hlq1]; exact hm1
      have ht1 : s1.tree r = v.tree r := by
        have := (v1 q hq).2.1
        rw [hr] at this; exact this
      obtain ⟨s2, e2, ⟨kids2, h2⟩, k2, v2, l2, x2, _⟩ := detach_at h1
        (Nat.lt_of_lt_of_le (by simp) (le_incO _ o e)) hle1' hme1 v1 hle2 ht1
      refine H.wp_step e2 ?_
      have hcomm : incO (inc hc e) o = inc (incO hc o) e := by
        cases o with
        | none => rfl
        | some x => exact inc_comm ..
      rw [hcomm] at h2 k2 x2
      obtain ⟨s3, e3, ⟨kids3, h3⟩, g3, st3⟩ := drop_stable ⟨kids2, h2⟩
      refine H.wp_step e3 ?_
      have hle3 : ∀ x, 0 < hc x → 0 < incO hc o x := fun x hx => Nat.lt_of_lt_of_le hx (le_incO ..)
      have hle4 : ∀ x, 0 < incO hc o x → 0 < inc (incO hc o) e x := fun x hx =>
        Nat.lt_of_lt_of_le hx (le_inc ..)
      have k3 : Kept hc s2 s3 := (Kept.of_stable' h2 hle4 st3).mono hle3
      have k03 : Kept hc s s3 := (k1.trans (k2.mono fun x hx => hle4 x (hle3 x hx))).trans k3
      have v3 : s3.Views hc (v.cutAt e r P j) := v2.of_stable' h2 (st3.mono hle3)
      have hpos' : (v.cutAt e r P j).pos q = (r, P) := View.cutAt_pos hpos
      have hsub' : (v.cutAt e r P j).sub q = some (.node k (cs.eraseIdx j)) :=
        View.cutAt_sub hpos her hsub
      have hcs : ∀ i c, (cs.eraseIdx j)[i]? = some c → okKind nodes m c = true →
          ∃ i', j < i' ∧ i = i' - 1 ∧ cs[i']? = some c := by
        intro i c hi hok
        rw [List.getElem?_eraseIdx] at hi
        split at hi
        · next hlt => rw [f4 i hlt c hi] at hok; cases hok
        · exact ⟨i + 1, by omega, rfl, hi⟩
      rw [Tree.later_snoc] at l1
      refine H.wp_mono (ih o s3 kids3 (v.cutAt e r P j) h3 (by rw [k03.mutable q hq]; exact hm)
        (by rw [(k03.same q hq).1]; exact hn) v3 ?_ ?_) ?_ (fun _ _ h => h)
      · cases hf : List.find? ((s.tree r).sat (okKind nodes m)) (((s.tree r).kids P).drop (j + 1)) with
        | none =>
          rw [hf] at l1
          have : o = none := l1.eq_none
          subst this
          rintro i ⟨t', c', a1, a2, a3, _⟩
          rw [hsub'] at a1; cases a1
          obtain ⟨i', b1, _, b3⟩ := hcs i c' a2 a3
          have := scan_none hat _ hf b1 b3
          rw [this] at a3; cases a3
        | some Q =>
          rw [hf] at l1
          obtain ⟨e', he', l1⟩ := l1.eq_some
          subst he'
          obtain ⟨j2, c2, rfl, b1, b2, b3, b4⟩ := scan_some hat _ hf
          refine ⟨j2 - 1, ⟨_, c2, hsub', ?_, b3, ?_⟩, ?_⟩
          · show (cs.eraseIdx j)[j2 - 1]? = _
            rw [List.getElem?_eraseIdx, if_neg (by omega)]
            rw [show j2 - 1 + 1 = j2 by omega]; exact b2
          · intro j' hj' c' hc'
            cases hok : okKind nodes m c' with
            | false => rfl
            | true =>
              obtain ⟨i', d1, d2, d3⟩ := hcs j' c' hc' hok
              rw [b4 i' c' d1 (by omega) d3] at hok; cases hok
          · rw [hpos']
            have := x2 e' r (P ++ [j2]) (by simp [incO, inc, upd]; split <;> omega) l1
            have hx : cutLoc r e P j r (P ++ [j2]) = (r, P ++ [j2 - 1]) := by
              rw [cutLoc, if_pos rfl, Tree.afterCut_kid P (by omega : j2 ≠ j), if_pos (by omega)]
            rw [hx] at this
            obtain ⟨l, hch⟩ := h2.chain e' this.live
            exact st3.loc (by simp [incO]) this hch
      · rw [View.width, hsub']
        simp only [Tree.children]
        rw [List.length_eraseIdx, if_pos hjlt]
        omega
      · rintro _ s4 ⟨a1, a2, w, a3, a4⟩
        refine ⟨a1, k03.trans a2, w, .cut (e := e) hfk ?_ ?_, a4⟩
        · rw [hr, hP]; exact v1.isAt h1 hle1' hme1
        · rw [hr, hP]; exact a3

/-- `for c in q.children().by_kind(m) { c.detach() }`. -/
theorem detachByKind_view {nodes : Bool} {m : SyntaxKind → Bool} {q : Nat} (h : HInv s hc kids none [])
    (hq : 0 < hc q) (hm : s.mutable q = true) (hn : (s.tree q).isNode = true) (hv : s.Views hc v) :
    H.wp (detachByKind nodes m q) s
      (fun _ s' => HOk s' hc ∧ Kept hc s s' ∧
        ∃ w, View.CutKids hc (okKind nodes m) q v w ∧ s'.Views hc w) (fun _ _ => False) := by
  obtain ⟨n, hg⟩ := node_green hn
  obtain ⟨hlq, ht, _⟩ := hv q hq
  have hat := h.tree_at hlq
  have hsub : v.sub q = some (s.tree q) := by rw [View.sub, ← ht, hat]
  simp only [detachByKind]
  refine H.wp_step (greenRef_ok h hlq.live hg) ?_
  refine H.wp_seq (firstByKind_wp (nodes := nodes) (m := m) h hlq hg) ?_
  rintro o s1 ⟨⟨⟨kids1, h1⟩, g1, -, -⟩, l1⟩
  have st1 : Stable hc s s1 := .of_grows g1
  have v1 : s1.Views hc v := hv.of_stable' h st1
  have k1 : Kept hc s s1 := .of_stable' h (fun _ hx => hx) st1
  refine H.wp_mono (detachByKindLoop_view hq _ o s1 kids1 v h1 (by rw [k1.mutable q hq]; exact hm)
    (by rw [(k1.same q hq).1]; exact hn) v1 ?_ ?_) ?_ (fun _ _ h => h)
  · rw [← List.drop_zero (l := (s.tree (v.pos q).1).kids (v.pos q).2)] at l1
    cases hf : List.find? ((s.tree (v.pos q).1).sat (okKind nodes m))
        (((s.tree (v.pos q).1).kids (v.pos q).2).drop 0) with
    | none =>
      rw [hf] at l1
      have : o = none := l1.eq_none
      subst this
      rintro i ⟨t', c', a1, a2, a3, _⟩
      rw [hsub] at a1; cases a1
      have := scan_none hat _ hf (Nat.zero_le _) a2
      rw [this] at a3; cases a3
    | some Q =>
      rw [hf] at l1
      obtain ⟨e', he', l1⟩ := l1.eq_some
      subst he'
      obtain ⟨j2, c2, rfl, b1, b2, b3, b4⟩ := scan_some hat _ hf
      exact ⟨j2, ⟨_, c2, hsub, b2, b3, fun j' hj' c' hc' => b4 j' c' (Nat.zero_le _) hj' hc'⟩, l1⟩
  · rw [width_eq h hv hq hg, GNode.children_length]; omega
  · rintro _ s' ⟨a1, a2, a3⟩
    exact ⟨a1, k1.trans a2, a3⟩

end Cur
end Rowan
