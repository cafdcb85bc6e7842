import Verif.HeapCheckedLemmas
import Verif.HeapReach
/-!
# Edits in builds with overflow checks: equality with the unchecked ones

Unless their comments cite lines of `/repo`, the definitions in this file are vocabulary of the proofs and model no code.
-/
namespace Rowan
set_option linter.unusedSectionVars false
variable [Greens]

theorem Tree.len_at_le : ∀ {P : List Nat} {t u : Tree}, t.at? P = some u → u.len ≤ t.len
  | [], t, u, h => by cases h; exact Nat.le_refl _
  | a :: P, t, u, h => by
    cases t with
    | token k x => simp [at?_cons, children] at h
    | node k cs =>
      rw [at?_cons] at h
      simp only [children] at h
      cases hc : cs[a]? with
      | none => rw [hc] at h; cases h
      | some c =>
        rw [hc] at h
        have ih := len_at_le (P := P) (t := c) h
        have := le_sum_of_mem (List.mem_map.mpr ⟨c, List.mem_of_getElem? hc, rfl⟩ : c.len ∈ cs.map len)
        rw [len_node]; omega

namespace Cur
variable {s : HSt} {hc : Nat → Nat} {kids : Nat → List Nat} {z : Option Nat}

theorem green_len (h : HInv s hc kids z []) {y : Nat} (hl : s.live y = true) :
    (s.green y).textLen = (s.tree y).len := GElem.textLen_eq _ (h.uni.wf _ (.inl (h.alive hl)))

theorem node_wf (h : HInv s hc kids z []) {y : Nat} {n : GNode} (hl : s.live y = true) (hg : s.green y = .node n) :
    n.WF := by
  have := h.uni.wf _ (.inl (h.alive hl))
  rw [hg] at this; exact this

theorem len_le_root (h : HInv s hc kids z []) {y r : Nat} {P : List Nat} (hy : s.Loc y r P) :
    (s.green y).textLen ≤ (s.tree r).len := by
  rw [green_len h hy.live]; exact Tree.len_at_le (h.tree_at hy)

theorem len_le_total (h : HInv s hc kids z []) {y r : Nat} {P : List Nat} (hy : s.Loc y r P) :
    (s.green y).textLen ≤ s.total := by
  obtain ⟨rs, _, h2, h3⟩ := total_eq h
  have := len_le_root h hy
  have hr := (h2 r).mpr hy.root_live
  have := le_sum_of_mem (List.mem_map.mpr ⟨r, hr, rfl⟩ : (s.tree r).len ∈ rs.map fun x => (s.tree x).len)
  omega

theorem len_two_le_total (h : HInv s hc kids z []) {y r p : Nat} {P : List Nat} (hy : s.Loc y r P)
    (hl : s.live p = true) (hp : s.parent p = none) (hne : p ≠ r) :
    (s.green y).textLen + (s.green p).textLen ≤ s.total := by
  obtain ⟨rs, h1, h2, h3⟩ := total_eq h
  have := len_le_root h hy
  have hr : r ∈ rs.erase p := (List.mem_erase_of_ne (Ne.symm hne)).mpr ((h2 r).mpr hy.root_live)
  have := le_sum_of_mem (List.mem_map.mpr ⟨r, hr, rfl⟩ : (s.tree r).len ∈ (rs.erase p).map fun x => (s.tree x).len)
  have hp := (((List.perm_cons_erase ((h2 p).mpr ⟨hl, hp⟩)).map fun x => (s.tree x).len)).sum_nat
  rw [List.map_cons, List.sum_cons] at hp
  have := green_len h hl
  omega

theorem bind_left {α β : Type} {m m' : H α} {f : α → H β} {s : HSt} (h : m s = m' s) : (m >>= f) s = (m' >>= f) s := by
  simp only [H.bind_def, h]

theorem chain_nodes (h : HInv s hc kids z []) {q : Nat} {l : List Nat} (hch : Chain s q l) (hg : ∃ n, s.green q = .node n) :
    ∀ y ∈ l, ∃ n, s.green y = .node n := by
  induction hch with
  | root hl hp =>
    intro y hy
    obtain rfl := List.mem_singleton.mp hy
    exact hg
  | @step q q' l hl hp hc ih =>
    intro y hy
    rcases List.mem_cons.mp hy with rfl | hy
    · exact hg
    · exact ih (h.parNode q q' hl hp) y hy

theorem chain_locs {q r : Nat} {P l : List Nat} (hch : Chain s q l) (hq : s.Loc q r P) :
    ∀ y ∈ l, ∃ Q, s.Loc y r Q := by
  induction hch generalizing P with
  | @root q hl hp =>
    intro y hy
    obtain rfl : y = q := by simpa using hy
    exact ⟨P, hq⟩
  | @step q q' l hl hp hc ih =>
    intro y hy
    rcases List.mem_cons.mp hy with rfl | hy
    · exact ⟨P, hq⟩
    · cases hq with
      | root _ hp' => rw [hp] at hp'; cases hp'
      | child _ hp' hq' => rw [hp] at hp'; cases hp'; exact ih hq' y hy

theorem detachDataC_eq {p q : Nat} (hl : s.live p = true) (hm : s.mutable p = true) (hrc : 0 < s.rc p)
    (hp : s.parent p = some q) : detachDataC p s = (detachPre p q >>= fun (pg, i, a) => do
      let ng ← H.unwrap (pg.removeChild a i)
      build ng none
      H.loop fun fuel => respineC fuel q ng
      let last ← decRc q
      if last then free q else pure ()) s := by
  simp only [detachDataC]
  rw [H.bind_ok (H.rd_ok hl), H.bind_ok (H.assert_ok hm), H.bind_ok (H.rd_ok hl),
    H.bind_ok (H.assert_ok (decide_eq_true hrc)), H.bind_ok (H.rd_ok hl), hp]
  simp only [detachPre, H.bind_assoc]
  rfl

theorem detachC_eq {p : Nat} (h : HInv s hc kids none []) (ht : s.total < 2 ^ 32) : detachC p s = detach p s := by
  by_cases hl : s.live p = true
  case neg => simp [detachC, detach, H.bind_def, H.rd, hl]
  by_cases hm : s.mutable p = true
  case neg => simp [detachC, detach, H.bind_ok (H.rd_ok hl), H.bind_def, H.assert_fail (s := s) (by simpa using hm)]
  simp only [detachC, detach]
  rw [H.bind_ok (H.rd_ok hl), H.bind_ok (H.rd_ok hl), H.bind_ok (H.assert_ok hm), H.bind_ok (H.assert_ok hm)]
  have hrc : 0 < s.rc p := h.pos p hl (by simp)
  cases hp : s.parent p with
  | none =>
    simp only [detachDataC, detachData]
    rw [H.bind_ok (H.rd_ok hl), H.bind_ok (H.assert_ok hm), H.bind_ok (H.rd_ok hl),
      H.bind_ok (H.assert_ok (decide_eq_true hrc)), H.bind_ok (H.rd_ok hl), hp,
      H.bind_ok (H.rd_ok hl), H.bind_ok (H.assert_ok hm), H.bind_ok (H.rd_ok hl),
      H.bind_ok (H.assert_ok (decide_eq_true hrc)), H.bind_ok (H.rd_ok hl), hp]
  | some q =>
    obtain ⟨hlq, hmq⟩ := h.parentOk p q hl hp
    have hpk : p ∈ kids q := (h.kidsMem q p).mpr ⟨hl, hp⟩
    obtain ⟨n, c, g1, g2, g3, _⟩ := h.greenOk p q hl hp (by simp)
    have hlen : s.index p < n.children.length := by
      rw [GNode.children_length]; exact (List.getElem?_eq_some_iff.mp g2).1
    obtain ⟨lq, hchq⟩ := h.chain q hlq
    obtain ⟨r, P, hq⟩ := hchq.loc
    obtain ⟨N, P', F, e0, _⟩ := detachPre_ok h hl hm hp g1
    rw [detachDataC_eq hl hm hrc hp, detachData_eq hl hm hrc hp, H.bind_ok e0, H.bind_ok e0]
    simp only []
    rw [H.bind_ok (unwrap_ok (GNode.removeChild_eq s.gtop hlen)),
      H.bind_ok (unwrap_ok (GNode.removeChild_eq s.gtop hlen))]
    have hwf := node_wf h hlq g1
    have hn : n.textLen ≤ s.total := by
      have := len_le_total h hq
      rw [g1] at this; exact this
    have hsum : ((n.children.eraseIdx (s.index p)).map GElem.textLen).sum ≤ n.textLen := by
      have e : (n.children.eraseIdx (s.index p)).map GElem.textLen = (n.children.map GElem.textLen).eraseIdx (s.index p) := by
        simp [List.eraseIdx_eq_take_drop_succ, List.map_take, List.map_drop]
      have := sum_eraseIdx (l := n.children.map GElem.textLen) (i := s.index p)
        (y := (n.children[s.index p]).textLen) (by simp [hlen])
      rw [e, hwf.len]; omega
    rw [build_none (by rw [GNode.children_new]; omega), H.bind_assoc]
    refine H.bind_congr fun _ s1 e1 => ?_
    cases e1
    rw [H.bind_ok (H.pure_apply () _)]
    refine bind_left ?_
    refine respineC_eq _ _ q lq ?_ _ 0 ?_ ?_ ?_
    · refine hchq.congr fun x hx => ⟨hchq.live_of_mem hx, upd_other _ _ ?_⟩
      rintro rfl; exact kids_not_chain h hchq hpk hx
    · intro y hy
      have hly := hchq.live_of_mem hy
      obtain ⟨Q, hy'⟩ := chain_locs hchq hq y hy
      obtain ⟨m, hm'⟩ := chain_nodes h hchq ⟨n, g1⟩ y hy
      refine ⟨m, hm', node_wf h hly hm', ?_⟩
      have := len_le_total h hy'
      rw [hm'] at this
      have : m.textLen ≤ s.total := this
      omega
    · intro y hy y' hy'
      have hne : y ≠ p := by rintro rfl; exact kids_not_chain h hchq hpk hy
      have hyk : y ∉ kids q := fun e => kids_not_chain h hchq e hy
      have hy'' : s.parent y = some y' := by rw [← hy']; exact (upd_other _ _ hne).symm
      obtain ⟨m, c', k1, k2, k3, _⟩ := h.greenOk y y' (hchq.live_of_mem hy) hy'' (by simp)
      refine ⟨m, k1, ?_⟩
      show m.children[if y ∈ kids q ∧ _ then _ else s.index y]? = some (s.green y)
      rw [if_neg (fun e => hyk e.1), ← k3]
      exact children_of_slice k2
    · show GNode.textLen _ ≤ (s.green q).textLen + 0
      rw [GNode.textLen_new, g1]
      exact hsum

theorem detach_total {p : Nat} {s' : HSt} (h : HInv s hc kids none []) (e : detach p s = .ok () s') : s'.total ≤ s.total := by
  by_cases hl : s.live p = true
  case neg => simp [detach, H.bind_def, H.rd, hl] at e
  by_cases hm : s.mutable p = true
  case neg => rw [detach_panic hl (by simpa using hm)] at e; cases e
  cases hp : s.parent p with
  | none => rw [detach_root h hl hm hp] at e; cases e; exact Nat.le_refl _
  | some q =>
    obtain ⟨hlq, hmq⟩ := h.parentOk p q hl hp
    obtain ⟨lq, hchq⟩ := h.chain q hlq
    obtain ⟨r, P, hq⟩ := hchq.loc
    obtain ⟨s1, e1, ⟨kids1, h1⟩, he, _⟩ := detach_ok h hl hm hp hq
    rw [e] at e1; cases e1
    exact total_cut h h1 (.child hl hp hq) he

theorem attachDataC_eq {q i p : Nat} : attachDataC q i p = attachPre q i p >>= fun (qg, pg, a) =>
    insertGreenC qg a i pg >>= fun ng => H.loop fun fuel => respineC fuel q ng := by
  simp only [attachDataC, attachPre, H.bind_assoc]
  rfl

theorem attachDataC_eq' {p q r i : Nat} {P : List Nat} {n : GNode} (h : HInv s hc kids none [])
    (hl : s.live p = true) (hm : s.mutable p = true) (hp : s.parent p = none)
    (hmq : s.mutable q = true) (hg : s.green q = .node n) (hq : s.Loc q r P) (hpr : p ≠ r) (ht : s.total < 2 ^ 32) :
    attachDataC q i p s = attachData q i p s := by
  have hlq := hq.live
  obtain ⟨lq, hchq⟩ := h.chain q hlq
  have hpl : p ∉ lq := fun e => by
    obtain ⟨Q, hQ⟩ := chain_locs hchq hq p e
    exact hpr (hQ.unique (.root hl hp)).1.symm
  rw [attachDataC_eq, attachData_eq]
  obtain ⟨k, hk⟩ : ∃ k, s.asU32 q i = k := ⟨_, rfl⟩
  rcases attachPre_ok (i := i) h hl hm hp hlq hmq hg hk with e | ⟨h1, N, P', F, L, s3, h2, h3, h4, h5, h6, h7, e⟩
  · simp only [H.bind_def, e]
  rw [H.bind_ok e, H.bind_ok e]
  simp only []
  by_cases hlen : i ≤ n.children.length
  case neg =>
    refine bind_left ?_ |>.trans (H.bind_congr fun g s1 e1 => ?_)
    · simp only [insertGreenC, insertGreen, GNode.insertChild_none (n := n) s.gtop (s.green p) (Nat.lt_of_not_le hlen)]
    · simp only [insertGreen, GNode.insertChild_none (n := n) s.gtop (s.green p) (Nat.lt_of_not_le hlen)] at e1
      rw [H.bind_def] at e1
      cases hx : H.release (s.green p) { s3 with gtop := s.gtop + 1 } <;> rw [hx] at e1 <;> cases e1
  obtain rfl : i = k := (HSt.asU32_le hg hlen).symm.trans hk
  have hwf := node_wf h hlq hg
  have htwo := len_two_le_total h hq hl hp hpr
  have hsum : ((n.children.take i ++ s.green p :: n.children.drop i).map GElem.textLen).sum =
      n.textLen + (s.green p).textLen := by
    have h2 : (n.children.map GElem.textLen).sum = ((n.children.take i).map GElem.textLen).sum +
        ((n.children.drop i).map GElem.textLen).sum := by
      rw [← List.sum_append, ← List.map_append, List.take_append_drop]
    rw [hwf.len, h2]
    simp only [List.map_append, List.map_cons, List.sum_append, List.sum_cons]
    omega
  have hn : n.textLen + (s.green p).textLen ≤ s.total := by rw [hg] at htwo; exact htwo
  have hins : insertGreenC n s.gtop i (s.green p) = insertGreen n s.gtop i (s.green p) := by
    simp only [insertGreenC, insertGreen, GNode.insertChild_eq s.gtop (s.green p) hlen]
    rw [build_some (by rw [GNode.children_new, hsum]; omega), H.bind_assoc]
  rw [hins]
  have hins' := insertGreen_ok h hl hp hlen h2 h3
  rw [H.bind_ok hins', H.bind_ok hins']
  refine respineC_eq _ _ q lq ?_ _ (s.green p).textLen ?_ ?_ ?_
  · refine hchq.congr fun x hx => ⟨hchq.live_of_mem hx, upd_other _ _ ?_⟩
    rintro rfl; exact hpl hx
  · intro y hy
    have hly := hchq.live_of_mem hy
    obtain ⟨Q, hy'⟩ := chain_locs hchq hq y hy
    obtain ⟨m, hm'⟩ := chain_nodes h hchq ⟨n, hg⟩ y hy
    refine ⟨m, hm', node_wf h hly hm', ?_⟩
    have := len_two_le_total h hy' hl hp hpr
    rw [hm'] at this
    have : m.textLen + (s.green p).textLen ≤ s.total := this
    omega
  · intro y hy y' hy'
    have hne : y ≠ p := by rintro rfl; exact hpl hy
    have hyk : y ∉ kids q := fun e => kids_not_chain h hchq e hy
    have hy'' : s.parent y = some y' := by rw [← hy']; exact (upd_other _ _ hne).symm
    obtain ⟨m, c', k1, k2, k3, _⟩ := h.greenOk y y' (hchq.live_of_mem hy) hy'' (by simp)
    refine ⟨m, k1, ?_⟩
    show m.children[if y = p then i else if y ∈ kids q ∧ _ then _ else s.index y]? = some (s.green y)
    rw [if_neg hne, if_neg (fun e => hyk e.1), ← k3]
    exact children_of_slice k2
  · show GNode.textLen _ ≤ (s.green q).textLen + _
    rw [GNode.textLen_new, hsum, hg]
    exact Nat.le_refl _

variable {v : View}

/-- Attaching an element that is not above the node. -/
theorem attachC_eq {q i p : Nat} (h : HInv s hc kids none []) (hq : 0 < hc q) (hp : 0 < hc p)
    (hmq : s.mutable q = true) (hn : (s.tree q).isNode = true) (hv : s.Views hc v)
    (hcyc : ((v.cut p).pos q).1 ≠ p) (ht : s.total < 2 ^ 32) :
    attachC q i p s = attach q i p s ∧ ∀ s', attach q i p s = .ok () s' → s'.total ≤ s.total := by
  have hlq := h.hlive q hq
  have hlp := h.hlive p hp
  simp only [attachC, attach]
  rw [H.bind_ok (H.rd_ok hlq), H.bind_ok (H.assert_ok hmq), H.bind_ok (H.rd_ok hlq), H.bind_ok (H.assert_ok hmq)]
  by_cases hm : s.mutable p = true
  case neg =>
    have hd := detach_panic hlp (by simpa using hm)
    refine ⟨by simp only [H.bind_def, detachC_eq h ht, hd], fun s' e => ?_⟩
    simp only [H.bind_def, hd] at e; cases e
  obtain ⟨s1, e1, ⟨kids1, h1⟩, k1, v1, l1, _⟩ := detach_view h hp hm hv
  have ht1 := detach_total h e1
  obtain ⟨n, hg⟩ := node_green (s := s1) (q := q) (by rw [(k1.same q hq).1]; exact hn)
  have hlq1 := (v1 q hq).1
  have hm1 : s1.mutable p = true := by rw [k1.mutable p hp]; exact hm
  have hmq1 : s1.mutable q = true := by rw [k1.mutable q hq]; exact hmq
  have hp1 := l1.nil_root.2
  rw [H.bind_ok ((detachC_eq h ht).trans e1), H.bind_ok e1]
  refine ⟨attachDataC_eq' h1 l1.live hm1 hp1 hmq1 hg hlq1 (Ne.symm hcyc) (by omega), fun s' e => ?_⟩
  have hw := attachData_wp (i := i) h1 l1.live hm1 hp1 hmq1 hg hlq1 (Ne.symm hcyc)
  rw [H.wp, e] at hw
  obtain ⟨_, ⟨kids2, h2⟩, eff, _⟩ := hw
  have := total_join h1 h2 l1.live hp1 (Ne.symm hcyc) hlq1 hg eff
  omega

theorem spliceInsertC_eq {q : Nat} (hq : 0 < hc q) : ∀ (ps : List Nat) (i : Nat) (s : HSt) (v : View)
    (kids : Nat → List Nat), HInv s (plus hc ps) kids none [] → s.mutable q = true →
    (s.tree q).isNode = true → s.Views (plus hc ps) v → v.Named (fun x => 0 < plus hc ps x) →
    (∀ p ∈ ps, ¬ v.Above p q) → s.total < 2 ^ 32 →
    spliceInsertC q i ps s = spliceInsert q i ps s
  | [], i, s, v, kids, h, hm, hn, hv, hN, hna, ht => rfl
  | p :: ps, i, s, v, kids, h, hm, hn, hv, hN, hna, ht => by
    have hq' : 0 < plus hc (p :: ps) q := Nat.lt_of_lt_of_le hq (le_plus ..)
    have hp' : 0 < plus hc (p :: ps) p := by simp [plus]
    have hle1 : ∀ x, 0 < plus hc ps x → 0 < plus hc (p :: ps) x :=
      fun x hx => Nat.lt_of_lt_of_le hx (le_inc ..)
    have hpq := hna p (by simp)
    have hcyc : ((v.cut p).pos q).1 ≠ p := fun e => hpq ((View.cut_above hN hp' hq').mp e)
    obtain ⟨he, htot⟩ := attachC_eq (i := i) h hq' hp' hm hn hv hcyc ht
    have ha := attach_view (i := i) h hq' hp' hm hn hv
    simp only [spliceInsert, spliceInsertC]
    refine (bind_left (m' := H.onPanic (attach q i p) (dropAll (p :: ps))) (by simp only [H.onPanic, he])).trans
      (H.bind_congr fun _ s1 e1 => ?_)
    have e1' : attach q i p s = .ok () s1 := by
      simp only [H.onPanic] at e1
      split at e1
      · split at e1 <;> cases e1
      · exact e1
    have ht1 := htot s1 e1'
    rw [attachOutcome] at ha
    by_cases hvm : v.mutable p = false
    · rw [if_pos hvm] at ha
      rcases ha with ha | ⟨s1', ha, _⟩ <;> rw [e1'] at ha <;> cases ha
    rw [if_neg hvm, if_neg hcyc] at ha
    by_cases hlen : i ≤ (v.cut p).width q
    case neg =>
      rw [if_neg hlen] at ha
      rcases ha with ha | ⟨s1', _, ha, _⟩ <;> rw [e1'] at ha <;> cases ha
    rw [if_pos hlen] at ha
    rcases ha with ha | ⟨s1', ha, h1, k1, v1⟩
    · rw [e1'] at ha; cases ha
    rw [e1'] at ha; cases ha
    obtain ⟨s2, e2, ⟨kids2, h2⟩, g2, st2⟩ := drop_stable (hc := plus hc ps) (p := p) h1
    rw [H.bind_ok e2, H.bind_ok e2]
    obtain ⟨kids1, h1⟩ := h1
    have k2 : Kept (plus hc ps) s1 s2 := Kept.of_shrinks h1 h2 hle1 g2
    have v2 : s2.Views (plus hc ps) ((v.cut p).join q i p) := (v1.mono hle1).of_stable' h1 st2
    have hq2 : 0 < plus hc ps q := Nat.lt_of_lt_of_le hq (le_plus ..)
    have k12 := (k1.mono hle1).trans k2
    have ht2 := total_shrinks h1 h2 g2
    refine spliceInsertC_eq hq ps (i + 1) s2 _ kids2 h2 (by rw [k12.mutable q hq2]; exact hm)
      (by rw [(k12.same q hq2).1]; exact hn) v2 (v2.named h2) ?_ (by omega)
    intro x hx e
    exact hna x (by simp [hx]) (View.above_of_cut hN hp' hq' hpq (View.above_of_join hcyc e))

theorem _root_.Rowan.Thin.dropIter (it : Children) (s : HSt) : Thin it.drop s := by
  unfold Children.drop
  exact .bind (.drop ..) fun _ _ => .dropOpt ..

theorem bind_both {α : Type} {m : H α} {f g : α → H Unit} (hm : Thin m s)
    (h : ∀ a s1, m s = .ok a s1 → f a s1 = g a s1 ∧ ∀ s', g a s1 = .ok () s' → s'.total ≤ s1.total) :
    (m >>= f) s = (m >>= g) s ∧ ∀ s', (m >>= g) s = .ok () s' → s'.total ≤ s.total := by
  refine ⟨H.bind_congr fun x s1 e1 => (h x s1 e1).1, fun s' e => ?_⟩
  rw [H.bind_def] at e
  cases e1 : m s with
  | ok x s1 =>
    rw [e1] at e
    exact Nat.le_trans ((h x s1 e1).2 s' e) (hm.le _ _ e1)
  | _ => rw [e1] at e; cases e

/-- What the deletion loop may assume of the iterator: it stands below `q`, or on an element that it has detached. -/
structure Fits (s : HSt) (q : Nat) (it : Children) : Prop where
  parent : it.parent = q
  first : it.init = false → it.next = none
  next : ∀ e, it.next = some e → s.mutable e = true ∧ (s.Loc e e [] ∨ ∃ r P Q, s.Loc q r P ∧ s.Loc e r Q)

theorem spliceDeleteC_eq {a b q : Nat} : ∀ (fuel i : Nat) (s : HSt) (kids : Nat → List Nat) (it : Children),
    HInv s (incO (inc hc q) it.next) kids none [] → Fits s q it → s.mutable q = true → (s.tree q).isNode = true →
    s.total < 2 ^ 32 → spliceDeleteC a b fuel i it s = spliceDelete a b fuel i it s ∧
      ∀ s', spliceDelete a b fuel i it s = .ok () s' → s'.total ≤ s.total := by
  intro fuel
  induction fuel with
  | zero => exact fun _ _ _ _ _ _ _ _ _ => ⟨rfl, fun _ e => by cases e⟩
  | succ fuel ih =>
    intro i s kids it h hf hm hn ht
    have hqi : ∀ o, 0 < incO (inc hc q) o q := fun o => Nat.lt_of_lt_of_le (by simp) (le_incO (inc hc q) o q)
    obtain ⟨lq, hchq⟩ := h.chain q (h.hlive q (hqi _))
    obtain ⟨r, P, hlq⟩ := hchq.loc
    obtain ⟨n, hg⟩ := node_green hn
    simp only [spliceDeleteC, spliceDelete]
    refine bind_both (Thin.step it s) ?_
    rintro ⟨o, it'⟩ s1 e1
    have ht1 := (Thin.step it s).le _ _ e1
    -- where the iterator is now
    have hstep : it' = { it with next := o, init := true } ∧
        HOk s1 (incO (incO (inc hc q) o) o) ∧ Stable (inc hc q) s s1 ∧ ∀ e, o = some e → ∃ Q, s1.Loc e r Q := by
      have done : ∀ {r' spec}, Upcoming s it r P r' spec → (r' = r ∨ spec = none) →
          it' = { it with next := o, init := true } ∧
          HOk s1 (incO (incO (inc hc q) o) o) ∧ Stable (inc hc q) s s1 ∧ ∀ e, o = some e → ∃ Q, s1.Loc e r Q := by
        intro r' spec hu hr
        have hw := step_wp h hf.parent hlq hg hu
        rw [H.wp, e1] at hw
        obtain ⟨w1, w2, w3, w4⟩ := hw
        refine ⟨w1, w2, w3, fun e he => ?_⟩
        subst he
        rcases hr with rfl | rfl
        · cases spec with
          | none => exact w4.elim
          | some Q => exact ⟨Q, w4⟩
        · exact w4.elim
      cases hi : it.init with
      | false => exact done (.first hi (hf.first hi)) (.inl rfl)
      | true =>
        cases hnx : it.next with
        | none => exact done (.done hi hnx) (.inl rfl)
        | some e =>
          obtain ⟨m1, m2⟩ := hf.next e hnx
          rcases m2 with m2 | ⟨r', P', Q', m2, m3⟩
          · refine done (.next hi hnx m2 (.inr m1)) (.inr ?_)
            simp [pick]
          · obtain ⟨rfl, rfl⟩ := m2.unique hlq
            exact done (.next hi hnx m3 (.inr m1)) (.inl rfl)
    obtain ⟨hit, ⟨kids1, h1⟩, st1, l1⟩ := hstep
    subst hit
    cases o with
    | none =>
      refine ⟨rfl, fun s' e => ?_⟩
      exact (Thin.dropIter _ _).le () s' e
    | some e =>
      simp only []
      obtain ⟨Q, l1⟩ := l1 e rfl
      have hlq1 : s1.Loc q r P := st1.loc (by simp) hlq hchq
      have hkq : Keeps s s1 q := (st1 q ⟨q, lq, by simp, hchq, hchq.self_mem⟩).2
      have hmq1 : s1.mutable q = true := by rw [hkq.mutable]; exact hm
      have hnq1 : (s1.tree q).isNode = true := by rw [HSt.tree, hkq.green]; exact hn
      have hme : s1.mutable e = true := by
        rw [← h1.mutable_root l1, h1.mutable_root hlq1]; exact hmq1
      have hce : 0 < incO (incO (inc hc q) (some e)) (some e) e := by simp [incO]
      have hcq : 0 < incO (incO (inc hc q) (some e)) (some e) q :=
        Nat.lt_of_lt_of_le (hqi _) (le_incO (incO (inc hc q) (some e)) (some e) q)
      obtain ⟨s2, e2, ⟨kids2, h2⟩, hm2, hn2, ht2, hme2, l2⟩ : ∃ s2,
          detachIf (decide (a ≤ i) && decide (i < b)) e s1 = .ok () s2 ∧
          HOk s2 (incO (incO (inc hc q) (some e)) (some e)) ∧ s2.mutable q = true ∧ (s2.tree q).isNode = true ∧
          s2.total ≤ s1.total ∧ s2.mutable e = true ∧ (s2.Loc e e [] ∨ ∃ r P Q, s2.Loc q r P ∧ s2.Loc e r Q) := by
        cases decide (a ≤ i) && decide (i < b) with
        | false => exact ⟨s1, rfl, ⟨kids1, h1⟩, hmq1, hnq1, Nat.le_refl _, hme, .inr ⟨r, P, Q, hlq1, l1⟩⟩
        | true =>
          obtain ⟨v, hv⟩ := HSt.Views.exists_view h1
          obtain ⟨s2, e2, h2, k2, _, l2, _⟩ := detach_view h1 hce hme hv
          exact ⟨s2, e2, h2, by rw [k2.mutable q hcq]; exact hmq1, by rw [(k2.same q hcq).1]; exact hnq1,
            detach_total h1 e2, by rw [k2.mutable e hce]; exact hme, .inl l2⟩
      have e2C : H.onPanic (detachIfC (decide (a ≤ i) && decide (i < b)) e) (do
          drop e
          Children.drop { it with next := some e, init := true }) s1 = .ok () s2 := by
        have : detachIfC (decide (a ≤ i) && decide (i < b)) e s1 = .ok () s2 := by
          rw [← e2]
          simp only [detachIfC, detachIf]
          split
          · exact detachC_eq h1 (by omega)
          · rfl
        simp only [H.onPanic, this]
      rw [H.bind_ok e2C, H.bind_ok e2]
      obtain ⟨s3, e3, ⟨kids3, h3⟩, g3, st3⟩ := drop_stable (hc := incO (inc hc q) (some e)) ⟨kids2, h2⟩
      rw [H.bind_ok e3, H.bind_ok e3]
      have hce3 : 0 < incO (inc hc q) (some e) e := by simp [incO]
      obtain ⟨lq2, hchq2⟩ := h2.chain q (h2.hlive q hcq)
      obtain ⟨le2, hche2⟩ := h2.chain e (h2.hlive e hce)
      have hkq3 : Keeps s2 s3 q := (st3 q ⟨q, lq2, hqi _, hchq2, hchq2.self_mem⟩).2
      have hke3 : Keeps s2 s3 e := (st3 e ⟨e, le2, hce3, hche2, hche2.self_mem⟩).2
      have ht3 := total_shrinks h2 h3 g3
      have := ih (i + 1) s3 kids3 { it with next := some e, init := true } h3 ⟨hf.parent, by simp, fun e' he' => ?_⟩
        (by rw [hkq3.mutable]; exact hm2) (by rw [HSt.tree, hkq3.green]; exact hn2) (by omega)
      · exact ⟨this.1, fun s' e => Nat.le_trans (this.2 s' e) (by omega)⟩
      have he' : some e = some e' := he'
      cases he'
      refine ⟨by rw [hke3.mutable]; exact hme2, ?_⟩
      rcases l2 with l2 | ⟨r', P', Q', l2, l2'⟩
      · exact .inl (st3.loc hce3 l2 hche2)
      · exact .inr ⟨r', P', Q', st3.loc (hqi _) l2 hchq2, st3.loc hce3 l2' hche2⟩

theorem spliceDeleteAllC_eq {a b q : Nat} (h : HInv s hc kids none []) (hq : 0 < hc q) (hm : s.mutable q = true)
    (hn : (s.tree q).isNode = true) (ht : s.total < 2 ^ 32) : spliceDeleteAllC q a b s = spliceDeleteAll q a b s ∧
      ∀ s', spliceDeleteAll q a b s = .ok () s' → s'.total ≤ s.total := by
  obtain ⟨n, hg⟩ := node_green hn
  simp only [spliceDeleteAll, spliceDeleteAllC]
  have hl := h.hlive q hq
  rw [H.bind_ok (greenRef_ok h hl hg), H.bind_ok (greenRef_ok h hl hg)]
  rcases incRc_ok h hl with e | ⟨e1, e2⟩
  · exact ⟨by simp only [H.bind_def, e], fun s' e' => by simp only [H.bind_def, e] at e'; cases e'⟩
  rw [H.bind_ok e1, H.bind_ok e1]
  exact spliceDeleteC_eq (hc := hc) _ _ _ kids _ e2 ⟨rfl, fun _ => rfl, fun e he => by cases he⟩ hm hn ht

theorem spliceC_eq {q a b : Nat} {ins : List Nat} (h : HInv s (plus hc ins) kids none [])
    (hq : 0 < hc q) (hn : (s.tree q).isNode = true) (hv : s.Views (plus hc ins) v) (hna : ∀ p ∈ ins, ¬ v.Above p q)
    (ht : s.total < 2 ^ 32) : spliceC q a b ins s = splice q a b ins s := by
  have hle : ∀ x, 0 < hc x → 0 < plus hc ins x := fun x hx => Nat.lt_of_lt_of_le hx (le_plus ..)
  have hlq := h.hlive q (hle q hq)
  simp only [splice, spliceC]
  rw [H.bind_ok (H.rd_ok hlq), H.bind_ok (H.rd_ok hlq)]
  refine H.bind_congr fun _ s0 e0 => ?_
  have hvm := (hv q (hle q hq)).2.2
  by_cases hm : s.mutable q = true
  case neg =>
    have hm' : s.mutable q = false := by simpa using hm
    simp only [H.onPanic, H.assert_fail (s := s) hm'] at e0
    split at e0 <;> cases e0
  have e1 : H.onPanic (H.assert (s.mutable q)) (dropAll ins) s = .ok () s := by
    simp [H.onPanic, H.assert_ok hm]
  rw [e1] at e0; cases e0
  obtain ⟨hd1, hd2⟩ := spliceDeleteAllC_eq (a := a) (b := b) h (hle q hq) hm hn ht
  have hw := spliceDeleteAll_view (a := a) (b := b) h (hle q hq) hm hn hv
  refine (bind_left (m' := spliceDeleteAll q a b) ?_).trans (H.bind_congr fun _ s1 e2 => ?_)
  · rw [H.wp] at hw
    simp only [H.onPanic, hd1]
    cases hr : spliceDeleteAll q a b s with
    | panic w s' => rw [hr] at hw; exact hw.elim
    | _ => rfl
  · rw [H.wp, e2] at hw
    obtain ⟨⟨kids1, h1⟩, k1, ⟨e, he, v1⟩, _⟩ := hw
    have := hd2 s1 e2
    exact spliceInsertC_eq hq ins a s1 _ kids1 h1 (by rw [k1.mutable q (hle q hq)]; exact hm)
      (by rw [(k1.same q (hle q hq)).1]; exact hn) v1 (v1.named h1)
      (fun p hp hx => hna p hp (View.above_of_deleted he (by rw [← hvm]; exact hm) hx)) (by omega)

end Cur
end Rowan
