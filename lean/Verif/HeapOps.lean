import Verif.HeapNav3
/-!
# Creating, copying and moving handles on the cursor heap

Unless their comments cite lines of `/repo`, the definitions in this file are vocabulary of the proofs and model no code.
-/
namespace Rowan
set_option linter.unusedSectionVars false
variable [Greens]

/-- `x` is an object with a handle, or an ancestor of one. -/
def HSt.Held (s : HSt) (hc : Nat → Nat) (x : Nat) : Prop :=
  ∃ y l, 0 < hc y ∧ Chain s y l ∧ x ∈ l

/-- Everything the handles in `hc` can see of their trees is unchanged. -/
def Stable (hc : Nat → Nat) (s s' : HSt) : Prop :=
  ∀ x, s.Held hc x → s'.live x = true ∧ Keeps s s' x

namespace Stable
variable {hc : Nat → Nat} {s s1 s2 s' : HSt}

theorem refl (hok : ∀ x, s.Held hc x → s.live x = true) : Stable hc s s :=
  fun x hx => ⟨hok x hx, Keeps.refl s x⟩

theorem held (h : Stable hc s s') {x : Nat} (hx : s.Held hc x) : s'.Held hc x := by
  obtain ⟨y, l, h1, h2, h3⟩ := hx
  exact ⟨y, l, h1, h2.congr fun w hw => by
    obtain ⟨a, b⟩ := h w ⟨y, l, h1, h2, hw⟩
    exact ⟨a, b.parent⟩, h3⟩

theorem trans (h : Stable hc s s1) (h' : Stable hc s1 s2) : Stable hc s s2 := fun x hx => by
  obtain ⟨_, b⟩ := h x hx
  obtain ⟨c, d⟩ := h' x (h.held hx)
  exact ⟨c, b.trans d⟩

theorem of_grows (h : Grows s s') : Stable hc s s' := fun x hx => by
  obtain ⟨y, l, _, h2, h3⟩ := hx
  exact h.keeps x (h2.live_of_mem h3)

theorem of_shrinks {kids : Nat → List Nat} {z : Option Nat} {bad : List Nat} (h : Shrinks s s')
    (hinv : HInv s' hc kids z bad) : Stable hc s s' := by
  rintro x ⟨y, l, h1, h2, h3⟩
  have key : ∀ w l, Chain s w l → s'.live w = true → ∀ x ∈ l, s'.live x = true := by
    intro w l hch
    induction hch with
    | root hl hp => intro hw x hx; simp at hx; rw [hx]; exact hw
    | step hl hp hc ih =>
      intro hw x hx
      rcases List.mem_cons.mp hx with rfl | hx
      · exact hw
      · refine ih (hinv.parentOk _ _ hw ?_).1 x hx
        rw [(h.keeps _ hw).2.parent]; exact hp
  have hx := key y l h2 (hinv.hlive y h1) x h3
  exact ⟨hx, (h.keeps x hx).2⟩

theorem mono {hc' : Nat → Nat} (h : Stable hc s s') (hle : ∀ x, 0 < hc' x → 0 < hc x) :
    Stable hc' s s' := by
  rintro x ⟨y, l, h1, h2, h3⟩
  exact h x ⟨y, l, hle y h1, h2, h3⟩

theorem loc (h : Stable hc s s') {y r : Nat} {P : List Nat} {l : List Nat} (hy : 0 < hc y)
    (hl : s.Loc y r P) (hc' : Chain s y l) : s'.Loc y r P :=
  hl.congr hc' fun x hx => by
    obtain ⟨a, b⟩ := h x ⟨y, l, hy, hc', hx⟩
    exact ⟨a, b.parent, b.index⟩

end Stable

theorem incO_comm (hc : Nat → Nat) (o : Option Nat) (p : Nat) :
    incO (inc hc p) o = inc (incO hc o) p := by
  cases o with
  | none => rfl
  | some x => exact inc_comm hc p x

theorem HOk.stable_loc {hc : Nat → Nat} {s s' : HSt} (hok : HOk s hc) (h : Stable hc s s')
    {y r : Nat} {P : List Nat} (hy : 0 < hc y) (hl : s.Loc y r P) : s'.Loc y r P := by
  obtain ⟨kids, hi⟩ := hok
  obtain ⟨l, hch⟩ := hi.chain y hl.live
  exact h.loc hy hl hch

namespace Cur
variable {s : HSt} {hc : Nat → Nat} {kids : Nat → List Nat}

theorem drop_stable {p : Nat} (h : HOk s (inc hc p)) :
    ∃ s', drop p s = .ok () s' ∧ HOk s' hc ∧ Shrinks s s' ∧ Stable hc s s' := by
  obtain ⟨kids, h⟩ := h
  obtain ⟨s', kids', h1, h2, h3, _⟩ := drop_ok h
  exact ⟨s', h1, ⟨kids', h2⟩, h3, .of_shrinks h3 h2⟩

theorem dropAll_stable : ∀ (ps : List Nat) (s : HSt), HOk s (ps.foldr (fun p hc => inc hc p) hc) →
    ∃ s', dropAll ps s = .ok () s' ∧ HOk s' hc ∧ Shrinks s s' ∧ Stable hc s s'
  | [], s, h => ⟨s, rfl, h, .refl s, by
      obtain ⟨kids, h⟩ := h
      exact .of_shrinks (.refl s) h⟩
  | p :: ps, s, h => by
    obtain ⟨s1, h1, h2, h3, h4⟩ := drop_stable (p := p) h
    obtain ⟨s2, g1, g2, g3, g4⟩ := dropAll_stable ps s1 h2
    refine ⟨s2, ?_, g2, h3.trans g3, ?_⟩
    · simp only [dropAll]; rw [H.bind_ok h1]; exact g1
    · refine Stable.trans (h4.mono fun x hx => ?_) g4
      clear h h1 h2 h3 h4 g1 g2 g3 g4
      induction ps with
      | nil => exact hx
      | cons a l ih => exact Nat.lt_of_lt_of_le ih (le_inc _ a x)

theorem alive_uni (h : HInv s hc kids none []) {g : GElem} (hg : s.Alive g) :
    Uni (fun x => s.Known x ∨ x ∈ g.subs) s.gtop := by
  refine h.uni.mono (Nat.le_refl _) ?_ ?_
  · rintro x (hx | hx)
    · exact hx
    · exact .inl (HInv.alive_subs hg hx)
  · rintro x (hx | hx) y hy
    · exact .inl (hx.subs hy)
    · exact .inr (GElem.subs_trans hx hy)

theorem held_uni (h : HInv s hc kids none []) {g : GElem} (hg : g ∈ Greens.held) :
    Uni (fun x => s.Known x ∨ x ∈ g.subs) s.gtop := by
  refine h.uni.mono (Nat.le_refl _) ?_ ?_
  · rintro x (hx | hx)
    · exact hx
    · exact .inr ⟨g, hg, hx⟩
  · rintro x (hx | hx) y hy
    · exact .inl (hx.subs hy)
    · exact .inr (GElem.subs_trans hx hy)

/-- What `new_root` and `new_root_mut` leave behind. -/
structure NewRoot (s : HSt) (g : GElem) (m : Bool) (x : Nat) (s' : HSt) : Prop where
  grows : Grows s s'
  fresh : s.live x = false
  loc : s'.Loc x x []
  green : s'.green x = g
  mutable : s'.mutable x = m
  owned : s'.owned = g :: s.owned
  gtop : s'.gtop = s.gtop
  index : s'.index x = 0

theorem newRoot_ok {g : GNode} (h : HInv s hc kids none [])
    (hU : Uni (fun x => s.Known x ∨ x ∈ GElem.subs (.node g)) s.gtop) :
    ∃ x s', newRoot g s = .ok x s' ∧ HOk s' (inc hc x) ∧ NewRoot s (.node g) false x s' := by
  have htd := top_dead h
  have := inv_root (N := upd s.next s.top none) (P := upd s.prev s.top none)
    (F := upd s.first s.top none) (m := false) h hU
    (fun x hx => by simp [upd_other _ _ hx]) (by simp) (fun x hx => by simp [upd_other _ _ hx])
    (by simp)
  refine ⟨s.top, _, rfl, ⟨kids, this⟩, ⟨fun x hx => ?_, Nat.le_succ _⟩, htd, ?_, ?_, ?_, rfl, rfl, ?_⟩
  · have hxt : x ≠ s.top := by rintro rfl; rw [htd] at hx; cases hx
    simp only [upd_other _ _ hxt]
    exact ⟨hx, by simp only [upd_other _ _ hxt], by simp only [upd_other _ _ hxt],
      by simp only [upd_other _ _ hxt], by simp only [upd_other _ _ hxt],
      by simp only [upd_other _ _ hxt]⟩
  · exact .root (by simp) (by simp)
  · simp
  · simp
  · simp

theorem newRootMut_ok {g : GNode} (h : HInv s hc kids none [])
    (hU : Uni (fun x => s.Known x ∨ x ∈ GElem.subs (.node g)) s.gtop) :
    ∃ x s', newRootMut g s = .ok x s' ∧ HOk s' (inc hc x) ∧ NewRoot s (.node g) true x s' := by
  have htd := top_dead h
  have := inv_root (N := upd s.next s.top (some s.top)) (P := upd s.prev s.top (some s.top))
    (F := upd s.first s.top none) (m := true) h hU
    (fun x hx => by simp [upd_other _ _ hx]) (by simp) (fun x hx => by simp [upd_other _ _ hx])
    (by simp)
  refine ⟨s.top, _, ?_, ⟨kids, this⟩, ⟨fun x hx => ?_, Nat.le_succ _⟩, htd, ?_, ?_, ?_, rfl, rfl, ?_⟩
  · have e1 : ∀ (f : Nat → Option Nat) (a b : Option Nat),
        upd (upd f s.top a) s.top b = upd f s.top b := by
      intro f a b; funext x; simp only [upd]; split <;> rfl
    simp [newRootMut, H.own, H.modify, newData, H.bind_def, Sll.init, alloc, Sll.AddRes.addToSll, H.wr,
      HSt.setPrev, HSt.setNext, HSt.allocd, e1]
  · have hxt : x ≠ s.top := by rintro rfl; rw [htd] at hx; cases hx
    simp only [HSt.allocd, upd_other _ _ hxt]
    exact ⟨hx, by simp only [upd_other _ _ hxt], by simp only [upd_other _ _ hxt],
      by simp only [upd_other _ _ hxt], by simp only [upd_other _ _ hxt],
      by simp only [upd_other _ _ hxt]⟩
  · exact .root (by simp [HSt.allocd]) (by simp [HSt.allocd])
  · simp [HSt.allocd]
  · simp [HSt.allocd]
  · simp [HSt.allocd]

theorem cloneSubtree_ok {p : Nat} {g : GNode} (h : HInv s hc kids none []) (hl : s.live p = true)
    (hg : s.green p = .node g) :
    ∃ x s', cloneSubtree p s = .ok x s' ∧ HOk s' (inc hc x) ∧ NewRoot s (.node g) false x s' := by
  simp only [cloneSubtree]
  rw [H.bind_ok (greenRef_ok h hl hg)]
  exact newRoot_ok h (alive_uni h (by rw [← hg]; exact h.alive hl))

/-- What `clone_for_update` leaves behind. -/
structure CloneForUpdate (s : HSt) (p r : Nat) (P : List Nat) (x : Nat) (s' : HSt) : Prop where
  grows : Grows s s'
  loc : ∃ r', s'.Loc x r' P ∧ s.live r' = false ∧ s'.green r' = s.green r
  green : s'.green x = s.green p
  mutable : s'.mutable x = true
  owned : s'.owned = s.green r :: s.owned
  gtop : s'.gtop = s.gtop

theorem cloneForUpdateLoop_wp : ∀ (fuel : Nat) (s : HSt) (hc : Nat → Nat) (kids : Nat → List Nat)
    (p r : Nat) (P l : List Nat) (g : GNode), HInv s hc kids none [] → Chain s p l → l.length ≤ fuel →
    s.Loc p r P → s.mutable p = false → s.green p = .node g →
    H.wp (cloneForUpdateLoop fuel p) s
      (fun x s' => HOk s' (inc hc x) ∧ CloneForUpdate s p r P x s') (fun _ _ => False) := by
  intro fuel
  induction fuel with
  | zero =>
    intro s hc kids p r P l g h hch hlen
    exact absurd (List.eq_nil_of_length_eq_zero (by omega)) hch.ne_nil
  | succ fuel ih =>
    intro s hc kids p r P l g h hch hlen hloc hm hg
    simp only [cloneForUpdateLoop]
    refine H.wp_step (H.rd_ok hloc.live) (H.wp_step (H.assert_ok (by simp [hm])) ?_)
    cases hloc with
    | root hl hp =>
      refine H.wp_step (parentNode_none hl hp) ?_
      simp only []
      refine H.wp_step (greenRef_ok h hl hg) ?_
      obtain ⟨x, s', h1, h2, h3⟩ := newRootMut_ok (g := g) h
        (alive_uni h (by rw [← hg]; exact h.alive hl))
      refine H.wp_ok h1 ⟨h2, h3.grows, ⟨x, h3.loc, h3.fresh, ?_⟩, ?_, h3.mutable, ?_, h3.gtop⟩
      · rw [h3.green, hg]
      · rw [h3.green, hg]
      · rw [h3.owned, hg]
    | @child _ q _ path hl hp hq =>
      rcases parentNode_ok h hl hp with e | ⟨e1, e2⟩
      · simp [H.wp, H.bind_def, e]
      · refine H.wp_step e1 ?_
        simp only []
        obtain ⟨hlq, hmq⟩ := h.parentOk p q hl hp
        obtain ⟨n, c, g1, g2, g3, g4⟩ := h.greenOk p q hl hp (by simp)
        generalize hs1 : s.setRc q (s.rc q + 1) = s1 at e2
        have gr1 : Grows s s1 := by
          rw [← hs1]; exact ⟨fun _ hx => ⟨hx, rfl, rfl, rfl, rfl, rfl⟩, Nat.le_refl _⟩
        cases hch with
        | root _ hp' => rw [hp] at hp'; cases hp'
        | @step _ _ lq _ hp' hcq =>
          rw [hp] at hp'; cases hp'
          have hcq1 : Chain s1 q lq := hcq.congr fun x hx => by
            obtain ⟨a, b⟩ := gr1.keeps x (hcq.live_of_mem hx); exact ⟨a, b.parent⟩
          have kq := (gr1.keeps q hlq).2
          refine H.wp_seq (ih s1 (inc hc q) kids q r path lq n e2 hcq1 (by simpa using hlen)
            (gr1.loc hq hcq) (by rw [kq.mutable, hmq, hm]) (by rw [kq.green, g1])) ?_
          rintro x' s2 ⟨⟨kids2, h2⟩, c2⟩
          have gr2 := gr1.trans c2.grows
          obtain ⟨hl2, kp⟩ := gr2.keeps p hl
          obtain ⟨hlq2, kq2⟩ := gr2.keeps q hlq
          obtain ⟨r', hr1, hr2, hr3⟩ := c2.loc
          have hloc2 : s2.Loc p r (path ++ [s.index p]) :=
            gr2.loc (.child hl hp hq) (.step hl hp hcq)
          refine H.wp_step (greenRef_ok h2 hl2 (by rw [kp.green, hg]))
            (H.wp_step (H.rd_ok hl2) (H.wp_step (offset_ok h2 hloc2) ?_))
          have hcg : (NodeOrToken.node g : GElem) = c.asRef := by rw [g3, hg]
          rw [hcg, kp.index]
          refine H.wp_seq (newChild_ok h2 (n := n) (c := c) (by rw [c2.green, kq.green, g1]) g2 ?_) ?_
          · intro e; rw [c2.mutable] at e; cases e
          · rintro x s3 ⟨n1, n2, n3, n4, n5, n6, _⟩
            obtain ⟨kids3, h3⟩ := n1.ok
            have gr3 := gr2.trans n1.grows
            obtain ⟨hl3, kp3⟩ := gr3.keeps p hl
            obtain ⟨hlq3, kq3⟩ := gr3.keeps q hlq
            rw [inc_comm] at h3
            have hrc : 1 < s3.rc q := by
              rw [h3.rc q hlq3, inc_same]
              have : p ∈ kids3 q := (h3.kidsMem q p).mpr ⟨hl3, by rw [kp3.parent, hp]⟩
              have := List.length_pos_of_mem this; omega
            obtain ⟨d1, d2⟩ := drop_shared h3 hrc
            refine H.wp_step d1 (H.wp_pure ⟨⟨_, d2⟩, ?_, ⟨r', ?_, ?_, ?_⟩, ?_, ?_, ?_, ?_⟩)
            · exact gr3.trans ⟨fun _ hx => ⟨hx, rfl, rfl, rfl, rfl, rfl⟩, Nat.le_refl _⟩
            · obtain ⟨l', hch'⟩ := h2.chain x' hr1.live
              have hx' := n1.grows.loc hr1 hch'
              have := HSt.Loc.child n2 n3 hx'
              rw [n4] at this
              obtain ⟨l3, hch3⟩ := h3.chain x n2
              exact this.congr hch3 fun y hy => ⟨hch3.live_of_mem hy, rfl, rfl⟩
            · rw [← hs1] at hr2; exact hr2
            · show s3.green r' = _
              rw [(n1.grows.keeps r' hr1.root_live.1).2.green, hr3]
              rw [← hs1]; rfl
            · show s3.green x = _
              rw [n5, ← hcg, hg]
            · show s3.mutable x = _
              rw [n6, c2.mutable]
            · show s3.owned = _
              rw [n1.owned, c2.owned, ← hs1]; rfl
            · show s3.gtop = _
              rw [n1.gtop, c2.gtop, ← hs1]; rfl

theorem cloneForUpdate_wp {p r : Nat} {P : List Nat} {g : GNode} (h : HInv s hc kids none [])
    (hloc : s.Loc p r P) (hm : s.mutable p = false) (hg : s.green p = .node g) :
    H.wp (cloneForUpdate p) s
      (fun x s' => HOk s' (inc hc x) ∧ CloneForUpdate s p r P x s') (fun _ _ => False) := by
  obtain ⟨l, hch⟩ := h.chain p hloc.live
  have := hch.length_le h.top
  exact cloneForUpdateLoop_wp _ s hc kids p r P l g h hch (by omega) hloc hm hg

theorem cloneForUpdate_panic {p : Nat} (hl : s.live p = true) (hm : s.mutable p = true) :
    cloneForUpdate p s = .panic .assert s := by
  simp only [cloneForUpdate, H.loop_apply, cloneForUpdateLoop]
  rw [H.bind_ok (H.rd_ok hl), H.bind_def, H.assert_fail (by simp [hm])]

/-! ### Moving a handle in place -/

theorem inv_advance {p q i : Nat} {n : GNode} {c : GChild} (h : HInv s hc kids none [])
    (hl : s.live p = true) (hm : s.mutable p = false) (hk : kids p = []) (hp : s.parent p = some q)
    (hg : s.green q = .node n) (hi : n.slice[i]? = some c) :
    HInv (((s.setIndex p i).setOffset p (s.offset q + c.relOffset)).setGreen p c.asRef) hc kids
      none [] := by
  have hpk : p ∈ kids q := (h.kidsMem q p).mpr ⟨hl, hp⟩
  have hqp : q ≠ p := by rintro rfl; exact h.par_not_kid hpk
  have hnopar : ∀ x, s.live x = true → s.parent x ≠ some p := by
    intro x hx hxp
    have : x ∈ kids p := (h.kidsMem p x).mpr ⟨hx, hxp⟩
    rw [hk] at this; cases this
  generalize hs' : ((s.setIndex p i).setOffset p (s.offset q + c.relOffset)).setGreen p c.asRef = s'
  have e1 : ∀ x, x ≠ p → s'.index x = s.index x := by
    intro x hx; simp only [← hs', HSt.setIndex, HSt.setOffset, HSt.setGreen, upd_other _ _ hx]
  have e2 : ∀ x, x ≠ p → s'.offset x = s.offset x := by
    intro x hx; simp only [← hs', HSt.setIndex, HSt.setOffset, HSt.setGreen, upd_other _ _ hx]
  have e3 : ∀ x, x ≠ p → s'.green x = s.green x := by
    intro x hx; simp only [← hs', HSt.setIndex, HSt.setOffset, HSt.setGreen, upd_other _ _ hx]
  have t1 : s'.index p = i := by simp [← hs', HSt.setIndex, HSt.setOffset, HSt.setGreen]
  have t2 : s'.offset p = s.offset q + c.relOffset := by
    simp [← hs', HSt.setIndex, HSt.setOffset, HSt.setGreen]
  have t3 : s'.green p = c.asRef := by simp [← hs', HSt.setIndex, HSt.setOffset, HSt.setGreen]
  have f1 : s'.live = s.live := by rw [← hs']; rfl
  have f2 : s'.rc = s.rc := by rw [← hs']; rfl
  have f3 : s'.parent = s.parent := by rw [← hs']; rfl
  have f4 : s'.mutable = s.mutable := by rw [← hs']; rfl
  have f5 : s'.first = s.first := by rw [← hs']; rfl
  have f6 : s'.next = s.next := by rw [← hs']; rfl
  have f7 : s'.prev = s.prev := by rw [← hs']; rfl
  have f8 : s'.top = s.top := by rw [← hs']; rfl
  have f9 : s'.gtop = s.gtop := by rw [← hs']; rfl
  have f10 : s'.owned = s.owned := by rw [← hs']; rfl
  have hA : s'.Alive = s.Alive := by funext x; simp only [HSt.Alive, f10]
  constructor
  case top => rw [f1, f8]; exact h.top
  case hlive => rw [f1]; exact h.hlive
  case rc => rw [f1, f2]; exact h.rc
  case pos => rw [f1, f2]; exact h.pos
  case rcLe => rw [f1, f2]; exact h.rcLe
  case kidsMem => rw [f1, f3]; exact h.kidsMem
  case kidsNodup => exact h.kidsNodup
  case parentOk => rw [f1, f3, f4]; exact h.parentOk
  case parNode =>
    intro x y hx hy
    rw [f1] at hx; rw [f3] at hy
    have hyp : y ≠ p := fun e => hnopar x hx (e ▸ hy)
    rw [e3 y hyp]; exact h.parNode x y hx hy
  case greenOk =>
    intro x y hx hy hb
    rw [f1] at hx; rw [f3] at hy
    have hyp : y ≠ p := fun e => hnopar x hx (e ▸ hy)
    rw [f4, e3 y hyp, e2 y hyp]
    by_cases e : x = p
    · subst e
      rw [hp] at hy; cases hy
      exact ⟨n, c, hg, by rw [t1]; exact hi, t3.symm, fun _ => t2⟩
    · rw [e1 x e, e2 x e, e3 x e]; exact h.greenOk x y hx hy hb
  case rootOff =>
    intro x hx hy
    rw [f1] at hx; rw [f3] at hy; rw [f4]
    have e : x ≠ p := by rintro rfl; rw [hp] at hy; cases hy
    rw [e2 x e]; exact h.rootOff x hx hy
  case chain =>
    intro x hx
    rw [f1] at hx
    obtain ⟨l, hl'⟩ := h.chain x hx
    exact ⟨l, hl'.congr fun y hy => ⟨by rw [f1]; exact hl'.live_of_mem hy, by rw [f3]⟩⟩
  case ringM =>
    intro x hx hm'
    rw [f1] at hx; rw [f4] at hm'
    have hlist := h.ringM x hx hm'
    refine ⟨by rw [f5]; exact hlist.head, by rw [f6, f7]; exact hlist.ring, ?_⟩
    have hne : ∀ y ∈ kids x, y ≠ p := by
      rintro y hy rfl
      obtain ⟨a, b⟩ := (h.kidsMem x y).mp hy
      have := (h.parentOk y x a b).2
      rw [hm, hm'] at this; cases this
    refine hlist.sorted.imp_of_mem fun {a b} ha hb hab => ?_
    rw [e1 a (hne a ha), e1 b (hne b hb)]; exact hab
  case selfM => rw [f1, f3, f4, f6, f7]; exact h.selfM
  case firstI => rw [f1, f4, f5]; exact h.firstI
  case roots =>
    obtain ⟨rs, h1, h2, h3⟩ := h.roots
    refine ⟨rs, h1, by rw [f1, f3]; exact h2, ?_⟩
    have : rs.map s'.green = rs.map s.green := by
      refine List.map_congr_left fun x hx => e3 x ?_
      rintro rfl
      rw [((h2 x).mp hx).2] at hp; cases hp
    rw [f10, this]; exact h3
  case uni =>
    have hK : s'.Known = s.Known := by funext x; simp only [HSt.Known, hA]
    rw [hK, f9]; exact h.uni

/-- What the caller of `to_next_sibling[_or_token]` gets. -/
def MovePost (hc : Nat → Nat) (s : HSt) (p r : Nat) (spec : Option (List Nat)) (o : Option Nat)
    (s' : HSt) : Prop :=
  (HOk s' (incO hc o) ∨
    (o = none ∧ s' = s ∧ s.parent p = none ∧ s.rc p = 1 ∧ s.mutable p = false)) ∧
  Stable hc s s' ∧ s'.LocO o r spec ∧ (∀ x, o = some x → Keeps s s' r)

theorem move_shared {p r : Nat} {path : List Nat} {spec : Option (List Nat)} {m : Nat → H (Option Nat)}
    (hloc : s.Loc p r path)
    (hm : H.wp (m p) s (fun o s' => NavStep s s' (incO (inc hc p) o) ∧ s'.LocO o r spec)
      (fun _ _ => False)) :
    H.wp (do let r ← m p
             drop p
             pure r) s (MovePost hc s p r spec) (fun _ _ => False) := by
  refine H.wp_seq hm ?_
  rintro o s1 ⟨n1, n2⟩
  have hok := n1.ok
  rw [incO_comm] at hok
  obtain ⟨s2, d1, d2, d3, d4⟩ := drop_stable hok
  have hlo : s2.LocO o r spec := by
    cases o with
    | none => cases spec <;> exact n2
    | some y =>
      cases spec with
      | none => exact n2
      | some Q =>
        obtain ⟨kids1, h1⟩ := hok
        obtain ⟨l, hch⟩ := h1.chain y (HSt.Loc.live n2)
        exact d4.loc (by simp [incO]) n2 hch
  refine H.wp_step d1 (H.wp_pure ⟨.inl d2, ?_, hlo, ?_⟩)
  · refine (Stable.of_grows n1.grows).trans (d4.mono fun x hx => ?_)
    cases o with
    | none => exact hx
    | some y => exact Nat.lt_of_lt_of_le hx (le_inc hc y x)
  · rintro x rfl
    cases spec with
    | none => exact hlo.elim
    | some Q =>
      have hr2 := (HSt.Loc.root_live hlo).1
      exact (n1.grows.keeps r hloc.root_live.1).2.trans (d3.keeps r hr2).2

theorem takeNext_wp {p r : Nat} {path : List Nat} (h : HInv s (inc hc p) kids none [])
    (hloc : s.Loc p r path) (hrc : s.rc p = 1) (hm : s.mutable p = false)
    {sel : List (GChild × Nat) → Option (GChild × Nat)} (hsel : ∀ L x, sel L = some x → x ∈ L)
    {spec : Option (List Nat)} (hroot : path = [] → spec = none)
    (hspec : ∀ P n q, path = P ++ [s.index p] → s.Loc q r P → s.green q = .node n →
      (sel (n.slice.zipIdx.drop (s.index p + 1))).map (fun x => P ++ [x.2]) = spec) :
    H.wp (takeNext sel p) s (MovePost hc s p r spec) (fun _ _ => False) := by
  have hl := hloc.live
  have hk : kids p = [] := by
    have := h.rc p hl; rw [hrc, inc_same] at this
    exact List.eq_nil_of_length_eq_zero (by omega)
  have hcp : hc p = 0 := by
    have := h.rc p hl; rw [hrc, inc_same] at this; omega
  simp only [takeNext]
  cases hloc with
  | root hl hp =>
    refine H.wp_step (parentNode_none hl hp) (H.wp_pure ⟨.inr ⟨rfl, rfl, hp, hrc, hm⟩, ?_, ?_, ?_⟩)
    · exact .of_grows (.refl s)
    · rw [hroot rfl]; trivial
    · intro x hx; cases hx
  | @child _ q _ P hl hp hq =>
    obtain ⟨hlq, hmq⟩ := h.parentOk p q hl hp
    obtain ⟨n, _, hg, _⟩ := h.greenOk p q hl hp (by simp)
    have hpk : p ∈ kids q := (h.kidsMem q p).mpr ⟨hl, hp⟩
    have hqp : q ≠ p := by rintro rfl; exact h.par_not_kid hpk
    rcases parentNode_ok h hl hp with e | ⟨e1, e2⟩
    · simp [H.wp, H.bind_def, e]
    · refine H.wp_step e1 ?_
      simp only []
      generalize hs1 : s.setRc q (s.rc q + 1) = s1 at e2
      have gr1 : Grows s s1 := by
        rw [← hs1]; exact ⟨fun _ hx => ⟨hx, rfl, rfl, rfl, rfl, rfl⟩, Nat.le_refl _⟩
      obtain ⟨hl1, kp⟩ := gr1.keeps p hl
      obtain ⟨hlq1, kq⟩ := gr1.keeps q hlq
      obtain ⟨lq, hchq⟩ := h.chain q hlq
      have hq1 : s1.Loc q r P := gr1.loc hq hchq
      refine H.wp_step (offset_ok e2 hq1) (H.wp_step (greenRef_ok e2 hlq1 (by rw [kq.green, hg]))
        (H.wp_step (H.rd_ok hl1) ?_))
      rw [kp.index]
      have hsp := hspec P n q rfl hq hg
      have heff : blen ((s1.tree r).before P) = s1.offset q :=
        (e2.offset_imm hq1 (by rw [kq.mutable, hmq, hm])).symm
      have hrc1 : s1.rc p = 1 := by rw [← hs1]; simp [HSt.setRc, upd_other _ _ (Ne.symm hqp), hrc]
      cases hsl : sel (n.slice.zipIdx.drop (s.index p + 1)) with
      | some x =>
        obtain ⟨c, i⟩ := x
        rw [hsl] at hsp
        have hi := mem_zipIdx_getElem? (List.mem_of_mem_drop (hsel _ _ hsl))
        simp only [advance]
        have h3 := inv_advance e2 hl1 (by rw [kp.mutable, hm]) hk (by rw [kp.parent, hp])
          (by rw [kq.green, hg]) hi
        rw [← heff] at h3
        refine H.wp_step (H.wr_ok hl1) (H.wp_step (H.wr_ok hl1) (H.wp_step (H.wr_ok hl1) ?_))
        generalize hs3 : ((s1.setIndex p i).setOffset p
          (blen ((s1.tree r).before P) + c.relOffset)).setGreen p c.asRef = s3 at h3
        have hlq3 : s3.live q = true := by rw [← hs3]; exact hlq1
        have hrq : 1 < s3.rc q := by
          rw [h3.rc q hlq3, inc_same]
          have := List.length_pos_of_mem hpk; omega
        obtain ⟨d1, d2⟩ := drop_shared h3 hrq
        refine H.wp_step d1 (H.wp_pure ⟨.inl ⟨_, d2⟩, ?_, ?_, ?_⟩)
        rotate_right
        · intro x _
          have hrp : r ≠ p := by
            rintro rfl
            rw [hq.root_live.2] at hp; cases hp
          rw [← hs3, ← hs1]
          refine ⟨rfl, ?_, ?_, rfl, ?_⟩ <;>
            simp only [HSt.setIndex, HSt.setOffset, HSt.setGreen, HSt.setRc, upd_other _ _ hrp]
        · rintro y ⟨w, l, w1, w2, w3⟩
          have hyp : y ≠ p := by
            rintro rfl
            by_cases hwy : y = w
            · subst hwy; omega
            · obtain ⟨v, _, hv1, hv2⟩ := w2.child_mem w3 hwy
              have : v ∈ kids y := (h.kidsMem y v).mpr ⟨hv1, hv2⟩
              rw [hk] at this; cases this
          rw [← hs3, ← hs1]
          refine ⟨w2.live_of_mem w3, rfl, ?_, ?_, rfl, ?_⟩ <;>
            simp only [HSt.setIndex, HSt.setOffset, HSt.setGreen, HSt.setRc, upd_other _ _ hyp]
        · rw [← hsp]
          show HSt.Loc _ p r (P ++ [i])
          have hi3 : (s3.setRc q (s3.rc q - 1)).index p = i := by
            rw [← hs3]; simp [HSt.setIndex, HSt.setOffset, HSt.setGreen, HSt.setRc]
          have hp3 : (s3.setRc q (s3.rc q - 1)).parent p = some q := by
            rw [← hs3, ← hs1]; exact hp
          have hl3 : (s3.setRc q (s3.rc q - 1)).live p = true := by
            rw [← hs3, ← hs1]; exact hl
          have hq3 : (s3.setRc q (s3.rc q - 1)).Loc q r P := by
            refine hq.congr hchq fun y hy => ?_
            have hyp : y ≠ p := by
              rintro rfl
              by_cases hwy : y = q
              · exact hqp hwy.symm
              · obtain ⟨v, _, hv1, hv2⟩ := hchq.child_mem hy hwy
                have : v ∈ kids y := (h.kidsMem y v).mpr ⟨hv1, hv2⟩
                rw [hk] at this; cases this
            rw [← hs3, ← hs1]
            refine ⟨hchq.live_of_mem hy, rfl, ?_⟩
            simp only [HSt.setIndex, HSt.setOffset, HSt.setGreen, HSt.setRc, upd_other _ _ hyp]
          have := HSt.Loc.child hl3 hp3 hq3
          rwa [hi3] at this
      | none =>
        rw [hsl] at hsp
        simp only [advance]
        refine H.wp_step (decRc_ok hl1 (by omega)) ?_
        rw [inc_comm] at e2
        have h4 := inv_decRc e2
        have hl4 : (s1.setRc p (s1.rc p - 1)).live p = true := hl1
        obtain ⟨s5, kids5, f1, f2, f3, _⟩ := free_ok h4 hl4 (by simp [HSt.setRc, hrc1])
        refine H.wp_step f1 ?_
        obtain ⟨s6, d1, d2, d3, d4⟩ := drop_stable ⟨_, f2⟩
        refine H.wp_step d1 (H.wp_pure ⟨.inl d2, ?_, ?_, fun x hx => by cases hx⟩)
        · refine Stable.trans ?_ d4
          refine (Stable.of_grows (gr1.trans (s2 := s1.setRc p (s1.rc p - 1))
            ⟨fun _ hx => ⟨hx, rfl, rfl, rfl, rfl, rfl⟩, Nat.le_refl _⟩)).trans ?_
          exact (Stable.of_shrinks f3 f2).mono fun x hx => Nat.lt_of_lt_of_le hx (le_inc hc q x)
        · rw [← hsp]; trivial

theorem toNextSibling_wp {p r : Nat} {path : List Nat} (h : HInv s (inc hc p) kids none [])
    (hloc : s.Loc p r path) :
    H.wp (toNextSibling p) s
      (MovePost hc s p r (((s.tree r).later path).find? ((s.tree r).sat Tree.isNode)))
      (fun _ _ => False) := by
  simp only [toNextSibling]
  have hct : canTakePtr p s = .ok (s.rc p == 1 && !s.mutable p) s := by
    simp only [canTakePtr]
    rw [H.bind_ok (H.rd_ok hloc.live), H.bind_ok (H.rd_ok hloc.live)]; rfl
  refine H.wp_step hct ?_
  by_cases ht : (s.rc p == 1 && !s.mutable p) = true
  · rw [if_pos ht]
    simp only [Bool.and_eq_true, beq_iff_eq, Bool.not_eq_true'] at ht
    refine takeNext_wp h hloc ht.1 ht.2 (fun L x hx => List.mem_of_find?_eq_some hx)
      (by rintro rfl; rfl) ?_
    rintro P n q rfl hq hg
    rw [find_pos h hq hg (fun x hx => List.mem_of_mem_drop hx) isNode_tree, List.map_drop,
      kids_map h hq hg, Tree.later_snoc]
  · rw [if_neg ht]
    exact move_shared hloc (nextSibling_wp h hloc)

theorem toNextSiblingOrToken_wp {p r : Nat} {path : List Nat} (h : HInv s (inc hc p) kids none [])
    (hloc : s.Loc p r path) :
    H.wp (toNextSiblingOrToken p) s (MovePost hc s p r ((s.tree r).later path).head?)
      (fun _ _ => False) := by
  simp only [toNextSiblingOrToken]
  have hct : canTakePtr p s = .ok (s.rc p == 1 && !s.mutable p) s := by
    simp only [canTakePtr]
    rw [H.bind_ok (H.rd_ok hloc.live), H.bind_ok (H.rd_ok hloc.live)]; rfl
  refine H.wp_step hct ?_
  by_cases ht : (s.rc p == 1 && !s.mutable p) = true
  · rw [if_pos ht]
    simp only [Bool.and_eq_true, beq_iff_eq, Bool.not_eq_true'] at ht
    refine takeNext_wp h hloc ht.1 ht.2 (fun L x hx => List.mem_of_head? hx)
      (by rintro rfl; rfl) ?_
    rintro P n q rfl hq hg
    rw [Tree.later_snoc, ← kids_map h hq hg, ← List.map_drop, List.head?_map]
  · rw [if_neg ht]
    exact move_shared hloc (nextSiblingOrToken_wp h hloc)

end Cur
end Rowan
