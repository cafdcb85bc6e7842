import Verif.HeapStill
/-!
# Edits of the cursor heap, as edits of views

Unless their comments cite lines of `/repo`, the definitions in this file are vocabulary of the proofs and model no code.
-/
namespace Rowan
set_option linter.unusedSectionVars false
variable [Greens]

theorem HSt.Loc.nil_root {s : HSt} {p r : Nat} (h : s.Loc p r []) : p = r ∧ s.parent p = none := by
  generalize hR : ([] : List Nat) = R at h
  cases h with
  | root _ hp => exact ⟨rfl, hp⟩
  | child => simp at hR

/-- What an edit keeps for the handles in `hc`: mutability, and everything about immutable trees. -/
structure Kept (hc : Nat → Nat) (s s' : HSt) : Prop where
  mutable : ∀ x, 0 < hc x → s'.mutable x = s.mutable x
  imm : ∀ y l, 0 < hc y → s.mutable y = false → Chain s y l →
    ∀ x ∈ l, s'.live x = true ∧ Keeps s s' x
  same : ∀ x, 0 < hc x → (s'.tree x).isNode = (s.tree x).isNode ∧ (s'.tree x).kind = (s.tree x).kind
  token : ∀ x, 0 < hc x → (s.tree x).isNode = false → s'.green x = s.green x

namespace Kept
variable {hc : Nat → Nat} {s s1 s' : HSt}

theorem trans (h : Kept hc s s1) (h' : Kept hc s1 s') : Kept hc s s' where
  mutable x hx := (h'.mutable x hx).trans (h.mutable x hx)
  imm y l hy hm hc x hx := by
    obtain ⟨_, k⟩ := h.imm y l hy hm hc x hx
    have hc1 : Chain s1 y l := hc.congr fun w hw => by
      obtain ⟨a, b⟩ := h.imm y l hy hm hc w hw
      exact ⟨a, b.parent⟩
    obtain ⟨a, b⟩ := h'.imm y l hy ((h.mutable y hy).trans hm) hc1 x hx
    exact ⟨a, k.trans b⟩
  same x hx := ⟨(h'.same x hx).1.trans (h.same x hx).1, (h'.same x hx).2.trans (h.same x hx).2⟩
  token x hx ht := (h'.token x hx ((h.same x hx).1.trans ht)).trans (h.token x hx ht)

theorem mono {hc' : Nat → Nat} (h : Kept hc s s') (hle : ∀ x, 0 < hc' x → 0 < hc x) :
    Kept hc' s s' :=
  ⟨fun x hx => h.mutable x (hle x hx), fun y l hy => h.imm y l (hle y hy),
    fun x hx => h.same x (hle x hx), fun x hx => h.token x (hle x hx)⟩

theorem of_stable (hok : HOk s hc) (h : Stable hc s s') : Kept hc s s' := by
  obtain ⟨kids, hi⟩ := hok
  have hk : ∀ x, 0 < hc x → s'.live x = true ∧ Keeps s s' x := by
    intro x hx
    obtain ⟨l, hch⟩ := hi.chain x (hi.hlive x hx)
    exact h x ⟨x, l, hx, hch, hch.self_mem⟩
  refine ⟨fun x hx => (hk x hx).2.mutable, fun y l hy _ hc x hx => h x ⟨y, l, hy, hc, hx⟩, ?_,
    fun x hx _ => (hk x hx).2.green⟩
  intro x hx
  rw [HSt.tree, (hk x hx).2.green]; exact ⟨rfl, rfl⟩

theorem of_effect {f : Nat → List Nat → Nat × List Nat} {T : Nat → Tree} {kids kids' : Nat → List Nat}
    {z z' : Option Nat} {bad bad' : List Nat}
    (hi : HInv s hc kids z bad) (hi' : HInv s' hc kids' z' bad') (h : Cur.Effect s s' f T) :
    Kept hc s s' := by
  refine ⟨fun x hx => h.mutable x (hi'.hlive x hx), ?_, fun x hx => h.same x (hi'.hlive x hx),
    fun x hx => h.token x (hi'.hlive x hx)⟩
  intro y l hy hm hch
  have hl' := hi'.hlive y hy
  clear hy
  induction hch with
  | root hl hp => intro x hx; simp at hx; subst hx; exact ⟨hl', h.imm _ hl' hm⟩
  | step hl hp hc ih =>
    intro x hx
    rcases List.mem_cons.mp hx with rfl | hx
    · exact ⟨hl', h.imm _ hl' hm⟩
    · refine ih ((hi.parentOk _ _ hl hp).2.trans hm) ?_ x hx
      exact (hi'.parentOk _ _ hl' (by rw [(h.imm _ hl' hm).parent]; exact hp)).1

theorem refl (s : HSt) (hi : ∀ x l, Chain s x l → ∀ y ∈ l, s.live y = true) : Kept hc s s :=
  ⟨fun _ _ => rfl, fun _ _ _ _ hc x hx => ⟨hi _ _ hc x hx, .refl s x⟩, fun _ _ => ⟨rfl, rfl⟩,
    fun _ _ _ => rfl⟩

theorem rfl' (s : HSt) : Kept hc s s := refl s fun _ _ hc _ hy => hc.live_of_mem hy

end Kept

namespace HSt.Views
variable {hc : Nat → Nat} {s s' : HSt} {v : View}

theorem mono {hc' : Nat → Nat} (h : s.Views hc v) (hle : ∀ x, 0 < hc' x → 0 < hc x) :
    s.Views hc' v := fun x hx => h x (hle x hx)

theorem of_stable (hok : HOk s hc) (hs : Stable hc s s') (h : s.Views hc v) : s'.Views hc v := by
  intro x hx
  obtain ⟨h1, h2, h3⟩ := h x hx
  obtain ⟨kids, hi⟩ := hok
  obtain ⟨l, hch⟩ := hi.chain x (hi.hlive x hx)
  refine ⟨hs.loc hx h1 hch, ?_, ?_⟩
  · rw [HSt.tree, (hs _ ⟨x, l, hx, hch, h1.chain_mem hch⟩).2.green]; exact h2
  · rw [(hs _ ⟨x, l, hx, hch, hch.self_mem⟩).2.mutable]; exact h3

theorem sub_eq {kids : Nat → List Nat} {z : Option Nat} (hi : HInv s hc kids z [])
    (h : s.Views hc v) {x : Nat} (hx : 0 < hc x) : v.sub x = some (s.tree x) := by
  obtain ⟨h1, h2, _⟩ := h x hx
  rw [View.sub, ← h2, hi.tree_at h1]

theorem isAt {hc' : Nat → Nat} {kids : Nat → List Nat} {z : Option Nat} {bad : List Nat}
    (h : s.Views hc v) (hi : HInv s hc' kids z bad) {e r i : Nat} {P : List Nat}
    (he : s.Loc e r (P ++ [i])) (hm : s.mutable e = true) : v.IsAt hc e r (P ++ [i]) := by
  refine ⟨?_, fun x hx => ⟨⟨?_, fun hp => ?_⟩, ?_⟩⟩
  · rintro rfl
    have := (he.unique (.root he.live he.root_live.2)).2
    simp at this
  · rintro rfl
    obtain ⟨a, b⟩ := (h x hx).1.unique he
    exact Prod.ext a b
  · have hl := (h x hx).1
    rw [hp] at hl
    exact (hi.loc_inj he hl hm).symm
  · rintro rfl
    have hl := (h x hx).1.root_live
    have := (he.unique (.root hl.1 hl.2)).2
    simp at this

/-- A view exists for every good heap. -/
theorem exists_view {kids : Nat → List Nat} {z : Option Nat} {bad : List Nat}
    (hi : HInv s hc kids z bad) : ∃ v, s.Views hc v := by
  have : ∀ x, ∃ rp : Nat × List Nat, s.live x = true → s.Loc x rp.1 rp.2 := by
    intro x
    by_cases hx : s.live x = true
    · obtain ⟨l, hch⟩ := hi.chain x hx
      obtain ⟨r, P, h⟩ := hch.loc
      exact ⟨(r, P), fun _ => h⟩
    · exact ⟨(0, []), fun h => absurd h hx⟩
  refine ⟨⟨fun x => (this x).choose, s.tree, s.mutable⟩, fun x hx => ⟨?_, rfl, rfl⟩⟩
  exact (this x).choose_spec (hi.hlive x hx)

end HSt.Views

namespace Cur
variable {s : HSt} {hc hc' : Nat → Nat} {kids : Nat → List Nat} {v : View}

/-- Detaching an element that is not a top element. -/
theorem detach_at {p r i : Nat} {P : List Nat} (h : HInv s hc' kids none [])
    (hp : 0 < hc' p) (hl : s.Loc p r (P ++ [i])) (hm : s.mutable p = true) (hv : s.Views hc v)
    (hle : ∀ x, 0 < hc x → 0 < hc' x) (ht : s.tree r = v.tree r) :
    ∃ s', detach p s = .ok () s' ∧ HOk s' hc' ∧ Kept hc' s s' ∧ s'.Views hc (v.cutAt p r P i) ∧
      s'.Loc p p [] ∧ (∀ x r0 Q, 0 < hc' x → s.Loc x r0 Q →
        s'.Loc x (cutLoc r p P i r0 Q).1 (cutLoc r p P i r0 Q).2) ∧ CutStill hc' p s s' := by
  obtain ⟨q, hpq, hq, hi⟩ : ∃ q, s.parent p = some q ∧ s.Loc q r P ∧ s.index p = i := by
    generalize hR : P ++ [i] = R at hl
    cases hl with
    | root => simp at hR
    | @child _ q _ path _ hpq hq =>
      obtain ⟨e1, e2⟩ := List.append_inj' hR rfl
      cases e2
      exact ⟨q, hpq, by rw [e1]; exact hq, rfl⟩
  subst hi
  obtain ⟨s', e, ⟨kids', h'⟩, eff, lo⟩ := detach_ok h hl.live hm hpq hq
  have hp' := h'.hlive p hp
  have hpr : p ≠ r := by rintro rfl; rw [hl.root_live.2] at hpq; cases hpq
  have hpp : s'.Loc p p [] := by
    have := eff.loc p _ _ hl hp'
    simpa [cutLoc, Tree.afterCut_here] using this
  refine ⟨s', e, ⟨kids', h'⟩, .of_effect h h' eff, ?_, hpp,
    fun x r0 Q hx hxl => eff.loc x r0 Q hxl (h'.hlive x hx),
    .of_local h h' hl.live hpq hpp.nil_root.2 lo⟩
  · intro x hx
    obtain ⟨h1, h2, h3⟩ := hv x hx
    have hx' := h'.hlive x (hle x hx)
    have hloc := eff.loc x _ _ h1 hx'
    refine ⟨hloc, ?_, by rw [eff.mutable x hx']; exact h3⟩
    obtain ⟨rl, rp⟩ := hloc.root_live
    show s'.tree (cutLoc r p P (s.index p) (v.pos x).1 (v.pos x).2).1 = _
    rw [eff.tree _ rl rp, cutTree]
    show _ = if (cutLoc r p P (s.index p) (v.pos x).1 (v.pos x).2).1 = p then
        ((v.tree r).at? (P ++ [s.index p])).getD _
      else if (cutLoc r p P (s.index p) (v.pos x).1 (v.pos x).2).1 = r then (v.tree r).removeAt P (s.index p)
      else v.tree _
    have hat := h.tree_at hl
    rw [ht] at hat
    rw [hat, Option.getD_some]
    by_cases e1 : (cutLoc r p P (s.index p) (v.pos x).1 (v.pos x).2).1 = p
    · rw [if_pos e1, e1, if_neg hpr]
    · rw [if_neg e1]
      by_cases e2 : (cutLoc r p P (s.index p) (v.pos x).1 (v.pos x).2).1 = r
      · rw [if_pos e2, if_pos e2, ht]
      · rw [if_neg e2, if_neg e2]
        have : (cutLoc r p P (s.index p) (v.pos x).1 (v.pos x).2).1 = (v.pos x).1 := by
          by_cases e3 : (v.pos x).1 = r
          · exfalso
            simp only [cutLoc, if_pos e3] at e1 e2
            split at e1 <;> simp_all
          · simp only [cutLoc, if_neg e3]
        show s.tree (cutLoc r p P (s.index p) (v.pos x).1 (v.pos x).2).1 =
          v.tree (cutLoc r p P (s.index p) (v.pos x).1 (v.pos x).2).1
        rw [this]; exact h2

/-- Detaching the element of a handle. -/
theorem detach_view {p : Nat} (h : HInv s hc kids none []) (hp : 0 < hc p) (hm : s.mutable p = true)
    (hv : s.Views hc v) :
    ∃ s', detach p s = .ok () s' ∧ HOk s' hc ∧ Kept hc s s' ∧ s'.Views hc (v.cut p) ∧
      s'.Loc p p [] ∧ CutStill hc p s s' := by
  obtain ⟨h1, h2, h3⟩ := hv p hp
  rcases List.eq_nil_or_concat (v.pos p).2 with e | ⟨P, i, e⟩
  · rw [e] at h1
    have hpp : s.parent p = none := h1.nil_root.2
    have hlp := h.hlive p hp
    refine ⟨s, detach_root h hlp hm hpp, ⟨kids, h⟩, .rfl' s, ?_, .root hlp hpp, .refl h⟩
    rw [View.cut, e]; exact hv
  · rw [List.concat_eq_append] at e
    rw [e] at h1
    have : v.cut p = v.cutAt p (v.pos p).1 P i := by simp [View.cut, e]
    rw [this]
    obtain ⟨s', a, b, c, d, e, _, f⟩ := detach_at h hp h1 hm hv (fun _ hx => hx) h2
    exact ⟨s', a, b, c, d, e, f⟩

/-- The counts of the handles outside the tree of `p`. -/
def outside (v : View) (hc : Nat → Nat) (p : Nat) (x : Nat) : Nat := if (v.pos x).1 = p then 0 else hc x

/-- A run of an edit started in `s` ended as the outcome says. -/
def Agrees (hc : Nat → Nat) (s : HSt) (o : View.Outcome) (r : HOut Unit) : Prop :=
  r = .abort ∨
  match o with
  | .done v => ∃ s', r = .ok () s' ∧ HOk s' hc ∧ Kept hc s s' ∧ s'.Views hc v
  | .refused v => ∃ s', r = .panic .assert s' ∧ HOk s' hc ∧ Kept hc s s' ∧ s'.Views hc v
  | .outOfRange v p i => ∃ s' kids, r = .panic .range s' ∧ Counted s' hc kids none ∧
      (i < 2 ^ 32 → HInv s' hc kids none [p] ∧ Kept hc s s' ∧
      s'.Views (outside v hc p) v ∧ (∀ x, 0 < hc x → ∃ l, Chain s' x l ∧ (p ∈ l ↔ (v.pos x).1 = p)) ∧
      (s'.live p = true → ∃ y, s'.Stray p y))
  | .loops => r = .diverge
  | .tangled q p i => ∃ s' kids, r = .panic .range s' ∧ Counted s' hc kids none ∧ s'.live p = true ∧
      s'.parent p = some q ∧ s'.Up q p ∧ (i < 2 ^ 32 → s'.Stray p q)

theorem Agrees.weaken {s0 : HSt} {o : View.Outcome} {r : HOut Unit} (h : Agrees hc s o r)
    (hk : Kept hc s0 s) : Agrees hc s0 o r := by
  rcases h with h | h
  · exact .inl h
  · right
    cases o with
    | done v => obtain ⟨s', a, b, c, d⟩ := h; exact ⟨s', a, b, hk.trans c, d⟩
    | refused v => obtain ⟨s', a, b, c, d⟩ := h; exact ⟨s', a, b, hk.trans c, d⟩
    | outOfRange v p i =>
      obtain ⟨s', k, a, b, c⟩ := h
      exact ⟨s', k, a, b, fun hi => ⟨(c hi).1, hk.trans (c hi).2.1, (c hi).2.2⟩⟩
    | loops => exact h
    | tangled q p i => exact h

/-- `attach_child` of one element. -/
def attachOutcome (v : View) (q i p : Nat) : View.Outcome :=
  if v.mutable p = false then .refused v
  else if ((v.cut p).pos q).1 = p then
    if i ≤ (v.cut p).width q then .loops else .tangled q p i
  else if i ≤ (v.cut p).width q then .done ((v.cut p).join q i p)
  else .outOfRange (v.cut p) p i

theorem width_eq {q : Nat} {n : GNode} (h : HInv s hc kids none []) (hv : s.Views hc v) (hq : 0 < hc q)
    (hg : s.green q = .node n) : v.width q = n.children.length := by
  rw [View.width, hv.sub_eq h hq, HSt.tree, hg]
  show n.tree.children.length = _
  rw [GNode.tree_eq]; simp [Tree.children]

theorem children_length_eq {q : Nat} {n : GNode} (hg : s.green q = .node n) :
    n.children.length = (s.tree q).children.length := by
  rw [HSt.tree, hg]
  show _ = n.tree.children.length
  rw [GNode.tree_eq]; simp [Tree.children]

theorem join_view {q i p : Nat} {s' : HSt} {kids' : Nat → List Nat}
    (hv : s.Views hc v) (hq : 0 < hc q) (hp : 0 < hc p) (hpp : v.pos p = (p, []))
    (h' : HInv s' hc kids' none [])
    (eff : Effect s s' (joinLoc (v.pos q).1 p (v.pos q).2 i) (joinTree s (v.pos q).1 p (v.pos q).2 i)) :
    s'.Views hc (v.join q i p) := by
  intro x hx
  obtain ⟨h1, h2, h3⟩ := hv x hx
  have hx' := h'.hlive x hx
  have hloc := eff.loc x _ _ h1 hx'
  refine ⟨hloc, ?_, by rw [eff.mutable x hx']; exact h3⟩
  obtain ⟨rl, rp⟩ := hloc.root_live
  show s'.tree (joinLoc (v.pos q).1 p (v.pos q).2 i (v.pos x).1 (v.pos x).2).1 =
    if (joinLoc (v.pos q).1 p (v.pos q).2 i (v.pos x).1 (v.pos x).2).1 = (v.pos q).1 then
      (v.tree (joinLoc (v.pos q).1 p (v.pos q).2 i (v.pos x).1 (v.pos x).2).1).insertAt (v.pos q).2 i
        (v.tree p)
    else v.tree (joinLoc (v.pos q).1 p (v.pos q).2 i (v.pos x).1 (v.pos x).2).1
  rw [eff.tree _ rl rp, joinTree]
  by_cases e1 : (joinLoc (v.pos q).1 p (v.pos q).2 i (v.pos x).1 (v.pos x).2).1 = (v.pos q).1
  · rw [if_pos e1, if_pos e1, e1, (hv q hq).2.1]
    have := (hv p hp).2.1
    rw [hpp] at this
    rw [this]
  · rw [if_neg e1, if_neg e1]
    have : (joinLoc (v.pos q).1 p (v.pos q).2 i (v.pos x).1 (v.pos x).2).1 = (v.pos x).1 := by
      simp only [joinLoc] at e1 ⊢
      split at e1
      · exact absurd rfl e1
      · split at e1
        · exact absurd rfl e1
        · next a b => rw [if_neg a, if_neg b]
    rw [this]; exact h2

theorem attach_view {q i p : Nat} (h : HInv s hc kids none []) (hq : 0 < hc q) (hp : 0 < hc p)
    (hmq : s.mutable q = true) (hn : (s.tree q).isNode = true) (hv : s.Views hc v) :
    Agrees hc s (attachOutcome v q i p) (attach q i p s) := by
  have hlq := h.hlive q hq
  have hlp := h.hlive p hp
  have hvm := (hv p hp).2.2
  rw [attachOutcome]
  simp only [attach]
  rw [H.bind_ok (H.rd_ok hlq), H.bind_ok (H.assert_ok hmq)]
  by_cases hm : s.mutable p = true
  · rw [if_neg (by rw [← hvm, hm]; simp)]
    obtain ⟨s1, e1, ⟨kids1, h1⟩, k1, v1, l1, _⟩ := detach_view h hp hm hv
    rw [H.bind_ok e1]
    have hn1 : (s1.tree q).isNode = true := by rw [(k1.same q hq).1]; exact hn
    obtain ⟨n, hg⟩ : ∃ n, s1.green q = .node n := by
      rw [HSt.tree] at hn1
      cases hg : s1.green q with
      | node n => exact ⟨n, rfl⟩
      | token t => rw [hg] at hn1; cases t; simp [Tree.isNode, GToken.tree] at hn1
    have hw := width_eq h1 v1 hq hg
    have hlq1 := (v1 q hq).1
    have hm1 : s1.mutable p = true := by rw [k1.mutable p hp]; exact hm
    have hmq1 : s1.mutable q = true := by rw [k1.mutable q hq]; exact hmq
    have hpp : (v.cut p).pos p = (p, []) := by
      obtain ⟨a, b⟩ := (v1 p hp).1.unique l1
      exact Prod.ext a b
    by_cases hcyc : ((v.cut p).pos q).1 = p
    · rw [if_pos hcyc]
      by_cases hlen : i ≤ (v.cut p).width q
      · rw [if_pos hlen]
        rw [hcyc] at hlq1
        rcases attachData_cycle (i := i) h1 hm1 hlq1 hg (by rw [← hw]; exact hlen) with e | ⟨s2, ng, e, d⟩
        · exact .inl e
        · exact .inr (by rw [e]; exact d _)
      · rw [if_neg hlen]
        rw [hcyc] at hlq1
        rcases attachData_tangled (i := i) h1 hm1 hlq1 hg (by rw [← hw]; omega) with e |
          ⟨s2, kids2, e, c2, f1, f2, f3, f4⟩
        · exact .inl e
        · have fl : s2.live p = true := by rw [f1]; exact l1.live
          have fp : s2.parent p = some q := by rw [f2]; simp
          refine .inr ⟨s2, kids2, e, c2, fl, fp, Counted.up_of_loc l1.root_live.2 f2 hlq1, fun hi => ⟨fl, fp, ?_⟩⟩
          rw [HSt.tree, f4, f3, HSt.asU32_lt hi, ← HSt.tree, ← children_length_eq hg, ← hw]; omega
    · rw [if_neg hcyc]
      have hwp := attachData_wp (i := i) h1 l1.live hm1 l1.root_live.2 hmq1 hg hlq1 (Ne.symm hcyc)
      rw [H.wp] at hwp
      cases hr : attachData q i p s1 with
      | abort => exact .inl rfl
      | ub => simp [hr] at hwp
      | diverge => simp [hr] at hwp
      | ok u s2 =>
        simp only [hr] at hwp
        obtain ⟨hlen, ⟨kids2, h2⟩, eff, _⟩ := hwp
        rw [if_pos (by rw [hw]; exact hlen)]
        exact .inr ⟨s2, rfl, ⟨kids2, h2⟩, k1.trans (.of_effect h1 h2 eff),
          join_view v1 hq hp hpp h2 eff⟩
      | panic w s2 =>
        simp only [hr] at hwp
        obtain ⟨rfl, hlen, ⟨kids2, bad, h2⟩, ap⟩ := hwp
        rw [if_neg (by rw [hw]; omega)]
        by_cases hi : i < 2 ^ 32
        case neg => exact .inr ⟨s2, kids2, rfl, Counted.of_inv h2, fun h => absurd h hi⟩
        clear h2
        replace ap := ap hi
        obtain ⟨kids2, h2⟩ := ap.inv
        have hpc : ∀ y l, Chain s1 y l → s1.mutable y = false → p ∉ l := by
          intro y l hch
          induction hch with
          | root _ _ => intro hy; simp; rintro rfl; rw [hm1] at hy; cases hy
          | step hl' hp' _ ih =>
            intro hy
            have := ih ((h1.parentOk _ _ hl' hp').2.trans hy)
            simp only [List.mem_cons, not_or]
            refine ⟨fun e => ?_, this⟩
            rw [← e, hm1] at hy; cases hy
        refine .inr ⟨s2, kids2, rfl, Counted.of_inv h2, fun _ => ⟨h2, k1.trans ⟨?_, ?_, ?_, ?_⟩, ?_, ?_, ?_⟩⟩
        · intro x _
          by_cases e : x = p
          · rw [e]; exact ap.mutable
          · exact (ap.keeps x e).mutable
        · intro y l _ hy hch x hx
          have : x ≠ p := by rintro rfl; exact hpc y l hch hy hx
          exact ⟨by rw [ap.live]; exact hch.live_of_mem hx, ap.keeps x this⟩
        · intro x hx
          by_cases e : x = p
          · rw [e, HSt.tree, HSt.tree, ap.green]; exact ⟨rfl, rfl⟩
          · rw [HSt.tree, (ap.keeps x e).green]; exact ⟨rfl, rfl⟩
        · intro x _ _
          by_cases e : x = p
          · rw [e]; exact ap.green
          · exact (ap.keeps x e).green
        · intro x hx
          simp only [outside] at hx
          split at hx
          · omega
          next hxr =>
          obtain ⟨a, b, c⟩ := v1 x hx
          obtain ⟨l, hch⟩ := h1.chain x a.live
          have hpl : p ∉ l := by
            intro hpl
            have := (hch.eq_last hpl l1.root_live.2).trans
              (hch.eq_last (a.chain_mem hch) a.root_live.2).symm
            exact hxr this.symm
          have hk : ∀ y ∈ l, Keeps s1 s2 y := fun y hy => ap.keeps y (by rintro rfl; exact hpl hy)
          refine ⟨a.congr hch fun y hy => ⟨by rw [ap.live]; exact hch.live_of_mem hy,
            (hk y hy).parent, (hk y hy).index⟩, ?_, ?_⟩
          · rw [HSt.tree, (hk _ (a.chain_mem hch)).green]; exact b
          · rw [(hk _ hch.self_mem).mutable]; exact c
        · intro x hx
          have a := (v1 x hx).1
          obtain ⟨l, hch⟩ := h1.chain x a.live
          obtain ⟨l', hch'⟩ := h2.chain x (by rw [ap.live]; exact a.live)
          by_cases hxr : ((v.cut p).pos x).1 = p
          case neg =>
            have hpl : p ∉ l := by
              intro hpl
              have := (hch.eq_last hpl l1.root_live.2).trans
                (hch.eq_last (a.chain_mem hch) a.root_live.2).symm
              exact hxr this.symm
            exact ⟨l, hch.congr fun y hy => ⟨by rw [ap.live]; exact hch.live_of_mem hy,
              (ap.keeps y (by rintro rfl; exact hpl hy)).parent⟩, iff_of_false hpl hxr⟩
          refine ⟨l', hch', iff_of_true ?_ hxr⟩
          have hpl : p ∈ l := by rw [← hxr]; exact a.chain_mem hch
          clear hx hxr a
          induction hch generalizing l' with
          | root => rw [List.mem_singleton.mp hpl]; exact hch'.self_mem
          | @step y z l _ hp hc ih =>
            by_cases e : y = p
            · rw [← e]; exact hch'.self_mem
            · have := (ap.keeps y e).parent
              rw [hp] at this
              cases hch' with
              | root _ h0 => rw [h0] at this; cases this
              | step _ h0 hc' =>
                rw [h0] at this; cases this
                exact List.mem_cons_of_mem _ (ih _ hc' ((List.mem_cons.mp hpl).resolve_left (Ne.symm e)))
        · intro hl2
          refine ⟨q, hl2, ap.parent, ?_⟩
          have hqp : q ≠ p := by rintro rfl; exact hcyc (by rw [hpp])
          rw [HSt.tree, (ap.keeps q hqp).green, ap.index, ← HSt.tree, ← children_length_eq hg]
          omega
  · have hm' : s.mutable p = false := by simpa using hm
    rw [if_pos (by rw [← hvm, hm']), H.bind_def, detach_panic hlp hm']
    exact .inr ⟨s, rfl, ⟨kids, h⟩, .rfl' s, hv⟩

end Cur
end Rowan
