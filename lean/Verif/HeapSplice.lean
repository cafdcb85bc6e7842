import Verif.HeapView
/-!
# `splice_children` on the cursor heap

Unless their comments cite lines of `/repo`, the definitions in this file are vocabulary of the proofs and model no code.
-/
namespace Rowan
set_option linter.unusedSectionVars false
variable [Greens]
namespace Cur
variable {s : HSt} {hc : Nat → Nat} {kids : Nat → List Nat} {v : View}

/-- `hc` plus one handle for each element of the list. -/
def plus (hc : Nat → Nat) (ps : List Nat) : Nat → Nat := ps.foldr (fun p hc => inc hc p) hc

theorem le_plus (hc : Nat → Nat) (ps : List Nat) (x : Nat) : hc x ≤ plus hc ps x := by
  induction ps with
  | nil => exact Nat.le_refl _
  | cons a l ih => exact Nat.le_trans ih (le_inc _ a x)

theorem dropAll_bad {bad : List Nat} : ∀ (ps : List Nat) (s : HSt) (kids : Nat → List Nat),
    HInv s (plus hc ps) kids none bad →
    ∃ s' kids', dropAll ps s = .ok () s' ∧ HInv s' hc kids' none bad ∧ Shrinks s s'
  | [], s, kids, h => ⟨s, kids, rfl, h, .refl s⟩
  | p :: ps, s, kids, h => by
    obtain ⟨s1, kids1, h1, h2, h3, _⟩ := drop_ok (hc := plus hc ps) (p := p) h
    obtain ⟨s2, kids2, g1, g2, g3⟩ := dropAll_bad ps s1 kids1 h2
    refine ⟨s2, kids2, ?_, g2, h3.trans g3⟩
    simp only [dropAll]; rw [H.bind_ok h1]; exact g1

theorem Counted.dropAll_ok : ∀ (ps : List Nat) (s : HSt) (kids : Nat → List Nat),
    Counted s (plus hc ps) kids none →
    ∃ s' kids', dropAll ps s = .ok () s' ∧ Counted s' hc kids' none ∧ Shrinks s s' ∧ ∀ S, Busy s S → Busy s' S
  | [], s, kids, h => ⟨s, kids, rfl, h, .refl s, fun _ h => h⟩
  | p :: ps, s, kids, h => by
    obtain ⟨s1, kids1, h1, h2, h3, h4⟩ := Counted.drop_ok (hc := plus hc ps) (p := p) h
    obtain ⟨s2, kids2, g1, g2, g3, g4⟩ := Counted.dropAll_ok ps s1 kids1 h2
    refine ⟨s2, kids2, ?_, g2, h3.trans g3, fun S hS => g4 S (h4 S hS)⟩
    simp only [dropAll]; rw [H.bind_ok h1]; exact g1

theorem Kept.of_shrinks {hc' : Nat → Nat} {s s' : HSt} {kids kids' : Nat → List Nat} {bad bad' : List Nat}
    {z z' : Option Nat} (h : HInv s hc kids z bad) (h' : HInv s' hc' kids' z' bad')
    (hle : ∀ x, 0 < hc' x → 0 < hc x) (hs : Shrinks s s') : Kept hc' s s' := by
  have hst : Stable hc' s s' := .of_shrinks hs h'
  have hk : ∀ x, 0 < hc' x → Keeps s s' x := fun x hx => (hs.keeps x (h'.hlive x hx)).2
  refine ⟨fun x hx => (hk x hx).mutable, fun y l hy _ hc x hx => hst x ⟨y, l, hy, hc, hx⟩, ?_,
    fun x hx _ => (hk x hx).green⟩
  intro x hx
  rw [HSt.tree, (hk x hx).green]; exact ⟨rfl, rfl⟩

theorem spliceInsert_view {q : Nat} (hq : 0 < hc q) : ∀ (ps : List Nat) (i : Nat) (s : HSt) (v : View)
    (kids : Nat → List Nat), HInv s (plus hc ps) kids none [] → s.mutable q = true →
    (s.tree q).isNode = true → s.Views (plus hc ps) v →
    Agrees hc s (v.insertAll q i ps) (spliceInsert q i ps s)
  | [], i, s, v, kids, h, hm, hn, hv => .inr ⟨s, rfl, ⟨kids, h⟩, .rfl' s, hv⟩
  | p :: ps, i, s, v, kids, h, hm, hn, hv => by
    have hq' : 0 < plus hc (p :: ps) q := Nat.lt_of_lt_of_le hq (le_plus ..)
    have hp' : 0 < plus hc (p :: ps) p := by simp [plus]
    have hle : ∀ x, 0 < hc x → 0 < plus hc (p :: ps) x := fun x hx => Nat.lt_of_lt_of_le hx (le_plus ..)
    have hle1 : ∀ x, 0 < plus hc ps x → 0 < plus hc (p :: ps) x :=
      fun x hx => Nat.lt_of_lt_of_le hx (le_inc ..)
    have ha := attach_view (i := i) h hq' hp' hm hn hv
    simp only [spliceInsert, View.insertAll]
    rw [attachOutcome] at ha
    by_cases hvm : v.mutable p = false
    · rw [if_pos hvm] at ha ⊢
      rcases ha with ha | ⟨s1, e1, ⟨kids1, h1⟩, k1, v1⟩
      · left; simp [H.bind_def, H.onPanic, ha]
      · obtain ⟨s2, kids2, e2, h2, g2⟩ := dropAll_bad (hc := hc) (p :: ps) s1 kids1 h1
        refine .inr ⟨s2, by simp [H.bind_def, H.onPanic, e1, e2], ⟨kids2, h2⟩, ?_, ?_⟩
        · exact (k1.mono hle).trans (Kept.of_shrinks h1 h2 hle g2)
        · have hst : Stable hc s1 s2 := .of_shrinks g2 h2
          intro x hx
          obtain ⟨a, b, c⟩ := v1 x (hle x hx)
          obtain ⟨l, hch⟩ := h1.chain x a.live
          refine ⟨hst.loc hx a hch, ?_, ?_⟩
          · rw [HSt.tree, (hst _ ⟨x, l, hx, hch, a.chain_mem hch⟩).2.green]; exact b
          · rw [(hst _ ⟨x, l, hx, hch, hch.self_mem⟩).2.mutable]; exact c
    rw [if_neg hvm] at ha ⊢
    by_cases hcyc : ((v.cut p).pos q).1 = p
    · rw [if_pos hcyc] at ha ⊢
      by_cases hlen : i ≤ (v.cut p).width q
      · rw [if_pos hlen] at ha ⊢
        rcases ha with ha | ha
        · left; simp [H.bind_def, H.onPanic, ha]
        · right; simp [H.bind_def, H.onPanic, ha]
      · rw [if_neg hlen] at ha ⊢
        rcases ha with ha | ⟨s1, kids1, e1, h1, hl1, p1, u1, t1⟩
        · left; simp [H.bind_def, H.onPanic, ha]
        · obtain ⟨s2, kids2, e2, h2, g2, _⟩ := Counted.dropAll_ok (hc := hc) (p :: ps) s1 kids1 h1
          obtain ⟨hl2, u2⟩ := Counted.up_live h2 g2 u1 (h2.hlive q hq)
          exact .inr ⟨s2, kids2, by simp [H.bind_def, H.onPanic, e1, e2], h2, hl2, (g2.keeps p hl2).2.parent.trans p1, u2,
            fun hi => Counted.stray h2 g2 (t1 hi) hl2⟩
    rw [if_neg hcyc] at ha ⊢
    by_cases hlen : i ≤ (v.cut p).width q
    · rw [if_pos hlen] at ha ⊢
      rcases ha with ha | ⟨s1, e1, h1, k1, v1⟩
      · left; simp [H.bind_def, H.onPanic, ha]
      · obtain ⟨s2, e2, ⟨kids2, h2⟩, g2, st2⟩ := drop_stable (hc := plus hc ps) (p := p) h1
        have heq : (H.onPanic (attach q i p) (dropAll (p :: ps)) >>= fun _ => do
            drop p; spliceInsert q (i + 1) ps) s = spliceInsert q (i + 1) ps s2 := by
          simp [H.bind_def, H.onPanic, e1, e2]
        rw [heq]
        obtain ⟨kids1, h1⟩ := h1
        have k2 : Kept (plus hc ps) s1 s2 := Kept.of_shrinks h1 h2 hle1 g2
        have v2 : s2.Views (plus hc ps) ((v.cut p).join q i p) := by
          intro x hx
          obtain ⟨a, b, c⟩ := v1 x (hle1 x hx)
          obtain ⟨l, hch⟩ := h1.chain x a.live
          refine ⟨st2.loc hx a hch, ?_, ?_⟩
          · rw [HSt.tree, (st2 _ ⟨x, l, hx, hch, a.chain_mem hch⟩).2.green]; exact b
          · rw [(st2 _ ⟨x, l, hx, hch, hch.self_mem⟩).2.mutable]; exact c
        have hq2 : 0 < plus hc ps q := Nat.lt_of_lt_of_le hq (le_plus ..)
        have k12 := (k1.mono hle1).trans k2
        have := spliceInsert_view hq ps (i + 1) s2 _ kids2 h2 (by rw [k12.mutable q hq2]; exact hm)
          (by rw [(k12.same q hq2).1]; exact hn) v2
        exact this.weaken (k12.mono fun x hx => Nat.lt_of_lt_of_le hx (le_plus ..))
    · rw [if_neg hlen] at ha ⊢
      rcases ha with ha | ⟨s1, kids1, e1, hc1, hn1⟩
      · left; simp [H.bind_def, H.onPanic, ha]
      by_cases hi : i < 2 ^ 32
      case neg =>
        obtain ⟨s2, kids2, e2, h2, _⟩ := Counted.dropAll_ok (hc := hc) (p :: ps) s1 kids1 hc1
        exact .inr ⟨s2, kids2, by simp [H.bind_def, H.onPanic, e1, e2], h2, fun h => absurd h hi⟩
      · obtain ⟨h1, k1, v1, c1, t1⟩ := hn1 hi
        obtain ⟨s2, kids2, e2, h2, g2⟩ := dropAll_bad (hc := hc) (p :: ps) s1 kids1 h1
        refine .inr ⟨s2, kids2, by simp [H.bind_def, H.onPanic, e1, e2], Counted.of_inv h2, fun _ => ⟨h2, ?_, ?_, ?_, ?_⟩⟩
        · exact (k1.mono hle).trans (Kept.of_shrinks h1 h2 hle g2)
        · have hst : Stable hc s1 s2 := .of_shrinks g2 h2
          intro x hx
          simp only [outside] at hx
          split at hx
          · omega
          next hxr =>
          obtain ⟨a, b, c⟩ := v1 x (by simp only [outside, if_neg hxr]; exact hle x hx)
          obtain ⟨l, hch⟩ := h1.chain x a.live
          refine ⟨hst.loc hx a hch, ?_, ?_⟩
          · rw [HSt.tree, (hst _ ⟨x, l, hx, hch, a.chain_mem hch⟩).2.green]; exact b
          · rw [(hst _ ⟨x, l, hx, hch, hch.self_mem⟩).2.mutable]; exact c
        · have hst : Stable hc s1 s2 := .of_shrinks g2 h2
          intro x hx
          obtain ⟨l, hch, hpl⟩ := c1 x (hle x hx)
          exact ⟨l, hch.congr fun w hw => ⟨(hst w ⟨x, l, hx, hch, hw⟩).1, (hst w ⟨x, l, hx, hch, hw⟩).2.parent⟩, hpl⟩
        · intro hl2
          obtain ⟨y, hy⟩ := t1 (g2.keeps p hl2).1
          exact ⟨y, Counted.stray (Counted.of_inv h2) g2 hy hl2⟩

/-! ### The iterators -/

theorem _root_.Rowan.HSt.Views.of_stable' {s' : HSt} {hc0 : Nat → Nat} {z : Option Nat} {bad : List Nat}
    (hi : HInv s hc0 kids z bad)
    (hs : Stable hc s s') (h : s.Views hc v) : s'.Views hc v := by
  intro x hx
  obtain ⟨a, b, c⟩ := h x hx
  obtain ⟨l, hch⟩ := hi.chain x a.live
  refine ⟨hs.loc hx a hch, ?_, ?_⟩
  · rw [HSt.tree, (hs _ ⟨x, l, hx, hch, a.chain_mem hch⟩).2.green]; exact b
  · rw [(hs _ ⟨x, l, hx, hch, hch.self_mem⟩).2.mutable]; exact c

theorem _root_.Rowan.Kept.of_stable' {s' : HSt} {hc0 : Nat → Nat} {z : Option Nat} {bad : List Nat}
    (hi : HInv s hc0 kids z bad) (hle : ∀ x, 0 < hc x → 0 < hc0 x)
    (hs : Stable hc s s') : Kept hc s s' := by
  have hk : ∀ x, 0 < hc x → s'.live x = true ∧ Keeps s s' x := by
    intro x hx
    obtain ⟨l, hch⟩ := hi.chain x (hi.hlive x (hle x hx))
    exact hs x ⟨x, l, hx, hch, hch.self_mem⟩
  refine ⟨fun x hx => (hk x hx).2.mutable, fun y l hy _ hc x hx => hs x ⟨y, l, hy, hc, hx⟩, ?_,
    fun x hx _ => (hk x hx).2.green⟩
  intro x hx
  rw [HSt.tree, (hk x hx).2.green]; exact ⟨rfl, rfl⟩

/-- The first of the positions that the iterator looks at. -/
def pick (nodes : Bool) (t : Tree) (L : List (List Nat)) : Option (List Nat) :=
  L.find? fun p => !nodes || t.sat Tree.isNode p

theorem pick_false (t : Tree) (L : List (List Nat)) : pick false t L = L.head? := by
  cases L <;> simp [pick]

theorem pick_true (t : Tree) (L : List (List Nat)) :
    pick true t L = L.find? (t.sat Tree.isNode) := by simp [pick]

theorem le_incO (hc : Nat → Nat) (o : Option Nat) (x : Nat) : hc x ≤ incO hc o x := by
  cases o with
  | none => exact Nat.le_refl _
  | some y => exact le_inc hc y x

theorem firstOf_wp {nodes : Bool} {q r : Nat} {P : List Nat} {n : GNode} (h : HInv s hc kids none [])
    (hq : s.Loc q r P) (hg : s.green q = .node n) :
    H.wp (firstOf nodes q) s (fun o s' => NavStep s s' (incO hc o) ∧
      s'.LocO o r (pick nodes (s.tree r) ((s.tree r).kids P))) (fun _ _ => False) := by
  cases nodes with
  | false => rw [pick_false]; exact firstChildOrToken_wp h hq hg
  | true => rw [pick_true]; exact firstChild_wp h hq hg

theorem toNextOf_wp {nodes : Bool} {e r : Nat} {P : List Nat} (h : HInv s (inc hc e) kids none [])
    (he : s.Loc e r P) :
    H.wp (toNextOf nodes e) s (MovePost hc s e r (pick nodes (s.tree r) ((s.tree r).later P)))
      (fun _ _ => False) := by
  cases nodes with
  | false => rw [pick_false]; exact toNextSiblingOrToken_wp h he
  | true => rw [pick_true]; exact toNextSibling_wp h he

theorem cloneOpt_wp {o : Option Nat} (h : HInv s (incO hc o) kids none []) :
    H.wp (cloneOpt o) s (fun o' s' => o' = o ∧ HOk s' (incO (incO hc o) o) ∧ Grows s s')
      (fun _ _ => False) := by
  cases o with
  | none => exact H.wp_pure ⟨rfl, ⟨kids, h⟩, .refl s⟩
  | some e =>
    have hl := h.hlive e (by simp [incO])
    simp only [cloneOpt]
    rcases incRc_ok h hl with e1 | ⟨e1, e2⟩
    · simp [H.wp, H.bind_def, e1]
    · exact H.wp_step e1 (H.wp_pure ⟨rfl, ⟨_, e2⟩,
        ⟨fun _ hx => ⟨hx, rfl, rfl, rfl, rfl, rfl⟩, Nat.le_refl _⟩⟩)

theorem LocO.grows {s' : HSt} {o : Option Nat} {r : Nat} {spec : Option (List Nat)} {hc0 : Nat → Nat}
    {z : Option Nat} {bad : List Nat} (h : s.LocO o r spec) (hi : HInv s hc0 kids z bad)
    (hg : Grows s s') : s'.LocO o r spec := by
  cases o <;> cases spec <;> try exact h
  rename_i e Q
  obtain ⟨l, hch⟩ := hi.chain e (HSt.Loc.live h)
  exact hg.loc h hch

/-- What the iterator stands on determines what it yields next. -/
inductive Upcoming (s : HSt) (it : Children) (r : Nat) (P : List Nat) : Nat → Option (List Nat) → Prop
  | first : it.init = false → it.next = none →
      Upcoming s it r P r (pick it.nodes (s.tree r) ((s.tree r).kids P))
  | done : it.init = true → it.next = none → Upcoming s it r P r none
  | next {e re Pe} : it.init = true → it.next = some e → s.Loc e re Pe →
      (s.parent e ≠ none ∨ s.mutable e = true) →
      Upcoming s it r P re (pick it.nodes (s.tree re) ((s.tree re).later Pe))

theorem step_wp {it : Children} {q r r' : Nat} {P : List Nat} {n : GNode} {spec : Option (List Nat)}
    (h : HInv s (incO (inc hc q) it.next) kids none []) (hpar : it.parent = q) (hq : s.Loc q r P)
    (hg : s.green q = .node n) (hu : Upcoming s it r P r' spec) :
    H.wp it.step s (fun o s' => o.2 = { it with next := o.1, init := true } ∧
      HOk s' (incO (incO (inc hc q) o.1) o.1) ∧ Stable (inc hc q) s s' ∧ s'.LocO o.1 r' spec)
      (fun _ _ => False) := by
  have hadv : H.wp it.advance s (fun o s' => HOk s' (incO (inc hc q) o) ∧ Stable (inc hc q) s s' ∧
      s'.LocO o r' spec) (fun _ _ => False) := by
    simp only [Children.advance]
    cases hu with
    | first h1 h2 =>
      rw [h2] at h
      simp only [h1, Bool.not_false, if_true]
      rw [hpar]
      refine H.wp_mono (firstOf_wp h hq hg) ?_ (fun _ _ h => h)
      rintro o s' ⟨a, b⟩
      exact ⟨a.ok, .of_grows a.grows, b⟩
    | done h1 h2 =>
      rw [h2] at h
      simp only [h1, h2, Bool.not_true, Bool.false_eq_true, if_false]
      exact H.wp_pure ⟨⟨kids, h⟩, .of_grows (.refl s), trivial⟩
    | @next e re Pe h1 h2 h3 h4 =>
      rw [h2] at h
      simp only [h1, h2, Bool.not_true, Bool.false_eq_true, if_false]
      refine H.wp_mono (toNextOf_wp h h3) ?_ (fun _ _ h => h)
      rintro o s' ⟨a | ⟨_, _, a, _, b⟩, c, d⟩
      · exact ⟨a, c, d.1⟩
      · rcases h4 with h4 | h4
        · exact absurd a h4
        · rw [h4] at b; cases b
  simp only [Children.step]
  refine H.wp_seq hadv ?_
  rintro o s1 ⟨⟨kids1, h1⟩, st1, l1⟩
  refine H.wp_seq (cloneOpt_wp h1) ?_
  rintro o' s2 ⟨rfl, h2, g2⟩
  exact H.wp_pure ⟨rfl, h2, st1.trans (.of_grows g2), LocO.grows l1 h1 g2⟩

theorem drop_iter {it : Children} {q : Nat} (h : HOk s (inc hc q)) (hpar : it.parent = q)
    (hn : it.next = none) :
    ∃ s', it.drop s = .ok () s' ∧ HOk s' hc ∧ Stable hc s s' := by
  obtain ⟨s1, e1, e2, _, e4⟩ := drop_stable h
  refine ⟨s1, ?_, e2, e4⟩
  simp only [Children.drop, hpar, hn]
  rw [H.bind_ok e1]; rfl

theorem _root_.Rowan.HSt.LocO.eq_none {o : Option Nat} {r : Nat} (h : s.LocO o r none) : o = none := by
  cases o with
  | none => rfl
  | some e => exact h.elim

theorem _root_.Rowan.HSt.LocO.eq_some {o : Option Nat} {r : Nat} {Q : List Nat}
    (h : s.LocO o r (some Q)) : ∃ e, o = some e ∧ s.Loc e r Q := by
  cases o with
  | none => exact h.elim
  | some e => exact ⟨e, rfl, h⟩

theorem isNode_node (n : GNode) : (GElem.tree (.node n)).isNode = true := by
  show n.tree.isNode = true
  rw [GNode.tree_eq]; rfl

/-- Once an element has been detached, the loop ends: the iterator stands on a top element, which has
no next sibling. -/
theorem spliceDelete_hit {nodes : Bool} {a b fuel i q e r j : Nat} {P : List Nat} {n : GNode}
    (h : HInv s (inc (inc (inc hc q) e) e) kids none []) (hq : 0 < hc q) (hlq : s.Loc q r P)
    (hm : s.mutable q = true) (hg : s.green q = .node n) (he : s.Loc e r (P ++ [j]))
    (hv : s.Views hc v) (ht : s.tree r = v.tree r) :
    H.wp (do
      detach e
      drop e
      spliceDelete a b (fuel + 1) i { nodes, parent := q, next := some e, init := true }) s
      (fun _ s' => HOk s' hc ∧ Kept hc s s' ∧ s'.Views hc (v.cutAt e r P j) ∧ OffStill hc q s s')
      (fun _ _ => False) := by
  have hle : ∀ x, 0 < hc x → 0 < inc (inc (inc hc q) e) e x := fun x hx =>
    Nat.lt_of_lt_of_le hx (Nat.le_trans (le_inc ..) (Nat.le_trans (le_inc ..) (le_inc ..)))
  have hle1 : ∀ x, 0 < hc x → 0 < inc (inc hc q) e x := fun x hx =>
    Nat.lt_of_lt_of_le hx (Nat.le_trans (le_inc ..) (le_inc ..))
  have hle2 : ∀ x, 0 < hc x → 0 < inc hc q x := fun x hx => Nat.lt_of_lt_of_le hx (le_inc ..)
  have hme : s.mutable e = true := by
    rw [← h.mutable_root he, h.mutable_root hlq]; exact hm
  obtain ⟨s1, e1, ⟨kids1, h1⟩, k1, v1, l1, _, x1⟩ := detach_at h (by simp) he hme hv hle ht
  refine H.wp_step e1 ?_
  obtain ⟨s2, e2, ⟨kids2, h2⟩, g2, st2⟩ := drop_stable ⟨kids1, h1⟩
  refine H.wp_step e2 ?_
  have k2 : Kept (inc (inc hc q) e) s1 s2 :=
    Kept.of_shrinks h1 h2 (fun x hx => Nat.lt_of_lt_of_le hx (le_inc ..)) g2
  have k02 : Kept (inc (inc hc q) e) s s2 :=
    (k1.mono fun x hx => Nat.lt_of_lt_of_le hx (le_inc ..)).trans k2
  have l2 : s2.Loc e e [] := by
    obtain ⟨l, hch⟩ := h1.chain e l1.live
    exact st2.loc (by simp) l1 hch
  have v2 : s2.Views hc (v.cutAt e r P j) := v1.of_stable' h1 (st2.mono hle1)
  have hqn2 : (s2.tree q).isNode = true := by
    rw [(k02.same q (hle1 q hq)).1, HSt.tree, hg]; exact isNode_node n
  obtain ⟨n2, hg2⟩ : ∃ n, s2.green q = .node n := by
    rw [HSt.tree] at hqn2
    cases hgq : s2.green q with
    | node n => exact ⟨n, rfl⟩
    | token t => rw [hgq] at hqn2; cases t; simp [Tree.isNode, GToken.tree] at hqn2
  obtain ⟨lq, hchq⟩ := h2.chain q (h2.hlive q (hle1 q hq))
  obtain ⟨rq, Pq, hq2⟩ := hchq.loc
  have hme2 : s2.mutable e = true := by rw [k02.mutable e (by simp)]; exact hme
  simp only [spliceDelete]
  refine H.wp_seq (step_wp (it := { nodes, parent := q, next := some e, init := true }) (hc := hc)
    (q := q) h2 rfl hq2 hg2 (.next rfl rfl l2 (.inr hme2))) ?_
  rintro ⟨o, it'⟩ s3 ⟨hit, h3, st3, l3⟩
  have hit : it' = { nodes, parent := q, next := o, init := true } := hit
  subst hit
  have : o = none := by
    refine HSt.LocO.eq_none (r := e) (s := s3) ?_
    simpa [pick] using l3
  subst this
  obtain ⟨s4, e4, h4, st4⟩ := drop_iter (it := { nodes, parent := q, next := none, init := true }) h3 rfl rfl
  obtain ⟨kids3, h3⟩ := h3
  refine H.wp_ok e4 ⟨h4, ?_, ?_, ?_⟩
  case refine_3 =>
    have x01 := (x1.mono hle).off (h.parent_of_loc he hlq hm)
    exact (((x01.trans hq (.of_stable h1 hle (st2.mono hle1))).trans hq (.of_stable h2 hle1 (st3.mono hle2))).trans hq
      (.of_stable h3 hle2 st4))
  · exact ((k02.mono hle1).trans (.of_stable' h2 hle1 (st3.mono hle2))).trans (.of_stable' h3 hle2 st4)
  · exact (v2.of_stable' h2 (st3.mono hle2)).of_stable' h3 st4

theorem spliceDelete_view {a b q r : Nat} {P : List Nat} {n : GNode} (hq : 0 < hc q) :
    ∀ (fuel i : Nat) (s : HSt) (kids : Nat → List Nat) (it : Children),
    HInv s (incO (inc hc q) it.next) kids none [] → it.parent = q → it.nodes = false →
    s.Loc q r P → s.mutable q = true → s.green q = .node n → s.Views hc v → s.tree r = v.tree r →
    ((it.init = false ∧ it.next = none ∧ i = 0) ∨
      ∃ e j, it.init = true ∧ it.next = some e ∧ s.Loc e r (P ++ [j]) ∧ i = j + 1) →
    n.children.length + 1 ≤ fuel + i → 0 < fuel →
    H.wp (spliceDelete a b fuel i it) s
      (fun _ s' => HOk s' hc ∧ Kept hc s s' ∧
        ((max a i < b ∧ max a i < n.children.length ∧ ∃ e, v.IsAt hc e r (P ++ [max a i]) ∧
            s'.Views hc (v.cutAt e r P (max a i))) ∨
          (¬ (max a i < b ∧ max a i < n.children.length) ∧ s'.Views hc v)) ∧ OffStill hc q s s')
      (fun _ _ => False) := by
  intro fuel
  induction fuel with
  | zero => intros; omega
  | succ fuel ih =>
    intro i s kids it h hpar hnodes hlq hm hg hv ht hst hfuel _
    have hle2 : ∀ x, 0 < hc x → 0 < inc hc q x := fun x hx => Nat.lt_of_lt_of_le hx (le_inc ..)
    have hle1 : ∀ x, 0 < hc x → 0 < incO (inc hc q) it.next x := fun x hx =>
      Nat.lt_of_lt_of_le (hle2 x hx) (le_incO ..)
    have hkids : (s.tree r).kids P = (List.range n.children.length).map fun i => P ++ [i] := by
      rw [Tree.kids_eq (h.tree_at hlq), HSt.tree, hg]
      show (List.range n.tree.children.length).map _ = _
      rw [GNode.tree_eq]; simp [Tree.children]
    have hup : Upcoming s it r P r (if i < n.children.length then some (P ++ [i]) else none) := by
      rcases hst with ⟨h1, h2, rfl⟩ | ⟨e, j, h1, h2, h3, rfl⟩
      · have := Upcoming.first (s := s) (it := it) (r := r) (P := P) h1 h2
        rw [hnodes, pick_false, hkids, List.head?_map, List.head?_range] at this
        by_cases e : n.children.length = 0
        · simpa [e] using this
        · rw [if_neg e] at this
          rw [if_pos (by omega)]; exact this
      · have hpe : s.parent e ≠ none := by
          intro hp
          obtain ⟨_, e2⟩ := (HSt.Loc.root h3.live hp).unique h3
          simp at e2
        have := Upcoming.next (s := s) (it := it) (r := r) (P := P) h1 h2 h3 (.inl hpe)
        rw [hnodes, pick_false, Tree.later_snoc, hkids, ← List.map_drop, List.head?_map,
          List.head?_drop] at this
        by_cases e : j + 1 < n.children.length
        · rw [if_pos e]; simpa [List.getElem?_range, e] using this
        · rw [if_neg e]
          have e' : (List.range n.children.length)[j + 1]? = none := by simp; omega
          rw [e'] at this; exact this
    simp only [spliceDelete]
    refine H.wp_seq (step_wp h hpar hlq hg hup) ?_
    rintro ⟨o, it'⟩ s1 ⟨hit, h1, st1, l1⟩
    have hit : it' = { it with next := o, init := true } := hit
    subst hit
    have v1 := hv.of_stable' h (st1.mono hle2)
    have k1 := Kept.of_stable' h hle1 (st1.mono hle2)
    have x1 : OffStill hc q s s1 := .of_stable h hle1 (st1.mono hle2)
    obtain ⟨lq, hchq⟩ := h.chain q hlq.live
    have hlq1 : s1.Loc q r P := st1.loc (hle2 q hq) hlq hchq
    have hkq : Keeps s s1 q := (st1 q ⟨q, lq, hle2 q hq, hchq, hchq.self_mem⟩).2
    have hkr : Keeps s s1 r := (st1 r ⟨q, lq, hle2 q hq, hchq, hlq.chain_mem hchq⟩).2
    have ht1 : s1.tree r = v.tree r := by rw [HSt.tree, hkr.green]; exact ht
    by_cases hin : i < n.children.length
    · rw [if_pos hin] at l1
      obtain ⟨e, he, l1⟩ := l1.eq_some
      have he' : o = some e := he
      subst he'
      simp only []
      obtain ⟨kids1, h1⟩ := h1
      by_cases hr : a ≤ i ∧ i < b
      · have hd : max a i = i := by omega
        have hc1 : (decide (a ≤ i) && decide (i < b)) = true := by simp [hr.1, hr.2]
        rw [hc1]
        simp only [detachIf, if_true]
        obtain ⟨fuel, rfl⟩ : ∃ f, fuel = f + 1 := ⟨fuel - 1, by omega⟩
        have hit : ({ it with next := some e, init := true } : Children) =
            { nodes := it.nodes, parent := q, next := some e, init := true } := by rw [← hpar]
        have hhit := spliceDelete_hit (nodes := it.nodes) (a := a) (b := b) (fuel := fuel) (i := i + 1)
          h1 hq hlq1 (by rw [hkq.mutable]; exact hm) (by rw [hkq.green]; exact hg) l1 v1 ht1
        rw [← hit] at hhit
        refine H.wp_mono hhit ?_ (fun _ _ h => h)
        rintro _ s2 ⟨a1, a2, a3, a4⟩
        rw [hd]
        have hme : s1.mutable e = true := by
          rw [← h1.mutable_root l1, h1.mutable_root hlq1, hkq.mutable]; exact hm
        exact ⟨a1, k1.trans a2, .inl ⟨hr.2, hin, e, v1.isAt h1 l1 hme, a3⟩, x1.trans hq a4⟩
      · have hc1 : (decide (a ≤ i) && decide (i < b)) = false := by
          rw [Bool.and_eq_false_iff]; simp only [decide_eq_false_iff_not]; omega
        rw [hc1]
        simp only [detachIf, Bool.false_eq_true, if_false]
        refine H.wp_step (H.pure_apply _ _) ?_
        obtain ⟨s2, e2, ⟨kids2, h2⟩, g2, st2⟩ := drop_stable (hc := incO (inc hc q) (some e)) ⟨kids1, h1⟩
        refine H.wp_step e2 ?_
        have hle3 : ∀ x, 0 < hc x → 0 < incO (inc hc q) (some e) x := fun x hx =>
          Nat.lt_of_lt_of_le (hle2 x hx) (le_incO ..)
        have hle4 : ∀ x, 0 < hc x → 0 < incO (incO (inc hc q) (some e)) (some e) x := fun x hx =>
          Nat.lt_of_lt_of_le (hle3 x hx) (le_incO ..)
        have v2 := v1.of_stable' h1 (st2.mono hle3)
        have k2 := Kept.of_stable' h1 hle4 (st2.mono hle3)
        have x2 : OffStill hc q s1 s2 := .of_stable h1 hle4 (st2.mono hle3)
        obtain ⟨lq1, hchq1⟩ := h1.chain q hlq1.live
        obtain ⟨le, hche⟩ := h1.chain e l1.live
        have hkq2 : Keeps s1 s2 q := (st2 q ⟨q, lq1, hle3 q hq, hchq1, hchq1.self_mem⟩).2
        have hkr2 : Keeps s1 s2 r := (st2 r ⟨q, lq1, hle3 q hq, hchq1, hlq1.chain_mem hchq1⟩).2
        have := ih (i + 1) s2 kids2 { it with next := some e, init := true } h2 hpar hnodes
          (st2.loc (hle3 q hq) hlq1 hchq1)
          (by rw [hkq2.mutable, hkq.mutable]; exact hm) (by rw [hkq2.green, hkq.green]; exact hg)
          v2 (by rw [HSt.tree, hkr2.green]; exact ht1)
          (.inr ⟨e, i, rfl, rfl, st2.loc (by simp [incO]) l1 hche, rfl⟩) (by omega) (by omega)
        refine H.wp_mono this ?_ (fun _ _ h => h)
        rintro _ s3 ⟨a1, a2, a3, a4⟩
        refine ⟨a1, (k1.trans k2).trans a2, ?_, (x1.trans hq x2).trans hq a4⟩
        by_cases hai : a ≤ i
        · right
          rcases a3 with ⟨b1, _⟩ | ⟨_, b2⟩
          · omega
          · exact ⟨by omega, b2⟩
        · have e1 : max a i = a := by omega
          have e2 : max a (i + 1) = a := by omega
          rw [e1]; rw [e2] at a3; exact a3
    · rw [if_neg hin] at l1
      have he : o = none := l1.eq_none
      subst he
      simp only []
      obtain ⟨s2, e2, h2, st2⟩ := drop_iter (it := { it with next := none, init := true }) h1 hpar rfl
      obtain ⟨kids1, h1⟩ := h1
      refine H.wp_ok e2 ⟨h2, k1.trans (.of_stable' h1 hle2 st2), .inr ⟨by omega, ?_⟩,
        x1.trans hq (.of_stable h1 hle2 st2)⟩
      exact v1.of_stable' h1 st2

end Cur
end Rowan
