import Verif.HeapApiLemmas
/-!
# Histories of programs over the cursor API
-/
namespace Rowan
set_option linter.unusedSectionVars false
variable [Greens]
open Cur (plus)

namespace HSt.Views
variable {s s' : HSt} {l : List Nat} {v : View}

theorem put {x r : Nat} {P : List Nat} {m : Bool} (h : s.Views (cnt l) v) (hx : s.Loc x r P)
    (ht : s.tree r = v.tree r) (hm : s.mutable x = m) : s.Views (cnt (x :: l)) (v.put x r P m) := by
  intro y hy
  simp only [View.put]
  by_cases e : y = x
  · subst e; simp only [if_true]; exact ⟨hx, ht, hm⟩
  · simp only [if_neg e]
    have := cnt_pos.mp hy
    exact h y (cnt_pos.mpr ((List.mem_cons.mp this).resolve_left e))

theorem plant {r : Nat} {t : Tree} (h : s.Views (cnt l) v) (hr : ∀ y ∈ l, (v.pos y).1 ≠ r) :
    s.Views (cnt l) (v.plant r t) := by
  intro y hy
  obtain ⟨h1, h2, h3⟩ := h y hy
  refine ⟨h1, ?_, h3⟩
  simp only [View.plant, if_neg (hr y (cnt_pos.mp hy))]
  exact h2

theorem fresh {kids : Nat → List Nat} (hi : HInv s (cnt l) kids none []) (h : s.Views (cnt l) v) {x r : Nat}
    (hx : s.live x = false) (hr : s.live r = false) : v.Fresh l x r := by
  refine ⟨fun hm => ?_, fun y hy e => ?_⟩
  · rw [hi.hlive x (cnt_pos.mpr hm)] at hx; cases hx
  · have := (h y (cnt_pos.mpr hy)).1.root_live.1
    rw [e, hr] at this; cases this

theorem congr {l' : List Nat} (h : s.Views (cnt l) v) (hp : ∀ x, x ∈ l' → x ∈ l) : s.Views (cnt l') v :=
  h.mono fun x hx => cnt_pos.mpr (hp x (cnt_pos.mp hx))

end HSt.Views

namespace Call
open Cur
variable {s s' : HSt} {hs rest lk new : List Nat} {c : Call} {v : View}

theorem Ready.mem_rest (hr : c.Ready s Greens.held hs rest) {x : Nat} (hx : x ∈ rest) : x ∈ hs :=
  hr.split.mem_iff.mpr (List.mem_append_right _ hx)

theorem Ready.mem_takes (hr : c.Ready s Greens.held hs rest) {x : Nat} (hx : x ∈ c.takes) : x ∈ hs :=
  hr.split.mem_iff.mpr (List.mem_append_left _ hx)

/-- The result of a run that is known to return. -/
theorem wp_result {α : Type} {m : H α} {Q : α → HSt → Prop} {E : Why → HSt → Prop} {a : α}
    (h : H.wp m s Q E) (e : m s = .ok a s') : Q a s' := by
  simpa [H.wp, e] using h

theorem views_found {o : Option Nat} {r : Nat} {l : List Nat} {m : Bool} {spec : Option (List Nat)}
    {hc : Nat → Nat} (hok : ∀ x, o = some x → HOk s' hc)
    (hv : s'.Views (cnt l) v) (hlo : s'.LocO o r spec) (ht : ∀ x, o = some x → s'.tree r = v.tree r)
    (hm : ∀ x, o = some x → s'.mutable x = m) :
    ∃ v', s'.Views (cnt (o.toList ++ l)) v' ∧ v.Found l r m spec o.toList v' := by
  cases o with
  | none =>
    cases spec with
    | none => exact ⟨v, hv, rfl, rfl⟩
    | some Q => exact hlo.elim
  | some x =>
    cases spec with
    | none => exact hlo.elim
    | some Q =>
      obtain ⟨kids, hi⟩ := hok x rfl
      refine ⟨_, hv.put hlo (ht x rfl) (hm x rfl), x, rfl, rfl, fun hx => ?_, fun ht h hh he => ?_⟩
      · obtain ⟨h1, _, h3⟩ := hv x (cnt_pos.mpr hx)
        obtain ⟨a, b⟩ := h1.unique hlo
        exact ⟨Prod.ext a b, by rw [← h3]; exact hm x rfl⟩
      · have h1 := (hv h (cnt_pos.mpr hh)).1
        rw [he] at h1
        exact (hi.loc_inj hlo h1 ((hm x rfl).trans ht)).symm

/-- What the handles show after a call other than `detach` and `splice_children`. -/
theorem shows_stable (h : HOk s (cnt (hs ++ lk))) (hr : c.Ready s Greens.held hs rest) (he : c.edits = false)
    (hv : s.Views (cnt (hs ++ lk)) v) :
    H.wp c.exec s
      (fun new s' => ∃ v', s'.Views (cnt (new ++ rest ++ (c.lost s ++ lk))) v' ∧
        c.Shows v (rest ++ lk) new v') (fun _ _ => True) := by
  obtain ⟨kids, h⟩ := h
  have h0 := h
  rw [hr.cnt_eq] at h
  have hvr : s.Views (cnt (rest ++ lk)) v := hv.congr fun x hx => by
    rcases List.mem_append.mp hx with hx | hx
    · exact List.mem_append_left _ (hr.mem_rest hx)
    · exact List.mem_append_right _ hx
  have hokr : ∀ {s' : HSt}, Grows s s' → s'.Views (cnt (hs ++ lk)) v := fun hg =>
    HSt.Views.of_stable ⟨kids, h0⟩ (.of_grows hg) hv
  have hgr : ∀ {s' : HSt}, Grows s s' → s'.Views (cnt (rest ++ lk)) v := fun hg =>
    (hokr hg).congr fun x hx => by
      rcases List.mem_append.mp hx with hx | hx
      · exact List.mem_append_left _ (hr.mem_rest hx)
      · exact List.mem_append_right _ hx
  have hfr : ∀ {x r}, v.Fresh (hs ++ lk) x r → v.Fresh (rest ++ lk) x r := fun hf => by
    have : ∀ y ∈ rest ++ lk, y ∈ hs ++ lk := fun x hx => by
      rcases List.mem_append.mp hx with hx | hx
      · exact List.mem_append_left _ (hr.mem_rest hx)
      · exact List.mem_append_right _ hx
    exact ⟨fun hx => hf.1 (this _ hx), fun y hy => hf.2 y (this y hy)⟩
  have hl : ∀ {x}, x ∈ c.uses → 0 < cnt (hs ++ lk) x ∧ s.live x = true := fun hx => by
    have : 0 < cnt (hs ++ lk) _ := cnt_pos.mpr (List.mem_append_left _ (hr.mem_rest (hr.held _ hx)))
    exact ⟨this, h0.hlive _ this⟩
  cases c with
  | detach p => simp [edits] at he
  | splice q a b ins => simp [edits] at he
  | attach q i p => simp [edits] at he
  | newRoot m g =>
    have hU := held_uni h (hr.green m g rfl)
    have key : ∀ x s', NewRoot s (.node g) m x s' → ∃ v', s'.Views (cnt ([x] ++ rest ++ ([] ++ lk))) v' ∧
        (newRoot m g).Shows v (rest ++ lk) [x] v' := by
      intro x s' e3
      have hf := hv.fresh h0 e3.fresh e3.fresh
      refine ⟨_, ?_, x, rfl, hfr hf, rfl⟩
      refine HSt.Views.put (l := rest ++ lk) ((hgr e3.grows).plant fun y hy => ?_) e3.loc ?_ e3.mutable
      · refine hf.2 y ?_
        rcases List.mem_append.mp hy with hy | hy
        · exact List.mem_append_left _ (hr.mem_rest hy)
        · exact List.mem_append_right _ hy
      · simp only [View.plant, if_true, HSt.tree, e3.green]; rfl
    cases m with
    | false =>
      obtain ⟨x, s', e1, e2, e3⟩ := newRoot_ok h hU
      exact H.wp_step e1 (H.wp_pure (key x s' e3))
    | true =>
      obtain ⟨x, s', e1, e2, e3⟩ := newRootMut_ok h hU
      exact H.wp_step e1 (H.wp_pure (key x s' e3))
  | clone p =>
    obtain ⟨h1, h2⟩ := hl (x := p) (by simp [uses])
    simp only [exec, Cur.clone]
    rcases incRc_ok h h2 with e | ⟨e1, e2⟩
    · simp [H.wp, H.bind_def, e]
    · refine H.wp_bind.mpr (H.wp_step e1 (H.wp_pure (H.wp_pure ⟨v, ?_, rfl, rfl⟩)))
      refine (hokr (incRc_grows s p)).congr fun x hx => ?_
      have hp := hr.mem_rest (hr.held p (by simp [uses]))
      simp only [lost, List.nil_append, List.mem_append, List.mem_singleton] at hx ⊢
      rcases hx with (rfl | hx) | hx
      · exact .inl hp
      · exact .inl (hr.mem_rest hx)
      · exact .inr hx
  | drop p =>
    have h' : HOk s (inc (cnt (rest ++ lk)) p) := ⟨kids, h⟩
    obtain ⟨s', e1, e2, _, e4⟩ := drop_stable h'
    refine H.wp_step e1 (H.wp_pure ⟨v, ?_, rfl, rfl⟩)
    intro x hx
    obtain ⟨h1, h2, h3⟩ := hvr x hx
    obtain ⟨l, hch⟩ := h.chain x h1.live
    refine ⟨e4.loc hx h1 hch, ?_, ?_⟩
    · rw [HSt.tree, (e4 _ ⟨x, l, hx, hch, h1.chain_mem hch⟩).2.green]; exact h2
    · rw [(e4 _ ⟨x, l, hx, hch, hch.self_mem⟩).2.mutable]; exact h3
  | forget p =>
    refine H.wp_pure ⟨v, hv.congr fun x hx => ?_, rfl, rfl⟩
    simp only [lost, List.nil_append, List.mem_append, List.mem_singleton] at hx ⊢
    rcases hx with hx | rfl | hx
    · exact .inl (hr.mem_rest hx)
    · exact .inl (hr.mem_takes (by simp [takes]))
    · exact .inr hx
  | read p =>
    obtain ⟨h1, h2⟩ := hl (x := p) (by simp [uses])
    obtain ⟨h3, _⟩ := hv p h1
    simp only [exec]
    refine H.wp_step (kind_ok h h2) (H.wp_step (textRange_ok h h3) (H.wp_step (index_ok h2) ?_))
    exact H.wp_pure ⟨v, hvr, rfl, rfl⟩
  | nav f p =>
    obtain ⟨h1, h2⟩ := hl (x := p) (by simp [uses])
    obtain ⟨h3, h4, h5⟩ := hv p h1
    have := nav_wp f h0 h3 fun hn => hr.typed p (by simp [nodes, hn])
    refine H.wp_mono (H.wp_seq this ?_) (fun _ _ h => h) (fun _ _ _ => trivial)
    rintro o s' ⟨a, b⟩
    rw [h4] at b
    have hkr := a.grows.keeps _ h3.root_live.1
    have := views_found (m := v.mutable p) (fun _ _ => a.ok) (hgr a.grows) b
      (fun x _ => by rw [HSt.tree, hkr.2.green]; exact h4) (fun x e => by
        subst e
        obtain ⟨kids', ok⟩ := a.ok
        cases hsp : f.target (v.tree (v.pos p).1) (v.pos p).2 with
        | none => rw [hsp] at b; exact b.elim
        | some Q =>
          rw [hsp] at b
          have b' : s'.Loc x (v.pos p).1 Q := b
          rw [← ok.mutable_root b', hkr.2.mutable, h0.mutable_root h3]; exact h5)
    refine H.wp_pure ?_
    simpa [lost, Shows, List.append_assoc] using this
  | toNext nodes p =>
    have h' : HInv s (inc (cnt (rest ++ lk)) p) kids none [] := h
    have h2 : s.live p = true := h'.hlive p (by simp)
    have h1 : 0 < cnt (hs ++ lk) p :=
      cnt_pos.mpr (List.mem_append_left _ (hr.mem_takes (by simp [takes])))
    obtain ⟨h3, h4, h5⟩ := hv p h1
    have hsp : (if nodes then Nav.nextSibling else Nav.nextSiblingOrToken).target
        (v.tree (v.pos p).1) (v.pos p).2 =
        pick nodes (v.tree (v.pos p).1) ((v.tree (v.pos p).1).later (v.pos p).2) := by
      cases nodes with
      | false => rw [pick_false]; rfl
      | true => rw [pick_true]; rfl
    by_cases hlost : s.parent p = none ∧ s.rc p = 1 ∧ s.mutable p = false
    · refine H.wp_step (toNextOf_lost h2 hlost.1 hlost.2.1 hlost.2.2) (H.wp_pure ⟨v, ?_, ?_⟩)
      · rw [lost, if_pos hlost]
        refine hv.congr fun x hx => ?_
        simp only [Option.toList_none, List.nil_append, List.mem_append, List.mem_singleton] at hx ⊢
        rcases hx with hx | rfl | hx
        · exact .inl (hr.mem_rest hx)
        · exact .inl (hr.mem_takes (by simp [takes]))
        · exact .inr hx
      · have hnil : (v.pos p).2 = [] := (h3.unique (.root h2 hlost.1)).2
        simp only [Shows]
        rw [hsp, hnil]
        exact ⟨rfl, rfl⟩
    · refine H.wp_mono (H.wp_seq (toNextOf_wp h' h3) ?_) (fun _ _ h => h) (fun _ _ _ => trivial)
      rintro o s' ⟨a, st, b, kr⟩
      rw [h4] at b
      refine H.wp_pure ?_
      rw [lost, if_neg hlost]
      have hvs : s'.Views (cnt (rest ++ lk)) v := by
        intro x hx
        obtain ⟨h1, h2, h3⟩ := hvr x hx
        obtain ⟨l, hch⟩ := h.chain x h1.live
        refine ⟨st.loc hx h1 hch, ?_, ?_⟩
        · rw [HSt.tree, (st _ ⟨x, l, hx, hch, h1.chain_mem hch⟩).2.green]; exact h2
        · rw [(st _ ⟨x, l, hx, hch, hch.self_mem⟩).2.mutable]; exact h3
      have := views_found (m := v.mutable p) (hc := incO (cnt (rest ++ lk)) o) (fun x e => a.elim id fun a => by rw [a.1] at e; cases e) hvs b
        (fun x e => by rw [HSt.tree, (kr x e).green]; exact h4) (fun x e => by
          rcases a with ⟨kids', ok⟩ | ⟨a, _⟩
          · subst e
            cases hsp : pick nodes (v.tree (v.pos p).1) ((v.tree (v.pos p).1).later (v.pos p).2) with
            | none => rw [hsp] at b; exact b.elim
            | some Q =>
              rw [hsp] at b
              have b' : s'.Loc x (v.pos p).1 Q := b
              rw [← ok.mutable_root b', (kr x rfl).mutable, h0.mutable_root h3]; exact h5
          · rw [a] at e; cases e)
      simp only [Shows]
      rw [hsp]
      simpa [List.append_assoc] using this
  | cloneSubtree p =>
    obtain ⟨h1, h2⟩ := hl (x := p) (by simp [uses])
    obtain ⟨n, hg⟩ := node_green (hr.typed p (by simp [nodes]))
    obtain ⟨x, s', e1, e2, e3⟩ := cloneSubtree_ok h h2 hg
    have hf := hv.fresh h0 e3.fresh e3.fresh
    refine H.wp_step e1 (H.wp_pure ⟨_, ?_, x, s.tree p, rfl, hfr hf, hv.sub_eq h0 h1, rfl⟩)
    refine HSt.Views.put (l := rest ++ lk) ((hgr e3.grows).plant fun y hy => ?_) e3.loc ?_ e3.mutable
    · refine hf.2 y ?_
      rcases List.mem_append.mp hy with hy | hy
      · exact List.mem_append_left _ (hr.mem_rest hy)
      · exact List.mem_append_right _ hy
    · simp only [View.plant, if_true, HSt.tree, e3.green, hg]
  | cloneForUpdate p =>
    obtain ⟨h1, h2⟩ := hl (x := p) (by simp [uses])
    obtain ⟨n, hg⟩ := node_green (hr.typed p (by simp [nodes]))
    obtain ⟨h3, h4, h5⟩ := hv p h1
    simp only [exec]
    cases hm : s.mutable p with
    | true =>
      rw [H.wp, H.bind_def, cloneForUpdate_panic h2 hm]
      trivial
    | false =>
      refine H.wp_mono (H.wp_seq (cloneForUpdate_wp h h3 hm hg) ?_) (fun _ _ h => h)
        (fun _ _ _ => trivial)
      rintro x s' ⟨a, b⟩
      obtain ⟨r, b1, b2, b3⟩ := b.loc
      have hx : s.live x = false := by
        cases hx : s.live x with
        | false => rfl
        | true =>
          obtain ⟨l, hch⟩ := h.chain x hx
          obtain ⟨r', P', hloc⟩ := hch.loc
          have := ((b.grows.loc hloc hch).unique b1).1
          rw [← this, hloc.root_live.1] at b2; cases b2
      have hf := hv.fresh h0 hx b2
      refine H.wp_pure ⟨_, ?_, x, r, rfl, hfr hf, rfl⟩
      refine HSt.Views.put (l := rest ++ lk) ((hgr b.grows).plant fun y hy => ?_) b1 ?_ b.mutable
      · refine hf.2 y ?_
        rcases List.mem_append.mp hy with hy | hy
        · exact List.mem_append_left _ (hr.mem_rest hy)
        · exact List.mem_append_right _ hy
      · simp only [View.plant, if_true, HSt.tree, b3]; exact h4

/-- A view tells which elements are above which. -/
theorem above_iff {hc : Nat → Nat} (hv : s.Views hc v) {p q : Nat} (hp : 0 < hc p) (hq : 0 < hc q) :
    s.Above p q ↔ v.Above p q := by
  obtain ⟨h1, _⟩ := hv p hp
  obtain ⟨h2, _⟩ := hv q hq
  constructor
  · rintro ⟨r, P, Q, l1, l2⟩
    obtain ⟨a, b⟩ := h1.unique l1
    obtain ⟨c, d⟩ := h2.unique l2
    exact ⟨a.trans c.symm, by rw [b, d]; exact List.prefix_append ..⟩
  · rintro ⟨e, Q, hQ⟩
    refine ⟨_, _, Q, h1, ?_⟩
    rw [e, hQ]; exact h2

/-- Moving elements that are not above the node. -/
theorem splice_acyclic {q a b : Nat} {ins : List Nat} (h : HOk s (cnt (hs ++ lk)))
    (hr : c.Ready s Greens.held hs rest) (sp : c.Splices q a b ins) (hv : s.Views (cnt (hs ++ lk)) v)
    (hna : ∀ p ∈ ins, ¬ s.Above p q) :
    ∃ e r, c.exec s = r.map (fun _ => []) ∧ (Agrees (cnt (rest ++ lk)) s (v.splice e q a b ins) r ∧
      v.splice e q a b ins ≠ .loops ∧ (∀ y z j, v.splice e q a b ins ≠ .tangled y z j) ∨ r = .abort) := by
  obtain ⟨e, r, h0, h1, h2⟩ := exec_splice h hr sp hv
  refine ⟨e, r, h0, ?_⟩
  rcases h2 with h2 | h2
  · exact .inr h2
  · refine .inl ⟨h1, h2.2 fun p hp hx => hna p hp ?_⟩
    refine (above_iff hv ?_ ?_).mpr hx
    · exact cnt_pos.mpr (List.mem_append_left _ (hr.mem_takes (by rw [(sp.uses (s := s)).1]; exact hp)))
    · exact cnt_pos.mpr (List.mem_append_left _ (hr.mem_rest (hr.held q (by rw [(sp.uses (s := s)).2.1]; simp))))

/-- A call that edits is `detach`, or it moves elements. -/
theorem edits_cases (he : c.edits = true) : (∃ p, c = .detach p) ∨ ∃ q a b ins, c.Splices q a b ins := by
  cases c <;> simp only [Call.edits, Bool.false_eq_true] at he
  · exact .inl ⟨_, rfl⟩
  · exact .inr ⟨_, _, _, _, .splice⟩
  · exact .inr ⟨_, _, _, _, .attach⟩

end Call

/-- A freed object can be taken off the list of broken ones. -/
theorem HInv.of_bad_dead {s : HSt} {hc : Nat → Nat} {kids : Nat → List Nat} {bad : List Nat}
    (h : HInv s hc kids none bad) (hb : ∀ p ∈ bad, s.live p = false) : HInv s hc kids none [] :=
  { h with
    greenOk := fun p q hl hp _ => h.greenOk p q hl hp fun hm => by rw [hb p hm] at hl; cases hl }

theorem HInv.init (gtop slack : Nat) :
    @HInv ⟨[]⟩ { HSt.empty gtop with slack := slack } (cnt []) (fun _ => []) none [] := by
  letI : Greens := ⟨[]⟩
  generalize hs : ({ HSt.empty gtop with slack := slack } : HSt) = s
  have hl : ∀ {p}, s.live p = true → False := fun hp => by rw [← hs] at hp; cases hp
  have ho : s.owned = [] := by rw [← hs]; rfl
  have ha : ∀ {x}, s.Alive x → False := by
    rintro x ⟨o, h, _⟩; rw [ho] at h; cases h
  replace ha : ∀ {x}, s.Known x → False := by
    rintro x (h | ⟨o, h, _⟩)
    · exact ha h
    · cases h
  exact {
    top := fun p hp => (hl hp).elim
    hlive := fun p hp => by simp [cnt] at hp
    rc := fun p hp => (hl hp).elim
    pos := fun p hp => (hl hp).elim
    rcLe := fun p hp => (hl hp).elim
    kidsMem := fun p q => ⟨fun h => (List.not_mem_nil h).elim, fun h => (hl h.1).elim⟩
    kidsNodup := fun _ => List.nodup_nil
    parentOk := fun p _ hp => (hl hp).elim
    parNode := fun p _ hp => (hl hp).elim
    greenOk := fun p _ hp => (hl hp).elim
    rootOff := fun p hp => (hl hp).elim
    chain := fun p hp => (hl hp).elim
    ringM := fun p hp => (hl hp).elim
    selfM := fun p hp => (hl hp).elim
    firstI := fun p hp => (hl hp).elim
    roots := ⟨[], List.nodup_nil, fun p => ⟨fun h => (List.not_mem_nil h).elim, fun h => (hl h.1).elim⟩,
      by rw [ho]; exact .nil⟩
    uni := ⟨fun x y hx => (ha hx).elim, fun x hx => (ha hx).elim, fun x hx => (ha hx).elim,
      fun x hx => (ha hx).elim⟩ }

/-- The invariant depends on the green nodes and tokens of the program only through `Uni`. -/
theorem HInv.greens {s : HSt} {hc : Nat → Nat} {kids : Nat → List Nat} {gs : List GElem} {lo : Nat}
    (h : HInv s hc kids none []) (hu : @Uni (@HSt.Known ⟨gs⟩ s) lo) :
    @HInv ⟨gs⟩ { s with gtop := lo } hc kids none [] := by
  obtain ⟨h1, h2, h3, h4, h5, h6, h7, h8, h9, h10, h11, h12, h13, h14, h15, h16, _⟩ := h
  refine @HInv.mk ⟨gs⟩ _ _ _ _ _ h1 h2 h3 h4 h5 h6 h7 h8 h9 h10 h11 (fun p hl => ?_) (fun p hl hm => ?_) h14 h15
    h16 hu
  · obtain ⟨l, hch⟩ := h12 p hl
    exact ⟨l, hch.congr fun w hw => ⟨hch.live_of_mem hw, rfl⟩⟩
  · exact ⟨(h13 p hl hm).head, (h13 p hl hm).ring, (h13 p hl hm).sorted⟩

/-- A new green token at a fresh address. -/
theorem Uni.addToken {U : GElem → Prop} {lo : Nat} (h : Uni U lo) (k : SyntaxKind) (text : List Char) :
    Uni (fun x => U x ∨ x = .token ⟨lo, k, text⟩) (lo + 1) := by
  have haddr : ∀ x, U x → x.addr ≠ lo := fun x hx e => by
    have := h.fresh x hx; omega
  constructor
  · rintro x y (hx | rfl) (hy | rfl) e
    · exact h.coh x y hx hy e
    · exact absurd e (haddr x hx)
    · exact absurd e.symm (haddr y hy)
    · rfl
  · rintro x (hx | rfl)
    · have := h.fresh x hx; omega
    · exact Nat.lt_succ_self lo
  · rintro x (hx | rfl) y hy
    · exact .inl (h.closed x hx y hy)
    · right; simpa [GElem.subs] using hy
  · rintro x (hx | rfl)
    · exact h.wf x hx
    · simp [GElem.WF]

/-- The invariant holds in every reachable state. -/
theorem HReach.ok' {s : HSt} {gs : List GElem} {hs lk : List Nat} (h : HReach s gs hs lk) :
    @HOk ⟨gs⟩ s (cnt (hs ++ lk)) := by
  induction h with
  | init gtop slack => exact ⟨_, HInv.init gtop slack⟩
  | @token s gs hs lk k text _ ih =>
    letI : Greens := ⟨gs⟩
    obtain ⟨kids, h⟩ := ih
    refine ⟨kids, h.greens ((h.uni.addToken k text).mono (Nat.le_refl _) ?_ fun x hx y hy => ?_)⟩
    · rintro x (hx | ⟨o, ho, hx⟩)
      · exact .inl (.inl hx)
      · rcases List.mem_cons.mp ho with rfl | ho
        · right; simpa [GElem.subs] using hx
        · exact .inl (.inr ⟨o, ho, hx⟩)
    · exact @HSt.Known.subs ⟨_⟩ _ _ _ hx hy
  | @node s gs hs lk k es _ hes ih =>
    letI : Greens := ⟨gs⟩
    obtain ⟨kids, h⟩ := ih
    have hu := h.uni.extend (k := k) (es := es) fun e he =>
      .inr ⟨e, hes e he, GElem.self_mem_subs e⟩
    refine ⟨kids, h.greens (hu.mono (Nat.le_refl _) ?_ fun x hx y hy => ?_)⟩
    · rintro x (hx | ⟨o, ho, hx⟩)
      · exact .inl (.inl hx)
      · rcases List.mem_cons.mp ho with rfl | ho
        · exact hu.closed _ (.inr rfl) x hx
        · exact .inl (.inr ⟨o, ho, hx⟩)
    · exact @HSt.Known.subs ⟨_⟩ _ _ _ hx hy
  | @green s gs hs lk p _ hp ih =>
    letI : Greens := ⟨gs⟩
    obtain ⟨kids, h⟩ := ih
    refine ⟨kids, h.greens (h.uni.mono (Nat.le_refl _) ?_ fun x hx y hy => ?_)⟩
    · rintro x (hx | ⟨o, ho, hx⟩)
      · exact .inl hx
      · rcases List.mem_cons.mp ho with rfl | ho
        · exact .inl (HInv.alive_subs (h.alive (h.hlive p (cnt_pos.mpr (List.mem_append_left _ hp)))) hx)
        · exact .inr ⟨o, ho, hx⟩
    · exact @HSt.Known.subs ⟨_⟩ _ _ _ hx hy
  | @sub s gs hs lk e x _ he hx ih =>
    letI : Greens := ⟨gs⟩
    obtain ⟨kids, h⟩ := ih
    refine ⟨kids, h.greens (h.uni.mono (Nat.le_refl _) ?_ fun x hx y hy => ?_)⟩
    · rintro y (hy | ⟨o, ho, hy⟩)
      · exact .inl hy
      · rcases List.mem_cons.mp ho with rfl | ho
        · exact .inr ⟨e, he, GElem.subs_trans hx hy⟩
        · exact .inr ⟨o, ho, hy⟩
    · exact @HSt.Known.subs ⟨_⟩ _ _ _ hx hy
  | @dropGreen s gs gs' hs lk _ hle ih =>
    letI : Greens := ⟨gs⟩
    obtain ⟨kids, h⟩ := ih
    refine ⟨kids, h.greens (h.uni.mono (Nat.le_refl _) ?_ fun x hx y hy => ?_)⟩
    · rintro y (hy | ⟨o, ho, hy⟩)
      · exact .inl hy
      · exact .inr ⟨o, hle o ho, hy⟩
    · exact @HSt.Known.subs ⟨_⟩ _ _ _ hx hy
  | @ok s gs hs lk rest new s' c _ hr e ih =>
    letI : Greens := ⟨gs⟩
    cases he : c.edits with
    | false => exact (Call.wp_result (Call.exec_stable ih hr he) e).1
    | true =>
      obtain ⟨kids, hi⟩ := ih
      obtain ⟨v, hv⟩ := HSt.Views.exists_view hi
      rcases Call.edits_cases he with ⟨p, rfl⟩ | ⟨q, a, b, ins, sp⟩
      · obtain ⟨h1, h2⟩ := Call.exec_detach ⟨kids, hi⟩ hr hv
        cases hm : s.mutable p with
        | true =>
          obtain ⟨s1, e1, e2, _⟩ := h1 hm
          rw [e] at e1; cases e1
          exact e2
        | false => rw [e] at h2; cases h2 hm
      · obtain ⟨x, r, h0, h1, _⟩ := Call.exec_splice ⟨kids, hi⟩ hr sp hv
        obtain ⟨_, rfl, rfl⟩ := HOut.map_ok (h0.symm.trans e)
        rw [sp.uses.2.2.2.2]
        rcases h1 with h1 | h1
        · cases h1
        · split at h1
          · obtain ⟨_, a, b, _⟩ := h1; cases a; exact b
          · obtain ⟨_, a, b, _⟩ := h1; cases a
          · obtain ⟨_, _, a, b, _⟩ := h1; cases a
          · cases h1
          · obtain ⟨_, _, a, _⟩ := h1; cases a
  | @caught s gs hs lk rest s' c _ hr e ih =>
    letI : Greens := ⟨gs⟩
    cases he : c.edits with
    | false =>
      have := Call.exec_stable ih hr he
      simp only [H.wp, e] at this
      obtain ⟨_, rfl, ht⟩ := this
      have := hr.cnt_eq (lk := lk)
      rw [ht] at this
      rw [this] at ih
      exact ih
    | true =>
      obtain ⟨kids, hi⟩ := ih
      obtain ⟨v, hv⟩ := HSt.Views.exists_view hi
      rcases Call.edits_cases he with ⟨p, rfl⟩ | ⟨q, a, b, ins, sp⟩
      · obtain ⟨h1, h2⟩ := Call.exec_detach ⟨kids, hi⟩ hr hv
        cases hm : s.mutable p with
        | true =>
          obtain ⟨s1, e1, e2, _⟩ := h1 hm
          rw [e] at e1; cases e1
        | false =>
          rw [h2 hm] at e; cases e
          have := hr.cnt_eq (lk := lk)
          rw [this] at hi
          exact ⟨kids, hi⟩
      · obtain ⟨x, r, h0, h1, _⟩ := Call.exec_splice ⟨kids, hi⟩ hr sp hv
        cases HOut.map_panic (h0.symm.trans e)
        rcases h1 with h1 | h1
        · cases h1
        · split at h1
          · obtain ⟨_, a, b, _⟩ := h1; cases a
          · obtain ⟨_, a, b, _⟩ := h1; cases a; exact b
          · obtain ⟨_, _, a, b, _⟩ := h1; cases a
          · cases h1
          · obtain ⟨_, _, a, _⟩ := h1; cases a
  | @unwound s gs hs lk rest s' q a b ins c _ hr sp e hd ih =>
    letI : Greens := ⟨gs⟩
    obtain ⟨kids, hi⟩ := ih
    obtain ⟨v, hv⟩ := HSt.Views.exists_view hi
    obtain ⟨x, r, h0, h1, _⟩ := Call.exec_splice ⟨kids, hi⟩ hr sp hv
    cases HOut.map_panic (h0.symm.trans e)
    rcases h1 with h1 | h1
    · cases h1
    · split at h1
      · obtain ⟨_, a, b, _⟩ := h1; cases a
      · obtain ⟨_, a, b, _⟩ := h1; cases a
      · rename_i w p j ho
        obtain ⟨_, k, a, _, hn⟩ := h1; cases a
        obtain ⟨hp, hj⟩ := View.splice_outOfRange ho
        obtain ⟨b, _, _, _, ht⟩ := hn (by have := hd.1; omega)
        refine ⟨k, b.of_bad_dead fun y hy => ?_⟩
        rw [List.mem_singleton.mp hy]
        cases hl : s'.live p with
        | false => rfl
        | true =>
          obtain ⟨y, hy⟩ := ht hl
          exact absurd hy (hd.2 p hp y)
      · cases h1
      · rename_i y p j ho
        obtain ⟨_, _, a, _, _, _, _, b⟩ := h1; cases a
        obtain ⟨_, hp, hj⟩ := View.splice_tangled ho
        exact absurd (b (by have := hd.1; omega)) (hd.2 p hp y)

end Rowan
