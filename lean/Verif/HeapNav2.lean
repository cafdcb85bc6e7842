import Verif.HeapNav
import Verif.Spec.Heap
/-!
# Navigation on the cursor heap: results

Unless their comments cite lines of `/repo`, the definitions in this file are vocabulary of the proofs and model no code.
-/
namespace Rowan
set_option linter.unusedSectionVars false
variable [Greens]

namespace HSt.Loc
variable {s : HSt}

theorem live {p r : Nat} {P : List Nat} (h : s.Loc p r P) : s.live p = true := by
  cases h <;> assumption

theorem unique {p r r' : Nat} {P P' : List Nat} (h : s.Loc p r P) (h' : s.Loc p r' P') :
    r = r' ∧ P = P' := by
  induction h generalizing P' with
  | root hl hp =>
    cases h' with
    | root => exact ⟨rfl, rfl⟩
    | child _ hp' => rw [hp] at hp'; cases hp'
  | child hl hp hc ih =>
    cases h' with
    | root _ hp' => rw [hp] at hp'; cases hp'
    | child _ hp' hc' =>
      rw [hp] at hp'; cases hp'
      obtain ⟨rfl, rfl⟩ := ih hc'
      exact ⟨rfl, rfl⟩

theorem root_live {p r : Nat} {P : List Nat} (h : s.Loc p r P) :
    s.live r = true ∧ s.parent r = none := by
  induction h with
  | root hl hp => exact ⟨hl, hp⟩
  | child _ _ _ ih => exact ih

theorem chain_mem {p r : Nat} {P : List Nat} {l : List Nat} (h : s.Loc p r P) (hc : Chain s p l) :
    r ∈ l := by
  induction h generalizing l with
  | root => exact hc.self_mem
  | child hl hp hq ih =>
    cases hc with
    | root _ hp' => rw [hp] at hp'; cases hp'
    | step _ hp' hc' => rw [hp] at hp'; cases hp'; exact List.mem_cons_of_mem _ (ih hc')

end HSt.Loc

theorem Chain.loc {s : HSt} {p : Nat} {l : List Nat} (h : Chain s p l) : ∃ r P, s.Loc p r P := by
  induction h with
  | root hl hp => exact ⟨_, _, .root hl hp⟩
  | step hl hp hc ih =>
    obtain ⟨r, P, h⟩ := ih
    exact ⟨r, _, .child hl hp h⟩

/-- Chains and positions survive when the objects on the chain keep their place. -/
theorem HSt.Loc.congr {s s' : HSt} {p r : Nat} {P : List Nat} {l : List Nat} (h : s.Loc p r P)
    (hc : Chain s p l)
    (hk : ∀ x ∈ l, s'.live x = true ∧ s'.parent x = s.parent x ∧ s'.index x = s.index x) :
    s'.Loc p r P := by
  induction h generalizing l with
  | @root p hl hp =>
    obtain ⟨h1, h2, _⟩ := hk p hc.self_mem
    exact .root h1 (h2.trans hp)
  | @child p q r path hl hp hq ih =>
    obtain ⟨h1, h2, h3⟩ := hk p hc.self_mem
    cases hc with
    | root _ hp' => rw [hp] at hp'; cases hp'
    | step _ hp' hc' =>
      rw [hp] at hp'; cases hp'
      rw [← h3]
      exact .child h1 (h2.trans hp) (ih hc' fun x hx => hk x (List.mem_cons_of_mem _ hx))

theorem Grows.loc {s s' : HSt} (h : Grows s s') {p r : Nat} {P : List Nat} {l : List Nat}
    (hl : s.Loc p r P) (hc : Chain s p l) : s'.Loc p r P :=
  hl.congr hc fun x hx => by
    obtain ⟨h1, h2⟩ := h.keeps x (hc.live_of_mem hx)
    exact ⟨h1, h2.parent, h2.index⟩

/-- A step of navigation: objects may have been added; counts go from `hc` to `hc'`. -/
structure NavStep (s : HSt) (s' : HSt) (hc' : Nat → Nat) : Prop where
  ok : HOk s' hc'
  grows : Grows s s'
  owned : s'.owned = s.owned
  gtop : s'.gtop = s.gtop

namespace HInv
variable {s : HSt} {hc : Nat → Nat} {kids : Nat → List Nat} {z : Option Nat}

/-- The subtree at the position of `p` is the content of `p`. -/
theorem tree_at (h : HInv s hc kids z []) {p r : Nat} {P : List Nat} (hl : s.Loc p r P) :
    (s.tree r).at? P = some (s.tree p) := by
  induction hl with
  | root => simp
  | @child p q r path hl hp hq ih =>
    obtain ⟨n, c, h1, h2, h3, _⟩ := h.greenOk p q hl hp (by simp)
    rw [Tree.at?_snoc, ih]
    simp only [Option.bind_some, HSt.tree, h1, GElem.tree_node, GNode.tree_children,
      List.getElem?_map, GNode.slice_getElem?, h2, Option.map_some, h3]

theorem node_wf (h : HInv s hc kids z []) {p : Nat} {n : GNode} (hl : s.live p = true)
    (hg : s.green p = .node n) : n.WF := by
  have := h.uni.wf _ (.inl (h.alive hl))
  rw [hg] at this; exact this

theorem before_child (h : HInv s hc kids z []) {q r i : Nat} {P : List Nat} {n : GNode} {c : GChild}
    (hq : s.Loc q r P) (h1 : s.green q = .node n) (h2 : n.slice[i]? = some c) :
    blen ((s.tree r).before (P ++ [i])) = blen ((s.tree r).before P) + c.relOffset := by
  rw [Tree.before_snoc (h.tree_at hq), blen_append, GNode.relOffset_eq (h.node_wf hq.live h1) h2]
  have : s.tree q = n.tree := by rw [HSt.tree, h1]; rfl
  rw [this]

theorem offset_imm (h : HInv s hc kids z []) {p r : Nat} {P : List Nat} (hl : s.Loc p r P)
    (hm : s.mutable p = false) : s.offset p = blen ((s.tree r).before P) := by
  induction hl with
  | root hl hp => rw [h.rootOff _ hl hp hm]; simp [Tree.before]
  | @child p q r path hl hp hq ih =>
    obtain ⟨n, c, h1, h2, h3, h4⟩ := h.greenOk p q hl hp (by simp)
    obtain ⟨_, hmq⟩ := h.parentOk p q hl hp
    rw [h.before_child hq h1 h2, h4 hm, ih (hmq.trans hm)]

end HInv

namespace Cur
variable {s : HSt} {hc : Nat → Nat} {kids : Nat → List Nat} {z : Option Nat}

theorem green_ok (h : HInv s hc kids z []) {p : Nat} (hl : s.live p = true) :
    green p s = .ok (s.green p) s := by
  simp only [green]
  rw [H.bind_ok (H.rd_ok hl), H.bind_ok (HInv.derefG_ok (h.alive hl))]
  rfl

theorem unwrap_ok {α : Type} {o : Option α} {a : α} (h : o = some a) : H.unwrap o s = .ok a s := by
  subst h; rfl

theorem greenRef_ok (h : HInv s hc kids z []) {p : Nat} {n : GNode} (hl : s.live p = true)
    (hg : s.green p = .node n) : greenRef p s = .ok n s := by
  simp only [greenRef]
  rw [H.bind_ok (green_ok h hl), hg]
  rfl

theorem offsetMut_ok (h : HInv s hc kids z []) : ∀ (fuel : Nat) (p : Nat) (l : List Nat) (acc r : Nat)
    (P : List Nat), s.Loc p r P → Chain s p l → l.length ≤ fuel →
    offsetMut fuel p acc s = .ok (acc + blen ((s.tree r).before P)) s := by
  intro fuel
  induction fuel with
  | zero =>
    intro p l acc r P _ hch hlen
    exact absurd (List.eq_nil_of_length_eq_zero (by omega)) hch.ne_nil
  | succ fuel ih =>
    intro p l acc r P hloc hch hlen
    simp only [offsetMut]
    rw [H.bind_ok (H.rd_ok hloc.live)]
    cases hloc with
    | root hl hp => rw [hp]; simp [Tree.before]
    | @child _ q _ path hl hp hq =>
      rw [hp]
      simp only []
      obtain ⟨n, c, h1, h2, h3, h4⟩ := h.greenOk p q hl hp (by simp)
      rw [H.bind_ok (greenRef_ok h hq.live h1), H.bind_ok (H.rd_ok hl), H.bind_ok (unwrap_ok h2)]
      cases hch with
      | root _ hp' => rw [hp] at hp'; cases hp'
      | step _ hp' hc' =>
        rw [hp] at hp'; cases hp'
        rw [ih q _ _ r path hq hc' (by simpa using hlen), h.before_child hq h1 h2]
        congr 1; omega

theorem offset_ok (h : HInv s hc kids z []) {p r : Nat} {P : List Nat} (hl : s.Loc p r P) :
    offset p s = .ok (blen ((s.tree r).before P)) s := by
  simp only [offset]
  rw [H.bind_ok (H.rd_ok hl.live)]
  cases hm : s.mutable p with
  | false =>
    simp only [Bool.false_eq_true, if_false]
    rw [H.rd_ok hl.live, h.offset_imm hl hm]
  | true =>
    simp only [if_true, H.loop_apply]
    obtain ⟨l, hch⟩ := h.chain p hl.live
    rw [offsetMut_ok h _ p l 0 r P hl hch (by have := hch.length_le h.top; omega)]
    simp

theorem linkSpec_ne {q i : Nat} {l : List Nat} {r : Sll.AddRes} (hr : Sll.LinkSpec s q l i r)
    (hs : l.Pairwise (fun a b => s.index a < s.index b)) (hna : ∀ c, r ≠ .alreadyInSll c) :
    ∀ x ∈ l, s.index x ≠ i := by
  rcases hr with ⟨rfl, rfl⟩ | ⟨a, l', rfl, hk, rfl⟩ | ⟨l1, c, l2, rfl, hc, h2, rfl⟩ | ⟨c, _, _, rfl⟩
  · simp
  · intro x hx
    rcases List.mem_cons.mp hx with rfl | hx
    · omega
    · have := (List.pairwise_cons.mp hs).1 x hx; omega
  · intro x hx
    rw [List.pairwise_append] at hs
    rcases List.mem_append.mp hx with hx | hx
    · have := hs.2.2 x hx c (by simp); omega
    · rcases List.mem_cons.mp hx with rfl | hx
      · omega
      · have := h2 x hx; omega
  · exact absurd rfl (hna c)

theorem insertAt_perm {p : Nat} {l : List Nat} {key : Nat → Nat} (h : ∀ x ∈ l, key x ≠ key p) :
    (Sll.insertAt p l key).Perm (p :: l) := by
  have : l.filter (fun x => decide (key p < key x)) = l.filter (fun x => !decide (key x < key p)) := by
    apply List.filter_congr
    intro x hx
    have h1 := h x hx
    have h2 : (key p < key x) ↔ ¬ (key x < key p) := by omega
    simp only [h2, decide_not]
  rw [Sll.insertAt, this]
  exact (List.perm_middle).trans ((List.filter_append_perm _ l).cons p)

theorem newChild_ok {q i off : Nat} {n : GNode} {c : GChild} (h : HInv s (inc hc q) kids none [])
    (hg : s.green q = .node n) (hi : n.slice[i]? = some c)
    (ho : s.mutable q = false → off = s.offset q + c.relOffset) :
    H.wp (newChild c.asRef q i off) s (fun r s' => NavStep s s' (inc hc r) ∧
      s'.live r = true ∧ s'.parent r = some q ∧ s'.index r = i ∧ s'.green r = c.asRef ∧
      s'.mutable r = s.mutable q ∧ (s.mutable q = false → r = s.top)) (fun _ _ => False) := by
  have hlq : s.live q = true := h.hlive q (by simp)
  have htd := top_dead h
  have hqt : q ≠ s.top := by rintro e; rw [e, htd] at hlq; cases hlq
  have grows : ∀ N P F, Grows s (s.allocd (some q) i off c.asRef (s.mutable q) N P F) := by
    intro N P F
    refine ⟨fun x hx => ?_, Nat.le_succ _⟩
    have hxt : x ≠ s.top := by rintro rfl; rw [htd] at hx; cases hx
    simp only [HSt.allocd, upd_other _ _ hxt]
    exact ⟨hx, by simp only [upd_other _ _ hxt], by simp only [upd_other _ _ hxt],
      by simp only [upd_other _ _ hxt], by simp only [upd_other _ _ hxt],
      by simp only [upd_other _ _ hxt]⟩
  simp only [newChild]
  refine H.wp_step (H.rd_ok hlq) ?_
  cases hm : s.mutable q with
  | false =>
    simp only [newData, Bool.false_eq_true, if_false]
    have hst : alloc (some q) i off c.asRef false s = .ok s.top
        (s.allocd (some q) i off c.asRef (s.mutable q) (upd s.next s.top none)
          (upd s.prev s.top none) (upd s.first s.top none)) := by rw [hm]; rfl
    refine H.wp_ok hst ⟨⟨⟨_, inv_child h hg hi ho (List.Perm.refl _) ?_ ?_ ?_ ?_ ?_⟩, grows _ _ _,
      rfl, rfl⟩, ?_, ?_, ?_, ?_, ?_, fun _ => rfl⟩
    · intro x _ hx; simp [upd_other _ _ hx]
    · intro x _ hx; simp [upd_other _ _ hx]
    · simp
    · intro _; simp [upd_other _ _ hqt]
    · intro e; rw [hm] at e; cases e
    all_goals simp [HSt.allocd, hm]
  | true =>
    simp only [newData, if_true, Sll.init]
    have hlist := h.ringM q hlq hm
    obtain ⟨res, hr1, hr2⟩ := Sll.link_ok i hlist hlq (fun x hx => h.kid_live hx)
      (fun x hx => h.kid_top hx)
    refine H.wp_step hr1 ?_
    by_cases hal : ∃ node, res = .alreadyInSll node
    · obtain ⟨node, rfl⟩ := hal
      have hn : node ∈ kids q ∧ s.index node = i := by
        rcases hr2 with ⟨_, e⟩ | ⟨_, _, _, _, e⟩ | ⟨_, _, _, _, _, _, e⟩ | ⟨c, h1, h2, e⟩
        · cases e
        · cases e
        · cases e
        · cases e; exact ⟨h1, h2⟩
      obtain ⟨hk, hidx⟩ := hn
      obtain ⟨hln, hpn⟩ := (h.kidsMem q node).mp hk
      obtain ⟨n', c', g1, g2, g3, _⟩ := h.greenOk node q hln hpn (by simp)
      rw [hg] at g1; cases g1
      rw [hidx, hi] at g2; cases g2
      have hal : s.Alive c.asRef := by rw [g3]; exact h.alive hln
      simp only []
      refine H.wp_step (H.rd_ok hln) (H.wp_step (H.dbg_ok (by simp [hidx]))
        (H.wp_step (H.rd_ok hln) ?_))
      refine H.wp_step (HInv.derefG_ok (h.alive hln)) (H.wp_step (HInv.derefG_ok hal) ?_)
      refine H.wp_step (H.dbg_ok (by rw [← g3]; cases c <;> simp [sameGreen])) ?_
      have hrc : 1 < s.rc q := by
        rw [h.rc q hlq, inc_same]; have := List.length_pos_of_mem hk; omega
      obtain ⟨d1, d2⟩ := drop_shared h hrc
      have d1' : dropOpt (some q) s = .ok () (s.setRc q (s.rc q - 1)) := d1
      refine H.wp_step d1' ?_
      rcases incRc_ok d2 (p := node) hln with e | ⟨e1, e2⟩
      · simp [H.wp, H.bind_def, e]
      · refine H.wp_step e1 (H.wp_pure ⟨⟨⟨_, e2⟩, ⟨fun x hx => ⟨hx, rfl, rfl, rfl, rfl, rfl⟩,
          Nat.le_refl _⟩, rfl, rfl⟩, hln, hpn, hidx, g3.symm, ?_, by simp⟩)
        exact (h.parentOk node q hln hpn).2.symm.trans hm
    · have hna : ∀ node, res ≠ .alreadyInSll node := fun node e => hal ⟨node, e⟩
      have hst : alloc (some q) i off c.asRef true s = .ok s.top
          (s.allocd (some q) i off c.asRef (s.mutable q) (upd s.next s.top none)
            (upd s.prev s.top none) (upd s.first s.top none)) := by rw [hm]; rfl
      generalize hs1 : (s.allocd (some q) i off c.asRef (s.mutable q) (upd s.next s.top none)
            (upd s.prev s.top none) (upd s.first s.top none)) = s1 at hst
      have hnt : ∀ x ∈ kids q, x ≠ s.top := by
        intro x hx e; have := h.kid_live hx; rw [e, htd] at this; cases this
      have hidx1 : ∀ x ∈ kids q, s1.index x = s.index x := by
        intro x hx; simp only [← hs1, HSt.allocd, upd_other _ _ (hnt x hx)]
      have hlist1 : IsList s1 q (kids q) := by
        refine ⟨?_, ?_, ?_⟩
        · simp only [← hs1, HSt.allocd, upd_other _ _ hqt]; exact hlist.head
        · refine ring_frame (fun x hx => ?_) (fun x hx => ?_) hlist.ring <;>
            simp only [← hs1, HSt.allocd, upd_other _ _ (hnt x hx)]
        · refine hlist.sorted.imp_of_mem fun {a b} ha hb hab => ?_
          rw [hidx1 a ha, hidx1 b hb]; exact hab
      have ti : s1.index s.top = i := by simp [← hs1, HSt.allocd]
      have hr3 : Sll.LinkSpec s1 q (kids q) (s1.index s.top) res := by
        rw [ti]
        rcases hr2 with e | ⟨a, l', e1, e2, e3⟩ | ⟨l1, c, l2, e1, e2, e3, e4⟩ | ⟨c, e1, e2, e3⟩
        · exact .inl e
        · exact .inr (.inl ⟨a, l', e1, by rw [hidx1 a (by rw [e1]; simp)]; exact e2, e3⟩)
        · refine .inr (.inr (.inl ⟨l1, c, l2, e1, ?_, ?_, e4⟩))
          · rw [hidx1 c (by rw [e1]; simp)]; exact e2
          · intro x hx; rw [hidx1 x (by rw [e1]; simp [hx])]; exact e3 x hx
        · exact absurd e3 (hna c)
      have hne := linkSpec_ne hr3 hlist1.sorted hna
      have hl1 : ∀ x, s1.live x = true ↔ x = s.top ∨ s.live x = true := by
        intro x
        simp only [← hs1, HSt.allocd, upd_apply]
        by_cases e : x = s.top <;> simp [e]
      obtain ⟨N, P, F, a1, a2, a3, a4⟩ := Sll.add_ok hlist1 ((hl1 q).mpr (.inr hlq))
        (fun x hx => (hl1 x).mpr (.inr (h.kid_live hx))) ((hl1 s.top).mpr (.inl rfl))
        (fun hx => hnt _ hx rfl) hr3 hna
      have hgoal : H.wp (do let p ← alloc (some q) i off c.asRef true; res.addToSll p; pure p) s
          (fun r s' => NavStep s s' (inc hc r) ∧ s'.live r = true ∧ s'.parent r = some q ∧
            s'.index r = i ∧ s'.green r = c.asRef ∧ s'.mutable r = true ∧ (true = false → r = s.top))
          (fun _ _ => False) := by
        refine H.wp_step hst (H.wp_step a1 (H.wp_pure ?_))
        have hst2 : ({ s1 with next := N, prev := P, first := F } : HSt) =
            s.allocd (some q) i off c.asRef (s.mutable q) N P F := by rw [← hs1]; rfl
        rw [hst2] at a4 ⊢
        refine ⟨⟨⟨_, inv_child h hg hi ho (insertAt_perm hne) ?_ ?_ ?_ ?_ ?_⟩, grows _ _ _,
          rfl, rfl⟩, ?_, ?_, ?_, ?_, ?_, by simp⟩
        · intro x hx hxt
          obtain ⟨b1, b2⟩ := a2 x hx hxt
          rw [b1, b2]
          simp only [← hs1, HSt.allocd, upd_other _ _ hxt, and_self]
        · intro x hx hxt
          rw [a3 x hx]
          simp only [← hs1, HSt.allocd, upd_other _ _ hxt]
        · rw [a3 _ (Ne.symm hqt)]
          simp [← hs1, HSt.allocd]
        · intro e; rw [hm] at e; cases e
        · intro _; exact a4
        all_goals simp [HSt.allocd, hm]
      cases res <;> first | exact hgoal | exact absurd rfl (hna _)

end Cur
end Rowan
