import Verif.HeapCounted
/-!
# Attaching a tree below itself never returns

Unless their comments cite lines of `/repo`, the definitions in this file are vocabulary of the proofs and model no code.
-/
namespace Rowan
set_option linter.unusedSectionVars false
variable [Greens]
namespace Cur
variable {s : HSt} {hc : Nat → Nat} {kids : Nat → List Nat}

/-- `respine` is about to give `node` the new green node `cur`, and following `parent` from `node` never
leaves `C`. -/
structure Cycle (s : HSt) (C : List Nat) (node : Nat) (cur : GNode) : Prop where
  mem : node ∈ C
  step : ∀ x ∈ C, s.live x = true ∧ (∃ n, s.green x = .node n) ∧ ∃ y ∈ C, s.parent x = some y
  subs : ∀ x ∈ C, s.green x ∈ GElem.subs (.node cur)
  lt : ∀ x ∈ C, ∀ y, s.parent x = some y → ∀ n,
    (if y = node then .node cur else s.green y) = .node n → s.index x < n.children.length
  own : .node cur ∈ s.owned
  addr : cur.addr < s.gtop

theorem respine_cycle : ∀ (fuel : Nat) (s : HSt) (C : List Nat) (node : Nat) (cur : GNode),
    Cycle s C node cur → respine fuel node cur s = .diverge := by
  intro fuel
  induction fuel with
  | zero => intros; rfl
  | succ fuel ih =>
    intro s C node cur h
    obtain ⟨hl, ⟨n0, hg0⟩, y, hy, hpy⟩ := h.step node h.mem
    obtain ⟨hly, ⟨ny, hgy⟩, _⟩ := h.step y hy
    simp only [respine]
    rw [H.bind_ok (H.rd_ok hl), H.bind_ok (unwrap_ok (a := n0) (by rw [hg0]; rfl)), H.bind_ok (H.wr_ok hl)]
    generalize hs1 : s.setGreen node (.node cur) = s1
    have a1 : s1.live = s.live := by rw [← hs1]; rfl
    have a2 : s1.parent = s.parent := by rw [← hs1]; rfl
    have a3 : s1.index = s.index := by rw [← hs1]; rfl
    have a4 : s1.owned = s.owned := by rw [← hs1]; rfl
    have a5 : s1.gtop = s.gtop := by rw [← hs1]; rfl
    have a6 : ∀ x, s1.green x = if x = node then .node cur else s.green x := by
      intro x; rw [← hs1]; exact upd_apply ..
    have hl1 : s1.live node = true := by rw [a1]; exact hl
    rw [H.bind_ok (H.rd_ok hl1), a2, hpy]
    simp only []
    -- greens after the write
    have hgreen : ∀ x ∈ C, ∃ n, s1.green x = .node n := by
      intro x hx
      rw [a6]
      by_cases e : x = node
      · exact ⟨cur, if_pos e⟩
      · rw [if_neg e]; exact (h.step x hx).2.1
    have hsub : ∀ x ∈ C, s1.green x ∈ GElem.subs (.node cur) := by
      intro x hx
      rw [a6]
      by_cases e : x = node
      · rw [if_pos e]; exact GElem.self_mem_subs _
      · rw [if_neg e]; exact h.subs x hx
    obtain ⟨pg, hpg⟩ := hgreen y hy
    have hly1 : s1.live y = true := by rw [a1]; exact hly
    have hali : s1.Alive (s1.green y) := ⟨_, by rw [a4]; exact h.own, hsub y hy⟩
    have hgr : greenRef y s1 = .ok pg s1 := by
      simp only [greenRef]
      have : green y s1 = .ok (.node pg) s1 := by
        simp only [green]
        rw [H.bind_ok (H.rd_ok hly1), H.bind_ok (HInv.derefG_ok hali), hpg]
        rfl
      rw [H.bind_ok this]; rfl
    have hidx : index node s1 = .ok (s.index node) s1 := by rw [index, H.rd_ok hl1, a3]
    rw [H.bind_ok hgr, H.bind_ok hidx]
    have hlt : s.index node < pg.children.length := by
      refine h.lt node h.mem y hpy pg ?_
      rw [← a6]; exact hpg
    have hfr : H.freshG s1 = .ok s.gtop { s1 with gtop := s.gtop + 1 } := by rw [H.freshG, a5]
    rw [H.bind_ok hfr]
    generalize hN : pg.replaceChild s.gtop (s.index node) (.node cur) = N
    have hNa : N.addr = s.gtop := by rw [← hN]; rfl
    have hNc : N.children = pg.children.set (s.index node) (.node cur) := by
      rw [← hN, GNode.replaceChild_children]
    have hne : (GElem.addr (.node N) == GElem.addr (.node cur)) = false := by
      have := h.addr
      refine beq_false_of_ne ?_
      show N.addr ≠ cur.addr
      omega
    have hany : s.owned.any (·.addr == GElem.addr (.node cur)) = true :=
      List.any_eq_true.mpr ⟨_, h.own, by simp⟩
    have hown : H.own (.node N) { s1 with gtop := s.gtop + 1 } = .ok () { s1 with
        gtop := s.gtop + 1
        owned := .node N :: s.owned } := by
      simp only [H.own, H.modify_apply, a4]
    rw [H.bind_ok hown]
    have hrel : H.release (.node cur) ({ s1 with
        gtop := s.gtop + 1
        owned := .node N :: s.owned } : HSt) = .ok () { s1 with
        gtop := s.gtop + 1
        owned := .node N :: s.owned.eraseP (·.addr == GElem.addr (.node cur)) } := by
      simp only [H.release, List.any_cons, hne, hany, Bool.false_or, if_true,
        List.eraseP_cons, cond_false]
    rw [H.bind_ok hrel]
    have hcurN : (.node cur : GElem) ∈ GElem.subs (.node N) := by
      refine GNode.children_mem_subs ?_
      rw [hNc]
      exact List.mem_set hlt _
    refine ih _ C y N ⟨hy, ?_, ?_, ?_, by simp, by show N.addr < s.gtop + 1; omega⟩
    · intro x hx
      obtain ⟨b1, _, b2⟩ := h.step x hx
      exact ⟨by show s1.live x = true; rw [a1]; exact b1, hgreen x hx, by
        show ∃ y ∈ C, s1.parent x = some y
        rw [a2]; exact b2⟩
    · intro x hx
      exact GElem.subs_trans hcurN (hsub x hx)
    · intro x hx z hz n hn
      have hz' : s.parent x = some z := by rw [← a2]; exact hz
      show s1.index x < _
      rw [a3]
      by_cases e : z = y
      · rw [if_pos e] at hn; cases hn
        rw [hNc, List.length_set]
        refine h.lt x hx z hz' pg ?_
        rw [← a6, e]; exact hpg
      · rw [if_neg e] at hn
        refine h.lt x hx z hz' n ?_
        rw [← a6]; exact hn

/-- Attaching the top element of the tree that contains `q` below `q`. -/
theorem attachData_cycle {p q i : Nat} {P : List Nat} {n : GNode} (h : HInv s hc kids none [])
    (hm : s.mutable p = true) (hq : s.Loc q p P) (hg : s.green q = .node n)
    (hlen : i ≤ n.children.length) :
    attachData q i p s = .abort ∨
    ∃ s1 ng, attachData q i p s = H.loop (fun fuel => respine fuel q ng) s1 ∧
      ∀ fuel, respine fuel q ng s1 = .diverge := by
  have hlq := hq.live
  obtain ⟨hl, hp⟩ := hq.root_live
  have hmq : s.mutable q = true := by rw [← h.mutable_root hq]; exact hm
  obtain ⟨lq, hch⟩ := h.chain q hlq
  have hpk : ∀ x, p ∉ kids x := by
    intro x e; rw [((h.kidsMem x p).mp e).2] at hp; cases hp
  rcases attach_prefix (i := i) h hl hm hp hlq hmq hg (HSt.asU32_le hg hlen) with e |
    ⟨_, N, P', F, L, s3, hs4, c3, hN, hF, hperm, hlist4, e⟩
  · exact .inl e
  right
  rw [e, H.bind_ok (insertGreen_ok h hl hp hlen hs4 c3)]
  refine ⟨_, _, rfl, fun fuel => ?_⟩
  refine respine_cycle _ _ lq q _ ⟨hch.self_mem, ?_, ?_, ?_, by simp, ?_⟩
  · intro x hx
    refine ⟨hch.live_of_mem hx, ?_, ?_⟩
    · show ∃ n, s.green x = .node n
      by_cases e : x = q
      · exact ⟨n, by rw [e]; exact hg⟩
      · obtain ⟨v, _, hv1, hv2⟩ := hch.child_mem hx e
        obtain ⟨n', _, hn', _⟩ := h.greenOk v x hv1 hv2 (by simp)
        exact ⟨n', hn'⟩
    · show ∃ y ∈ lq, upd s.parent p (some q) x = some y
      by_cases e : x = p
      · exact ⟨q, hch.self_mem, by rw [e, upd_same]⟩
      · rw [upd_other _ _ e]
        cases hpx : s.parent x with
        | none => exact absurd ((hch.eq_last hx hpx).trans (hch.eq_last (hq.chain_mem hch) hp).symm) e
        | some y => exact ⟨y, hch.parent_mem hx hpx, rfl⟩
  · intro x hx
    show s.green x ∈ _
    have hpg : s.green p ∈ GElem.subs (.node (GNode.new s.gtop n.kind
        (n.children.take i ++ s.green p :: n.children.drop i))) := by
      refine GNode.children_mem_subs ?_
      rw [GNode.children_new]; simp
    refine GElem.subs_trans hpg ?_
    have key : ∀ x l, Chain s x l → p ∈ l → s.green x ∈ (s.green p).subs := by
      intro x l hc
      induction hc with
      | root hl' hp' => intro hpl; simp at hpl; rw [hpl]; exact GElem.self_mem_subs _
      | @step x y l hl' hp' hc' ih =>
        intro hpl
        rcases List.mem_cons.mp hpl with e | hpl
        · rw [e]; exact GElem.self_mem_subs _
        · refine GElem.subs_trans (ih hpl) ?_
          obtain ⟨n', c', e1, e2, e3, _⟩ := h.greenOk x y hl' hp' (by simp)
          rw [e1, ← e3]
          exact GNode.children_mem_subs (List.mem_of_getElem? (children_of_slice e2))
    obtain ⟨l1, l2, e, hc2⟩ := hch.suffix hx
    refine key x l2 hc2 ?_
    have hne2 := hc2.ne_nil
    have := hch.eq_last (hq.chain_mem hch) hp
    rw [this]
    have : lq.getLast hch.ne_nil = l2.getLast hne2 := by
      subst e; exact List.getLast_append_of_ne_nil _ hne2
    rw [this]; exact List.getLast_mem hne2
  · intro x hx y hy m hm'
    have hidx : (s.linked q i p (kids q) N P' F).index x = if x = p then i else
        if x ∈ kids q ∧ i ≤ s.index x then s.index x + 1 else s.index x := rfl
    have hy' : upd s.parent p (some q) x = some y := hy
    have hkq : x ∉ kids q := fun e => kids_not_chain h hch e hx
    show (s.linked q i p (kids q) N P' F).index x < _
    rw [hidx]
    by_cases e : x = p
    · rw [if_pos e]
      rw [e, upd_same] at hy'; cases hy'
      rw [if_pos rfl] at hm'; cases hm'
      rw [GNode.children_new]; simp; omega
    · rw [if_neg e, if_neg (fun e => hkq e.1)]
      rw [upd_other _ _ e] at hy'
      have hyq : y ≠ q := by
        rintro rfl
        exact hkq ((h.kidsMem y x).mpr ⟨hch.live_of_mem hx, hy'⟩)
      rw [if_neg hyq] at hm'
      obtain ⟨n', c', e1, e2, _⟩ := h.greenOk x y (hch.live_of_mem hx) hy' (by simp)
      have : s.green y = .node m := hm'
      rw [e1] at this; cases this
      rw [GNode.children_length]; exact (List.getElem?_eq_some_iff.mp e2).1
  · show s.gtop < s.gtop + 1
    omega

/-- The same with an index that is too large. -/
theorem attachData_tangled {p q i : Nat} {P : List Nat} {n : GNode} (h : HInv s hc kids none [])
    (hm : s.mutable p = true) (hq : s.Loc q p P) (hg : s.green q = .node n)
    (hlen : n.children.length < i) :
    attachData q i p s = .abort ∨ ∃ s1 kids1, attachData q i p s = .panic .range s1 ∧
      Counted s1 hc kids1 none ∧ s1.live = s.live ∧ s1.parent = upd s.parent p (some q) ∧
      s1.index p = s.asU32 q i ∧ s1.green = s.green := by
  have hlq := hq.live
  obtain ⟨hl, hp⟩ := hq.root_live
  have hmq : s.mutable q = true := by rw [← h.mutable_root hq]; exact hm
  rcases attach_prefix (i := i) h hl hm hp hlq hmq hg rfl with e |
    ⟨_, N, P', F, L, s3, hs4, c3, hN, hF, hperm, hlist4, e⟩
  · exact .inl e
  right
  have hany : s.owned.any (GElem.addr · == (s.green p).addr) = true :=
    List.any_eq_true.mpr ⟨_, h.owned_of_root hl hp, by simp⟩
  have hins : insertGreen n s.gtop i (s.green p) { s3 with gtop := s.gtop + 1 } =
      .panic .range (s.linked q (s.asU32 q i) p (kids q) N P' F) := by
    rw [← hs4]
    simp only [insertGreen, GNode.insertChild_none s.gtop (s.green p) hlen,
      H.bind_def, H.release, c3, hany, if_true, H.panic_apply]
  refine ⟨s.linked q (s.asU32 q i) p (kids q) N P' F, _, ?_,
    Counted.linked h hl hm hp hlq hmq hN hF hperm hlist4, rfl, rfl, by simp [HSt.linked], rfl⟩
  rw [e, H.bind_def, hins]

end Cur
end Rowan
