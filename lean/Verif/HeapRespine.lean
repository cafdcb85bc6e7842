import Verif.HeapOps
/-!
# `respine`: replacing the green nodes along the path to the root

Unless their comments cite lines of `/repo`, the definitions in this file are vocabulary of the proofs and model no code.
-/
namespace Rowan
set_option linter.unusedSectionVars false
variable [Greens]

/-- A new green node over known children, at a fresh address. -/
theorem Uni.extend {U : GElem → Prop} {lo : Nat} (h : Uni U lo) {k : SyntaxKind} {es : List GElem}
    (hes : ∀ e ∈ es, U e) : Uni (fun x => U x ∨ x = .node (GNode.new lo k es)) (lo + 1) := by
  have haddr : ∀ x, U x → x.addr ≠ GElem.addr (.node (GNode.new lo k es)) := by
    intro x hx e
    have := h.fresh x hx
    rw [e] at this; simp at this
  constructor
  · rintro x y (hx | rfl) (hy | rfl) e
    · exact h.coh x y hx hy e
    · exact absurd e (haddr x hx)
    · exact absurd e.symm (haddr y hy)
    · rfl
  · rintro x (hx | rfl)
    · have := h.fresh x hx; omega
    · simp
  · rintro x (hx | rfl) y hy
    · exact .inl (h.closed x hx y hy)
    · rcases GNode.mem_subs.mp hy with rfl | ⟨e, he, hy⟩
      · exact .inr rfl
      · rw [GNode.children_new] at he
        exact .inl (h.closed e (hes e he) y hy)
  · rintro x (hx | rfl)
    · exact h.wf x hx
    · exact GNode.wf_new lo k es fun e he => h.wf e (hes e he)

theorem Uni.child {U : GElem → Prop} {lo : Nat} (h : Uni U lo) {n : GNode} (hn : U (.node n))
    {e : GElem} (he : e ∈ n.children) : U e := h.closed _ hn e (GNode.children_mem_subs he)

theorem GNode.replaceChild_children (n : GNode) (a i : Nat) (e : GElem) :
    (n.replaceChild a i e).children = n.children.set i e := by
  rw [GNode.replaceChild, GNode.children_new]
  apply List.ext_getElem?
  intro j
  simp only [List.getElem?_mapIdx, List.getElem?_set]
  by_cases h : i = j
  · subst h
    by_cases hl : i < n.children.length
    · simp [hl]
    · simp [hl]
  · have : (j == i) = false := by simp; omega
    simp [h, this]

namespace Cur
variable {s : HSt} {hc : Nat → Nat} {kids : Nat → List Nat}

theorem respine_ok : ∀ (fuel : Nat) (s : HSt) (node : Nat) (l : List Nat) (hch : Chain s node l)
    (g0 : GNode) (U : GElem → Prop), l.length ≤ fuel → (∀ y ∈ l, ∃ n, s.green y = .node n) →
    (∀ y ∈ l, y ≠ node → s.Alive (s.green y)) → (∀ y ∈ l, s.parent y = none → s.green y ∈ s.owned) →
    Uni U s.gtop → U (.node g0) → (∀ y ∈ l, U (s.green y)) →
    ∃ G gk V, respine fuel node g0 { s with owned := .node g0 :: s.owned } = .ok () { s with
        green := G
        owned := (.node gk :: s.owned).eraseP (·.addr == (s.green (l.getLast hch.ne_nil)).addr)
        gtop := s.gtop + (l.length - 1) } ∧
      (∀ x, x ∉ l → G x = s.green x) ∧ G node = .node g0 ∧ G (l.getLast hch.ne_nil) = .node gk ∧
      (∀ y ∈ l, ∀ y', s.parent y = some y' → ∃ n' g a, s.green y' = .node n' ∧ G y = .node g ∧
        G y' = .node (n'.replaceChild a (s.index y) (.node g))) ∧
      Uni V (s.gtop + (l.length - 1)) ∧ (∀ x, U x → V x) ∧ (∀ y ∈ l, V (G y)) := by
  intro fuel
  induction fuel with
  | zero =>
    intro s node l hch g0 U hlen
    exact absurd (List.eq_nil_of_length_eq_zero (by omega)) hch.ne_nil
  | succ fuel ih =>
    intro s node l hch g0 U hlen hnode halive hown hU hg0 hUl
    have hl := hch.live
    obtain ⟨n0, hn0⟩ := hnode node hch.self_mem
    generalize hs0 : ({ s with owned := .node g0 :: s.owned } : HSt) = s0
    have hl0 : s0.live node = true := by rw [← hs0]; exact hl
    have hg0e : s0.green = s.green := by rw [← hs0]
    have hst : respine (fuel + 1) node g0 s0 = (do
        match ← H.rd node HSt.parent with
        | some parent => do
          let pg ← greenRef parent
          let i ← index node
          let a ← H.freshG
          H.own (.node (pg.replaceChild a i (.node g0)))
          H.release (.node g0)
          respine fuel parent (pg.replaceChild a i (.node g0))
        | none => H.release (s.green node) : H Unit) (s0.setGreen node (.node g0)) := by
      simp only [respine]
      rw [H.bind_ok (H.rd_ok hl0), hg0e, H.bind_ok (unwrap_ok (a := n0) (by rw [hn0]; rfl)),
        H.bind_ok (H.wr_ok hl0)]
      rfl
    have hl1 : (s0.setGreen node (.node g0)).live node = true := hl0
    have hd : ∀ {l' : List Nat} {q : Nat}, s.parent node = some q → Chain s q l' → node ∉ l' := by
      intro l' q hp hc'
      exact (List.nodup_cons.mp (Chain.step hl hp hc').nodup).1
    rw [hst, H.bind_ok (H.rd_ok hl1)]
    have hpe : (s0.setGreen node (.node g0)).parent node = s.parent node := by rw [← hs0]; rfl
    rw [hpe]
    cases hch with
    | root _ hp =>
      rw [hp]
      simp only []
      have hin := hown node (by simp) hp
      have hrel : H.release (s.green node) (s0.setGreen node (.node g0)) = .ok ()
          { (s.setGreen node (.node g0)) with
            owned := (.node g0 :: s.owned).eraseP (·.addr == (s.green node).addr) } := by
        have : ((.node g0 : GElem) :: s.owned).any (GElem.addr · == (s.green node).addr) = true :=
          List.any_eq_true.mpr ⟨_, List.mem_cons_of_mem _ hin, by simp⟩
        rw [← hs0]
        simp only [H.release, HSt.setGreen, this, if_true]
      rw [hrel]
      refine ⟨upd s.green node (.node g0), g0, U, rfl, ?_, by simp, by simp, ?_, ?_, fun _ h => h, ?_⟩
      · intro x hx; simp at hx; exact upd_other _ _ hx
      · intro y hy y' hy'
        simp at hy; subst hy; rw [hp] at hy'; cases hy'
      · simpa using hU
      · intro y hy; simp at hy; subst hy; simp; exact hg0
    | @step _ q l' _ hp hc' =>
      rw [hp]
      simp only []
      have hnl := hd hp hc'
      have hqn : q ≠ node := by rintro rfl; exact hnl hc'.self_mem
      obtain ⟨nq, hnq⟩ := hnode q (List.mem_cons_of_mem _ hc'.self_mem)
      have hsame : ∀ y ∈ l', (s.setGreen node (.node g0)).green y = s.green y := by
        intro y hy
        have : y ≠ node := by rintro rfl; exact hnl hy
        simp only [HSt.setGreen, upd_other _ _ this]
      have hsame0 : ∀ y ∈ l', (s0.setGreen node (.node g0)).green y = s.green y := by
        intro y hy; rw [← hs0]; exact hsame y hy
      have hgr : greenRef q (s0.setGreen node (.node g0)) = .ok nq (s0.setGreen node (.node g0)) := by
        have h1 : (s0.setGreen node (.node g0)).live q = true := by rw [← hs0]; exact hc'.live
        have h2 : (s0.setGreen node (.node g0)).Alive ((s0.setGreen node (.node g0)).green q) := by
          rw [hsame0 q hc'.self_mem]
          obtain ⟨o, ho, hx⟩ := halive q (List.mem_cons_of_mem _ hc'.self_mem) hqn
          exact ⟨o, by rw [← hs0]; exact List.mem_cons_of_mem _ ho, hx⟩
        simp only [greenRef]
        have hgq : green q (s0.setGreen node (.node g0)) =
            .ok ((s0.setGreen node (.node g0)).green q) (s0.setGreen node (.node g0)) := by
          simp only [green]
          rw [H.bind_ok (H.rd_ok h1), H.bind_ok (HInv.derefG_ok h2)]
          rfl
        rw [H.bind_ok hgq, hsame0 q hc'.self_mem, hnq]; rfl
      rw [H.bind_ok hgr]
      have hix : index node (s0.setGreen node (.node g0)) =
          .ok (s.index node) (s0.setGreen node (.node g0)) := by
        rw [index, H.rd_ok hl1]; rw [← hs0]; rfl
      rw [H.bind_ok hix]
      have hfr : H.freshG (s0.setGreen node (.node g0)) =
          .ok s.gtop { (s0.setGreen node (.node g0)) with gtop := s.gtop + 1 } := by
        rw [← hs0]; rfl
      rw [H.bind_ok hfr]
      generalize hg1 : nq.replaceChild s.gtop (s.index node) (.node g0) = g1
      have hg1a : GElem.addr (.node g1) = s.gtop := by rw [← hg1]; rfl
      have hne : (GElem.addr (.node g1) == GElem.addr (.node g0)) = false := by
        have := hU.fresh _ hg0
        exact beq_false_of_ne (by rw [hg1a]; omega)
      have hown1 : H.own (.node g1) { (s0.setGreen node (.node g0)) with gtop := s.gtop + 1 } =
          .ok () { (s0.setGreen node (.node g0)) with
            gtop := s.gtop + 1
            owned := .node g1 :: .node g0 :: s.owned } := by
        rw [← hs0]; rfl
      rw [H.bind_ok hown1]
      have hrel1 : H.release (.node g0) { (s0.setGreen node (.node g0)) with
            gtop := s.gtop + 1
            owned := .node g1 :: .node g0 :: s.owned } = .ok ()
          { (s0.setGreen node (.node g0)) with
            gtop := s.gtop + 1
            owned := .node g1 :: s.owned } := by
        have hany : (((.node g1 : GElem) :: .node g0 :: s.owned).any
            (GElem.addr · == GElem.addr (.node g0))) = true :=
          List.any_eq_true.mpr ⟨.node g0, by simp, beq_self_eq_true _⟩
        have her : ((.node g1 : GElem) :: .node g0 :: s.owned).eraseP
            (GElem.addr · == GElem.addr (.node g0)) = .node g1 :: s.owned := by
          rw [List.eraseP_cons_of_neg (by rw [hne]; simp),
            List.eraseP_cons_of_pos (by simp)]
        simp only [H.release, hany, if_true, her]
      rw [H.bind_ok hrel1]
      have hs01 : ({ (s0.setGreen node (.node g0)) with
            gtop := s.gtop + 1
            owned := .node g1 :: s.owned } : HSt) =
          { ({ (s.setGreen node (.node g0)) with gtop := s.gtop + 1 } : HSt) with
            owned := .node g1 ::
              ({ (s.setGreen node (.node g0)) with gtop := s.gtop + 1 } : HSt).owned } := by
        rw [← hs0]; rfl
      rw [hs01, ← hg1]
      generalize hs1 : ({ (s.setGreen node (.node g0)) with gtop := s.gtop + 1 } : HSt) = s1
      have hl1e : s1.live = s.live := by rw [← hs1]; rfl
      have hp1e : s1.parent = s.parent := by rw [← hs1]; rfl
      have hi1e : s1.index = s.index := by rw [← hs1]; rfl
      have ho1e : s1.owned = s.owned := by rw [← hs1]; rfl
      have hg1e : s1.green = upd s.green node (.node g0) := by rw [← hs1]; rfl
      have hgt1e : s1.gtop = s.gtop + 1 := by rw [← hs1]
      have hA : s1.Alive = s.Alive := by funext x; simp only [HSt.Alive, ho1e]
      have hsame1 : ∀ y ∈ l', s1.green y = s.green y := by
        intro y hy; rw [← hs1]; exact hsame y hy
      have hc1 : Chain s1 q l' := hc'.congr fun y hy => by
        rw [hl1e, hp1e]; exact ⟨hc'.live_of_mem hy, rfl⟩
      have hUq : U (.node nq) := by rw [← hnq]; exact hUl q (List.mem_cons_of_mem _ hc'.self_mem)
      have hU1 := hU.extend (k := nq.kind)
        (es := nq.children.mapIdx fun i c => if i == s.index node then .node g0 else c) (by
          intro e he
          obtain ⟨j, hj, rfl⟩ := List.mem_mapIdx.mp he
          split
          · exact hg0
          · exact hU.child hUq (List.getElem_mem hj))
      rw [← hgt1e] at hU1
      obtain ⟨G, gk, V, r1, r2, r3, r4, r5, r6, r7, r8⟩ := ih s1 q l' hc1
        (nq.replaceChild s.gtop (s.index node) (.node g0)) _ (by simpa using hlen)
        (fun y hy => by rw [hsame1 y hy]; exact hnode y (List.mem_cons_of_mem _ hy))
        (fun y hy hne => by
          rw [hsame1 y hy, hA]
          exact halive y (List.mem_cons_of_mem _ hy) (by rintro rfl; exact hnl hy))
        (fun y hy hy' => by
          rw [hp1e] at hy'
          rw [hsame1 y hy, ho1e]; exact hown y (List.mem_cons_of_mem _ hy) hy')
        hU1 (.inr rfl)
        (fun y hy => by rw [hsame1 y hy]; exact .inl (hUl y (List.mem_cons_of_mem _ hy)))
      have hlast : (node :: l').getLast (by simp) = l'.getLast hc'.ne_nil :=
        List.getLast_cons hc'.ne_nil
      have hlen' : 0 < l'.length := List.length_pos_of_mem hc'.self_mem
      have hgt : s1.gtop + (l'.length - 1) = s.gtop + ((node :: l').length - 1) := by
        rw [hgt1e, List.length_cons]; omega
      refine ⟨G, gk, V, ?_, ?_, ?_, ?_, ?_, ?_, ?_, ?_⟩
      · rw [r1, hsame1 _ (List.getLast_mem hc'.ne_nil), ho1e, hgt]
        rw [← hs1]
        simp only [hlast]
        rfl
      · intro x hx
        simp only [List.mem_cons, not_or] at hx
        rw [r2 x hx.2, hg1e, upd_other _ _ hx.1]
      · rw [r2 node hnl, hg1e]; simp
      · simp only [hlast]; exact r4
      · intro y hy y' hy'
        rcases List.mem_cons.mp hy with rfl | hy
        · rw [hp] at hy'; cases hy'
          exact ⟨nq, g0, s.gtop, hnq, by rw [r2 _ hnl, hg1e]; simp, r3⟩
        · obtain ⟨n', g, a, h1, h2, h3⟩ := r5 y hy y' (by rw [hp1e]; exact hy')
          rw [hsame1 y' (hc'.parent_mem hy hy')] at h1
          rw [hi1e] at h3
          exact ⟨n', g, a, h1, h2, h3⟩
      · rw [← hgt]; exact r6
      · exact fun x hx => r7 x (.inl hx)
      · intro y hy
        rcases List.mem_cons.mp hy with rfl | hy
        · rw [r2 _ hnl, hg1e]; simp only [upd_same]; exact r7 _ (.inl hg0)
        · exact r8 y hy

/-- What `respine` does: the green pointers along the chain `l` change, the rest of the heap does
not. -/
structure Spine (s s' : HSt) (q : Nat) (g0 : GNode) (l : List Nat) : Prop where
  live : s'.live = s.live
  rc : s'.rc = s.rc
  parent : s'.parent = s.parent
  index : s'.index = s.index
  mutable : s'.mutable = s.mutable
  offset : s'.offset = s.offset
  first : s'.first = s.first
  next : s'.next = s.next
  prev : s'.prev = s.prev
  top : s'.top = s.top
  gtop : s.gtop ≤ s'.gtop
  out : ∀ x, x ∉ l → s'.green x = s.green x
  here : s'.green q = .node g0
  spine : ∀ y ∈ l, ∀ y', s.parent y = some y' → ∃ n' g a, s.green y' = .node n' ∧
    s'.green y = .node g ∧ s'.green y' = .node (n'.replaceChild a (s.index y) (.node g))

theorem kids_not_chain {bad : List Nat} {z : Option Nat} (h : HInv s hc kids z bad) {q x : Nat}
    {l : List Nat} (hch : Chain s q l) (hx : x ∈ kids q) : x ∉ l := by
  intro hxl
  obtain ⟨hl, hp⟩ := (h.kidsMem q x).mp hx
  exact (List.nodup_cons.mp (Chain.step hl hp hch).nodup).1 hxl

theorem slice_of_children {n : GNode} {i : Nat} {e : GElem} (h : n.children[i]? = some e) :
    ∃ c, n.slice[i]? = some c ∧ c.asRef = e := by
  simpa [GNode.children, List.getElem?_map] using h

theorem children_of_slice {n : GNode} {i : Nat} {c : GChild} (h : n.slice[i]? = some c) :
    n.children[i]? = some c.asRef := by
  simp [GNode.children, List.getElem?_map, h]

theorem inv_respine {bad : List Nat} {q : Nat} {l : List Nat} {g0 : GNode} {U : GElem → Prop}
    (h : HInv s hc kids none bad) (hm : s.mutable q = true) (hch : Chain s q l)
    (hqn : ∃ n, s.green q = .node n) (hb : ∀ x ∈ bad, x ∈ kids q)
    (hk : ∀ x ∈ kids q, g0.children[s.index x]? = some (s.green x))
    (hU : Uni U s.gtop) (hUa : ∀ x, s.Known x → U x) (hUg : U (.node g0)) :
    ∃ s', H.loop (fun fuel => respine fuel q g0) { s with owned := .node g0 :: s.owned } = .ok () s' ∧
      HInv s' hc kids none [] ∧
      Spine s s' q g0 l := by
  have hbl : ∀ y ∈ l, y ∉ bad := fun y hy hyb => kids_not_chain h hch (hb y hyb) hy
  have halive : ∀ y ∈ l, s.Alive (s.green y) := by
    intro y hy
    obtain ⟨l1, l2, e, h2⟩ := hch.suffix hy
    exact h.alive_chain h2 fun x hx => hbl x (by rw [e]; simp [hx])
  have hnode : ∀ y ∈ l, ∃ n, s.green y = .node n := by
    intro y hy
    by_cases e : y = q
    · rw [e]; exact hqn
    · obtain ⟨x, _, h1, h2⟩ := hch.child_mem hy e
      exact h.parNode x y h1 h2
  have hmut : ∀ y ∈ l, s.mutable y = true := by
    intro y hy
    have key : ∀ w l, Chain s w l → s.mutable w = true → ∀ x ∈ l, s.mutable x = true := by
      intro w l hch
      induction hch with
      | root hl hp => intro hw x hx; simp at hx; rw [hx]; exact hw
      | step hl hp hc ih =>
        intro hw x hx
        rcases List.mem_cons.mp hx with rfl | hx
        · exact hw
        · exact ih ((h.parentOk _ _ hl hp).2.trans hw) x hx
    exact key q l hch hm y hy
  obtain ⟨G, gk, V, r1, r2, r3, r4, r5, r6, r7, r8⟩ := respine_ok (s.top + s.slack + 1) s q l hch g0 U
    (Nat.le_succ_of_le (Nat.le_trans (hch.length_le h.top) (Nat.le_add_right ..))) hnode (fun y hy _ => halive y hy)
    (fun y hy hp => h.owned_of_root (hch.live_of_mem hy) hp) hU hUg
    (fun y hy => hUa _ (.inl (halive y hy)))
  generalize hR : l.getLast hch.ne_nil = R at r1 r4
  have hRl : R ∈ l := by rw [← hR]; exact List.getLast_mem _
  have hRp : s.parent R = none := by rw [← hR]; exact hch.last_root
  have hRlive := hch.live_of_mem hRl
  generalize hO : (.node gk :: s.owned).eraseP (·.addr == (s.green R).addr) = O at r1
  have hmemO : ∀ x ∈ O, x = .node gk ∨ x ∈ s.owned := by
    intro x hx; rw [← hO] at hx; simpa using List.mem_of_mem_eraseP hx
  have hVowned : ∀ x ∈ s.owned, V x := fun x hx => r7 x (hUa x (.inl ⟨x, hx, GElem.self_mem_subs x⟩))
  have hVgk : V (.node gk) := by rw [← r4]; exact r8 R hRl
  refine ⟨_, (H.loop_apply _ _).trans r1, ?_, ⟨rfl, rfl, rfl, rfl, rfl, rfl, rfl, rfl, rfl, rfl,
    Nat.le_add_right _ _, r2, r3, r5⟩⟩
  constructor
  case top => exact h.top
  case hlive => exact h.hlive
  case rc => exact h.rc
  case pos => exact h.pos
  case rcLe => exact h.rcLe
  case kidsMem => exact h.kidsMem
  case kidsNodup => exact h.kidsNodup
  case parentOk => exact h.parentOk
  case parNode =>
    intro x y hx hy
    show ∃ n, G y = .node n
    by_cases hyl : y ∈ l
    · by_cases e : y = q
      · rw [e, r3]; exact ⟨_, rfl⟩
      · obtain ⟨w, hw, _, hwy⟩ := hch.child_mem hyl e
        obtain ⟨_, _, _, _, _, h3⟩ := r5 w hw y hwy
        exact ⟨_, h3⟩
    · rw [r2 y hyl]; exact h.parNode x y hx hy
  case greenOk =>
    intro x y hx hy _
    replace hx : s.live x = true := hx
    replace hy : s.parent x = some y := hy
    show ∃ n c, G y = .node n ∧ n.slice[s.index x]? = some c ∧ c.asRef = G x ∧
      (s.mutable x = false → s.offset x = s.offset y + c.relOffset)
    obtain ⟨hly, hmy⟩ := h.parentOk x y hx hy
    by_cases hyl : y ∈ l
    · have hmx : s.mutable x = true := by rw [← hmy]; exact hmut y hyl
      suffices hs : ∃ n, G y = .node n ∧ n.children[s.index x]? = some (G x) by
        obtain ⟨n, h1, h2⟩ := hs
        obtain ⟨c, h3, h4⟩ := slice_of_children h2
        exact ⟨n, c, h1, h3, h4, fun e => by rw [hmx] at e; cases e⟩
      by_cases hyq : y = q
      · subst hyq
        have hxk : x ∈ kids y := (h.kidsMem y x).mpr ⟨hx, hy⟩
        rw [r3, r2 x (kids_not_chain h hch hxk)]
        exact ⟨g0, rfl, hk x hxk⟩
      · have hxb : x ∉ bad := by
          intro e
          have := ((h.kidsMem q x).mp (hb x e)).2
          rw [hy] at this; cases this; exact hyq rfl
        obtain ⟨n, c, g1, g2, g3, _⟩ := h.greenOk x y hx hy hxb
        have g2' := children_of_slice g2
        by_cases hxl : x ∈ l
        · obtain ⟨n', g, a, h1, h2, h3⟩ := r5 x hxl y hy
          rw [g1] at h1; cases h1
          refine ⟨_, h3, ?_⟩
          rw [GNode.replaceChild_children, h2]
          obtain ⟨hlt, _⟩ := List.getElem?_eq_some_iff.mp g2'
          simp [hlt]
        · obtain ⟨w, hw, hwl, hwy⟩ := hch.child_mem hyl hyq
          obtain ⟨n', g, a, h1, h2, h3⟩ := r5 w hw y hwy
          rw [g1] at h1; cases h1
          refine ⟨_, h3, ?_⟩
          have hne : s.index w ≠ s.index x := by
            intro e
            have hwx : w ≠ x := by rintro rfl; exact hxl hw
            have hsort := (h.ringM y hly (hmut y hyl)).sorted
            have hxk : x ∈ kids y := (h.kidsMem y x).mpr ⟨hx, hy⟩
            have hwk : w ∈ kids y := (h.kidsMem y w).mpr ⟨hwl, hwy⟩
            have : ∀ L : List Nat, L.Pairwise (fun a b => s.index a < s.index b) → w ∈ L → x ∈ L →
                False := by
              intro L hL hwL hxL
              induction hL with
              | nil => cases hwL
              | cons hh _ ih =>
                rcases List.mem_cons.mp hwL with e1 | hwL'
                · rcases List.mem_cons.mp hxL with e2 | hxL'
                  · exact hwx (e1.trans e2.symm)
                  · have := hh x hxL'; rw [← e1] at this; omega
                · rcases List.mem_cons.mp hxL with e2 | hxL'
                  · have := hh w hwL'; rw [← e2] at this; omega
                  · exact ih hwL' hxL'
            exact this _ hsort hwk hxk
          rw [GNode.replaceChild_children, List.getElem?_set_ne hne, g2', r2 x hxl, g3]
    · have hxl : x ∉ l := fun e => hyl (hch.parent_mem e hy)
      have hxb : x ∉ bad := by
        intro e
        have := ((h.kidsMem q x).mp (hb x e)).2
        rw [hy] at this; cases this; exact hyl hch.self_mem
      rw [r2 y hyl, r2 x hxl]
      exact h.greenOk x y hx hy hxb
  case rootOff => exact h.rootOff
  case chain =>
    intro x hx
    obtain ⟨l', hl'⟩ := h.chain x hx
    exact ⟨l', hl'.congr fun y hy => ⟨hl'.live_of_mem hy, rfl⟩⟩
  case ringM =>
    intro x hx hmx
    have := h.ringM x hx hmx
    exact ⟨this.head, this.ring, this.sorted⟩
  case selfM => exact h.selfM
  case firstI => exact h.firstI
  case roots =>
    obtain ⟨rs, h1, h2, h3⟩ := h.roots
    refine ⟨rs, h1, h2, ?_⟩
    show O.Perm (rs.map G)
    have hRrs : R ∈ rs := (h2 R).mpr ⟨hRlive, hRp⟩
    have hperm := List.perm_cons_erase hRrs
    have hold : s.green R ∈ s.owned := h.owned_of_root hRlive hRp
    have e1 : (.node gk :: s.owned).Perm (s.green R :: O) := by
      rw [← hO]
      refine perm_eraseP (List.mem_cons_of_mem _ hold) fun x hx e => ?_
      refine r6.coh _ _ ?_ (hVowned _ hold) e
      rcases List.mem_cons.mp hx with rfl | hx
      · exact hVgk
      · exact hVowned x hx
    have e2 : s.owned.Perm (s.green R :: (rs.erase R).map s.green) := h3.trans (hperm.map _)
    have e3 : (s.green R :: O).Perm (s.green R :: .node gk :: (rs.erase R).map s.green) :=
      e1.symm.trans ((e2.cons _).trans (List.Perm.swap _ _ _))
    refine (e3.cons_inv).trans ?_
    have e4 : (rs.erase R).map G = (rs.erase R).map s.green := by
      refine List.map_congr_left fun x hx => r2 x fun hxl => ?_
      rw [h1.mem_erase_iff] at hx
      exact hx.1 (by rw [← hR]; exact hch.eq_last hxl ((h2 x).mp hx.2).2)
    rw [← e4, ← r4]
    exact (hperm.map G).symm
  case uni =>
    refine r6.mono (Nat.le_refl _) ?_ ?_
    · rintro x (⟨o, ho, hx⟩ | hk)
      · refine r6.closed o ?_ x hx
        rcases hmemO o ho with rfl | ho
        · exact hVgk
        · exact hVowned o ho
      · exact r7 x (hUa x (.inr hk))
    · intro x hx y hy; exact hx.subs hy

end Cur
end Rowan
