import Verif.HeapChecked2
import Verif.Props.Memory
/-!
# C57: edits in builds with overflow checks
-/
namespace Rowan
open Cur

section
variable {s s' : HSt} {gs : List GElem} {hs lk rest : List Nat} {C : Conf}

/-- C57: what `HSt.total` is: the sum of the lengths of the texts of all trees that elements in memory belong to. -/
theorem C57_total (h : HReach s gs hs lk) : ∃ rs : List Nat, rs.Nodup ∧
    (∀ r, r ∈ rs ↔ s.live r = true ∧ s.parent r = none) ∧ s.total = (rs.map fun r => (s.tree r).len).sum := by
  letI : Greens := ⟨gs⟩
  obtain ⟨kids, hi⟩ := h.ok'
  exact total_eq hi

/-- **C57.** While the texts of all trees together are shorter than 2^32 bytes, a build with overflow checks does what
a build without them does: every call has the same outcome, with the same heap, whatever the outcome.  (The
exception is an element that is inserted below itself.  Without the checks this never returns, see C40.) -/
theorem C57_edits {c : Call} (h : HReach s gs hs lk) (hr : c.Ready s gs hs rest) (ht : s.total < 2 ^ 32)
    (hna : ∀ q a b ins, c.Splices q a b ins → ∀ p ∈ ins, ¬ s.Above p q) : c.execChecked s = c.exec s := by
  letI : Greens := ⟨gs⟩
  obtain ⟨kids, hi⟩ := h.ok'
  obtain ⟨v, hv⟩ := HSt.Views.exists_view hi
  cases c with
  | detach p => exact bind_left (detachC_eq hi ht)
  | splice q a b ins =>
    have hna := hna q a b ins .splice
    have hva : ∀ p ∈ ins, ¬ v.Above p q := fun p hp e => hna p hp
      ((Call.above_iff hv (cnt_pos.mpr (List.mem_append_left _ (hr.mem_takes hp)))
        (cnt_pos.mpr (List.mem_append_left _ (hr.mem_rest (hr.held q (by simp [Call.uses])))))).mpr e)
    rw [hr.cnt_eq] at hi hv
    obtain ⟨h1, h2⟩ := hr.live hi (x := q) (by simp [Call.uses])
    exact bind_left (spliceC_eq hi h1 (hr.typed q (by simp [Call.nodes])) hv hva ht)
  | attach q i p =>
    have hna := hna q i i [p] .attach
    have hva : ∀ x ∈ [p], ¬ v.Above x q := fun x hx e => hna x hx
      ((Call.above_iff hv (cnt_pos.mpr (List.mem_append_left _ (hr.mem_takes hx)))
        (cnt_pos.mpr (List.mem_append_left _ (hr.mem_rest (hr.held q (by simp [Call.uses])))))).mpr e)
    rw [hr.cnt_eq] at hi hv
    obtain ⟨h1, h2⟩ := hr.live hi (x := q) (by simp [Call.uses])
    have hle : ∀ x, 0 < cnt (rest ++ lk) x → 0 < plus (cnt (rest ++ lk)) [p] x := fun x hx =>
      Nat.lt_of_lt_of_le hx (le_plus ..)
    by_cases hm : s.mutable q = true
    · exact bind_left (spliceInsertC_eq h1 [p] i s v kids hi hm (hr.typed q (by simp [Call.nodes])) hv (hv.named hi) hva ht)
    · have hm' : s.mutable q = false := by simpa using hm
      have hlq := hi.hlive q (hle q h1)
      refine bind_left ?_
      simp only [spliceInsert, spliceInsertC]
      refine bind_left ?_ |>.trans (H.bind_congr fun _ s1 e1 => rfl)
      simp only [H.onPanic, attach, attachC]
      rw [H.bind_ok (H.rd_ok hlq), H.bind_ok (H.rd_ok hlq)]
      simp only [H.bind_def, H.assert_fail (s := s) hm']
  | _ => rfl

/-- C57: no undefined behaviour either, then. -/
theorem C57_safe {c : Call} (h : HReach s gs hs lk) (hr : c.Ready s gs hs rest) (ht : s.total < 2 ^ 32)
    (hna : ∀ q a b ins, c.Splices q a b ins → ∀ p ∈ ins, ¬ s.Above p q) : c.execChecked s ≠ .ub := by
  rw [C57_edits h hr ht hna]; exact C38_partial h hr

theorem Cur.overflowAt_some : ∀ (es es' : List GElem) (acc : Nat) (e : GElem),
    2 ^ 32 ≤ acc + (es.map GElem.textLen).sum + e.textLen →
    ∃ j, j ≤ es.length ∧ overflowAt acc (es ++ e :: es') = some j
  | [], es', acc, e, h => by
    refine ⟨0, Nat.le_refl _, ?_⟩
    simp only [List.map_nil, List.sum_nil] at h
    rw [List.nil_append, overflowAt, if_neg (by omega)]
  | x :: es, es', acc, e, h => by
    simp only [List.map_cons, List.sum_cons] at h
    rw [List.cons_append, overflowAt]
    by_cases hx : acc + x.textLen < 2 ^ 32
    · obtain ⟨j, h1, h2⟩ := overflowAt_some es es' (acc + x.textLen) e (by omega)
      exact ⟨j + 1, by simpa using h1, by rw [if_pos hx, h2]; rfl⟩
    · exact ⟨0, Nat.zero_le _, by rw [if_neg hx]⟩

theorem Cur.leak_ok : ∀ (es : List GElem) (s : HSt), leak es s = .ok () { s with owned := es.reverse ++ s.owned }
  | [], s => rfl
  | e :: es, s => by
    rw [leak, H.bind_def]
    simp only [H.own, H.modify_apply]
    rw [leak_ok es]
    simp

/-- C57: what goes wrong with longer texts.  `p` is the top element of a tree, `q` a node of another one, both mutable.
The program moves `p` below `q`, as child `i`, and holds a second handle on `p`.  If the first `i` children of `q` and
`p` together are 2^32 bytes or longer, the check in `GreenNode::new` panics.  By then `p` is a child of `q`, and its
green node has been handed over: unwinding drops it.  Unless it is part of another green node that is still in use,
any use of `p` is undefined behaviour. -/
theorem C57_overflow {q i p : Nat} {k : SyntaxKind} {cs : List Tree} (h : HReach s gs hs lk)
    (hr : (Call.attach q i p).Ready s gs hs rest) (hp : p ∈ rest)
    (hmp : s.mutable p = true) (hmq : s.mutable q = true) (hpp : s.parent p = none) (hpq : ¬ s.Above p q)
    (ht : s.tree q = .node k cs) (hi : i ≤ cs.length)
    (hlen : 2 ^ 32 ≤ ((cs.take i).map Tree.len).sum + (s.tree p).len) (room : s.Room 1) :
    ∃ s', (Call.attach q i p).execChecked s = .panic .assert s' ∧ s'.live p = true ∧ s'.parent p = some q ∧
      ((∀ o ∈ s.owned.eraseP (·.addr == (s.green p).addr), ∀ g ∈ o.subs, g.addr ≠ (s.green p).addr) →
        Cur.kind p s' = .ub) := by
  letI : Greens := ⟨gs⟩
  obtain ⟨kids, hI⟩ := h.ok'
  have hpos : ∀ x ∈ hs, 0 < cnt (hs ++ lk) x := fun x hx => cnt_pos.mpr (List.mem_append_left _ hx)
  have hph : p ∈ hs := hr.mem_takes (by simp [Call.takes])
  have hqh : q ∈ hs := hr.mem_rest (hr.held q (by simp [Call.uses]))
  have hlp := hI.hlive p (hpos p hph)
  have hlq := hI.hlive q (hpos q hqh)
  have hqp : q ≠ p := fun e => hpq (by
    subst e
    exact ⟨_, _, [], .root hlq hpp, .root hlq hpp⟩)
  -- two handles on `p`
  have hrc : 2 ≤ s.rc p := by
    have h1 := hI.rc p hlp
    have h2 : hs.count p = ([p] ++ rest).count p := hr.split.count_eq p
    have h3 : 1 ≤ rest.count p := List.count_pos_iff.mpr hp
    simp only [cnt, List.count_append, List.count_singleton_self] at h1 h2
    omega
  obtain ⟨n, hg⟩ := node_green (s := s) (q := q) (by rw [ht]; rfl)
  have hcs : cs = n.children.map GElem.tree := by
    have e1 : s.tree q = n.tree := by rw [HSt.tree, hg]; rfl
    rw [ht, GNode.tree_eq] at e1
    cases e1; rfl
  have hi' : i ≤ n.children.length := by rw [hcs] at hi; simpa using hi
  have hlens : ((cs.take i).map Tree.len).sum = ((n.children.take i).map GElem.textLen).sum := by
    rw [hcs, ← List.map_take, List.map_map]
    congr 1
    refine List.map_congr_left fun e he => ?_
    have hk : s.Known (.node n) := .inl (by rw [← hg]; exact hI.alive hlq)
    exact (GElem.textLen_eq e (hI.uni.wf _ (hI.uni.child hk (List.mem_of_mem_take he)))).symm
  obtain ⟨j, hj1, hj2⟩ := overflowAt_some (n.children.take i) (n.children.drop i) 0 (s.green p) (by
    rw [← hlens, green_len hI hlp]; omega)
  -- the prefix
  obtain ⟨k0, hk⟩ : ∃ k, s.asU32 q i = k := ⟨_, rfl⟩
  rcases attachPre_ok (i := i) hI hlp hmp hpp hlq hmq hg hk with e | ⟨h1, N, P', F, L, s3, h2, h3, h4, h5, h6, h7, e⟩
  · have hab : Call.exec (.attach q i p) s = .abort := by
      simp only [Call.exec, H.bind_def, Cur.spliceInsert, H.onPanic, Cur.attach]
      simp only [H.rd_ok hlq, H.assert_ok hmq, detach_root hI hlp hmp hpp]
      rw [attachData_eq, H.bind_def, e]
    exact absurd hab (Call.no_abort room)
  -- the state in which the check fails
  obtain ⟨s4, hs4⟩ : ∃ s4 : HSt, s4 = { s3 with
    gtop := s.gtop + 1
    owned := ((n.children.take j).reverse ++ s.owned).eraseP (·.addr == (s.green p).addr) } := ⟨_, rfl⟩
  have f1 : s4.live = s.live := by
    rw [hs4]; exact (congrArg HSt.live h2 : _)
  have f2 : s4.rc p = s.rc p := by
    have : s3.rc = upd s.rc q (s.rc q + 1) := (congrArg HSt.rc h2 : _)
    rw [hs4]; show s3.rc p = _
    rw [this, upd_other _ _ (Ne.symm hqp)]
  have f3 : s4.parent p = some q := by
    have : s3.parent = upd s.parent p (some q) := (congrArg HSt.parent h2 : _)
    rw [hs4]; show s3.parent p = _
    rw [this, upd_same]
  have f4 : s4.green p = s.green p := by
    have : s3.green = s.green := (congrArg HSt.green h2 : _)
    rw [hs4]; show s3.green p = _
    rw [this]
  have hatt : attachC q i p s = .panic .assert s4 := by
    have hd : detachC p s = .ok () s := by
      have hrc0 : 0 < s.rc p := by omega
      simp only [detachC, detachDataC]
      rw [H.bind_ok (H.rd_ok hlp), H.bind_ok (H.assert_ok hmp), H.bind_ok (H.rd_ok hlp),
        H.bind_ok (H.assert_ok hmp), H.bind_ok (H.rd_ok hlp),
        H.bind_ok (H.assert_ok (decide_eq_true hrc0)), H.bind_ok (H.rd_ok hlp), hpp]
      rfl
    simp only [attachC]
    rw [H.bind_ok (H.rd_ok hlq), H.bind_ok (H.assert_ok hmq), H.bind_ok hd, attachDataC_eq, H.bind_ok e]
    simp only [insertGreenC, GNode.insertChild_eq s.gtop (s.green p) hi']
    have hany : ((n.children.take j).reverse ++ s3.owned).any (·.addr == (s.green p).addr) = true := by
      rw [h3, List.any_append]
      have : s.owned.any (·.addr == (s.green p).addr) = true :=
        List.any_eq_true.mpr ⟨_, hI.owned_of_root hlp hpp, by simp⟩
      rw [this, Bool.or_true]
    have htk : (n.children.take i ++ s.green p :: n.children.drop i).take j = n.children.take j := by
      have : j ≤ i := by simpa [List.length_take, Nat.min_eq_left hi'] using hj1
      rw [List.take_append_of_le_length (by simp [hi', this]), List.take_take, Nat.min_eq_left this]
    have hb : build (GNode.new s.gtop n.kind (n.children.take i ++ s.green p :: n.children.drop i)) (some (s.green p))
        { s3 with gtop := s.gtop + 1 } = .panic .assert s4 := by
      rw [build, GNode.children_new, hj2]
      simp only [htk, Option.elim]
      rw [H.bind_ok (leak_ok _ _), H.bind_def]
      simp only [H.release, hany, if_true, H.panic]
      rw [hs4, h3]
    simp only [H.bind_def, hb]
  -- unwinding drops a handle on `p`
  have hdr : dropAll [p] s4 = .ok () (s4.setRc p (s.rc p - 1)) := by
    have hl4 : s4.live p = true := by rw [f1]; exact hlp
    have hne : (s.rc p - 1 == 0) = false := beq_false_of_ne (by omega)
    simp only [dropAll, drop, decRc]
    simp only [H.bind_def, H.rd_ok hl4, f2, H.dbg, decide_eq_true (show 0 < s.rc p by omega), if_true, H.wr, hl4, H.pure_apply, hne]
    rfl
  refine ⟨s4.setRc p (s.rc p - 1), ?_, by show s4.live p = true; rw [f1]; exact hlp, f3, fun hno => ?_⟩
  · simp only [Call.execChecked, H.bind_def, spliceInsertC, H.onPanic, hatt, hdr]
  · have hkid : ∀ e ∈ n.children, ∀ g ∈ e.subs, g.addr ≠ (s.green p).addr := by
      intro e he g hge
      obtain ⟨r, P, l1, l2, l3⟩ := C38_green h hlq
      have hrp : r ≠ p := fun e => hpq ⟨p, [], P, .root hlp hpp, by rw [e] at l1; exact l1⟩
      refine hno (s.green r) ?_ g (GElem.subs_trans l3 ?_)
      · obtain ⟨rs, a1, a2, a3⟩ := hI.roots
        have hpr : p ∈ rs := (a2 p).mpr ⟨hlp, hpp⟩
        obtain ⟨x, l1', l2', b1, b2, b3, b4⟩ := List.exists_of_eraseP (p := (·.addr == (s.green p).addr))
          (hI.owned_of_root hlp hpp) (by simp)
        have hx : x = s.green p := hI.uni.coh _ _ (.inl ⟨x, by rw [b3]; simp, GElem.self_mem_subs _⟩) (.inl (hI.alive hlp))
          (by simpa using b2)
        have e1 : (s.green p :: (l1' ++ l2')).Perm (s.green p :: (rs.erase p).map s.green) := by
          have := (List.perm_cons_erase hpr).map s.green
          rw [List.map_cons] at this
          refine .trans ?_ (a3.trans this)
          rw [b3, hx]
          exact List.perm_middle.symm
        rw [b4]
        exact ((List.perm_cons _).mp e1).mem_iff.mpr
          (List.mem_map.mpr ⟨r, (List.mem_erase_of_ne hrp).mpr ((a2 r).mpr l1.root_live), rfl⟩)
      · rw [hg]; exact GElem.subs_trans (GNode.children_mem_subs he) hge
    have hnh : (s4.setRc p (s.rc p - 1)).holds (s.green p).addr = false := by
      show s4.owned.any _ = false
      rw [List.any_eq_false]
      intro o ho
      rw [Bool.not_eq_true, List.any_eq_false]
      intro g hgo
      have key : g.addr ≠ (s.green p).addr := by
        rw [hs4] at ho
        have ho : o ∈ ((n.children.take j).reverse ++ s.owned).eraseP (·.addr == (s.green p).addr) := ho
        rw [List.eraseP_append_right _ (fun b hb => by
          simpa using hkid b (List.mem_of_mem_take (List.mem_reverse.mp hb)) b (GElem.self_mem_subs _)), List.mem_append] at ho
        rcases ho with ho | ho
        · exact hkid o (List.mem_of_mem_take (List.mem_reverse.mp ho)) g hgo
        · exact hno o ho g hgo
      simpa using key
    have hl5 : (s4.setRc p (s.rc p - 1)).live p = true := by show s4.live p = true; rw [f1]; exact hlp
    have hg5 : (s4.setRc p (s.rc p - 1)).green p = s.green p := f4
    simp only [Cur.kind, green, H.bind_def, H.rd_ok hl5, hg5, H.derefG, hnh]
    rfl

end

/-! ## A concrete case -/

/-- A text of 2^31 bytes. -/
def bigText : List Char := List.replicate (2 ^ 31) 'a'
theorem blen_replicate : ∀ n : Nat, blen (List.replicate n 'a') = n
  | 0 => rfl
  | n + 1 => by
    rw [List.replicate_succ, blen, blen_replicate n]
    have : Char.utf8Size 'a' = 1 := rfl
    omega
theorem blen_bigText : blen bigText = 2 ^ 31 := blen_replicate _
attribute [irreducible] bigText

/-- The heap after `new_root_mut(g)`. -/
def HSt.plant (s : HSt) (g : GNode) : HSt :=
  { s with
    live := upd s.live s.top true
    rc := upd s.rc s.top 1
    parent := upd s.parent s.top none
    index := upd s.index s.top 0
    green := upd s.green s.top (.node g)
    mutable := upd s.mutable s.top true
    offset := upd s.offset s.top 0
    first := upd s.first s.top none
    next := upd s.next s.top (some s.top)
    prev := upd s.prev s.top (some s.top)
    top := s.top + 1
    owned := .node g :: s.owned }

theorem Call.exec_plant (s : HSt) (g : GNode) : (Call.newRoot true g).exec s = .ok [s.top] (s.plant g) := by
  have e1 : ∀ (f : Nat → Option Nat) (a b : Option Nat), upd (upd f s.top a) s.top b = upd f s.top b := by
    intro f a b; funext x; simp only [upd]; split <;> rfl
  simp [Call.exec, newRootMut, H.own, H.modify, newData, H.bind_def, Sll.init, alloc, Sll.AddRes.addToSll, H.wr,
    HSt.setPrev, HSt.setNext, e1, HSt.plant]

/-- Two mutable trees, each of them a node with a token of 2^31 bytes, and two handles on the top node of the second. -/
theorem C57_case : ∃ (s : HSt) (q p : Nat), HReach s [] [p, p, q] [] ∧
    s.mutable p = true ∧ s.mutable q = true ∧ s.parent p = none ∧ ¬ s.Above p q ∧
    s.tree q = .node 10 [.token 1 bigText] ∧ s.tree p = .node 11 [.token 1 bigText] ∧
    (∀ o ∈ s.owned.eraseP (·.addr == (s.green p).addr), ∀ g ∈ o.subs, g.addr ≠ (s.green p).addr) ∧ s.Room 1 := by
  obtain ⟨g1, hg1⟩ : ∃ g, g = GNode.new 1 10 [.token ⟨0, 1, bigText⟩] := ⟨_, rfl⟩
  obtain ⟨g2, hg2⟩ : ∃ g, g = GNode.new 3 11 [.token ⟨2, 1, bigText⟩] := ⟨_, rfl⟩
  have h0 : HReach { HSt.empty 4 with slack := 0 } [.node g2, .token ⟨2, 1, bigText⟩, .node g1, .token ⟨0, 1, bigText⟩] [] [] := by
    have := HReach.init 0 0
    have := HReach.node 10 [.token ⟨0, 1, bigText⟩] (HReach.token 1 bigText this) (by simp [HSt.empty])
    have := HReach.node 11 [.token ⟨2, 1, bigText⟩] (HReach.token 1 bigText this) (by simp [HSt.empty])
    rw [hg1, hg2]
    exact this
  have h1 := HReach.ok (.newRoot true g1) h0 (rest := []) ⟨.refl _, by simp [Call.uses], by simp [Call.nodes], by simp⟩ (Call.exec_plant _ _)
  have h2 := HReach.ok (.newRoot true g2) h1 (rest := [0]) ⟨.refl _, by simp [Call.uses], by simp [Call.nodes], by simp⟩ (Call.exec_plant _ _)
  obtain ⟨s, hs⟩ : ∃ s, s = (({ HSt.empty 4 with slack := 0 } : HSt).plant g1).plant g2 := ⟨_, rfl⟩
  have h2 : HReach s [.node g2, .token ⟨2, 1, bigText⟩, .node g1, .token ⟨0, 1, bigText⟩] [1, 0] [] := by rw [hs]; exact h2
  have hl1 : s.live 1 = true := by rw [hs]; rfl
  have hl0 : s.live 0 = true := by rw [hs]; rfl
  have hrc1 : s.rc 1 = 1 := by rw [hs]; rfl
  have e3 : (Call.clone 1).exec s = .ok [1] (s.setRc 1 2) := by
    have hn : ¬ ((1 : Nat) = Cur.rcMax) := by simp [Cur.rcMax]
    show (Cur.clone 1 >>= fun q => pure [q]) s = _
    have : Cur.clone 1 s = .ok 1 (s.setRc 1 2) := by
      unfold Cur.clone Cur.incRc
      simp [H.bind_def, H.rd_ok hl1, hrc1, hn, H.wr, hl1, HSt.setRc]
    rw [H.bind_ok this]; rfl
  have h3 := HReach.ok (.clone 1) h2 (rest := [1, 0]) ⟨.refl _, by simp [Call.uses], by simp [Call.nodes], by simp⟩ e3
  have h4 := HReach.dropGreen (gs' := []) h3 (by simp)
  letI : Greens := ⟨[]⟩
  have p1 : s.parent 1 = none := by rw [hs]; rfl
  have p0 : s.parent 0 = none := by rw [hs]; rfl
  have gr1 : s.green 1 = .node g2 := by rw [hs]; rfl
  have gr0 : s.green 0 = .node g1 := by rw [hs]; rfl
  refine ⟨s.setRc 1 2, 0, 1, h4, by rw [hs]; rfl, by rw [hs]; rfl, p1, ?_, ?_, ?_, ?_, ?_⟩
  · rintro ⟨r, P, Q, l1, l2⟩
    have a1 := (l1.unique (.root hl1 p1)).1
    have a2 := (l2.unique (.root hl0 p0)).1
    omega
  · show (s.green 0).tree = _
    rw [gr0, hg1]; rfl
  · show (s.green 1).tree = _
    rw [gr1, hg2]; rfl
  · show ∀ o ∈ s.owned.eraseP (·.addr == (s.green 1).addr), _
    rw [gr1]
    have : s.owned = [.node g2, .node g1] := by rw [hs]; rfl
    rw [this, hg1, hg2]
    intro o ho
    have : o = .node (GNode.new 1 10 [.token ⟨0, 1, bigText⟩]) := by
      simpa [List.eraseP_cons] using ho
    rw [this]
    intro g hg
    show g.addr ≠ (s.green 1).addr
    rw [gr1, hg2]
    have : g = .node (GNode.new 1 10 [.token ⟨0, 1, bigText⟩]) ∨ g = .token ⟨0, 1, bigText⟩ := by
      rcases List.mem_cons.mp (show g ∈ [_, _] from hg) with e | e
      · exact .inl e
      · exact .inr (List.mem_singleton.mp e)
    rcases this with rfl | rfl
    · show (1 : Nat) ≠ 3; omega
    · show (0 : Nat) ≠ 3; omega
  · exact C42_room h4 (by simp [Cur.rcMax]) (by simp [Cur.rcMax, Call.lost])

/-- C38 fails in builds with overflow checks, in a third way: a text gets too long (see `C57_overflow`). -/
theorem C38_overflow_fails : ∃ C : Conf, C.Reach ∧ C.gs = [] ∧ ∃ q i p rest s',
    (Call.attach q i p).Ready C.s C.gs C.hs rest ∧ ¬ C.s.Above p q ∧ p ∈ rest ∧
    (Call.attach q i p).execChecked C.s = .panic .assert s' ∧ Cur.kind p s' = .ub := by
  obtain ⟨s, q, p, h, hm, hmq, hp, hna, ht, ht', hno, hroom⟩ := C57_case
  have hr : (Call.attach q 1 p).Ready s [] [p, p, q] [p, q] :=
    ⟨.refl _, by simp [Call.uses], by simp [Call.nodes, ht, Tree.isNode], by simp⟩
  obtain ⟨s', e1, _, _, e2⟩ := C57_overflow (i := 1) h hr (by simp) hm hmq hp hna ht (by simp)
    (by simp [ht', Tree.len_node, Tree.len, Tree.text, blen_bigText]) hroom
  exact ⟨⟨s, [], [p, p, q], []⟩, h, rfl, q, 1, p, [p, q], s', hr, hna, by simp, e1, e2 hno⟩

/-! ## Concrete cases -/

example : demo2.s.total = 5 := by decide +kernel
/-- A tree replaces the first child of another one, in a build with overflow checks. -/
example : (Call.splice 0 0 3 [6]).execChecked demo2.s = (Call.splice 0 0 3 [6]).exec demo2.s :=
  C57_edits demo2_reach ⟨demo2_hs, by decide +kernel, by decide +kernel, fun _ _ e => by cases e⟩ (by decide +kernel)
    (by
      letI : Greens := ⟨[]⟩
      rintro _ _ _ _ ⟨⟩ p hp ⟨r, P, Q, l1, l2⟩
      obtain rfl := List.mem_singleton.mp hp
      have h1 : demo2.s.Loc 6 6 [] := .root (by decide +kernel) (by decide +kernel)
      have := (l1.unique h1).1
      have := (l2.unique (demo2_loc0)).1
      omega)

end Rowan
