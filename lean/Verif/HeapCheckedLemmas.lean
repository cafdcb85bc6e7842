import Verif.HeapChecked
import Verif.HeapSplice2
import Verif.EditContent
/-!
# Edits in builds with overflow checks: they behave like the unchecked ones while the texts are short

Unless their comments cite lines of `/repo`, the definitions in this file are vocabulary of the proofs and model no code.
-/
namespace Rowan
set_option linter.unusedSectionVars false
variable [Greens]

theorem sum_set {l : List Nat} {i x y : Nat} (h : l[i]? = some y) : (l.set i x).sum + y = l.sum + x := by
  induction l generalizing i with
  | nil => cases h
  | cons a l ih =>
    cases i with
    | zero => cases h; simp; omega
    | succ i =>
      have := ih (i := i) (by simpa using h)
      simp; omega

theorem sum_eraseIdx {l : List Nat} {i y : Nat} (h : l[i]? = some y) : (l.eraseIdx i).sum + y = l.sum := by
  induction l generalizing i with
  | nil => cases h
  | cons a l ih =>
    cases i with
    | zero => cases h; simp; omega
    | succ i =>
      have := ih (i := i) (by simpa using h)
      simp; omega

theorem le_sum_of_mem {l : List Nat} {x : Nat} (h : x ∈ l) : x ≤ l.sum := by
  induction l with
  | nil => cases h
  | cons a l ih =>
    rcases List.mem_cons.mp h with rfl | h
    · simp
    · have := ih h; simp; omega

theorem GNode.WF.len {n : GNode} (h : n.WF) : n.textLen = (n.children.map GElem.textLen).sum := by
  have := ((GNode.wf_iff n).mp h).1
  have e := layout_snd 0 n.children
  rw [this] at e
  simpa using e

namespace Cur

theorem overflowAt_none : ∀ (es : List GElem) (acc : Nat), acc + (es.map GElem.textLen).sum < 2 ^ 32 →
    overflowAt acc es = none
  | [], _, _ => rfl
  | e :: es, acc, h => by
    simp only [List.map_cons, List.sum_cons] at h
    rw [overflowAt, if_pos (by omega), overflowAt_none es _ (by omega)]
    rfl

theorem build_some {g : GNode} {e : GElem} (h : (g.children.map GElem.textLen).sum < 2 ^ 32) :
    build g (some e) = (do H.own (.node g); H.release e) := by
  rw [build, overflowAt_none _ _ (by omega)]; rfl

theorem build_none {g : GNode} (h : (g.children.map GElem.textLen).sum < 2 ^ 32) :
    build g none = (do H.own (.node g); pure ()) := by
  rw [build, overflowAt_none _ _ (by omega)]; rfl

theorem rd_inv {α : Type} {p : Nat} {f : HSt → Nat → α} {s s' : HSt} {a : α} (h : H.rd p f s = .ok a s') :
    s' = s ∧ a = f s p := by
  simp only [H.rd] at h
  split at h <;> cases h
  exact ⟨rfl, rfl⟩

theorem wr_inv {p : Nat} {f : HSt → HSt} {s s' : HSt} {a : Unit} (h : H.wr p f s = .ok a s') : s' = f s := by
  simp only [H.wr] at h
  split at h <;> cases h
  rfl

theorem release_inv {g : GElem} {s s' : HSt} {a : Unit} (h : H.release g s = .ok a s') :
    s' = { s with owned := s.owned.eraseP (·.addr == g.addr) } := by
  simp only [H.release] at h
  split at h <;> cases h
  rfl

theorem greenRef_inv {p : Nat} {g : GNode} {s s' : HSt} (h : greenRef p s = .ok g s') :
    s' = s ∧ s.green p = .node g := by
  by_cases hl : s.live p = true
  · by_cases hg : s.holds (s.green p).addr = true
    · simp only [greenRef, green, H.bind_def, H.rd, H.derefG, if_pos hl, if_pos hg, H.pure_apply] at h
      cases hn : s.green p with
      | token t => rw [hn] at h; cases h
      | node n => rw [hn] at h; cases h; exact ⟨rfl, rfl⟩
    · simp only [greenRef, green, H.bind_def, H.rd, H.derefG, if_pos hl, if_neg hg] at h
      cases h
  · simp only [greenRef, green, H.bind_def, H.rd, if_neg hl] at h
    cases h

/-- If the new green node is at most `d` longer than the old one, and the texts of the ancestors are at least `d`
bytes below the limit, then nothing overflows. -/
theorem respineC_eq : ∀ (fuel : Nat) (s : HSt) (node : Nat) (l : List Nat), Chain s node l → ∀ (g0 : GNode) (d : Nat),
    (∀ y ∈ l, ∃ n, s.green y = .node n ∧ n.WF ∧ n.textLen + d < 2 ^ 32) →
    (∀ y ∈ l, ∀ y', s.parent y = some y' → ∃ n, s.green y' = .node n ∧
      n.children[s.index y]? = some (s.green y)) →
    g0.textLen ≤ (s.green node).textLen + d →
    respineC fuel node g0 s = respine fuel node g0 s := by
  intro fuel
  induction fuel with
  | zero => intros; rfl
  | succ fuel ih =>
    intro s node l hch g0 d hn hc hg0
    simp only [respineC, respine]
    refine H.bind_congr fun old s1 e1 => ?_
    obtain ⟨rfl, rfl⟩ := rd_inv e1
    refine H.bind_congr fun _ s2 e2 => ?_
    obtain rfl : s2 = s1 := by
      cases hx : (s1.green node).asNode <;> rw [hx] at e2 <;> cases e2; rfl
    refine H.bind_congr fun _ s1 e3 => ?_
    obtain rfl := wr_inv e3
    refine H.bind_congr fun o s1 e4 => ?_
    obtain ⟨rfl, rfl⟩ := rd_inv e4
    have hpe : (s2.setGreen node (.node g0)).parent node = s2.parent node := rfl
    rw [hpe]
    cases hch with
    | root _ hp => rw [hp]
    | @step _ q l' hl hp hc' =>
      rw [hp]
      simp only []
      have hnl : node ∉ l' := (List.nodup_cons.mp (Chain.step hl hp hc').nodup).1
      have hgs : ∀ y ∈ l', (s2.setGreen node (.node g0)).green y = s2.green y := fun y hy =>
        upd_other _ _ fun e => hnl (e ▸ hy)
      refine H.bind_congr fun pg s1 e5 => ?_
      obtain ⟨rfl, hpg⟩ := greenRef_inv e5
      rw [hgs q hc'.self_mem] at hpg
      refine H.bind_congr fun i s1 e6 => ?_
      obtain ⟨rfl, rfl⟩ := rd_inv e6
      have hie : (s2.setGreen node (.node g0)).index node = s2.index node := rfl
      rw [hie]
      refine H.bind_congr fun a s1 e7 => ?_
      cases e7
      obtain ⟨n, hn1, hn2⟩ := hc node (by simp) q hp
      rw [hpg] at hn1; cases hn1
      obtain ⟨n, hn3, hwf, hlen⟩ := hn q (by simp [hc'.self_mem])
      rw [hpg] at hn3; cases hn3
      have hsum : ((pg.replaceChild (s2.setGreen node (.node g0)).gtop (s2.index node) (.node g0)).children.map
          GElem.textLen).sum ≤ pg.textLen + d := by
        rw [GNode.replaceChild_children, List.map_set, hwf.len]
        have := sum_set (l := pg.children.map GElem.textLen) (i := s2.index node) (x := g0.textLen)
          (y := (s2.green node).textLen) (by simp [hn2])
        rw [GElem.textLen_node]
        omega
      rw [build_some (by omega), H.bind_assoc]
      refine H.bind_congr fun _ s3 e8 => ?_
      cases e8
      refine H.bind_congr fun _ s3 e9 => ?_
      obtain rfl := release_inv e9
      refine ih _ q l' ?_ _ d ?_ ?_ ?_
      · exact hc'.congr fun y hy => ⟨hc'.live_of_mem hy, rfl⟩
      · intro y hy
        obtain ⟨n, h1, h2⟩ := hn y (by simp [hy])
        exact ⟨n, (hgs y hy).trans h1, h2⟩
      · intro y hy y' hy'
        obtain ⟨n, h1, h2⟩ := hc y (by simp [hy]) y' hy'
        exact ⟨n, (hgs y' (hc'.parent_mem hy hy')).trans h1, h2.trans (congrArg some (hgs y hy).symm)⟩
      · have : ∀ g : GNode, g.textLen = (g.children.map GElem.textLen).sum → (g.children.map GElem.textLen).sum ≤ pg.textLen + d →
            g.textLen ≤ GElem.textLen (.node pg) + d := by
          intro g h1 h2; rw [h1]; exact h2
        show _ ≤ ((s2.setGreen node (.node g0)).green q).textLen + d
        rw [hgs q hc'.self_mem, hpg]
        refine this _ ?_ hsum
        rw [GNode.replaceChild, GNode.textLen_new, GNode.children_new]

end Cur

namespace Tree

theorem len_node (k : SyntaxKind) (cs : List Tree) : (node k cs).len = (cs.map len).sum := by
  simp only [len, text_node]
  induction cs with
  | nil => rfl
  | cons c cs ih => simp [blen_append, ih, len]

theorem len_editKids {k : SyntaxKind} {cs : List Tree} {f : List Tree → List Tree} : ∀ {P : List Nat} {t : Tree},
    t.at? P = some (node k cs) → (t.editKids P f).len + (node k cs).len = t.len + (node k (f cs)).len
  | [], t, h => by
    simp only [at?, Option.some.injEq] at h
    subst h
    rw [editKids_nil]; omega
  | a :: P, t, h => by
    cases t with
    | token k' x => simp [at?_cons, children] at h
    | node k' us =>
      rw [at?_cons] at h
      simp only [children] at h
      cases hc : us[a]? with
      | none => rw [hc] at h; cases h
      | some c =>
        rw [hc] at h
        have ih := len_editKids (f := f) (P := P) (t := c) h
        rw [editKids_cons, len_node, len_node (cs := us)]
        have e : (us.modify a (·.editKids P f)).map len = (us.map len).set a (c.editKids P f).len := by
          apply List.ext_getElem?
          intro j
          rw [List.getElem?_map, List.getElem?_modify, List.getElem?_set, List.getElem?_map]
          by_cases ej : a = j
          · subst ej
            simp [(List.getElem?_eq_some_iff.mp hc).1, (List.getElem?_eq_some_iff.mp hc).2]
          · simp [ej]
        have := sum_set (l := us.map len) (i := a) (x := (c.editKids P f).len) (y := c.len) (by simp [hc])
        rw [e]; omega

theorem len_removeAt {t c : Tree} {P : List Nat} {i : Nat} (h : t.at? (P ++ [i]) = some c) :
    (t.removeAt P i).len + c.len = t.len := by
  rw [at?_append] at h
  cases hu : t.at? P with
  | none => rw [hu] at h; cases h
  | some u =>
    rw [hu] at h
    cases u with
    | token k x => simp [at?_cons, children] at h
    | node k cs =>
      simp only [Option.bind_some, at?_cons, children] at h
      have hc : cs[i]? = some c := by
        cases hc : cs[i]? with
        | none => rw [hc] at h; cases h
        | some c' => rw [hc] at h; simpa [at?] using h
      have h1 := len_editKids (f := (·.eraseIdx i)) hu
      have e : (cs.eraseIdx i).map len = (cs.map len).eraseIdx i := by
        simp [List.eraseIdx_eq_take_drop_succ, List.map_take, List.map_drop]
      rw [len_node, len_node, e] at h1
      have h2 := sum_eraseIdx (l := cs.map len) (i := i) (y := c.len) (by simp [hc])
      rw [removeAt]; omega

theorem len_insertAt {t u : Tree} {P : List Nat} {i : Nat} {k : SyntaxKind} {cs : List Tree}
    (h : t.at? P = some (node k cs)) : (t.insertAt P i u).len = t.len + u.len := by
  have h1 := len_editKids (f := fun cs => cs.take i ++ u :: cs.drop i) h
  rw [len_node, len_node] at h1
  have h2 : (cs.map len).sum = ((cs.take i).map len).sum + ((cs.drop i).map len).sum := by
    rw [← List.sum_append, ← List.map_append, List.take_append_drop]
  simp only [List.map_append, List.map_cons, List.sum_append, List.sum_cons] at h1
  rw [insertAt]; omega

end Tree

theorem sum_le_of_subset {f g : Nat → Nat} : ∀ {l m : List Nat}, l.Nodup → (∀ x ∈ l, x ∈ m ∧ f x ≤ g x) →
    (l.map f).sum ≤ (m.map g).sum
  | [], _, _, _ => by simp
  | x :: l, m, hn, h => by
    obtain ⟨h1, h2⟩ := h x (by simp)
    have ih := sum_le_of_subset (f := f) (g := g) (l := l) (m := m.erase x) (List.nodup_cons.mp hn).2 fun y hy => by
      obtain ⟨h3, h4⟩ := h y (by simp [hy])
      refine ⟨(List.mem_erase_of_ne ?_).mpr h3, h4⟩
      rintro rfl; exact (List.nodup_cons.mp hn).1 hy
    have hp := (((List.perm_cons_erase h1).map g)).sum_nat
    simp only [List.map_cons, List.sum_cons] at hp ⊢
    omega

theorem sum_change {f g : Nat → Nat} {r : Nat} : ∀ {l : List Nat}, l.Nodup → r ∈ l → (∀ x ∈ l, x ≠ r → g x = f x) →
    (l.map g).sum + f r = (l.map f).sum + g r
  | x :: l, hn, hr, h => by
    obtain ⟨h1, h2⟩ := List.nodup_cons.mp hn
    simp only [List.map_cons, List.sum_cons]
    by_cases e : x = r
    · subst e
      have : l.map g = l.map f := List.map_congr_left fun y hy => h y (by simp [hy]) fun e => h1 (e ▸ hy)
      rw [this]; omega
    · have := sum_change (f := f) (g := g) (r := r) h2 ((List.mem_cons.mp hr).resolve_left (Ne.symm e))
        fun y hy => h y (by simp [hy])
      have := h x (by simp) e
      omega

namespace Cur
variable {s s' : HSt} {hc hc' : Nat → Nat} {kids kids' : Nat → List Nat} {z z' : Option Nat} {bad bad' : List Nat}

theorem total_eq (h : HInv s hc kids z bad) : ∃ rs : List Nat, rs.Nodup ∧
    (∀ p, p ∈ rs ↔ s.live p = true ∧ s.parent p = none) ∧ s.total = (rs.map fun x => (s.tree x).len).sum := by
  obtain ⟨rs, h1, h2, h3⟩ := h.roots
  refine ⟨rs, h1, h2, ?_⟩
  rw [HSt.total, (h3.map _).sum_nat, List.map_map]
  congr 1
  refine List.map_congr_left fun x hx => ?_
  have : s.Known (s.green x) := .inl ⟨_, h.owned_of_root ((h2 x).mp hx).1 ((h2 x).mp hx).2, GElem.self_mem_subs _⟩
  exact GElem.textLen_eq _ (h.uni.wf _ this)

theorem total_shrinks (h : HInv s hc kids z bad) (h' : HInv s' hc' kids' z' bad') (hs : Shrinks s s') :
    s'.total ≤ s.total := by
  obtain ⟨rs, _, a2, a3⟩ := total_eq h
  obtain ⟨rs', b1, b2, b3⟩ := total_eq h'
  rw [a3, b3]
  refine sum_le_of_subset b1 fun x hx => ?_
  obtain ⟨c1, c2⟩ := (b2 x).mp hx
  obtain ⟨d1, d2⟩ := hs.keeps x c1
  refine ⟨(a2 x).mpr ⟨d1, by rw [← d2.parent]; exact c2⟩, ?_⟩
  rw [HSt.tree, HSt.tree, d2.green]; exact Nat.le_refl _

theorem total_cut {p r : Nat} {P : List Nat} {i : Nat} (h : HInv s hc kids z []) (h' : HInv s' hc' kids' z' bad')
    (hp : s.Loc p r (P ++ [i])) (he : Effect s s' (cutLoc r p P i) (cutTree s r P i)) : s'.total ≤ s.total := by
  obtain ⟨rs, a1, a2, a3⟩ := total_eq h
  obtain ⟨rs', b1, b2, b3⟩ := total_eq h'
  have hpr : p ∉ rs := fun e => by
    obtain ⟨e1, e2⟩ := (a2 p).mp e
    have := ((HSt.Loc.root e1 e2).unique hp).2
    simp at this
  have hr : r ∈ rs := (a2 r).mpr hp.root_live
  have hne : p ≠ r := fun e => hpr (e ▸ hr)
  have h1 : s'.total ≤ ((p :: rs).map fun x => (cutTree s r P i x).len).sum := by
    rw [b3]
    refine sum_le_of_subset b1 fun x hx => ?_
    obtain ⟨c1, c2⟩ := (b2 x).mp hx
    refine ⟨?_, by rw [he.tree x c1 c2]; exact Nat.le_refl _⟩
    obtain ⟨l, hch⟩ := h.chain x (he.live x c1)
    obtain ⟨r0, Q, hx0⟩ := hch.loc
    obtain ⟨d1, d2⟩ := (HSt.Loc.root c1 c2).unique (he.loc x r0 Q hx0 c1)
    have hroot : Q = [] → x ∈ rs := fun e => by
      subst e
      exact (a2 x).mpr ⟨hx0.live, hx0.nil_root.2⟩
    rcases View.cutLoc_cases r p P i r0 Q with ⟨_, Q', e1, e2⟩ | ⟨_, R, e1, e2⟩ | ⟨_, e2⟩ <;> rw [e2] at d1 d2
    · have d2 : [] = Q' := d2
      subst d2
      exact List.mem_cons_of_mem _ (hroot (View.stays_nil e1))
    · have d1 : x = p := d1
      rw [d1]; simp
    · exact List.mem_cons_of_mem _ (hroot d2.symm)
  have h2 := sum_change (f := fun x => (s.tree x).len) (g := fun x => (cutTree s r P i x).len) a1 hr
    fun x _ e => by rw [cutTree, if_neg e]
  simp only [List.map_cons, List.sum_cons] at h1 h2
  rw [cutTree, if_neg hne] at h1
  rw [cutTree, if_pos rfl] at h2
  have h3 := Tree.len_removeAt (h.tree_at hp)
  omega

theorem total_join {p q r : Nat} {P : List Nat} {i : Nat} {n : GNode} (h : HInv s hc kids z []) (h' : HInv s' hc' kids' z' bad')
    (hlp : s.live p = true) (hpp : s.parent p = none) (hpr : p ≠ r) (hq : s.Loc q r P) (hg : s.green q = .node n)
    (he : Effect s s' (joinLoc r p P i) (joinTree s r p P i)) : s'.total ≤ s.total := by
  obtain ⟨rs, a1, a2, a3⟩ := total_eq h
  obtain ⟨rs', b1, b2, b3⟩ := total_eq h'
  have hr : r ∈ rs := (a2 r).mpr hq.root_live
  have hp : p ∈ rs := (a2 p).mpr ⟨hlp, hpp⟩
  have hr' : r ∈ rs.erase p := (List.mem_erase_of_ne (Ne.symm hpr)).mpr hr
  have h1 : s'.total ≤ ((rs.erase p).map fun x => (joinTree s r p P i x).len).sum := by
    rw [b3]
    refine sum_le_of_subset b1 fun x hx => ?_
    obtain ⟨c1, c2⟩ := (b2 x).mp hx
    refine ⟨?_, by rw [he.tree x c1 c2]; exact Nat.le_refl _⟩
    obtain ⟨l, hch⟩ := h.chain x (he.live x c1)
    obtain ⟨r0, Q, hx0⟩ := hch.loc
    obtain ⟨d1, d2⟩ := (HSt.Loc.root c1 c2).unique (he.loc x r0 Q hx0 c1)
    have hroot : r0 ≠ p → Q = [] → x ∈ rs.erase p := fun e1 e => by
      subst e
      obtain ⟨e2, e3⟩ := hx0.nil_root
      exact (List.mem_erase_of_ne (e2 ▸ e1)).mpr ((a2 x).mpr ⟨hx0.live, e3⟩)
    simp only [joinLoc] at d1 d2
    by_cases e1 : r0 = p
    · rw [if_pos e1] at d2
      simp at d2
    · rw [if_neg e1] at d2
      refine hroot e1 ?_
      split at d2
      · cases Q with
        | nil => rfl
        | cons a Q => 
          cases P with
          | nil => simp only [Tree.afterInsert] at d2; split at d2 <;> cases d2
          | cons b P => simp only [Tree.afterInsert] at d2; split at d2 <;> cases d2
      · exact d2.symm
  have h2 := sum_change (f := fun x => (s.tree x).len) (g := fun x => (joinTree s r p P i x).len) (a1.erase p) hr'
    fun x _ e => by rw [joinTree, if_neg e]
  have h4 := ((List.perm_cons_erase hp).map fun x => (s.tree x).len).sum_nat
  simp only [List.map_cons, List.sum_cons] at h2 h4
  rw [joinTree, if_pos rfl] at h2
  have e1 : s.tree q = .node n.kind (n.children.map GElem.tree) := by
    have : s.tree q = n.tree := by rw [HSt.tree, hg]; rfl
    rw [this, GNode.tree_eq]
  have h3 := Tree.len_insertAt (i := i) (u := s.tree p) ((h.tree_at hq).trans (congrArg some e1))
  omega

end Cur
/-- If `m` returns, the texts are not longer than before. -/
structure Thin {α : Type} (m : H α) (s : HSt) : Prop where
  le : ∀ a s', m s = .ok a s' → s'.total ≤ s.total

namespace Thin
variable {α β : Type} {m : H α} {f : α → H β} {s : HSt}

theorem bind (h : Thin m s) (hf : ∀ a s', Thin (f a) s') : Thin (m >>= f) s := by
  refine ⟨fun b s' e => ?_⟩
  rw [H.bind_def] at e
  cases e1 : m s with
  | ok a s1 => rw [e1] at e; exact Nat.le_trans ((hf a s1).le b s' e) (h.le a s1 e1)
  | _ => rw [e1] at e; cases e

theorem keep (h : ∀ a s', m s = .ok a s' → s'.owned = s.owned) : Thin m s := ⟨fun a s' e => by
  rw [HSt.total, h a s' e]; exact Nat.le_refl _⟩

theorem pure (a : α) : Thin (Pure.pure a : H α) s := keep fun _ _ e => by cases e; rfl
theorem ub : Thin (H.ub : H α) s := keep fun _ _ e => by cases e
theorem diverge : Thin (H.diverge : H α) s := keep fun _ _ e => by cases e
theorem dbg (b : Bool) : Thin (H.dbg b) s := by
  cases b
  · exact ub
  · exact pure ()
theorem rd {p : Nat} {f : HSt → Nat → α} : Thin (H.rd p f) s := keep fun _ _ e => by rw [(Cur.rd_inv e).1]
theorem wr {p : Nat} {f : HSt → HSt} (hf : ∀ s, (f s).owned = s.owned) : Thin (H.wr p f) s :=
  keep fun _ _ e => by rw [Cur.wr_inv e, hf]
theorem nonNull (o : Option Nat) : Thin (H.nonNull o) s := by
  cases o
  · exact ub
  · exact pure _
theorem unwrap (o : Option α) : Thin (H.unwrap o) s := by
  cases o
  · exact keep fun _ _ e => by cases e
  · exact pure _
theorem derefG (g : GElem) : Thin (H.derefG g) s := keep fun _ _ e => by
  simp only [H.derefG] at e
  split at e <;> cases e
  rfl
theorem release (g : GElem) : Thin (H.release g) s := ⟨fun _ _ e => by
  rw [Cur.release_inv e, HSt.total, HSt.total]
  have : ∀ l : List GElem, ((l.eraseP (·.addr == g.addr)).map GElem.textLen).sum ≤ (l.map GElem.textLen).sum := by
    intro l
    induction l with
    | nil => simp
    | cons a l ih =>
      rw [List.eraseP_cons]
      cases a.addr == g.addr <;> simp <;> omega
  exact this _⟩
theorem loop {f : Nat → H α} (h : ∀ n, Thin (f n) s) : Thin (H.loop f) s := ⟨fun a s' e => (h _).le a s' e⟩
theorem ite {c : Prop} [Decidable c] {m1 m2 : H α} (h1 : Thin m1 s) (h2 : Thin m2 s) : Thin (if c then m1 else m2) s := by
  split <;> assumption
theorem incRc (p : Nat) : Thin (Cur.incRc p) s := by
  unfold Cur.incRc
  exact bind rd fun _ _ => ite (keep fun _ _ e => by cases e) (wr fun _ => rfl)
theorem decRc (p : Nat) : Thin (Cur.decRc p) s := by
  unfold Cur.decRc
  exact bind rd fun _ _ => bind (dbg _) fun _ _ => bind (wr fun _ => rfl) fun _ _ => pure _

end Thin

/-- Prove `Thin` for straight-line code. -/
macro "thin" : tactic => `(tactic| repeat' first
  | exact Thin.pure _
  | exact Thin.ub
  | exact Thin.diverge
  | exact Thin.dbg _
  | exact Thin.rd
  | exact Thin.nonNull _
  | exact Thin.derefG _
  | exact Thin.release _
  | exact Thin.unwrap _
  | exact Thin.incRc _
  | exact Thin.decRc _
  | exact Thin.wr (fun _ => rfl)
  | apply_assumption
  | refine Thin.bind ?_ fun _ _ => ?_
  | refine Thin.ite ?_ ?_
  | split)

namespace Thin
variable {s : HSt}

theorem addToSll (r : Sll.AddRes) (p : Nat) : Thin (r.addToSll p) s := by
  unfold Sll.AddRes.addToSll; thin

theorem linkLoop : ∀ (n curr key : Nat) (s : HSt), Thin (Sll.linkLoop n curr key) s
  | 0, _, _, _ => diverge
  | n + 1, curr, key, s => by
    have ih := linkLoop n
    unfold Sll.linkLoop; thin

theorem link (h key : Nat) (s : HSt) : Thin (Sll.link h key) s := by
  unfold Sll.link
  refine bind rd fun o s1 => ?_
  cases o with
  | none => exact pure _
  | some h0 =>
    refine bind rd fun _ _ => ite (pure _) (bind rd fun _ _ => bind (nonNull _) fun _ _ => ?_)
    exact loop fun _ => linkLoop ..

theorem init (o : Option Nat) (key : Nat) (s : HSt) : Thin (Sll.init o key) s := by
  cases o with
  | none => exact pure _
  | some q => exact link ..

theorem unlink (h p : Nat) (s : HSt) : Thin (Sll.unlink h p) s := by
  unfold Sll.unlink; thin

theorem dealloc (p : Nat) (s : HSt) : Thin (Cur.dealloc p) s := wr fun _ => rfl

theorem freeLoop : ∀ (n p : Nat) (s : HSt), Thin (Cur.freeLoop n p) s
  | 0, _, _ => diverge
  | n + 1, p, s => by
    have ih := freeLoop n
    have h1 := unlink
    have h2 := dealloc
    unfold Cur.freeLoop Cur.unlinkIf; thin

theorem free (p : Nat) (s : HSt) : Thin (Cur.free p) s := loop fun _ => freeLoop ..

theorem drop (p : Nat) (s : HSt) : Thin (Cur.drop p) s := by
  have := free
  unfold Cur.drop; thin

theorem dropOpt (o : Option Nat) (s : HSt) : Thin (Cur.dropOpt o) s := by
  cases o with
  | none => exact pure _
  | some p => exact drop ..

theorem alloc {o : Option Nat} {i off : Nat} {g : GElem} {m : Bool} : Thin (Cur.alloc o i off g m) s :=
  keep fun _ _ e => by cases e; rfl

theorem newData (o : Option Nat) (i off : Nat) (g : GElem) (m : Bool) (s : HSt) :
    Thin (Cur.newData o i off g m) s := by
  unfold Cur.newData
  refine ite ?_ alloc
  refine bind (init ..) fun it s => ?_
  split
  · refine bind rd fun _ _ => bind (dbg _) fun _ _ => bind rd fun _ _ => bind (derefG _) fun _ _ =>
      bind (derefG _) fun _ _ => bind (dbg _) fun _ _ => bind (dropOpt ..) fun _ _ => ?_
    exact bind (incRc _) fun _ _ => pure _
  · exact bind alloc fun _ _ => bind (addToSll ..) fun _ _ => pure _

theorem parentNode (p : Nat) (s : HSt) : Thin (Cur.parentNode p) s := by
  refine bind rd fun o s => ?_
  cases o with
  | none => exact pure _
  | some q => exact bind rd fun _ _ => bind (dbg _) fun _ _ => bind (incRc _) fun _ _ => pure _

theorem green (p : Nat) (s : HSt) : Thin (Cur.green p) s := by
  unfold Cur.green; thin

theorem greenRef (p : Nat) (s : HSt) : Thin (Cur.greenRef p) s := bind (green ..) fun _ _ => unwrap _

theorem greenSiblings (p : Nat) (s : HSt) : Thin (Cur.greenSiblings p) s := by
  unfold Cur.greenSiblings; thin

theorem offsetMut : ∀ (n p r : Nat) (s : HSt), Thin (Cur.offsetMut n p r) s
  | 0, _, _, _ => diverge
  | n + 1, p, r, s => by
    refine bind rd fun o s => ?_
    cases o with
    | none => exact pure _
    | some q =>
      exact bind (greenRef ..) fun _ _ => bind rd fun _ _ => bind (unwrap _) fun _ _ => offsetMut ..

theorem offset (p : Nat) (s : HSt) : Thin (Cur.offset p) s :=
  bind rd fun _ _ => ite (loop fun _ => offsetMut ..) rd

theorem newChild (g : GElem) (q i off : Nat) (s : HSt) : Thin (Cur.newChild g q i off) s :=
  bind rd fun _ _ => newData ..

theorem viaParent (p : Nat) (o : Option (GChild × Nat)) (s : HSt) : Thin (Cur.viaParent p o) s := by
  cases o with
  | none => exact pure _
  | some x =>
    refine bind (parentNode ..) fun o s => ?_
    cases o with
    | none => exact pure _
    | some q => exact bind (offset ..) fun _ _ => bind (newChild ..) fun _ _ => pure _

theorem viaSelf (p : Nat) (o : Option (GChild × Nat)) (s : HSt) : Thin (Cur.viaSelf p o) s := by
  cases o with
  | none => exact pure _
  | some x =>
    exact bind (incRc ..) fun o s => bind (offset ..) fun _ _ => bind (newChild ..) fun _ _ => pure _

theorem advance (p q off : Nat) (o : Option (GChild × Nat)) (s : HSt) : Thin (Cur.advance p q off o) s := by
  have h1 := drop
  have h2 := free
  cases o <;> simp only [Cur.advance] <;> thin

theorem takeNext (sel : List (GChild × Nat) → Option (GChild × Nat)) (p : Nat) (s : HSt) :
    Thin (Cur.takeNext sel p) s := by
  refine bind (parentNode ..) fun o s => ?_
  cases o with
  | none => exact pure _
  | some q =>
    exact bind (offset ..) fun _ _ => bind (greenRef ..) fun _ _ => bind rd fun _ _ => advance ..

theorem toNextOf (nodes : Bool) (p : Nat) (s : HSt) : Thin (Cur.toNextOf nodes p) s := by
  have h0 : ∀ s, Thin (Cur.canTakePtr p) s := fun s => by unfold Cur.canTakePtr; thin
  cases nodes <;>
  · refine bind (h0 _) fun _ s => ite (takeNext ..) ?_
    refine bind ?_ fun _ _ => ?_
    · exact bind (greenSiblings ..) fun _ _ => bind rd fun _ _ => viaParent ..
    · exact bind (drop ..) fun _ _ => pure _

theorem step (it : Cur.Children) (s : HSt) : Thin it.step s := by
  refine bind ?_ fun o s => bind ?_ fun _ _ => pure _
  · unfold Cur.Children.advance
    refine ite ?_ ?_
    · exact ite (bind (greenRef ..) fun _ _ => viaSelf ..) (bind (greenRef ..) fun _ _ => viaSelf ..)
    · split
      · exact pure _
      · exact toNextOf ..
  · cases o with
    | none => exact pure _
    | some e => exact bind (incRc _) fun _ _ => pure _

end Thin

end Rowan
