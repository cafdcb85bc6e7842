import Verif.PositionLemmas
import Verif.Props.Cursor
/-!
# C17 – C21: finding elements by offset, range and order
-/
namespace Rowan

/-! ## C19: `child_or_token_at_range` -/

theorem pre_index {n : SNode} (hv : n.Valid) : ∃ s, n.rootOf.tree.at? n.path = some s ∧
    s = n.green.tree ∧ s.children.length = n.green.slice.length ∧
    n.offset = blen (n.rootOf.tree.before n.path) := by
  refine ⟨_, hv.at_path, rfl, ?_, hv.offset_eq⟩
  rw [GNode.tree_children, List.length_map, GNode.children_length]

/-- `child_or_token_at_range`, in terms of `child_at_range`. -/
theorem SNode.childOrTokenAtRange_ok {bs : BinarySearch} {n : SNode} {R : TextRange}
    (hR : n.offset ≤ R.start) :
    ∃ rel : TextRange, rel.start = R.start - n.offset ∧ rel.stop = R.stop - n.offset ∧
      n.childOrTokenAtRange bs R = .ok ((n.green.childAtRange bs rel).map fun x =>
        SElem.new x.2.2 n x.1 (n.offset + x.2.1)) := by
  refine ⟨⟨R.start - n.offset, R.stop - n.offset, Nat.sub_le_sub_right R.le _⟩, rfl, rfl, ?_⟩
  rw [childOrTokenAtRange, TextRange.sub?, if_pos hR]
  rfl

/-- **C19.**  For any conforming binary search: a range starting before the node panics; otherwise
the result is a child whose range contains `R`, or nothing if no child's range contains `R`. For a
non-empty range no other child contains it.  For an empty range at `x`: the last child ending at
`x`, or, if no child ends at `x`, the only child containing `x`. -/
theorem C19_child_at_range {bs : BinarySearch} (hbs : Conforming bs) {r : Root} {n : SNode}
    (h : Reach r (.node n)) (R : TextRange) :
    (R.start < n.textRange.start → n.childOrTokenAtRange bs R = .panic) ∧
    (n.textRange.start ≤ R.start →
      (n.childOrTokenAtRange bs R = .ok none ∧
        ∀ q ∈ r.tree.kids n.path, ¬ r.tree.covers R q) ∨
      ∃ e, n.childOrTokenAtRange bs R = .ok (some e) ∧ Reach r e ∧
        e.path ∈ r.tree.kids n.path ∧ r.tree.covers R e.path ∧
        (R.start < R.stop → ∀ q ∈ r.tree.kids n.path, r.tree.covers R q → q = e.path) ∧
        (R.start = R.stop →
          ((∀ s, r.tree.at? e.path = some s → blen (r.tree.before e.path) + blen s.text = R.start) ∧
            (∀ i s, e.index < i → r.tree.at? (n.path ++ [i]) = some s →
              blen (r.tree.before (n.path ++ [i])) + blen s.text ≠ R.start)) ∨
          (∀ q ∈ r.tree.kids n.path, r.tree.covers R q → q = e.path))) := by
  obtain ⟨hv, rfl⟩ := h.valid
  simp only [SElem.valid_node, SElem.rootOf_node] at hv ⊢
  obtain ⟨s, hs, hsg, hlen, hoff⟩ := pre_index hv
  have hstart : n.textRange.start = n.offset := rfl
  rw [hstart]
  constructor
  · intro hlt
    rw [SNode.childOrTokenAtRange, TextRange.sub?, if_neg (by omega)]
    rfl
  · intro hle
    obtain ⟨rel, r1, r2, hdef⟩ := SNode.childOrTokenAtRange_ok (bs := bs) hle
    obtain ⟨hsome, hnone⟩ := GNode.childAtRange_spec hbs hv.green_wf rel
    rw [← hsg, ← hlen] at hsome hnone
    rw [hdef]
    have hRle := R.le
    cases hc : n.green.childAtRange bs rel with
    | none =>
      left
      refine ⟨rfl, ?_⟩
      intro q hq hcov
      obtain ⟨j, hj, rfl⟩ := (Tree.mem_kids hs).mp hq
      obtain ⟨-, h1, h2⟩ := (Tree.covers_kid hs R j).mp hcov
      exact hnone hc j hj ⟨by omega, by omega⟩
    | some x =>
      obtain ⟨i, o, g⟩ := x
      obtain ⟨⟨c, hci, rfl, rfl⟩, h1, h2, h3⟩ := hsome i o g hc
      have hk : n.kids[i]? = some (SElem.new c.asRef n i (n.offset + c.relOffset)) := by
        rw [SNode.kids_getElem?, hci]; rfl
      have hmem := List.mem_of_getElem? hk
      have hi : i < s.children.length := by
        rw [hlen]; exact (List.getElem?_eq_some_iff.mp hci).1
      obtain ⟨v1, v2, v3⟩ := SNode.kids_valid hv hmem
      obtain ⟨i1, i2⟩ := kids_index hk
      have hp : (SElem.new c.asRef n i (n.offset + c.relOffset)).path = n.path ++ [i] := by
        have := (v1.of_parent v3).2.2.1
        rw [this, i1]
      have hcovi : n.rootOf.tree.covers R (n.path ++ [i]) :=
        (Tree.covers_kid hs R i).mpr ⟨hi, by omega, by omega⟩
      right
      refine ⟨_, rfl, reach_iff.mpr ⟨v1, v2⟩, ?_, ?_, ?_, ?_⟩
      · rw [hp]; exact (Tree.mem_kids hs).mpr ⟨i, hi, rfl⟩
      · rw [hp]; exact hcovi
      · intro hne q hq hcov
        obtain ⟨j, hj, rfl⟩ := (Tree.mem_kids hs).mp hq
        obtain ⟨-, c1, c2⟩ := (Tree.covers_kid hs R j).mp hcov
        rw [hp]
        rcases Nat.lt_trichotomy i j with hlt | he | hgt
        · have := Tree.pre_mono s.children (show i + 1 ≤ j by omega); omega
        · rw [he]
        · have := Tree.pre_mono s.children (show j + 1 ≤ i by omega); omega
      · intro hempty
        rw [hp, i1]
        have hrel : rel.start = rel.stop := by omega
        rcases h3 hrel with ⟨a1, a2⟩ | ⟨a1, a2⟩ | ⟨a0, a1⟩
        · right
          intro q hq hcov
          obtain ⟨j, hj, rfl⟩ := (Tree.mem_kids hs).mp hq
          obtain ⟨-, c1, c2⟩ := (Tree.covers_kid hs R j).mp hcov
          rcases Nat.lt_trichotomy i j with hlt | he | hgt
          · have := Tree.pre_mono s.children (show i + 1 ≤ j by omega); omega
          · rw [he]
          · have := Tree.pre_mono s.children (show j + 1 ≤ i by omega); omega
        · left
          have hend : ∀ j t, n.rootOf.tree.at? (n.path ++ [j]) = some t →
              j < s.children.length ∧ blen (n.rootOf.tree.before (n.path ++ [j])) + blen t.text =
                n.offset + Tree.pre s.children (j + 1) := by
            intro j t ht
            rw [Tree.at?_kid hs] at ht
            have := Tree.pre_succ ht
            simp only [Tree.len] at this
            rw [Tree.before_snoc hs, blen_append, ← hoff]
            have e : blen (Tree.texts (s.children.take j)) = Tree.pre s.children j := rfl
            exact ⟨(List.getElem?_eq_some_iff.mp ht).1, by omega⟩
          constructor
          · intro t ht
            obtain ⟨-, e2⟩ := hend i t ht
            omega
          · intro j t hij ht
            obtain ⟨e1, e2⟩ := hend j t ht
            have := a2 j hij e1
            omega
        · right
          intro q hq hcov
          obtain ⟨j, hj, rfl⟩ := (Tree.mem_kids hs).mp hq
          obtain ⟨-, c1, c2⟩ := (Tree.covers_kid hs R j).mp hcov
          subst a0
          rcases Nat.eq_zero_or_pos j with hj0 | hj0
          · rw [hj0]
          · have := a1 (j - 1) (by omega)
            rw [show j - 1 + 1 = j by omega] at this
            omega

/-- The search of the standard library conforms, so the statement applies to it. -/
theorem C19_std_search : Conforming stdSearch := stdSearch_conforming

/-! ## C18: `covering_element` -/

theorem coverLoop_spec {bs : BinarySearch} (hbs : Conforming bs) {r : Root} (R : TextRange) :
    ∀ (k : Nat) (e : SElem), Reach r e → e.green.subs.length ≤ k → r.tree.covers R e.path →
      ∃ x, coverLoop bs R k e = .ok x ∧ Reach r x ∧ e.path <+: x.path ∧ r.tree.covers R x.path ∧
        (∀ q ∈ r.tree.kids x.path, ¬ r.tree.covers R q) ∧
        (R.start < R.stop → ∀ q, e.path <+: q → r.tree.covers R q → q <+: x.path) := by
  intro k
  induction k with
  | zero =>
    intro e _ hk
    have := List.length_pos_of_mem e.green.self_mem_subs
    omega
  | succ k ih =>
    intro e he hk hcov
    have hev := he.valid.1
    have hcont : e.textRange.containsRange R = true := by
      rw [← hev.covers_iff, he.valid.2]; exact hcov
    cases e with
    | token t =>
      rw [coverLoop]
      simp only [hcont, Bool.not_true, Bool.false_eq_true, if_false]
      have hat := (C11_contents he).2.1 t rfl
      refine ⟨_, rfl, he, List.prefix_refl _, hcov, ?_, ?_⟩
      · intro q hq
        rw [Tree.mem_kids hat] at hq
        obtain ⟨j, hj, -⟩ := hq
        simp [Tree.children] at hj
      · rintro - q ⟨u, rfl⟩ ⟨s, hs, -⟩
        rw [Tree.at?_append, hat] at hs
        cases u with
        | nil => simp
        | cons a u => simp [Tree.at?_cons, Tree.children] at hs
    | node n =>
      rw [coverLoop]
      simp only [hcont, Bool.not_true, Bool.false_eq_true, if_false]
      have hle : n.textRange.start ≤ R.start := (TextRange.containsRange_iff.mp hcont).1
      rcases (C19_child_at_range hbs he R).2 hle with ⟨h1, h2⟩ | ⟨c, h1, h2, h3, h4, h5, -⟩
      · rw [h1]
        refine ⟨_, rfl, he, List.prefix_refl _, hcov, h2, ?_⟩
        rintro - q ⟨u, rfl⟩ hq
        cases u with
        | nil => simp
        | cons a u =>
          exfalso
          have hpre : r.tree.covers R (n.path ++ [a]) := by
            apply Tree.covers_prefix (q := u)
            simpa using hq
          have hat := he.valid.1.at_path
          rw [he.valid.2] at hat
          exact h2 _ ((Tree.mem_kids hat).mpr ⟨a, ((Tree.covers_kid hat R a).mp hpre).1, rfl⟩) hpre
      · rw [h1]
        simp only [Res.ok_bind]
        have hat := he.valid.1.at_path
        rw [he.valid.2] at hat
        obtain ⟨j, hj, hjp⟩ := (Tree.mem_kids hat).mp h3
        have hck : c ∈ n.kids := by
          obtain ⟨k1, k2⟩ := he.kids
          have : c.path ∈ n.kids.map SElem.path := by rw [k1]; exact h3
          obtain ⟨c', hc', hcp⟩ := List.mem_map.mp this
          have hc'v := k2 c' hc'
          have : c' = c := hc'v.1.unique h2.valid.1 (by rw [hc'v.2, h2.valid.2]) hcp
          rwa [← this]
        have hlt := SNode.subs_kid_lt hck
        have hlt' : (SElem.green (.node n)).subs.length = (GNode.subs n.green).length := rfl
        obtain ⟨x, x1, x2, x3, x4, x5, x6⟩ := ih c h2 (by omega) h4
        have hpp : n.path <+: c.path := by rw [hjp]; exact ⟨[j], rfl⟩
        refine ⟨x, x1, x2, hpp.trans x3, x4, x5, ?_⟩
        rintro hne q ⟨u, rfl⟩ hq
        cases u with
        | nil => simpa using hpp.trans x3
        | cons a u =>
          have hpre : r.tree.covers R (n.path ++ [a]) := by
            apply Tree.covers_prefix (q := u)
            simpa using hq
          have := h5 hne _ ((Tree.mem_kids hat).mpr
            ⟨a, ((Tree.covers_kid hat R a).mp hpre).1, rfl⟩) hpre
          apply x6 hne _ _ hq
          exact ⟨u, by rw [← this]; simp⟩

/-- **C18.** -/
theorem C18_covering_element {bs : BinarySearch} (hbs : Conforming bs) {r : Root} {n : SNode}
    (h : Reach r (.node n)) (R : TextRange) :
    (¬ r.tree.covers R n.path → n.coveringElement bs R = .panic) ∧
    (r.tree.covers R n.path →
      ∃ e, n.coveringElement bs R = .ok e ∧ Reach r e ∧ n.path <+: e.path ∧
        r.tree.covers R e.path ∧
        (∀ q ∈ r.tree.kids e.path, ¬ r.tree.covers R q) ∧
        (R.start < R.stop → ∀ q, n.path <+: q → r.tree.covers R q → q <+: e.path)) := by
  constructor
  · intro hn
    have hpos := List.length_pos_of_mem (SElem.green (.node n)).self_mem_subs
    have : (SElem.green (.node n)).subs = GNode.subs n.green := rfl
    rw [this] at hpos
    rw [SNode.coveringElement]
    cases hk : (GNode.subs n.green).length with
    | zero => omega
    | succ k =>
      rw [coverLoop]
      have : (SElem.textRange (.node n)).containsRange R = false := by
        have := h.valid.1.covers_iff R
        rw [h.valid.2] at this
        rw [← Bool.not_eq_true, ← this]
        exact hn
      simp [this]
  · intro hc
    exact coverLoop_spec hbs R _ _ h (Nat.le_refl _) hc

/-! ## C17: `token_at_offset` -/

theorem SElem.touches_iff {r : Root} {e : SElem} (h : Reach r e) (o : Nat) :
    r.tree.touches o e.path = (!e.textRange.isEmpty &&
      (decide (e.textRange.start ≤ o) && decide (o ≤ e.textRange.stop))) := by
  obtain ⟨hv, rfl⟩ := h.valid
  obtain ⟨h1, h2⟩ := hv.textRange
  have h3 := hv.at_path
  rw [Bool.eq_iff_iff, Tree.touches_iff h3, Bool.and_eq_true, Bool.and_eq_true, decide_eq_true_eq,
    decide_eq_true_eq, Bool.not_eq_true', ← Bool.not_eq_true, TextRange.isEmpty_iff, h1, h2]
  have h4 := blen_eq_zero (s := e.green.tree.text)
  simp only [ne_eq, ← h4, Tree.len]
  constructor <;> rintro ⟨a, b, c⟩ <;> exact ⟨by omega, b, c⟩

theorem kids_filter {r : Root} {n : SNode} (h : Reach r (.node n)) (o : Nat) :
    (n.kids.filter fun c => !c.textRange.isEmpty &&
      (decide (c.textRange.start ≤ o) && decide (o ≤ c.textRange.stop))).map SElem.path =
    (r.tree.kids n.path).filter (r.tree.touches o) := by
  obtain ⟨h1, h2⟩ := h.kids
  rw [← h1, List.filter_map]
  congr 1
  apply List.filter_congr
  intro e he
  exact (SElem.touches_iff (reach_iff.mpr (h2 e he)) o).symm

/-- Tokens below an element lie inside it. -/
theorem within {r : Root} {a : SToken} (ha : Reach r (.token a)) {p : List Nat} {s : Tree}
    (hs : r.tree.at? p = some s) (hm : a.path ∈ r.tree.toks p) :
    blen (r.tree.before p) ≤ (SElem.textRange (.token a)).start ∧
    (SElem.textRange (.token a)).stop ≤ blen (r.tree.before p) + s.len := by
  obtain ⟨u, hu⟩ := Tree.toks_prefix r.tree s p hs _ hm
  obtain ⟨hv, hr⟩ := ha.valid
  have h1 := (hv.covers_iff (SElem.textRange (.token a))).mpr
    (TextRange.containsRange_iff.mpr ⟨Nat.le_refl _, Nat.le_refl _⟩)
  rw [hr, SElem.path_token, hu] at h1
  obtain ⟨s', hs', c1, c2⟩ := Tree.covers_prefix h1
  rw [hs] at hs'
  cases hs'
  exact ⟨c1, c2⟩

theorem tokenAtOffset_spec {r : Root} (o : Nat) :
    ∀ (k : Nat) (e : SElem), Reach r e → e.green.subs.length ≤ k → r.tree.touches o e.path = true →
      ∃ T, tokenAtOffsetLoop o k e = .ok T ∧
        T.toList.map SToken.path = (r.tree.toks e.path).filter (r.tree.touches o) ∧
        (∀ t ∈ T.toList, Reach r (.token t)) ∧
        T ≠ .none ∧ ∀ a b, T = .between a b → a.textRange.stop = o ∧ b.textRange.start = o := by
  intro k
  induction k with
  | zero =>
    intro e _ hk
    have := List.length_pos_of_mem e.green.self_mem_subs
    omega
  | succ k ih =>
    intro e he hk ht
    have ht' := ht
    rw [SElem.touches_iff he] at ht'
    simp only [Bool.and_eq_true, Bool.not_eq_true', decide_eq_true_eq] at ht'
    obtain ⟨t1, t2, t3⟩ := ht'
    cases e with
    | token t =>
      have hat := (C11_contents he).2.1 t rfl
      rw [tokenAtOffsetLoop]
      simp only [t2, t3, decide_true, Bool.and_self, Bool.not_true, Bool.false_eq_true, if_false]
      refine ⟨_, rfl, ?_, ?_, by simp, by simp⟩
      · rw [Tree.toks_token hat]
        simp only [List.filter_cons, ht, if_true, List.filter_nil]; rfl
      · intro x hx
        simp [TokenAtOffset.toList] at hx; subst hx; exact he
    | node n =>
      have hat := (C11_contents he).1
      have hnode : (SElem.green (.node n)).tree.isNode = true := by simp
      rw [tokenAtOffsetLoop]
      have t1' : n.textRange.isEmpty = false := t1
      simp only [t2, t3, t1', decide_true, Bool.and_self, Bool.not_true, Bool.false_eq_true, if_false,
        SNode.childrenWithTokens_eq]
      have hf := kids_filter he o
      obtain ⟨k1, k2⟩ := he.kids
      have hmem : ∀ x ∈ n.kids.filter fun c => !c.textRange.isEmpty &&
          (decide (c.textRange.start ≤ o) && decide (o ≤ c.textRange.stop)),
          Reach r x ∧ x.green.subs.length ≤ k ∧ r.tree.touches o x.path = true := by
        intro x hx
        obtain ⟨m1, m2⟩ := List.mem_filter.mp hx
        have hr := reach_iff.mpr (k2 x m1)
        refine ⟨hr, ?_, by rw [SElem.touches_iff hr]; exact m2⟩
        have := SNode.subs_kid_lt m1
        have : (SElem.green (.node n)).subs.length = (GNode.subs n.green).length := rfl
        omega
      have htok := Tree.toks_touching hat hnode o
      generalize n.kids.filter (fun c => !c.textRange.isEmpty &&
          (decide (c.textRange.start ≤ o) && decide (o ≤ c.textRange.stop))) = L at hf hmem
      rw [SElem.path_node] at hat ht htok ⊢
      rcases Tree.kids_touching hat hnode o ht with
        ⟨l, l1, l2, l3, l4⟩ | ⟨l, rr, l1, l2, l3, l4, l5, l6, l7⟩
      · rw [l2] at hf htok
        cases L with
        | nil => simp at hf
        | cons x L =>
          cases L with
          | cons y L => simp at hf
          | nil =>
            simp only [List.map_cons, List.map_nil, List.cons.injEq, and_true] at hf
            obtain ⟨m1, m2, m3⟩ := hmem x (by simp)
            obtain ⟨T, T1, T2, T3, T4, T5⟩ := ih x m1 m2 m3
            refine ⟨T, T1, ?_, T3, T4, T5⟩
            rw [htok, T2, hf]; simp
      · rw [l3] at hf htok
        cases L with
        | nil => simp at hf
        | cons x L =>
          cases L with
          | nil => simp at hf
          | cons y L =>
            cases L with
            | cons z L => simp at hf
            | nil =>
              simp only [List.map_cons, List.map_nil, List.cons.injEq, and_true] at hf
              obtain ⟨m1, m2, m3⟩ := hmem x (by simp)
              obtain ⟨T, T1, T2, T3, T4, T5⟩ := ih x m1 m2 m3
              obtain ⟨u1, u2, u3⟩ := hmem y (by simp)
              obtain ⟨U, U1, U2, U3, U4, U5⟩ := ih y u1 u2 u3
              have hax := (C11_contents m1).1
              have hay := (C11_contents u1).1
              have hxe : o = blen (r.tree.before x.path) + x.green.tree.len := by
                rw [hf.1, Tree.before_snoc hat, blen_append]
                rw [hf.1] at hax
                rw [Tree.at?_kid hat] at hax
                have := Tree.pre_succ hax
                have e : blen (Tree.texts ((SElem.green (.node n)).tree.children.take l)) =
                  Tree.pre (SElem.green (.node n)).tree.children l := rfl
                omega
              have hys : o = blen (r.tree.before y.path) := by rw [hf.2, l5]
              have lx : T.toList.length = 1 := by
                have := Tree.toks_boundary r.tree o _ _ hax m3 (.inr hxe)
                rw [← T2] at this; simpa using this
              have ly : U.toList.length = 1 := by
                have := Tree.toks_boundary r.tree o _ _ hay u3 (.inl hys)
                rw [← U2] at this; simpa using this
              cases T with
              | none => simp [TokenAtOffset.toList] at lx
              | between => simp [TokenAtOffset.toList] at lx
              | single a =>
                cases U with
                | none => simp [TokenAtOffset.toList] at ly
                | between => simp [TokenAtOffset.toList] at ly
                | single b =>
                  simp only [T1, U1, Res.ok_bind]
                  have ra := T3 a (by simp [TokenAtOffset.toList])
                  have rb := U3 b (by simp [TokenAtOffset.toList])
                  refine ⟨.between a b, rfl, ?_, ?_, by simp, ?_⟩
                  · rw [htok]
                    simp only [TokenAtOffset.toList, List.map_cons, List.map_nil] at T2 U2 ⊢
                    simp only [List.flatMap_cons, List.flatMap_nil, List.append_nil]
                    rw [← hf.1, ← hf.2, ← T2, ← U2]; rfl
                  · intro t ht
                    simp only [TokenAtOffset.toList, List.mem_cons, List.not_mem_nil,
                      or_false] at ht
                    rcases ht with rfl | rfl
                    · exact ra
                    · exact rb
                  · intro a' b' hab
                    simp only [TokenAtOffset.between.injEq] at hab
                    obtain ⟨rfl, rfl⟩ := hab
                    have ta : a.path ∈ (r.tree.toks x.path).filter (r.tree.touches o) := by
                      rw [← T2]; simp [TokenAtOffset.toList]
                    have tb : b.path ∈ (r.tree.toks y.path).filter (r.tree.touches o) := by
                      rw [← U2]; simp [TokenAtOffset.toList]
                    have ca := within ra hax (List.mem_filter.mp ta).1
                    have cb := within rb hay (List.mem_filter.mp tb).1
                    have qa := (List.mem_filter.mp ta).2
                    have qb := (List.mem_filter.mp tb).2
                    rw [show a.path = SElem.path (.token a) from rfl, SElem.touches_iff ra] at qa
                    rw [show b.path = SElem.path (.token b) from rfl, SElem.touches_iff rb] at qb
                    simp only [Bool.and_eq_true, decide_eq_true_eq] at qa qb
                    have ea : SElem.textRange (.token a) = a.textRange := rfl
                    have eb : SElem.textRange (.token b) = b.textRange := rfl
                    rw [ea] at qa ca
                    rw [eb] at qb cb
                    exact ⟨by omega, by omega⟩

/-- **C17.**  `s` is the subtree at the node.  Out of range: panic.  Otherwise the result lists, left
to right, exactly the non-empty tokens of the subtree whose closed range contains the offset; it is
`None` iff the node's text is empty, and the two tokens of a `Between` meet at the offset. -/
theorem C17_token_at_offset {r : Root} {n : SNode} (h : Reach r (.node n)) {s : Tree}
    (hs : r.tree.at? n.path = some s) (o : Nat) :
    (¬ (blen (r.tree.before n.path) ≤ o ∧ o ≤ blen (r.tree.before n.path) + blen s.text) →
      n.tokenAtOffset o = .panic) ∧
    (blen (r.tree.before n.path) ≤ o → o ≤ blen (r.tree.before n.path) + blen s.text →
      ∃ T, n.tokenAtOffset o = .ok T ∧
        T.toList.map SToken.path = (s.tokenPaths n.path).filter (r.tree.touches o) ∧
        (∀ t ∈ T.toList, Reach r (.token t)) ∧
        (T = .none ↔ s.text = []) ∧
        ∀ a b, T = .between a b → a.textRange.stop = o ∧ b.textRange.start = o) := by
  have hat := (C11_contents h).1
  have hgs : s = (SElem.green (.node n)).tree := by
    rw [SElem.path_node, hs] at hat; exact Option.some.inj hat
  obtain ⟨hv, hr⟩ := h.valid
  obtain ⟨r1, r2⟩ := hv.textRange
  rw [hr, SElem.path_node] at r1 r2
  rw [← hgs, Tree.len] at r2
  have hpos : ∃ k, (GNode.subs n.green).length = k + 1 := by
    have := List.length_pos_of_mem (SElem.green (.node n)).self_mem_subs
    have e : (SElem.green (.node n)).subs = GNode.subs n.green := rfl
    rw [e] at this
    exact ⟨_, (Nat.sub_add_cancel this).symm⟩
  obtain ⟨k, hk⟩ := hpos
  constructor
  · intro hn
    rw [SNode.tokenAtOffset, hk, tokenAtOffsetLoop, r1, r2, if_pos]
    rw [Bool.not_eq_true', ← Bool.not_eq_true, Bool.and_eq_true, decide_eq_true_eq,
      decide_eq_true_eq]
    exact hn
  · intro h1 h2
    by_cases he : s.text = []
    · refine ⟨.none, ?_, ?_, by simp [TokenAtOffset.toList], by simp [he], by simp⟩
      · rw [SNode.tokenAtOffset, hk, tokenAtOffsetLoop, r1, r2]
        have : n.textRange.isEmpty = true := by
          rw [TextRange.isEmpty_iff]
          have e1 : n.textRange.start = _ := r1
          have e2 : n.textRange.stop = _ := r2
          rw [e1, e2, he]; rfl
        simp [h1, h2, this]
      · rw [← Tree.toks_eq hs, Tree.toks_not_touching r.tree o s _ hs]
        · rfl
        · rw [← Bool.not_eq_true, Tree.touches_iff hs]
          exact fun h => h.1 he
    · have ht : r.tree.touches o n.path = true := (Tree.touches_iff hs o).mpr ⟨he, h1, h2⟩
      obtain ⟨T, T1, T2, T3, T4, T5⟩ := tokenAtOffset_spec o _ _ h (Nat.le_refl _) ht
      refine ⟨T, T1, ?_, T3, ⟨fun h => absurd h T4, fun h => absurd h he⟩, T5⟩
      rw [T2, SElem.path_node, Tree.toks_eq hs]

/-! ### The statements apply to a real tree -/

/-- Offset 1 lies between the first `"a"` and the inner `"a"` (below an inner node that starts with
an empty node). -/
example : ∃ a b, synTop.tokenAtOffset 1 = .ok (.between a b) ∧ a.path = [0] ∧ b.path = [1, 1] ∧
    (synRoot.tree.tokenPaths []).filter (synRoot.tree.touches 1) = [[0], [1, 1]] :=
  ⟨_, _, rfl, rfl, rfl, by decide⟩
/-- Offset 3 is inside the two bytes of `"é"`. -/
example : ∃ a, synInnerH.tokenAtOffset 3 = .ok (.single a) ∧ a.path = [1, 2] := ⟨_, rfl, rfl⟩
example : synInnerH.tokenAtOffset 5 = .panic ∧ Reach synRoot (.node synInnerH) :=
  ⟨rfl, synInner_reach⟩
/-- The range 1..3 is covered by the inner node but by none of its children. -/
example : ∃ e, synTop.coveringElement stdSearch ⟨1, 3, by decide⟩ = .ok e ∧ e.path = [1] :=
  ⟨_, rfl, rfl⟩
example : ∃ e, synTop.coveringElement stdSearch ⟨2, 4, by decide⟩ = .ok e ∧ e.path = [1, 2] :=
  ⟨_, rfl, rfl⟩
/-- The empty range at 4: the last child ending there is the empty node. -/
example : ∃ e, synTop.childOrTokenAtRange stdSearch ⟨4, 4, by decide⟩ = .ok (some e) ∧
    e.path = [2] := ⟨_, rfl, rfl⟩
example : synInnerH.childOrTokenAtRange stdSearch ⟨0, 2, by decide⟩ = .panic ∧
    synInnerH.childOrTokenAtRange stdSearch ⟨1, 3, by decide⟩ = .ok none := ⟨rfl, rfl⟩

end Rowan
