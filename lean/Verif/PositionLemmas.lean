import Verif.WalkLemmas
import Verif.Spec.Position
/-!
# Lemmas about position queries

Unless their comments cite lines of `/repo`, the definitions in this file are vocabulary of the proofs and model no code.
-/
namespace Rowan

/-! ### Binary search -/

theorem stdSearchLoop_spec (f : Nat → Ordering) (n : Nat)
    (hs : ∀ i j, i ≤ j → j < n → (f i).ctorIdx ≤ (f j).ctorIdx) :
    ∀ (k base size : Nat), size ≤ k → 0 < size → base + size ≤ n →
      (∀ j, j < base → f j ≠ .gt) → (0 < base → f base ≠ .gt) →
      (∀ j, base + size ≤ j → j < n → f j = .gt) →
      ∃ b, stdSearchLoop f k base size = b ∧ b < n ∧ (0 < b → f b ≠ .gt) ∧
        ∀ j, b < j → j < n → f j = .gt := by
  intro k
  induction k with
  | zero => intro base size h1 h2; omega
  | succ k ih =>
    intro base size h1 h2 h3 h4 h5 h6
    rw [stdSearchLoop]
    by_cases hsz : size > 1
    · simp only [hsz, if_true]
      have hh : size / 2 < size := by omega
      have hh' : 0 < size / 2 := by omega
      by_cases hg : f (base + size / 2) = .gt
      · rw [if_pos hg]
        refine ih base (size - size / 2) (by omega) (by omega) (by omega) h4 h5 ?_
        intro j hj hjn
        have hm : base + size / 2 ≤ j := by omega
        have := hs _ _ hm hjn
        rw [hg] at this
        revert this
        cases f j <;> simp [Ordering.ctorIdx]
      · rw [if_neg hg]
        refine ih (base + size / 2) (size - size / 2) (by omega) (by omega) (by omega) ?_
          (fun _ => hg) ?_
        · intro j hj hjg
          have := hs j (base + size / 2) (by omega) (by omega)
          rw [hjg] at this
          revert this hg
          cases f (base + size / 2) <;> simp [Ordering.ctorIdx]
        · intro j hj hjn; exact h6 j (by omega) hjn
    · simp only [hsz, if_false]
      refine ⟨base, rfl, by omega, h5, ?_⟩
      intro j hj hjn
      exact h6 j (by omega) hjn

/-- The search of the standard library meets the contract. -/
theorem stdSearch_conforming : Conforming stdSearch := by
  intro n f hs
  simp only [stdSearch]
  by_cases h0 : n = 0
  · subst h0; simp
  · simp only [h0, if_false]
    obtain ⟨b, hb, h1, h2, h3⟩ := stdSearchLoop_spec f n hs n 0 n (Nat.le_refl _) (by omega)
      (by omega) (by simp) (by simp) (by intro j h; omega)
    rw [hb]
    cases hf : f b with
    | eq => exact ⟨h1, hf⟩
    | lt =>
      refine ⟨by omega, ?_, fun j hj hjn => h3 j (by omega) hjn⟩
      intro j hj
      have := hs j b (by omega) h1
      rw [hf] at this
      revert this
      cases f j <;> simp [Ordering.ctorIdx]
    | gt =>
      have hb0 : b = 0 := by
        rcases Nat.eq_zero_or_pos b with h | h
        · exact h
        · exact absurd hf (h2 h)
      subst hb0
      refine ⟨by omega, by simp, ?_⟩
      intro j _ hjn
      rcases Nat.eq_zero_or_pos j with h | h
      · rw [h]; exact hf
      · exact h3 j h hjn

/-! ### Starts of children -/

/-- Byte length of the first `i` trees. -/
def Tree.pre (ts : List Tree) (i : Nat) : Nat := blen (Tree.texts (ts.take i))

namespace Tree
theorem pre_succ {ts : List Tree} {i : Nat} {s : Tree} (h : ts[i]? = some s) :
    pre ts (i + 1) = pre ts i + s.len := by
  obtain ⟨hi, rfl⟩ := List.getElem?_eq_some_iff.mp h
  rw [pre, List.take_add_one, List.getElem?_eq_getElem hi, texts_append, blen_append]
  simp only [Option.toList, texts_cons, texts_nil, List.append_nil, pre, Tree.len]
theorem pre_le_succ (ts : List Tree) (i : Nat) : pre ts i ≤ pre ts (i + 1) := by
  cases h : ts[i]? with
  | some s => rw [pre_succ h]; omega
  | none =>
    have := List.getElem?_eq_none_iff.mp h
    rw [pre, pre, List.take_of_length_le this, List.take_of_length_le (by omega)]
    exact Nat.le_refl _
theorem pre_mono (ts : List Tree) {i j : Nat} (h : i ≤ j) : pre ts i ≤ pre ts j := by
  induction h with
  | refl => exact Nat.le_refl _
  | step _ ih => exact Nat.le_trans ih (pre_le_succ ts _)
theorem pre_all {ts : List Tree} {i : Nat} (h : ts.length ≤ i) : pre ts i = blen (texts ts) := by
  rw [pre, List.take_of_length_le h]
@[simp] theorem pre_zero (ts : List Tree) : pre ts 0 = 0 := by simp [pre]
end Tree

theorem GNode.relRange_eq {n : GNode} (h : n.WF) {i : Nat} {c : GChild}
    (hc : n.slice[i]? = some c) :
    c.relRange.start = Tree.pre n.tree.children i ∧
    c.relRange.stop = Tree.pre n.tree.children (i + 1) := by
  have h1 := GNode.relOffset_eq h hc
  have h2 : n.tree.children[i]? = some c.asRef.tree := by
    rw [GNode.tree_children, List.getElem?_map, GNode.slice_getElem?, hc]; rfl
  have h3 := GElem.textLen_eq c.asRef (GNode.wf_child h (List.mem_of_getElem? hc))
  refine ⟨h1, ?_⟩
  rw [Tree.pre_succ h2, ← h3]
  show c.relOffset + _ = _
  rw [h1]; rfl

/-- What `child_at_range` returns, for any conforming binary search. -/
theorem GNode.childAtRange_spec {bs : BinarySearch} (hbs : Conforming bs) {n : GNode} (h : n.WF)
    (R : TextRange) :
    (∀ i o g, n.childAtRange bs R = some (i, o, g) →
      (∃ c, n.slice[i]? = some c ∧ o = c.relOffset ∧ g = c.asRef) ∧
      Tree.pre n.tree.children i ≤ R.start ∧ R.stop ≤ Tree.pre n.tree.children (i + 1) ∧
      (R.start = R.stop →
        (Tree.pre n.tree.children i < R.start ∧ R.start < Tree.pre n.tree.children (i + 1)) ∨
        (Tree.pre n.tree.children (i + 1) = R.start ∧
          ∀ j, i < j → j < n.slice.length → R.start < Tree.pre n.tree.children (j + 1)) ∨
        (i = 0 ∧ ∀ j, j < n.slice.length → R.start < Tree.pre n.tree.children (j + 1)))) ∧
    (n.childAtRange bs R = none → ∀ i, i < n.slice.length →
      ¬ (Tree.pre n.tree.children i ≤ R.start ∧ R.stop ≤ Tree.pre n.tree.children (i + 1))) := by
  generalize hS : Tree.pre n.tree.children = S
  have hmono : ∀ {i j}, i ≤ j → S i ≤ S j := by subst hS; exact fun h => Tree.pre_mono _ h
  have h00 : S 0 = 0 := by subst hS; simp
  generalize hcmp : (fun i : Nat => match n.slice[i]? with
    | some c => TextRange.ordering c.relRange R
    | none => Ordering.eq) = cmp
  have hR := R.le
  have cmpv : ∀ i, i < n.slice.length →
      (cmp i = .lt ↔ S (i + 1) ≤ R.start) ∧
      (cmp i = .gt ↔ ¬ S (i + 1) ≤ R.start ∧ R.stop ≤ S i) ∧
      (cmp i = .eq ↔ ¬ S (i + 1) ≤ R.start ∧ ¬ R.stop ≤ S i) := by
    intro i hi
    have hc : n.slice[i]? = some n.slice[i] := List.getElem?_eq_getElem hi
    obtain ⟨r1, r2⟩ := GNode.relRange_eq h hc
    subst hcmp
    rw [hS] at r1 r2
    simp only [hc, TextRange.ordering, r1, r2]
    split <;> rename_i ha
    · simp [ha]
    · split <;> rename_i hb <;> simp [ha, hb]
  have hsort : ∀ i j, i ≤ j → j < n.slice.length → (cmp i).ctorIdx ≤ (cmp j).ctorIdx := by
    intro i j hij hj
    have ci := cmpv i (by omega)
    have cj := cmpv j hj
    have m1 := hmono hij
    have m2 := hmono (Nat.add_le_add_right hij 1)
    have m3 := hmono (Nat.le_succ i)
    cases hi' : cmp i <;> cases hj' : cmp j <;> simp [Ordering.ctorIdx] <;>
      simp only [hi', hj', true_iff, reduceCtorEq, false_iff] at ci cj <;> omega
  have hb := hbs n.slice.length cmp hsort
  have hdef : n.childAtRange bs R =
      (((n.slice[match bs n.slice.length cmp with | .ok i => i | .err i => i - 1]?).filter
        fun c => c.relRange.containsRange R).bind fun child =>
      some ((match bs n.slice.length cmp with | .ok i => i | .err i => i - 1),
        child.relOffset, child.asRef)) := by
    subst hcmp; rfl
  rw [hdef]
  generalize hidx : (match bs n.slice.length cmp with | .ok i => i | .err i => i - 1) = idx
  constructor
  · intro i o g he
    cases hc : n.slice[idx]? with
    | none => simp [hc] at he
    | some c =>
      rw [hc] at he
      simp only [Option.filter] at he
      split at he
      · rename_i hcont
        simp only [Option.bind_some, Option.some.injEq, Prod.mk.injEq] at he
        obtain ⟨rfl, rfl, rfl⟩ := he
        obtain ⟨r1, r2⟩ := GNode.relRange_eq h hc
        rw [hS] at r1 r2
        rw [TextRange.containsRange_iff, r1, r2] at hcont
        refine ⟨⟨c, hc, rfl, rfl⟩, hcont.1, hcont.2, ?_⟩
        intro hempty
        have hlt := (List.getElem?_eq_some_iff.mp hc).1
        cases hbs' : bs n.slice.length cmp with
        | ok i =>
          rw [hbs'] at hb hidx
          subst hidx
          have := (cmpv _ hlt).2.2.mp hb.2
          left; omega
        | err i =>
          rw [hbs'] at hb hidx
          simp only at hb hidx
          obtain ⟨b1, b2, b3⟩ := hb
          rcases Nat.eq_zero_or_pos i with h0 | h0
          · subst h0
            right; right
            refine ⟨by omega, ?_⟩
            intro j hj
            have := (cmpv j hj).2.1.mp (b3 j (by omega) hj)
            omega
          · right; left
            have hi1 := (cmpv (i - 1) (by omega)).1.mp (b2 (i - 1) (by omega))
            subst hidx
            refine ⟨by omega, ?_⟩
            intro j hj hjn
            have := (cmpv j hjn).2.1.mp (b3 j (by omega) hjn)
            omega
      · simp at he
  · intro he i hi hcov
    -- the chosen child contains the range after all
    have hlen : 0 < n.slice.length := by omega
    have main : idx < n.slice.length ∧ S idx ≤ R.start ∧ R.stop ≤ S (idx + 1) := by
      cases hbs' : bs n.slice.length cmp with
      | ok k =>
        rw [hbs'] at hb hidx
        simp only at hb hidx
        subst hidx
        obtain ⟨b1, b2⟩ := hb
        have hk := (cmpv _ b1).2.2.mp b2
        have : k = i := by
          rcases Nat.lt_trichotomy k i with hlt | he | hgt
          · have := hmono (show k + 1 ≤ i by omega); omega
          · exact he
          · have := hmono (show i + 1 ≤ k by omega); omega
        subst this
        exact ⟨b1, hcov⟩
      | err k =>
        rw [hbs'] at hb hidx
        simp only at hb hidx
        subst hidx
        obtain ⟨b1, b2, b3⟩ := hb
        rcases Nat.eq_zero_or_pos k with h0 | h0
        · subst h0
          have h1 := (cmpv 0 hlen).2.1.mp (b3 0 (by omega) hlen)
          simp only [Nat.zero_sub]
          refine ⟨hlen, ?_⟩
          omega
        · have h1 := (cmpv (k - 1) (by omega)).1.mp (b2 (k - 1) (by omega))
          have hk1 : k - 1 + 1 = k := by omega
          rw [hk1] at h1
          have m1 := hmono (show k - 1 ≤ k by omega)
          refine ⟨by omega, by omega, ?_⟩
          rw [hk1]
          by_cases hik : i < k
          · have := hmono (show i + 1 ≤ k by omega); omega
          · have h2 := (cmpv k (by omega)).2.1.mp (b3 k (by omega) (by omega))
            omega
    obtain ⟨m1, m2, m3⟩ := main
    have hc : n.slice[idx]? = some n.slice[idx] := List.getElem?_eq_getElem m1
    obtain ⟨r1, r2⟩ := GNode.relRange_eq h hc
    rw [hS] at r1 r2
    have : n.slice[idx].relRange.containsRange R = true := by
      rw [TextRange.containsRange_iff, r1, r2]; exact ⟨m2, m3⟩
    rw [hc] at he
    simp [Option.filter, this] at he

/-! ### Ranges of children, on positions -/

theorem Tree.at?_kid {t s : Tree} {p : List Nat} (h : t.at? p = some s) (j : Nat) :
    t.at? (p ++ [j]) = s.children[j]? := by
  rw [Tree.at?_snoc, h]; rfl

theorem Tree.covers_kid {t s : Tree} {p : List Nat} (h : t.at? p = some s) (R : TextRange) (j : Nat) :
    t.covers R (p ++ [j]) ↔ j < s.children.length ∧
      blen (t.before p) + Tree.pre s.children j ≤ R.start ∧
      R.stop ≤ blen (t.before p) + Tree.pre s.children (j + 1) := by
  rw [Tree.covers, Tree.at?_kid h, Tree.before_snoc h, blen_append]
  constructor
  · rintro ⟨c, hc, h1, h2⟩
    have := Tree.pre_succ hc
    have e : blen (Tree.texts (s.children.take j)) = Tree.pre s.children j := rfl
    simp only [Tree.len] at this
    exact ⟨(List.getElem?_eq_some_iff.mp hc).1, by omega, by omega⟩
  · rintro ⟨hj, h1, h2⟩
    have hc : s.children[j]? = some s.children[j] := List.getElem?_eq_getElem hj
    have := Tree.pre_succ hc
    have e : blen (Tree.texts (s.children.take j)) = Tree.pre s.children j := rfl
    simp only [Tree.len] at this
    exact ⟨_, hc, by omega, by omega⟩

theorem Tree.covers_parent {t : Tree} {R : TextRange} {p : List Nat} {j : Nat}
    (h : t.covers R (p ++ [j])) : t.covers R p := by
  have h0 := h
  obtain ⟨c, hc, -⟩ := h
  rw [Tree.at?_snoc] at hc
  cases hs : t.at? p with
  | none => simp [hs] at hc
  | some s =>
    obtain ⟨h1, h2, h3⟩ := (Tree.covers_kid hs R j).mp h0
    refine ⟨s, hs, by omega, ?_⟩
    have hn : s.isNode = true := by
      cases s with
      | token => simp [Tree.children] at h1
      | node => rfl
    have := Tree.pre_mono s.children (show j + 1 ≤ s.children.length by omega)
    rw [Tree.pre_all (Nat.le_refl s.children.length), ← Tree.text_eq_children s hn] at this
    omega

theorem Tree.covers_prefix {t : Tree} {R : TextRange} {p q : List Nat} (h : t.covers R (p ++ q)) :
    t.covers R p := by
  generalize hk : q.length = k
  induction k generalizing q with
  | zero => simpa [List.length_eq_zero_iff.mp hk] using h
  | succ k ih =>
    have hne : q ≠ [] := by intro h; simp [h] at hk
    have hq : q = q.dropLast ++ [q.getLast hne] := (List.dropLast_concat_getLast hne).symm
    rw [hq, ← List.append_assoc] at h
    exact ih (Tree.covers_parent h) (by simp [hk])

theorem Tree.mem_kids {t s : Tree} {p q : List Nat} (h : t.at? p = some s) :
    q ∈ t.kids p ↔ ∃ j, j < s.children.length ∧ q = p ++ [j] := by
  rw [Tree.kids_eq h]
  simp only [List.mem_map, List.mem_range]
  constructor <;> rintro ⟨j, h1, h2⟩ <;> exact ⟨j, h1, h2.symm⟩

theorem SElem.textRange_eq (e : SElem) : e.textRange = TextRange.at_ e.offset e.green.textLen := by
  cases e <;> rfl

/-- The range of a handle, on positions. -/
theorem SElem.Valid.textRange {e : SElem} (h : e.Valid) :
    e.textRange.start = blen (e.rootOf.tree.before e.path) ∧
    e.textRange.stop = blen (e.rootOf.tree.before e.path) + e.green.tree.len := by
  rw [SElem.textRange_eq, TextRange.at_start, TextRange.at_stop, h.offset_eq,
    GElem.textLen_eq _ h.green_wf]
  exact ⟨rfl, rfl⟩

theorem SElem.Valid.covers_iff {e : SElem} (h : e.Valid) (R : TextRange) :
    e.rootOf.tree.covers R e.path ↔ e.textRange.containsRange R = true := by
  obtain ⟨h1, h2⟩ := h.textRange
  rw [TextRange.containsRange_iff, h1, h2, Tree.covers, h.at_path]
  simp only [Option.some.injEq, exists_eq_left']
  rfl

/-! ### Sizes -/

theorem GChild.subss_length_mem {cs : List GChild} {c : GChild} (h : c ∈ cs) :
    c.subs.length ≤ (GChild.subss cs).length := by
  induction cs with
  | nil => simp at h
  | cons d cs ih =>
    simp only [GChild.subss, List.length_append]
    rcases List.mem_cons.mp h with rfl | h
    · omega
    · have := ih h; omega

theorem GNode.subs_child_lt {n : GNode} {c : GChild} (h : c ∈ n.slice) :
    c.asRef.subs.length < (GNode.subs n).length := by
  cases n with
  | mk a k l cs =>
    have := GChild.subss_length_mem h
    rw [GChild.subs_asRef] at this
    simp only [GNode.slice] at this
    simp only [GNode.subs, List.length_cons]
    omega

theorem SNode.subs_kid_lt {n : SNode} {e : SElem} (h : e ∈ n.kids) :
    e.green.subs.length < (GNode.subs n.green).length := by
  obtain ⟨i, c, hc, rfl⟩ := SNode.mem_kids.mp h
  have := GNode.subs_child_lt (List.mem_of_getElem? hc)
  cases c <;> exact this

/-! ### Child enumeration -/

theorem SNode.childrenWithTokens_eq (n : SNode) : n.childrenWithTokens = n.kids := by
  have key : ∀ (k j : Nat) (e : SElem), n.kids[j]? = some e → n.kids.length < j + 1 + k →
      ElemChildren.collect false k { parent := n, next := some e, initialized := true } =
        n.kids.drop (j + 1) := by
    intro k
    induction k with
    | zero =>
      intro j e hj hk
      have := (List.getElem?_eq_some_iff.mp hj).1
      omega
    | succ k ih =>
      intro j e hj hk
      have hpar : e.parent = some n ∧ e.index = j := by
        rw [SNode.kids_getElem?] at hj
        cases hc : n.green.slice[j]? with
        | none => simp [hc] at hj
        | some c => simp [hc] at hj; subst hj; simp
      rw [ElemChildren.collect]
      simp only [ElemChildren.step, Bool.not_true, Bool.false_eq_true, if_false, Option.bind_some,
        SElem.toNextSiblingOrToken_eq, SElem.nextSiblingOrToken_eq hpar.1, hpar.2]
      cases hn : n.kids[j + 1]? with
      | none =>
        simp only
        rw [List.drop_of_length_le (List.getElem?_eq_none_iff.mp hn)]
      | some e' =>
        simp only
        rw [ih (j + 1) e' hn (by omega), drop_cons_of_getElem? hn]
  rw [childrenWithTokens, ElemChildren.collect]
  simp only [ElemChildren.step, Bool.not_false, if_true, SNode.firstChildOrToken_eq]
  cases hk : n.kids with
  | nil => rfl
  | cons e l =>
    simp only [List.head?_cons]
    have := key n.green.slice.length 0 e (by rw [hk]; rfl) (by simp)
    rw [this, hk]; rfl

/-! ### Tokens touching an offset -/

/-- The tokens below position `p`. -/
def Tree.toks (t : Tree) (p : List Nat) : List (List Nat) :=
  match t.at? p with
  | some s => s.tokenPaths p
  | none => []

theorem Tree.tokenPathss_eq (cs : List Tree) (p : List Nat) (i : Nat) :
    Tree.tokenPathss cs p i = (List.range cs.length).flatMap fun j =>
      match cs[j]? with
      | some c => c.tokenPaths (p ++ [i + j])
      | none => [] := by
  induction cs generalizing i with
  | nil => simp [Tree.tokenPathss]
  | cons c cs ih =>
    rw [Tree.tokenPathss, ih, List.length_cons, List.range_succ_eq_map, List.flatMap_cons,
      List.flatMap_map]
    simp only [List.getElem?_cons_zero, Nat.add_zero, List.getElem?_cons_succ,
      Nat.add_right_comm i 1, Nat.add_assoc]

theorem Tree.toks_eq {t s : Tree} {p : List Nat} (h : t.at? p = some s) :
    t.toks p = s.tokenPaths p := by simp [Tree.toks, h]

theorem Tree.toks_token {t : Tree} {p : List Nat} {k : SyntaxKind} {x : List Char}
    (h : t.at? p = some (.token k x)) : t.toks p = [p] := by
  simp [Tree.toks, h, Tree.tokenPaths]

theorem Tree.toks_node {t s : Tree} {p : List Nat} (h : t.at? p = some s) (hn : s.isNode = true) :
    t.toks p = (t.kids p).flatMap t.toks := by
  cases s with
  | token => simp [Tree.isNode] at hn
  | node k cs =>
    rw [Tree.toks_eq h, Tree.tokenPaths, Tree.tokenPathss_eq, Tree.kids_eq h, List.flatMap_map]
    simp only [Tree.children, Nat.zero_add]
    congr 1
    funext j
    simp only [Tree.toks, Tree.at?_kid h, Tree.children]

/-- Positions of a monotone sequence of boundaries whose non-empty closed interval contains `o`. -/
theorem hits (S : Nat → Nat) (hm : ∀ i, S i ≤ S (i + 1)) (o : Nat) (h0 : S 0 ≤ o) (m : Nat)
    (h1 : o ≤ S m) (h2 : S 0 < S m) :
    (∃ l, l < m ∧ (List.range m).filter (fun j => decide (S j < S (j + 1) ∧ S j ≤ o ∧ o ≤ S (j + 1)))
        = [l] ∧ (o = S 0 → S l = o) ∧ (o = S m → S (l + 1) = o)) ∨
    (∃ l r, l < m ∧ r < m ∧
      (List.range m).filter (fun j => decide (S j < S (j + 1) ∧ S j ≤ o ∧ o ≤ S (j + 1))) = [l, r] ∧
      S (l + 1) = o ∧ S r = o ∧ o ≠ S 0 ∧ o ≠ S m) := by
  have mono : ∀ {i j}, i ≤ j → S i ≤ S j := by
    intro i j h
    induction h with
    | refl => exact Nat.le_refl _
    | step _ ih => exact Nat.le_trans ih (hm _)
  induction m with
  | zero => omega
  | succ m ih =>
    rw [List.range_succ, List.filter_append]
    have hmm := hm m
    have h0m := mono (Nat.zero_le m)
    by_cases hs : S m = S (m + 1)
    · have hf : [m].filter (fun j => decide (S j < S (j + 1) ∧ S j ≤ o ∧ o ≤ S (j + 1))) = [] := by
        simp; omega
      rw [hf, List.append_nil]
      rcases ih (by omega) (by omega) with ⟨l, l1, l2, l3, l4⟩ | ⟨l, r, l1, l2, l3, l4, l5, l6, l7⟩
      · exact .inl ⟨l, by omega, l2, l3, fun h => l4 (by omega)⟩
      · exact .inr ⟨l, r, by omega, by omega, l3, l4, l5, l6, by omega⟩
    · by_cases h3 : S 0 = S m ∨ S m < o
      · have hf : [m].filter (fun j => decide (S j < S (j + 1) ∧ S j ≤ o ∧ o ≤ S (j + 1))) = [m] := by
          simp; omega
        have hf0 : (List.range m).filter
            (fun j => decide (S j < S (j + 1) ∧ S j ≤ o ∧ o ≤ S (j + 1))) = [] := by
          rw [List.filter_eq_nil_iff]
          intro j hj
          have hjm := List.mem_range.mp hj
          have := mono (show j + 1 ≤ m from hjm)
          have := mono (Nat.zero_le j)
          simp; omega
        rw [hf, hf0]
        exact .inl ⟨m, by omega, rfl, fun h => by omega, fun h => by omega⟩
      · rcases Nat.lt_or_ge o (S m) with h4 | h4
        · have hf : [m].filter (fun j => decide (S j < S (j + 1) ∧ S j ≤ o ∧ o ≤ S (j + 1))) = [] := by
            simp; omega
          rw [hf, List.append_nil]
          rcases ih (by omega) (by omega) with ⟨l, l1, l2, l3, l4⟩ | ⟨l, r, l1, l2, l3, l4, l5, l6, l7⟩
          · exact .inl ⟨l, by omega, l2, l3, fun h => by omega⟩
          · exact .inr ⟨l, r, by omega, by omega, l3, l4, l5, l6, by omega⟩
        · have ho : o = S m := by omega
          have hf : [m].filter (fun j => decide (S j < S (j + 1) ∧ S j ≤ o ∧ o ≤ S (j + 1)))
              = [m] := by simp; omega
          rw [hf]
          rcases ih (by omega) (by omega) with ⟨l, l1, l2, l3, l4⟩ | ⟨l, r, l1, l2, l3, l4, l5, l6, l7⟩
          · rw [l2]
            exact .inr ⟨l, m, by omega, by omega, rfl, l4 ho, ho.symm, by omega, by omega⟩
          · omega

/-- `touches` of a child, in terms of child boundaries. -/
theorem Tree.touches_kid {t s : Tree} {p : List Nat} (h : t.at? p = some s) (o j : Nat)
    (hj : j < s.children.length) :
    t.touches o (p ++ [j]) = decide (
      blen (t.before p) + Tree.pre s.children j < blen (t.before p) + Tree.pre s.children (j + 1) ∧
      blen (t.before p) + Tree.pre s.children j ≤ o ∧
      o ≤ blen (t.before p) + Tree.pre s.children (j + 1)) := by
  have hc : s.children[j]? = some s.children[j] := List.getElem?_eq_getElem hj
  have h1 := Tree.pre_succ hc
  have e : blen (Tree.texts (s.children.take j)) = Tree.pre s.children j := rfl
  simp only [Tree.len] at h1
  simp only [Tree.touches, Tree.at?_kid h, hc, Tree.before_snoc h, blen_append, e, h1]
  rw [Bool.eq_iff_iff]
  have h2 := blen_eq_zero (s := s.children[j].text)
  simp only [Bool.and_eq_true, decide_eq_true_eq, ne_eq]
  constructor
  · rintro ⟨a, b, c⟩
    rw [← h2] at a
    exact ⟨by omega, b, by omega⟩
  · rintro ⟨a, b, c⟩
    refine ⟨fun h => ?_, b, by omega⟩
    have := h2.mpr h
    omega

theorem Tree.touches_iff {t s : Tree} {p : List Nat} (h : t.at? p = some s) (o : Nat) :
    t.touches o p = true ↔ s.text ≠ [] ∧ blen (t.before p) ≤ o ∧ o ≤ blen (t.before p) + s.len := by
  simp [Tree.touches, h, Tree.len]

theorem Tree.blen_text {s : Tree} (hn : s.isNode = true) :
    Tree.pre s.children s.children.length = s.len := by
  rw [Tree.pre_all (Nat.le_refl _), Tree.len, Tree.text_eq_children s hn]

theorem Tree.filter_kids {t s : Tree} {p : List Nat} (h : t.at? p = some s) (o : Nat) :
    (t.kids p).filter (t.touches o) = ((List.range s.children.length).filter fun j =>
      decide (blen (t.before p) + Tree.pre s.children j
          < blen (t.before p) + Tree.pre s.children (j + 1) ∧
        blen (t.before p) + Tree.pre s.children j ≤ o ∧
        o ≤ blen (t.before p) + Tree.pre s.children (j + 1))).map fun j => p ++ [j] := by
  rw [Tree.kids_eq h, List.filter_map]
  congr 1
  apply List.filter_congr
  intro j hj
  exact Tree.touches_kid h o j (List.mem_range.mp hj)

/-- Which children touch an offset of the node. -/
theorem Tree.kids_touching {t s : Tree} {p : List Nat} (h : t.at? p = some s)
    (hn : s.isNode = true) (o : Nat) (ht : t.touches o p = true) :
    (∃ l, l < s.children.length ∧ (t.kids p).filter (t.touches o) = [p ++ [l]] ∧
      (o = blen (t.before p) → blen (t.before (p ++ [l])) = o) ∧
      (o = blen (t.before p) + s.len →
        blen (t.before p) + Tree.pre s.children (l + 1) = o)) ∨
    (∃ l r, l < s.children.length ∧ r < s.children.length ∧
      (t.kids p).filter (t.touches o) = [p ++ [l], p ++ [r]] ∧
      blen (t.before p) + Tree.pre s.children (l + 1) = o ∧
      blen (t.before (p ++ [r])) = o ∧ o ≠ blen (t.before p) ∧ o ≠ blen (t.before p) + s.len) := by
  obtain ⟨h1, h2, h3⟩ := (Tree.touches_iff h o).mp ht
  have hlen := Tree.blen_text hn
  have hpos : 0 < s.len := by
    rcases Nat.eq_zero_or_pos s.len with h0 | h0
    · exact absurd (blen_eq_zero.mp h0) h1
    · exact h0
  have hb : ∀ j, blen (t.before (p ++ [j])) = blen (t.before p) + Tree.pre s.children j := by
    intro j; rw [Tree.before_snoc h, blen_append]; rfl
  rw [Tree.filter_kids h]
  rcases hits (fun j => blen (t.before p) + Tree.pre s.children j)
      (fun i => Nat.add_le_add_left (Tree.pre_le_succ _ _) _) o (by simpa using h2)
      s.children.length (by simp only [hlen]; exact h3) (by simp only [hlen, Tree.pre_zero]; omega)
    with ⟨l, l1, l2, l3, l4⟩ | ⟨l, r, l1, l2, l3, l4, l5, l6, l7⟩
  · left
    refine ⟨l, l1, by rw [l2]; rfl, fun h => ?_, fun h => ?_⟩
    · rw [hb]; exact l3 (by simpa using h)
    · exact l4 (by simp only [hlen]; exact h)
  · right
    refine ⟨l, r, l1, l2, by rw [l3]; rfl, l4, by rw [hb]; exact l5, by simpa using l6, ?_⟩
    simpa only [hlen] using l7

theorem Tree.touches_parent {t s : Tree} {p : List Nat} (h : t.at? p = some s) {o j : Nat}
    (hj : j < s.children.length) (ht : t.touches o (p ++ [j]) = true) : t.touches o p = true := by
  rw [Tree.touches_kid h o j hj] at ht
  simp only [decide_eq_true_eq] at ht
  have hn : s.isNode = true := by
    cases s with
    | token => simp [Tree.children] at hj
    | node => rfl
  have h1 := Tree.pre_mono s.children (show j + 1 ≤ s.children.length by omega)
  rw [Tree.blen_text hn] at h1
  rw [Tree.touches_iff h]
  refine ⟨fun h0 => ?_, by omega, by omega⟩
  have : s.len = 0 := by rw [Tree.len, h0]; rfl
  omega

/-- An element that does not touch the offset has no token touching it. -/
theorem Tree.toks_not_touching (t : Tree) (o : Nat) : ∀ (s : Tree) (p : List Nat),
    t.at? p = some s → t.touches o p = false → (t.toks p).filter (t.touches o) = [] := by
  intro s
  induction s using Tree.ind with
  | tok k x => intro p h ht; rw [Tree.toks_token h]; simp [ht]
  | nd k cs ih =>
    intro p h ht
    rw [Tree.toks_node h rfl, Tree.kids_eq h, List.filter_flatMap, List.flatMap_eq_nil_iff]
    intro q hq
    obtain ⟨j, hj, rfl⟩ := List.mem_map.mp hq
    have hj' := List.mem_range.mp hj
    have hc := Tree.at?_kid h j
    rw [List.getElem?_eq_getElem hj'] at hc
    refine ih _ (List.getElem_mem hj') _ hc ?_
    rw [← Bool.not_eq_true]
    intro h2
    rw [Tree.touches_parent h hj' h2] at ht
    cases ht

/-- The touching tokens of a node are those of its touching children. -/
theorem Tree.toks_touching {t s : Tree} {p : List Nat} (h : t.at? p = some s)
    (hn : s.isNode = true) (o : Nat) :
    (t.toks p).filter (t.touches o) =
      ((t.kids p).filter (t.touches o)).flatMap fun q => (t.toks q).filter (t.touches o) := by
  rw [Tree.toks_node h hn, List.filter_flatMap]
  have hk : ∀ q ∈ t.kids p, ∃ c, t.at? q = some c := by
    intro q hq
    obtain ⟨j, hj, rfl⟩ := (Tree.mem_kids h).mp hq
    exact ⟨_, by rw [Tree.at?_kid h, List.getElem?_eq_getElem hj]⟩
  generalize t.kids p = L at hk
  induction L with
  | nil => rfl
  | cons q L ih =>
    rw [List.flatMap_cons, ih (fun q hq => hk q (List.mem_cons_of_mem _ hq)), List.filter_cons]
    cases ht : t.touches o q with
    | true => simp
    | false =>
      obtain ⟨c, hc⟩ := hk q (by simp)
      rw [Tree.toks_not_touching t o c q hc ht]; simp

/-- At the start or the end of a non-empty element exactly one of its tokens touches. -/
theorem Tree.toks_boundary (t : Tree) (o : Nat) : ∀ (s : Tree) (p : List Nat),
    t.at? p = some s → t.touches o p = true →
    (o = blen (t.before p) ∨ o = blen (t.before p) + s.len) →
    ((t.toks p).filter (t.touches o)).length = 1 := by
  intro s
  induction s using Tree.ind with
  | tok k x => intro p h ht _; rw [Tree.toks_token h]; simp [ht]
  | nd k cs ih =>
    intro p h ht hb
    rw [Tree.toks_touching h rfl]
    rcases Tree.kids_touching h rfl o ht with ⟨l, l1, l2, l3, l4⟩ | ⟨l, r, l1, l2, l3, l4, l5, l6, l7⟩
    · rw [l2]
      simp only [List.flatMap_cons, List.flatMap_nil, List.append_nil]
      have hc := Tree.at?_kid h l
      rw [List.getElem?_eq_getElem l1] at hc
      have hmem : p ++ [l] ∈ (t.kids p).filter (t.touches o) := by rw [l2]; simp
      refine ih _ (List.getElem_mem l1) _ hc (List.mem_filter.mp hmem).2 ?_
      rcases hb with hb | hb
      · exact .inl (l3 hb).symm
      · right
        have e1 := l4 hb
        have e2 := Tree.pre_succ (List.getElem?_eq_getElem l1)
        have e3 : blen (t.before (p ++ [l])) = blen (t.before p) + Tree.pre cs l := by
          rw [Tree.before_snoc h, blen_append]; rfl
        simp only [Tree.children] at e1 e2 ⊢
        omega
    · rcases hb with hb | hb
      · exact absurd hb l6
      · exact absurd hb l7

theorem Tree.toks_prefix (t : Tree) : ∀ (s : Tree) (p : List Nat), t.at? p = some s →
    ∀ q ∈ t.toks p, ∃ u, q = p ++ u := by
  intro s
  induction s using Tree.ind with
  | tok k x =>
    intro p h q hq
    rw [Tree.toks_token h] at hq
    exact ⟨[], by simpa using hq⟩
  | nd k cs ih =>
    intro p h q hq
    rw [Tree.toks_node h rfl, List.mem_flatMap] at hq
    obtain ⟨x, hx, hq⟩ := hq
    obtain ⟨j, hj, rfl⟩ := (Tree.mem_kids h).mp hx
    have hc := Tree.at?_kid h j
    rw [List.getElem?_eq_getElem hj] at hc
    obtain ⟨u, rfl⟩ := ih _ (List.getElem_mem hj) _ hc q hq
    exact ⟨j :: u, by simp⟩

end Rowan
