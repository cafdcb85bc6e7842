import Verif.Spec.PtrSplice
import Verif.Props.PtrStable
/-!
# Texts and positions around children that are replaced: lemmas
-/
namespace Rowan

theorem Earlier.snoc {Q P : List Nat} (h : Earlier Q P) (W : List Nat) : Earlier Q (P ++ W) := by
  obtain ⟨C, i, j, U, V, hij, rfl, rfl⟩ := h
  exact ⟨C, i, j, U, V ++ W, hij, rfl, by simp⟩

theorem Earlier.snoc' {Q P : List Nat} (h : Earlier Q P) (W : List Nat) : Earlier (Q ++ W) P := by
  obtain ⟨C, i, j, U, V, hij, rfl, rfl⟩ := h
  exact ⟨C, i, j, U ++ W, V, hij, by simp, rfl⟩

/-- In front of a place among the children: in an earlier child, or in front of the node. -/
theorem Earlier.split {Q P : List Nat} {a : Nat} (h : Earlier Q (P ++ [a])) :
    Earlier Q P ∨ ∃ j U, j < a ∧ Q = P ++ j :: U := by
  obtain ⟨C, i, j, U, V, hij, rfl, e⟩ := h
  rcases List.append_eq_append_iff.mp e with ⟨D, rfl, hD⟩ | ⟨D, rfl, hD⟩
  · cases D with
    | nil =>
      simp only [List.nil_append, List.cons.injEq] at hD
      exact .inr ⟨i, U, by omega, by simp⟩
    | cons d D => simp at hD
  · cases D with
    | nil =>
      simp only [List.nil_append, List.cons.injEq] at hD
      exact .inr ⟨i, U, by omega, by simp⟩
    | cons d D =>
      simp only [List.cons_append, List.cons.injEq] at hD
      exact .inl ⟨C, i, j, U, D, hij, rfl, by rw [hD.1]⟩

theorem Earlier.above_place {A Q P : List Nat} {a : Nat} (h : Earlier Q (P ++ [a])) (hA : A <+: Q) :
    A <+: P ∨ Earlier A (P ++ [a]) := by
  rcases h.above hA with h1 | h1
  · rcases prefix_append_cases h1 with h2 | ⟨l, rfl, hl⟩
    · exact .inl h2
    · cases l with
      | nil => exact .inl (by simp)
      | cons c l =>
        rw [List.cons_prefix_cons] at hl
        obtain ⟨rfl, hl⟩ := hl
        cases List.prefix_nil.mp hl
        exact absurd hA h.apart.2
  · exact .inr h1

theorem Behind.above {A' Q Q' P : List Nat} {a b n : Nat} (h : Behind P a b n Q Q') (hA : A' <+: Q') :
    A' <+: P ∨ ∃ A, Behind P a b n A A' ∧ A <+: Q ∧ (A' ≠ Q' → A ≠ Q) := by
  cases h with
  | inside j U =>
    rcases prefix_append_cases hA with h2 | ⟨l, rfl, hl⟩
    · exact .inl h2
    · cases l with
      | nil => exact .inl (by simp)
      | cons c l =>
        rw [List.cons_prefix_cons] at hl
        obtain ⟨rfl, hl⟩ := hl
        refine .inr ⟨_, .inside j l, ?_, fun h e => h ?_⟩
        · rw [List.prefix_append_right_inj, List.cons_prefix_cons]; exact ⟨rfl, hl⟩
        · simp only [List.append_cancel_left_eq, List.cons.injEq, true_and] at e ⊢; exact e
  | outside hE =>
    rcases hE.above' hA with h2 | h2
    · exact .inl h2
    · exact .inr ⟨A', .outside h2, hA, id⟩

/-- Whatever is behind comes after the new children. -/
theorem Behind.new {Q Q' P : List Nat} {a b n i : Nat} (h : Behind P a b n Q Q') (hi : i < n) : Earlier (P ++ [a + i]) Q' := by
  cases h with
  | inside j U => exact ⟨P, a + i, a + n + j, [], U, by omega, rfl, rfl⟩
  | outside hE => exact hE.snoc' _

namespace Tree

theorem before_at_append {s : Tree} : ∀ {p : List Nat} {t : Tree}, t.at? p = some s → ∀ q, t.before (p ++ q) = t.before p ++ s.before q
  | [], t, h, q => by simp [at?_nil] at h; subst h; simp [before]
  | i :: p, t, h, q => by
    rw [at?_cons] at h
    cases hc : t.children[i]? with
    | none => rw [hc] at h; cases h
    | some c =>
      rw [hc, Option.bind_some] at h
      simp only [List.cons_append, before, hc, List.append_assoc]
      rw [before_at_append h q]

theorem texts_split3 (cs : List Tree) {a b : Nat} (hab : a ≤ b) :
    texts cs = texts (cs.take a) ++ (texts ((cs.take b).drop a) ++ texts (cs.drop b)) := by
  rw [← texts_append, ← texts_append]
  congr 1
  conv => lhs; rw [← List.take_append_drop b cs, ← List.take_append_drop a (cs.take b), List.take_take, Nat.min_eq_left hab]
  rw [List.append_assoc]

theorem spliced_len (k : SyntaxKind) (cs xs : List Tree) {a b : Nat} (hab : a ≤ b) :
    blen (Tree.node k (cs.take a ++ xs ++ cs.drop b)).text + goneLen cs a b = blen (Tree.node k cs).text + blen (texts xs) := by
  simp only [text_node, texts_append, texts_split3 cs hab, blen_append, goneLen]; omega

variable {t t' : Tree} {P : List Nat} {kd : SyntaxKind} {cs : List Tree} {a b : Nat} {xs : List Tree}

theorem Spliced.swapped (h : t.Spliced t' P kd cs a b xs) : t.Swapped t' P (.node kd cs) (.node kd (cs.take a ++ xs ++ cs.drop b)) :=
  ⟨h.here, h.eq⟩

theorem Spliced.at (h : t.Spliced t' P kd cs a b xs) (q : List Nat) :
    t'.at? (P ++ q) = (Tree.node kd (cs.take a ++ xs ++ cs.drop b)).at? q := by
  rw [h.eq]; exact at?_set_self h.here _ q

theorem Spliced.before (h : t.Spliced t' P kd cs a b xs) (q : List Nat) :
    t'.before (P ++ q) = t.before P ++ (Tree.node kd (cs.take a ++ xs ++ cs.drop b)).before q := by
  have h1 := h.at []
  rw [List.append_nil, at?_nil] at h1
  have h2 := before_set_above (Tree.node kd (cs.take a ++ xs ++ cs.drop b)) P [] t
  rw [List.append_nil, ← h.eq] at h2
  rw [before_at_append h1, h2]

/-- Elements in front are where they were. -/
theorem Spliced.front [Lang] (h : t.Spliced t' P kd cs a b xs) {A : List Nat} (hA : Earlier A (P ++ [a])) :
    t'.at? A = t.at? A ∧ ∀ (k : Lang.Kind) (R : TextRange), t'.nodeAt k R A ↔ t.nodeAt k R A := by
  rcases hA.split with hE | ⟨j, U, hj, rfl⟩
  · exact ⟨by rw [h.eq]; exact at?_set_other _ hE.apart.2 hE.apart.1, fun k R => nodeAt_earlier h.swapped hE⟩
  · have hl : a ≤ cs.length := Nat.le_trans h.le h.inside
    have hget : (cs.take a ++ xs ++ cs.drop b)[j]? = cs[j]? := by
      rw [List.append_assoc, List.getElem?_append_left (by simp; omega), List.getElem?_take, if_pos hj]
    have htake : (cs.take a ++ xs ++ cs.drop b).take j = cs.take j := by
      rw [List.append_assoc, List.take_append_of_le_length (by simp; omega), List.take_take, Nat.min_eq_left (Nat.le_of_lt hj)]
    have e1 : t'.at? (P ++ j :: U) = t.at? (P ++ j :: U) := by
      rw [h.at, at?_append t, h.here, Option.bind_some, at?_cons, at?_cons]
      simp only [children, hget]
    have e2 : t'.before (P ++ j :: U) = t.before (P ++ j :: U) := by
      rw [h.before, before_at_append h.here]
      simp only [Tree.before, children, hget, htake]
    exact ⟨e1, fun k R => by simp only [nodeAt, e1, e2]⟩

/-- Elements behind have moved. -/
theorem Spliced.behind [Lang] (h : t.Spliced t' P kd cs a b xs) {A A' : List Nat} (hA : Behind P a b xs.length A A') :
    t'.at? A' = t.at? A ∧ ∀ (k : Lang.Kind) (R R' : TextRange), R'.start + goneLen cs a b = R.start + blen (texts xs) →
      R'.stop + goneLen cs a b = R.stop + blen (texts xs) → (t'.nodeAt k R' A' ↔ t.nodeAt k R A) := by
  have hlen := spliced_len kd cs xs h.le
  have hl : a ≤ cs.length := Nat.le_trans h.le h.inside
  cases hA with
  | outside hE =>
    exact ⟨by rw [h.eq]; exact at?_set_other _ hE.apart.1 hE.apart.2, fun k R R' h1 h2 =>
      nodeAt_later h.swapped hE (by omega) (by omega)⟩
  | inside j U =>
    have hla : (cs.take a ++ xs).length = a + xs.length := by simp; omega
    have hget : (cs.take a ++ xs ++ cs.drop b)[a + xs.length + j]? = cs[b + j]? := by
      rw [List.getElem?_append_right (by omega), hla, List.getElem?_drop]
      congr 1; omega
    have htake : (cs.take a ++ xs ++ cs.drop b).take (a + xs.length + j) = cs.take a ++ xs ++ (cs.drop b).take j := by
      rw [List.take_append, hla, List.take_of_length_le (by omega)]
      congr 2; omega
    have htake' : cs.take (b + j) = cs.take a ++ (cs.take b).drop a ++ (cs.drop b).take j := by
      rw [List.take_add]
      congr 1
      conv => lhs; rw [← List.take_append_drop a (cs.take b), List.take_take, Nat.min_eq_left h.le]
    have e1 : t'.at? (P ++ (a + xs.length + j) :: U) = t.at? (P ++ (b + j) :: U) := by
      rw [h.at, at?_append t, h.here, Option.bind_some, at?_cons, at?_cons]
      simp only [children, hget]
    have e2 : blen (t'.before (P ++ (a + xs.length + j) :: U)) + goneLen cs a b =
        blen (t.before (P ++ (b + j) :: U)) + blen (texts xs) := by
      rw [h.before, before_at_append h.here]
      simp only [Tree.before, children, hget, htake, htake', texts_append, blen_append, goneLen]
      omega
    refine ⟨e1, fun k R R' h1 h2 => ?_⟩
    simp only [nodeAt, e1]
    constructor
    · rintro ⟨raw, cs', g1, g2, g3, g4⟩; exact ⟨raw, cs', g1, g2, by omega, by omega⟩
    · rintro ⟨raw, cs', g1, g2, g3, g4⟩; exact ⟨raw, cs', g1, g2, by omega, by omega⟩

/-- The node itself and those above it start where they did. -/
theorem Spliced.above [Lang] (h : t.Spliced t' P kd cs a b xs) {A : List Nat} (hA : A <+: P) {k : Lang.Kind} {R R' : TextRange}
    (h1 : R'.start = R.start) (h2 : R'.stop + goneLen cs a b = R.stop + blen (texts xs)) :
    t'.nodeAt k R' A ↔ t.nodeAt k R A := by
  have hlen := spliced_len kd cs xs h.le
  by_cases e : A = P
  · subst e
    have e1 := h.at []
    have e2 := h.before []
    rw [List.append_nil, at?_nil] at e1
    rw [List.append_nil] at e2
    simp only [Tree.before, List.append_nil] at e2
    simp only [text_node] at hlen
    simp only [nodeAt, e1, e2, h.here, Option.some.injEq, node.injEq]
    constructor
    · rintro ⟨raw, cs', ⟨rfl, rfl⟩, g1, g2, g3⟩
      exact ⟨_, _, ⟨rfl, rfl⟩, g1, by omega, by omega⟩
    · rintro ⟨raw, cs', ⟨rfl, rfl⟩, g1, g2, g3⟩
      exact ⟨_, _, ⟨rfl, rfl⟩, g1, by omega, by omega⟩
  · exact nodeAt_above h.swapped hA e h1 (by omega)

theorem Spliced.kind (h : t.Spliced t' P kd cs a b xs) {A : List Nat} (hA : A <+: P) {raw : SyntaxKind} {cs' : List Tree}
    (ha : t'.at? A = some (.node raw cs')) : ∃ cs'', t.at? A = some (.node raw cs'') := by
  by_cases e : A = P
  · subst e
    have e1 := h.at []
    rw [List.append_nil, at?_nil, ha] at e1
    cases e1
    exact ⟨cs, h.here⟩
  · exact kind_above h.swapped hA e ha

/-- If there is text among the new children, there is a new child with text. -/
theorem texts_ne {xs : List Tree} (h : texts xs ≠ []) : ∃ (i : Nat) (x : Tree), xs[i]? = some x ∧ x.text ≠ [] := by
  induction xs with
  | nil => simp at h
  | cons x xs ih =>
    by_cases hx : x.text = []
    · rw [texts_cons, hx, List.nil_append] at h
      obtain ⟨i, y, h1, h2⟩ := ih h
      exact ⟨i + 1, y, by simpa using h1, h2⟩
    · exact ⟨0, x, rfl, hx⟩

theorem Spliced.new (h : t.Spliced t' P kd cs a b xs) {i : Nat} {x : Tree} (hi : xs[i]? = some x) : t'.at? (P ++ [a + i]) = some x := by
  have hl : a ≤ cs.length := Nat.le_trans h.le h.inside
  obtain ⟨hlt, -⟩ := List.getElem?_eq_some_iff.mp hi
  rw [h.at, at?_cons]
  simp only [children]
  rw [List.append_assoc, List.getElem?_append_right (by simp; omega), List.length_take, Nat.min_eq_left hl, Nat.add_sub_cancel_left,
    List.getElem?_append_left hlt, hi]
  rfl

end Tree
end Rowan
