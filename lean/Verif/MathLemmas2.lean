import Verif.MathLemmas
/-!
# Lemmas about the parser of arithmetic expressions: values

Unless their comments cite lines of `/repo`, the definitions in this file are vocabulary of the proofs and model no code.
-/
namespace Rowan.Math

section
variable {α : Type} {num : List Char → α} {ap : Kind → α → α → α}

theorem Means.det {t : Tree} {x y : α} (h : Means num ap t x) (h' : Means num ap t y) : x = y := by
  induction h generalizing y with
  | num s => cases h'; rfl
  | op k e _ _ i1 i2 =>
    cases h' with
    | op k' e' j1 j2 =>
      rw [e] at e'
      simp only [List.cons.injEq, Tree.token.injEq, and_true] at e'
      obtain ⟨rfl, ⟨hk, _⟩, rfl⟩ := e'
      rw [i1 j1, i2 j2, Kind.raw_inj hk]
  | root e _ i1 =>
    cases h' with
    | root e' j1 =>
      rw [e] at e'
      simp only [List.cons.injEq, and_true] at e'
      subst e'
      exact i1 j1

/-- The forest is one tree with this value, and white space. -/
def Worth (num : List Char → α) (ap : Kind → α → α → α) (us : List Tree) (v : α) : Prop :=
  ∃ a, us.filter solid = [a] ∧ Means num ap a v

theorem Space.solid {ws : List Tree} (h : Space ws) : ws.filter solid = [] := by
  rw [List.filter_eq_nil_iff]
  intro t ht
  obtain ⟨s, rfl⟩ := h t ht
  simp [Math.solid, Tree.isNode, Tree.kind]

theorem Worth.space {us ws : List Tree} {v : α} (h : Worth num ap us v) (hw : Space ws) : Worth num ap (us ++ ws) v := by
  obtain ⟨a, h1, h2⟩ := h
  exact ⟨a, by simp [h1, hw.solid], h2⟩

theorem Worth.op {us ws vs : List Tree} {x y : α} {k : Kind} {s : List Char} (h : Worth num ap us x) (hw : Space ws)
    (hk : k ≠ .whitespace) (h' : Worth num ap vs y) :
    Worth num ap [.node Kind.operation.raw (us ++ ws ++ .token k.raw s :: vs)] (ap k x y) := by
  obtain ⟨a, h1, h2⟩ := h
  obtain ⟨b, h3, h4⟩ := h'
  have hs : solid (.token k.raw s) = true := by cases k <;> first | exact absurd rfl hk | rfl
  refine ⟨.node Kind.operation.raw (us ++ ws ++ .token k.raw s :: vs), rfl, ?_⟩
  exact .op (a := a) (b := b) (s := s) k (by simp [h1, h3, hw.solid, hs]) h2 h4

/-- The tokens that are not white space. -/
def words (ts : List Tok) : List Tok := ts.filter fun t => t.1 != .whitespace

theorem words_cons {ts : List Tok} {t : Tok} {l : List Tok} (h : words ts = t :: l) :
    ∃ ws rest, ts = ws ++ t :: rest ∧ Blank ws ∧ words rest = l := by
  obtain ⟨ws, rest, h1, h2, h3, h4⟩ := List.filter_eq_cons_iff.mp h
  exact ⟨ws, rest, h1, fun t ht => by simpa using h2 t ht, h4⟩

theorem words_nil {ts : List Tok} (h : words ts = []) : Blank ts := fun t ht => by
  simpa using List.filter_eq_nil_iff.mp h t ht

theorem words_blank {ws : List Tok} (h : Blank ws) : words ws = [] := by
  rw [words, List.filter_eq_nil_iff]
  intro t ht
  simp [h t ht]

/-- A number, after white space. -/
theorem operand_of (num : List Char → α) (ap : Kind → α → α → α) {ws : List Tok} (s : List Char) (hw : Blank ws) :
    ∃ us, Val us false ∧ Worth num ap us (num s) ∧ Tree.leavess us = raws (ws ++ [(.number, s)]) :=
  ⟨_, .number _ s hw.space, ⟨_, by rw [List.filter_append, hw.space.solid]; rfl, .num s⟩, by simp⟩

/-- Operators `l` with operands, behind a product. -/
theorem product_of (text : Kind → List Char) : ∀ (l : List (Kind × List Char)) (us : List Tree) (v : α) (ts tail : List Tok),
    (∀ x ∈ l, x.1 = .mul ∨ x.1 = .div) → Product us false → Worth num ap us v →
    words ts = l.flatMap (fun x => [(x.1, text x.1), (.number, x.2)]) ++ tail →
    ∃ us' xs rest, ts = xs ++ rest ∧ Product us' false ∧ Worth num ap us' (l.foldl (fun v x => ap x.1 v (num x.2)) v) ∧
      Tree.leavess us' = Tree.leavess us ++ raws xs ∧ words rest = tail
  | [], us, v, ts, tail, _, h1, h2, h3 => ⟨us, [], ts, rfl, h1, h2, by simp, by simpa using h3⟩
  | (k, s) :: l, us, v, ts, tail, hl, h1, h2, h3 => by
    simp only [List.flatMap_cons, List.cons_append, List.nil_append] at h3
    obtain ⟨ws, r1, rfl, i1, i2⟩ := words_cons h3
    obtain ⟨ws', r2, rfl, j1, j2⟩ := words_cons i2
    obtain ⟨vs, k1, k2, k3⟩ := operand_of num ap s j1
    have hk : k = .mul ∨ k = .div := hl (k, s) (by simp)
    obtain ⟨us', xs, rest, rfl, m1, m2, m3, m4⟩ := product_of text l _ (ap k v (num s)) r2 tail
      (fun x hx => hl x (by simp [hx])) (.op (text k) h1 i1.space (by simpa using hk) k1)
      (h2.op i1.space (by rcases hk with rfl | rfl <;> simp) k2) j2
    refine ⟨us', ws ++ (k, text k) :: (ws' ++ (.number, s) :: xs), rest, by simp, m1, m2, ?_, m4⟩
    simp [m3, k3]

/-- A product with the white space behind it. -/
theorem term_of (num : List Char → α) (ap : Kind → α → α → α) (text : Kind → List Char)
    {p : List Char × List (Kind × List Char)} {ts tail : List Tok} (hp : ∀ x ∈ p.2, x.1 = .mul ∨ x.1 = .div)
    (h : words ts = productTokens text p ++ tail) :
    ∃ us xs rest, ts = xs ++ rest ∧ Term us false ∧ Worth num ap us (productValue num ap p) ∧ Tree.leavess us = raws xs ∧
      words rest = tail ∧ headKind rest ≠ some .whitespace := by
  rw [productTokens, List.cons_append] at h
  obtain ⟨ws, r1, rfl, h1, h2⟩ := words_cons h
  obtain ⟨vs, k1, k2, k3⟩ := operand_of num ap p.1 h1
  obtain ⟨us, xs, rest, rfl, m1, m2, m3, m4⟩ := product_of text p.2 vs _ r1 tail hp (.one k1) k2 h2
  obtain ⟨ws', rest', rfl, n1, n2⟩ := blank_split rest
  refine ⟨us ++ toks ws', ws ++ (.number, p.1) :: (xs ++ ws'), rest', by simp, ⟨us, _, rfl, m1, n1.space, by simp⟩,
    m2.space n1.space, by simp [m3, k3], ?_, n2⟩
  have := words_blank n1
  rw [words] at this
  rw [← m4, words, words, List.filter_append, this]
  rfl

theorem sum_of (text : Kind → List Char) : ∀ (l : List (Kind × (List Char × List (Kind × List Char)))) (us : List Tree)
    (v : α) (ts : List Tok),
    (∀ x ∈ l, (x.1 = .add ∨ x.1 = .sub) ∧ ∀ y ∈ x.2.2, y.1 = .mul ∨ y.1 = .div) → Sum us false → Worth num ap us v →
    words ts = l.flatMap (fun x => (x.1, text x.1) :: productTokens text x.2) → headKind ts ≠ some .whitespace →
    ∃ us', Sum us' false ∧ Worth num ap us' (l.foldl (fun v x => ap x.1 v (productValue num ap x.2)) v) ∧
      Tree.leavess us' = Tree.leavess us ++ raws ts
  | [], us, v, ts, _, h1, h2, h3, h4 => by
    have : ts = [] := by
      cases ts with
      | nil => rfl
      | cons t ts => exact absurd (by simp [headKind, words_nil h3 t]) h4
    subst this
    exact ⟨us, h1, h2, by simp⟩
  | (k, p) :: l, us, v, ts, hl, h1, h2, h3, h4 => by
    simp only [List.flatMap_cons, List.cons_append] at h3
    obtain ⟨ws, r1, rfl, i1, i2⟩ := words_cons h3
    have hw : ws = [] := by
      cases ws with
      | nil => rfl
      | cons t ws => exact absurd (by simp [headKind, i1 t]) h4
    subst hw
    obtain ⟨vs, xs, rest, rfl, j1, j2, j3, j4, j5⟩ := term_of num ap text (hl (k, p) (by simp)).2 i2
    have hk := (hl (k, p) (by simp)).1
    obtain ⟨us', m1, m2, m3⟩ := sum_of text l _ (ap k v (productValue num ap p)) rest (fun x hx => hl x (by simp [hx]))
      (.op (ws := []) (text k) h1 rfl (by simpa using hk) j1)
      (h2.op (by simp [Space]) (by rcases hk with rfl | rfl <;> simp) j2) j4 j5
    exact ⟨us', m1, m2, by simp [m3, j3]⟩

/-- The tree of a sum of products. -/
theorem expr_of (num : List Char → α) (ap : Kind → α → α → α) (text : Kind → List Char) {e : Expr} (he : e.Ok) {ts : List Tok}
    (h : words ts = e.tokens text) :
    ∃ us, Sum us false ∧ Means num ap (.node Kind.root.raw us) (e.value num ap) ∧ Tree.leavess us = raws ts := by
  rw [Expr.tokens] at h
  obtain ⟨vs, xs, rest, rfl, j1, j2, j3, j4, j5⟩ := term_of num ap text he.1 h
  obtain ⟨us, m1, ⟨a, m2, m2'⟩, m3⟩ := sum_of text e.more vs _ rest he.2 (.one j1) j2 j4 j5
  exact ⟨us, m1, .root m2 m2', by simp [m3, j3]⟩

end
end Rowan.Math
