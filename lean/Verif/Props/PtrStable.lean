import Verif.Spec.PtrStable
import Verif.PtrStable
import Verif.Props.Edit
/-!
# C74: pointers to nodes survive replacements elsewhere
-/
namespace Rowan

theorem prefix_append_cases {A C D : List Nat} (h : A <+: C ++ D) : A <+: C ∨ ∃ l, A = C ++ l ∧ l <+: D := by
  obtain ⟨B, hB⟩ := h
  rcases List.append_eq_append_iff.mp hB with ⟨E, rfl, rfl⟩ | ⟨E, rfl, rfl⟩
  · exact .inl (List.prefix_append _ _)
  · exact .inr ⟨E, rfl, List.prefix_append _ _⟩

theorem Earlier.apart {Q P : List Nat} (h : Earlier Q P) : ¬ Q <+: P ∧ ¬ P <+: Q := by
  obtain ⟨C, i, j, U, V, hij, rfl, rfl⟩ := h
  simp only [List.prefix_append_right_inj, List.cons_prefix_cons]
  exact ⟨fun h => by omega, fun h => by omega⟩

/-- What lies above the first of two such elements lies above the second one, or comes before it. -/
theorem Earlier.above {A Q P : List Nat} (h : Earlier Q P) (hA : A <+: Q) : A <+: P ∨ Earlier A P := by
  obtain ⟨C, i, j, U, V, hij, rfl, rfl⟩ := h
  rcases prefix_append_cases hA with h | ⟨l, rfl, hl⟩
  · exact .inl (h.trans (List.prefix_append _ _))
  · cases l with
    | nil => exact .inl (by simp)
    | cons a l =>
      rw [List.cons_prefix_cons] at hl
      exact .inr ⟨C, i, j, l, V, hij, by rw [hl.1], rfl⟩

theorem Earlier.above' {A Q P : List Nat} (h : Earlier P Q) (hA : A <+: Q) : A <+: P ∨ Earlier P A := by
  obtain ⟨C, i, j, U, V, hij, rfl, rfl⟩ := h
  rcases prefix_append_cases hA with h | ⟨l, rfl, hl⟩
  · exact .inl (h.trans (List.prefix_append _ _))
  · cases l with
    | nil => exact .inl (by simp)
    | cons a l =>
      rw [List.cons_prefix_cons] at hl
      exact .inr ⟨C, i, j, U, l, hij, rfl, by rw [hl.1]⟩

section
variable [Lang]

namespace Tree

/-- The kind of what lies above the place is kept, its length changes by the difference. -/
theorem nodeAt_above {t t' s x : Tree} {A P : List Nat} (h : t.Swapped t' P s x) (hA : A <+: P) (hne : A ≠ P)
    {k : Lang.Kind} {R R' : TextRange} (h1 : R'.start = R.start) (h2 : R'.stop + blen s.text = R.stop + blen x.text) :
    t'.nodeAt k R' A ↔ t.nodeAt k R A := by
  obtain ⟨B, rfl⟩ := hA
  obtain ⟨hs, rfl⟩ := h
  have hb : (t.set (A ++ B) x).before A = t.before A := before_set_above x A B t
  rw [at?_append] at hs
  cases ha : t.at? A with
  | none => rw [ha] at hs; cases hs
  | some a =>
    rw [ha, Option.bind_some] at hs
    have ha' : (t.set (A ++ B) x).at? A = some (a.set B x) := by
      rw [set_append ha]; simpa using at?_set_self ha (a.set B x) []
    have hl := blen_set hs x
    cases B with
    | nil => simp at hne
    | cons b B =>
      cases a with
      | token k' w => simp [at?_cons, children] at hs
      | node k' cs =>
        simp only [set, text_node] at hl ha'
        simp only [nodeAt, hb, ha, ha', Option.some.injEq, node.injEq]
        constructor
        · rintro ⟨raw, cs', ⟨rfl, rfl⟩, g1, g2, g3⟩
          exact ⟨_, _, ⟨rfl, rfl⟩, g1, by omega, by omega⟩
        · rintro ⟨raw, cs', ⟨rfl, rfl⟩, g1, g2, g3⟩
          exact ⟨_, _, ⟨rfl, rfl⟩, g1, by omega, by omega⟩

/-- Elements before the place are where they were. -/
theorem nodeAt_earlier {t t' s x : Tree} {A P : List Nat} (h : t.Swapped t' P s x) (hA : Earlier A P)
    {k : Lang.Kind} {R : TextRange} : t'.nodeAt k R A ↔ t.nodeAt k R A := by
  obtain ⟨hs, rfl⟩ := h
  have h1 := at?_set_other (t := t) x hA.apart.2 hA.apart.1
  obtain ⟨C, i, j, U, V, hij, rfl, rfl⟩ := hA
  simp only [nodeAt, h1, before_set_earlier x hij U V C t]

/-- Elements behind it have moved by the difference. -/
theorem nodeAt_later {t t' s x : Tree} {A P : List Nat} (h : t.Swapped t' P s x) (hA : Earlier P A)
    {k : Lang.Kind} {R R' : TextRange} (h1 : R'.start + blen s.text = R.start + blen x.text)
    (h2 : R'.stop + blen s.text = R.stop + blen x.text) :
    t'.nodeAt k R' A ↔ t.nodeAt k R A := by
  obtain ⟨hs, rfl⟩ := h
  have h3 := at?_set_other (t := t) x hA.apart.1 hA.apart.2
  obtain ⟨C, i, j, U, V, hij, rfl, rfl⟩ := hA
  have h4 := before_set_later x hij U V C t hs
  simp only [nodeAt, h3]
  constructor
  · rintro ⟨raw, cs, g1, g2, g3, g4⟩; exact ⟨raw, cs, g1, g2, by omega, by omega⟩
  · rintro ⟨raw, cs, g1, g2, g3, g4⟩; exact ⟨raw, cs, g1, g2, by omega, by omega⟩

omit [Lang] in
/-- Above the place there is a node of the same kind as before. -/
theorem kind_above {t t' s x : Tree} {A P : List Nat} (h : t.Swapped t' P s x) (hA : A <+: P) (hne : A ≠ P)
    {raw : SyntaxKind} {cs : List Tree} (ha' : t'.at? A = some (.node raw cs)) : ∃ cs', t.at? A = some (.node raw cs') := by
  obtain ⟨B, rfl⟩ := hA
  obtain ⟨hs, rfl⟩ := h
  rw [at?_append] at hs
  cases ha : t.at? A with
  | none => rw [ha] at hs; cases hs
  | some a =>
    rw [ha, Option.bind_some] at hs
    rw [set_append ha] at ha'
    have e : (t.set A (a.set B x)).at? A = some (a.set B x) := by simpa using at?_set_self ha (a.set B x) []
    rw [e] at ha'
    cases B with
    | nil => simp at hne
    | cons b B =>
      cases a with
      | token k' w => simp [at?_cons, children] at hs
      | node k' cs' =>
        simp only [set, Option.some.injEq, node.injEq] at ha'
        exact ⟨cs', by rw [ha'.1]⟩

/-- A node above two others that are apart, one of which is not empty, is longer than the other one. -/
theorem nodeAt_not_both {t p : Tree} {A Q P : List Nat} {k k' : Lang.Kind} {R : TextRange} (hQ : t.nodeAt k R Q)
    (hp : t.at? P = some p) (hx : p.text ≠ []) (ho : Earlier Q P ∨ Earlier P Q) (h1 : A <+: Q) (h2 : A <+: P) :
    ¬ t.nodeAt k' R A := by
  rintro ⟨raw, cs, a1, -, a3, a4⟩
  obtain ⟨raw', cs', q1, -, q3, q4⟩ := hQ
  obtain ⟨Q, rfl⟩ := h1
  obtain ⟨P, rfl⟩ := h2
  rw [at?_append, a1, Option.bind_some] at q1 hp
  have hx' : 0 < blen p.text := by
    rcases Nat.eq_zero_or_pos (blen p.text) with h | h
    · exact absurd (blen_eq_zero.mp h) hx
    · exact h
  have key : blen (Tree.node raw' cs').text + blen p.text ≤ blen (Tree.node raw cs).text := by
    have drop : ∀ {Q P : List Nat}, Earlier (A ++ Q) (A ++ P) → Earlier Q P := by
      intro Q P ⟨C, i, j, U, V, hij, e1, e2⟩
      rcases List.append_eq_append_iff.mp e1 with ⟨D, rfl, hD⟩ | ⟨D, rfl, hD⟩
      · rw [List.append_assoc, List.append_cancel_left_eq] at e2
        exact ⟨D, i, j, U, V, hij, hD, e2⟩
      · rw [List.append_assoc, List.append_cancel_left_eq] at e2
        cases D with
        | nil => exact ⟨[], i, j, U, V, hij, by simpa using hD.symm, by simpa using e2⟩
        | cons d D =>
          rw [List.cons_append, List.cons.injEq] at hD e2
          omega
    rcases ho with h | h
    · obtain ⟨C, i, j, U, V, hij, rfl, rfl⟩ := drop h
      exact blen_two hij q1 hp
    · obtain ⟨C, i, j, U, V, hij, rfl, rfl⟩ := drop h
      have := blen_two hij hp q1
      omega
  simp only [text_node] at key
  omega

end Tree

/-- The outermost node with the kind and the range of the pointer is what it resolves to. -/
theorem tryToNode_outermost {bs : BinarySearch} (hbs : Conforming bs) {r : Root} (him : r.mutable = false) {top : SNode}
    (ht : Reach r (.node top)) (hp : top.path = []) {ptr : SyntaxNodePtr} (hne : ptr.range.start < ptr.range.stop) {Q : List Nat}
    (hQ : r.tree.nodeAt ptr.kind ptr.range Q) (ho : ∀ A, A <+: Q → A ≠ Q → ¬ r.tree.nodeAt ptr.kind ptr.range A) :
    ∃ n, ptr.tryToNode bs top = .ok (some n) ∧ Reach r (.node n) ∧ n.path = Q := by
  obtain ⟨x, x1, x2, x3⟩ := (C30_resolve hbs him ht ptr).2 hp
  cases x with
  | none => exact absurd hQ (x3 rfl hne Q)
  | some m =>
    obtain ⟨y1, y2, y3⟩ := x2 m rfl
    refine ⟨m, x1, y1, ?_⟩
    by_cases e : m.path = Q
    · exact e
    · exact absurd y2 (ho _ (y3 hne Q hQ) e)

/-- **C74** for a replacement behind the node: the pointer resolves, in the tree in which the element `s` at `P` has been
replaced by `x`, to the node in the same place. -/
theorem C74_before {bs : BinarySearch} (hbs : Conforming bs) {r r' : Root} (him : r.mutable = false) (him' : r'.mutable = false)
    {top top' : SNode} (ht : Reach r (.node top)) (hp : top.path = []) (ht' : Reach r' (.node top')) (hp' : top'.path = [])
    {P : List Nat} {s x : Tree} (hsw : r.tree.Swapped r'.tree P s x) {ptr : SyntaxNodePtr} {n : SNode}
    (hn : ptr.tryToNode bs top = .ok (some n)) (hne : ptr.range.start < ptr.range.stop) (hpos : Earlier n.path P)
    (hx : x.text ≠ [] ∨ r.tree.OnlyBelow ptr.kind n.path) :
    ∃ n', ptr.tryToNode bs top' = .ok (some n') ∧ Reach r' (.node n') ∧ n'.path = n.path ∧
      r'.tree.at? n.path = r.tree.at? n.path := by
  obtain ⟨y, y1, y2, -⟩ := (C30_resolve hbs him ht ptr).2 hp
  rw [hn] at y1
  obtain ⟨z1, z2, z3⟩ := y2 n (by cases y1; rfl)
  have hQ := (Tree.nodeAt_earlier hsw hpos).mpr z2
  have hsame : r'.tree.at? n.path = r.tree.at? n.path := by
    rw [hsw.2]; exact Tree.at?_set_other x hpos.apart.2 hpos.apart.1
  obtain ⟨n', h1, h2, h3⟩ := tryToNode_outermost hbs him' ht' hp' hne hQ fun A hA hAne hAt => by
    rcases hpos.above hA with h | h
    · have hAP : A ≠ P := fun e => hpos.apart.2 (e ▸ hA)
      rcases hx with hx | hx
      · exact Tree.nodeAt_not_both hQ (by rw [hsw.2]; simpa using Tree.at?_set_self hsw.1 x []) hx (.inl hpos) hA h hAt
      · obtain ⟨raw, cs, a1, a2, -⟩ := hAt
        obtain ⟨cs', a1'⟩ := Tree.kind_above hsw h hAP a1
        exact hx A raw cs' hA hAne a1' a2
    · exact hAne (hA.eq_of_length_le (z3 hne A ((Tree.nodeAt_earlier hsw h).mp hAt)).length_le)
  exact ⟨n', h1, h2, h3, hsame⟩

/-- **C74** for a replacement in front of the node: the pointer moved by the difference of the lengths resolves to the node in
the same place. -/
theorem C74_after {bs : BinarySearch} (hbs : Conforming bs) {r r' : Root} (him : r.mutable = false) (him' : r'.mutable = false)
    {top top' : SNode} (ht : Reach r (.node top)) (hp : top.path = []) (ht' : Reach r' (.node top')) (hp' : top'.path = [])
    {P : List Nat} {s x : Tree} (hsw : r.tree.Swapped r'.tree P s x) {ptr ptr' : SyntaxNodePtr} {n : SNode}
    (hn : ptr.tryToNode bs top = .ok (some n)) (hne : ptr.range.start < ptr.range.stop) (hpos : Earlier P n.path)
    (hk : ptr'.kind = ptr.kind) (h1 : ptr'.range.start + blen s.text = ptr.range.start + blen x.text)
    (h2 : ptr'.range.stop + blen s.text = ptr.range.stop + blen x.text)
    (hx : x.text ≠ [] ∨ r.tree.OnlyBelow ptr.kind n.path) :
    ∃ n', ptr'.tryToNode bs top' = .ok (some n') ∧ Reach r' (.node n') ∧ n'.path = n.path ∧
      r'.tree.at? n.path = r.tree.at? n.path := by
  obtain ⟨y, y1, y2, -⟩ := (C30_resolve hbs him ht ptr).2 hp
  rw [hn] at y1
  obtain ⟨z1, z2, z3⟩ := y2 n (by cases y1; rfl)
  have hQ : r'.tree.nodeAt ptr'.kind ptr'.range n.path := by
    rw [hk]; exact (Tree.nodeAt_later hsw hpos h1 h2).mpr z2
  have hsame : r'.tree.at? n.path = r.tree.at? n.path := by
    rw [hsw.2]; exact Tree.at?_set_other x hpos.apart.1 hpos.apart.2
  obtain ⟨n', g1, g2, g3⟩ := tryToNode_outermost hbs him' ht' hp' (by omega) hQ fun A hA hAne hAt => by
    rcases hpos.above' hA with h | h
    · have hAP : A ≠ P := fun e => hpos.apart.1 (e ▸ hA)
      rcases hx with hx | hx
      · exact Tree.nodeAt_not_both hQ (by rw [hsw.2]; simpa using Tree.at?_set_self hsw.1 x []) hx (.inr hpos) hA h hAt
      · obtain ⟨raw, cs, a1, a2, -⟩ := hAt
        obtain ⟨cs', a1'⟩ := Tree.kind_above hsw h hAP a1
        exact hx A raw cs' hA hAne a1' (a2.trans hk)
    · rw [hk] at hAt
      exact hAne (hA.eq_of_length_le (z3 hne A ((Tree.nodeAt_later hsw h h1 h2).mp hAt)).length_le)
  exact ⟨n', g1, g2, g3, hsame⟩

/-- **C74** for a replacement inside the node: the pointer with its end moved by the difference of the lengths resolves to the
node in the same place, which is the old one with the replacement made in it. -/
theorem C74_inside {bs : BinarySearch} (hbs : Conforming bs) {r r' : Root} (him : r.mutable = false) (him' : r'.mutable = false)
    {top top' : SNode} (ht : Reach r (.node top)) (hp : top.path = []) (ht' : Reach r' (.node top')) (hp' : top'.path = [])
    {P : List Nat} {s x : Tree} (hsw : r.tree.Swapped r'.tree P s x) {ptr ptr' : SyntaxNodePtr} {n : SNode}
    (hn : ptr.tryToNode bs top = .ok (some n)) (hne : ptr.range.start < ptr.range.stop) (hpos : n.path <+: P) (hin : n.path ≠ P)
    (hk : ptr'.kind = ptr.kind) (h1 : ptr'.range.start = ptr.range.start)
    (h2 : ptr'.range.stop + blen s.text = ptr.range.stop + blen x.text) (hne' : ptr'.range.start < ptr'.range.stop) :
    ∃ n', ptr'.tryToNode bs top' = .ok (some n') ∧ Reach r' (.node n') ∧ n'.path = n.path ∧
      r'.tree.at? n.path = (r.tree.at? n.path).map (·.set (P.drop n.path.length) x) := by
  obtain ⟨y, y1, y2, -⟩ := (C30_resolve hbs him ht ptr).2 hp
  rw [hn] at y1
  obtain ⟨z1, z2, z3⟩ := y2 n (by cases y1; rfl)
  have hQ : r'.tree.nodeAt ptr'.kind ptr'.range n.path := by
    rw [hk]; exact (Tree.nodeAt_above hsw hpos hin h1 h2).mpr z2
  obtain ⟨n', g1, g2, g3⟩ := tryToNode_outermost hbs him' ht' hp' hne' hQ fun A hA hAne hAt => by
    rw [hk] at hAt
    have hAP : A ≠ P := fun e => hAne (hA.eq_of_length_le (by rw [e]; exact hpos.length_le))
    exact hAne (hA.eq_of_length_le (z3 hne A ((Tree.nodeAt_above hsw (hA.trans hpos) hAP h1 h2).mp hAt)).length_le)
  refine ⟨n', g1, g2, g3, ?_⟩
  obtain ⟨B, hB⟩ := hpos
  obtain ⟨raw, cs, hat, -⟩ := z2
  rw [hsw.2, ← hB, Tree.set_append hat, List.drop_left, hat, Option.map_some]
  simpa using Tree.at?_set_self hat ((Tree.node raw cs).set B x) []

/-- **C74** for `replace_with` on a node `m`, in terms of the API: a pointer that resolves to `n` resolves to the same place in
the tree that `SyntaxNode::new_root` makes of the result, if the node replaced comes after `n`; if it comes before `n`, the
same is true of the pointer moved by the difference of the lengths. -/
theorem C74_replace_with {bs : BinarySearch} (hbs : Conforming bs) {r : Root} (him : r.mutable = false) {top n m : SNode}
    (ht : Reach r (.node top)) (hp : top.path = []) (hm : Reach r (.node m)) {g g' : GNode} (hg : g.WF) {next : Nat}
    (hrep : m.replaceWith next g = .ok g') {ptr : SyntaxNodePtr} (hn : ptr.tryToNode bs top = .ok (some n))
    (hne : ptr.range.start < ptr.range.stop) (hx : g.tree.text ≠ []) :
    (Earlier n.path m.path → ∃ n', ptr.tryToNode bs (.newRoot g') = .ok (some n') ∧ n'.path = n.path ∧
      g'.tree.at? n.path = r.tree.at? n.path) ∧
    (Earlier m.path n.path → ∀ ptr' : SyntaxNodePtr, ptr'.kind = ptr.kind →
      ptr'.range.start + m.textRange.len = ptr.range.start + blen g.tree.text →
      ptr'.range.stop + m.textRange.len = ptr.range.stop + blen g.tree.text →
      ∃ n', ptr'.tryToNode bs (.newRoot g') = .ok (some n') ∧ n'.path = n.path ∧
        g'.tree.at? n.path = r.tree.at? n.path) := by
  have hc := C22_replace_node hm next g hg
  have hk : m.kind = g.kind := Classical.byContradiction fun hk => by
    have := hc.1.mpr hk
    rw [hrep] at this; cases this
  obtain ⟨g1, e1, hw, e2, -⟩ := hc.2 hk
  rw [hrep] at e1
  cases e1
  obtain ⟨s, hs, -, -, h3, -⟩ := C11_ranges hm
  have h3 : m.textRange.len = blen s.text := h3
  have hsw : r.tree.Swapped (Root.mk false 0 (.node g')).tree m.path s g.tree := ⟨hs, e2⟩
  have ht' : Reach (Root.mk false 0 (.node g')) (.node (.newRoot g')) := Reach.top hw
  constructor
  · intro hpos
    obtain ⟨n', h1, -, h2, h4⟩ := C74_before hbs him rfl ht hp ht' rfl hsw hn hne hpos (.inl hx)
    exact ⟨n', h1, h2, h4⟩
  · intro hpos ptr' hk h5 h6
    rw [h3] at h5 h6
    obtain ⟨n', h1, -, h2, h4⟩ := C74_after hbs him rfl ht hp ht' rfl hsw hn hne hpos hk h5 h6 (.inl hx)
    exact ⟨n', h1, h2, h4⟩

/-- **C74** for `replace_with` on a token `m`. -/
theorem C74_replace_token {bs : BinarySearch} (hbs : Conforming bs) {r : Root} (him : r.mutable = false) {top n : SNode}
    {m : SToken} (ht : Reach r (.node top)) (hp : top.path = []) (hm : Reach r (.token m)) {g : GToken} {g' : GNode} {next : Nat}
    (hrep : m.replaceWith next g = .ok g') {ptr : SyntaxNodePtr} (hn : ptr.tryToNode bs top = .ok (some n))
    (hne : ptr.range.start < ptr.range.stop) (hx : g.text ≠ []) :
    (Earlier n.path m.path → ∃ n', ptr.tryToNode bs (.newRoot g') = .ok (some n') ∧ n'.path = n.path ∧
      g'.tree.at? n.path = r.tree.at? n.path) ∧
    (Earlier m.path n.path → ∀ ptr' : SyntaxNodePtr, ptr'.kind = ptr.kind →
      ptr'.range.start + m.textRange.len = ptr.range.start + blen g.text →
      ptr'.range.stop + m.textRange.len = ptr.range.stop + blen g.text →
      ∃ n', ptr'.tryToNode bs (.newRoot g') = .ok (some n') ∧ n'.path = n.path ∧
        g'.tree.at? n.path = r.tree.at? n.path) := by
  have hc := C22_replace_token hm next g
  have hk : ¬ (m.kind ≠ g.kind ∨ m.path = []) := fun hk => by
    have := hc.1.mpr hk
    rw [hrep] at this; cases this
  obtain ⟨g1, e1, hw, e2, -⟩ := hc.2 (Classical.byContradiction fun h => hk (.inl h)) fun h => hk (.inr h)
  rw [hrep] at e1
  cases e1
  obtain ⟨s, hs, -, -, h3, -⟩ := C11_ranges hm
  have h3 : m.textRange.len = blen s.text := h3
  have hsw : r.tree.Swapped (Root.mk false 0 (.node g')).tree m.path s (.token g.kind g.text) := ⟨hs, e2⟩
  have ht' : Reach (Root.mk false 0 (.node g')) (.node (.newRoot g')) := Reach.top hw
  constructor
  · intro hpos
    obtain ⟨n', h1, -, h2, h4⟩ := C74_before hbs him rfl ht hp ht' rfl hsw hn hne hpos (.inl hx)
    exact ⟨n', h1, h2, h4⟩
  · intro hpos ptr' hk h5 h6
    rw [h3] at h5 h6
    obtain ⟨n', h1, -, h2, h4⟩ := C74_after hbs him rfl ht hp ht' rfl hsw hn hne hpos hk h5 h6 (.inl hx)
    exact ⟨n', h1, h2, h4⟩

end

section
attribute [local instance] rawLang

/-- The tree `(1 (1 "a") (2 "b"))`. -/
def twoGreen : GNode := GNode.new 9 1 [.node (GNode.new 7 1 [exTok 0 2 "a"]), .node (GNode.new 8 2 [exTok 1 2 "b"])]
def twoRoot : Root := ⟨false, 0, .node twoGreen⟩
def twoTop : SNode := .newRoot twoGreen
/-- Its two inner nodes, and pointers to them. -/
def twoFst : SNode := .child twoTop 0 0 (GNode.new 7 1 [exTok 0 2 "a"])
def twoSnd : SNode := .child twoTop 1 1 (GNode.new 8 2 [exTok 1 2 "b"])
def twoFstPtr : SyntaxNodePtr := ⟨(1 : SyntaxKind), ⟨0, 1, by decide⟩⟩
def twoSndPtr : SyntaxNodePtr := ⟨(2 : SyntaxKind), ⟨1, 2, by decide⟩⟩
/-- What they are replaced by: `(2 "xyz")`, `(2)`, `(1 "xyz")`. -/
def twoNew (k : SyntaxKind) : GNode := GNode.new 10 k [exTok 2 2 "xyz"]
def twoNone : GNode := GNode.new 10 2 []

theorem twoNew_wf (k : SyntaxKind) : (twoNew k).WF := GNode.wf_new _ _ _ (by
  simp only [List.mem_cons, List.not_mem_nil, or_false, forall_eq]; exact (Made.token ..).wf)
theorem twoGreen_wf : GElem.WF (.node twoGreen) := by
  refine (Made.node _ _ _ ?_).wf
  intro e he
  simp only [List.mem_cons, List.not_mem_nil, or_false] at he
  rcases he with rfl | rfl <;>
  · refine .node _ _ _ ?_
    intro e he
    simp only [List.mem_cons, List.not_mem_nil, or_false] at he
    subst he
    exact .token ..
theorem twoTop_reach : Reach twoRoot (.node twoTop) := Reach.top twoGreen_wf
theorem twoFst_reach : Reach twoRoot (.node twoFst) := Reach.firstChild twoTop_reach rfl
theorem twoSnd_reach : Reach twoRoot (.node twoSnd) := Reach.lastChild twoTop_reach rfl
theorem two_earlier : Earlier twoFst.path twoSnd.path := ⟨[], 0, 1, [], [], by decide, rfl, rfl⟩

/-- The second node is replaced by `(2 "xyz")`: the pointer to the first one keeps resolving to it. -/
example : ∃ g' n', twoSnd.replaceWith 20 (twoNew 2) = .ok g' ∧ twoFstPtr.tryToNode stdSearch (.newRoot g') = .ok (some n') ∧
    n'.path = [0] := by
  obtain ⟨g', e, -⟩ := (C22_replace_node twoSnd_reach 20 (twoNew 2) (twoNew_wf 2)).2 rfl
  obtain ⟨n', h1, h2, -⟩ := (C74_replace_with stdSearch_conforming (r := twoRoot) rfl twoTop_reach rfl twoSnd_reach (twoNew_wf 2) e
    (ptr := twoFstPtr) (n := twoFst) rfl (by decide) (by decide)).1 two_earlier
  exact ⟨g', n', e, h1, h2⟩

/-- The first node is replaced by `(1 "xyz")`: the pointer to the second one resolves to it when moved by two bytes. -/
example : ∃ g' n', twoFst.replaceWith 20 (twoNew 1) = .ok g' ∧
    SyntaxNodePtr.tryToNode stdSearch ⟨(2 : SyntaxKind), ⟨3, 4, by decide⟩⟩ (.newRoot g') = .ok (some n') ∧ n'.path = [1] := by
  obtain ⟨g', e, -⟩ := (C22_replace_node twoFst_reach 20 (twoNew 1) (twoNew_wf 1)).2 rfl
  obtain ⟨n', h1, h2, -⟩ := (C74_replace_with stdSearch_conforming (r := twoRoot) rfl twoTop_reach rfl twoFst_reach (twoNew_wf 1) e
    (ptr := twoSndPtr) (n := twoSnd) rfl (by decide) (by decide)).2 two_earlier ⟨(2 : SyntaxKind), ⟨3, 4, by decide⟩⟩ rfl
    (by decide) (by decide)
  exact ⟨g', n', e, h1, h2⟩

/-- The first token of the other example tree is replaced: the pointer to the inner node moves by one byte. -/
example : ∃ g' n', (SToken.child synTop 0 0 ⟨0, 2, "a".toList⟩).replaceWith 20 ⟨30, 2, "xy".toList⟩ = .ok g' ∧
    SyntaxNodePtr.tryToNode stdSearch ⟨(3 : SyntaxKind), ⟨2, 5, by decide⟩⟩ (.newRoot g') = .ok (some n') ∧ n'.path = [1] := by
  have hm : Reach synRoot (.token (.child synTop 0 0 ⟨0, 2, "a".toList⟩)) := Reach.firstChildOrToken synTop_reach rfl
  obtain ⟨g', e, -⟩ := (C22_replace_token hm 20 ⟨30, 2, "xy".toList⟩).2 rfl (by decide)
  obtain ⟨n', h1, h2, -⟩ := (C74_replace_token stdSearch_conforming (r := synRoot) rfl synTop_reach rfl hm e
    (ptr := ⟨(3 : SyntaxKind), ⟨1, 4, by decide⟩⟩) (n := synInnerH) rfl (by decide) (by decide)).2
    ⟨[], 0, 1, [], [], by decide, rfl, rfl⟩ ⟨(3 : SyntaxKind), ⟨2, 5, by decide⟩⟩ rfl (by decide) (by decide)
  exact ⟨g', n', e, h1, h2⟩

/-- The replacement made inside the top node: its pointer `1@0..2` becomes `1@0..4`. -/
example : ∃ n', SyntaxNodePtr.tryToNode stdSearch ⟨(1 : SyntaxKind), ⟨0, 4, by decide⟩⟩
    (.newRoot (GNode.new 9 1 [.node (GNode.new 7 1 [exTok 0 2 "a"]), .node (twoNew 2)])) = .ok (some n') ∧ n'.path = [] := by
  obtain ⟨n', h1, -, h2, -⟩ := C74_inside stdSearch_conforming (r := twoRoot)
    (r' := ⟨false, 0, .node (GNode.new 9 1 [.node (GNode.new 7 1 [exTok 0 2 "a"]), .node (twoNew 2)])⟩) rfl rfl
    twoTop_reach rfl (Reach.top (by
      refine (Made.node _ _ _ ?_).wf
      intro e he
      simp only [List.mem_cons, List.not_mem_nil, or_false] at he
      rcases he with rfl | rfl <;>
      · refine .node _ _ _ ?_
        intro e he
        simp only [List.mem_cons, List.not_mem_nil, or_false] at he
        subst he
        exact .token ..)) rfl (P := [1]) (s := .node 2 [.token 2 "b".toList]) (x := .node 2 [.token 2 "xyz".toList])
    ⟨rfl, rfl⟩ (ptr := ⟨(1 : SyntaxKind), ⟨0, 2, by decide⟩⟩) (ptr' := ⟨(1 : SyntaxKind), ⟨0, 4, by decide⟩⟩) (n := twoTop)
    rfl (by decide) (by decide) (by decide) rfl rfl (by decide) (by decide)
  exact ⟨n', h1, h2⟩

/-- **C74 needs a replacement with text** (or a kind that the ancestors do not have): when the second node is replaced by an
empty one, the top node, also of kind 1, gets the range of the first one, and the pointer to that one resolves to the top. -/
theorem C74_empty_counterexample :
    ∃ (r : Root) (top n m n' : SNode) (g g' : GNode) (ptr : SyntaxNodePtr), r.mutable = false ∧ Reach r (.node top) ∧
      top.path = [] ∧ Reach r (.node m) ∧ g.WF ∧ m.replaceWith 20 g = .ok g' ∧ ptr.tryToNode stdSearch top = .ok (some n) ∧
      ptr.range.start < ptr.range.stop ∧ Earlier n.path m.path ∧ ptr.tryToNode stdSearch (.newRoot g') = .ok (some n') ∧
      n'.path ≠ n.path :=
  ⟨twoRoot, twoTop, twoFst, twoSnd, .newRoot _, twoNone, _, twoFstPtr, rfl, twoTop_reach, rfl, twoSnd_reach,
    GNode.wf_new _ _ _ (by simp), rfl, rfl, by decide, two_earlier, rfl, by decide⟩

end
end Rowan
