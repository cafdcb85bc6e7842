import Verif.Props.Ast
/-!
# C30 without the restriction to non-empty nodes

Where the search of `SyntaxNodePtr::try_to_node` goes, and exactly which pointers resolve.
-/
namespace Rowan

/-- Where the element at position `q` ends. -/
def Tree.endAt (t : Tree) (q : List Nat) : Nat :=
  blen (t.before q) + blen (((t.at? q).map Tree.text).getD [])

/-- From `p` the search for the range `R` goes down to `q`: `q` is the only child of `p` whose (closed) range contains `R`,
or, if several contain it, which is possible only for an empty range, the last one that ends there. -/
def Tree.Aims (t : Tree) (R : TextRange) (p q : List Nat) : Prop :=
  q ∈ t.kids p ∧ t.covers R q ∧
    ((∀ u ∈ t.kids p, t.covers R u → u = q) ∨
      R.start = R.stop ∧ t.endAt q = R.start ∧ ∀ u ∈ t.later q, t.endAt u ≠ R.start)

/-- The positions that the search visits, from `p` on. -/
inductive Tree.Led (t : Tree) (R : TextRange) : List Nat → List Nat → Prop
  | here {p} : Led t R p p
  | down {p q u} : t.Aims R p q → Led t R q u → Led t R p u

/-- The search has no choice. -/
theorem Tree.Aims.unique {t : Tree} {R : TextRange} {p q u : List Nat} (h : t.Aims R p q) (h' : t.Aims R p u) : q = u := by
  obtain ⟨h1, h2, h3⟩ := h
  obtain ⟨g1, g2, g3⟩ := h'
  rcases h3 with h3 | ⟨h3, h4, h5⟩
  · exact (h3 u g1 g2).symm
  rcases g3 with g3 | ⟨-, g4, g5⟩
  · exact g3 q h1 h2
  cases hs : t.at? p with
  | none => simp [Tree.kids, hs] at h1
  | some s =>
    obtain ⟨i, hi, rfl⟩ := (Tree.mem_kids hs).mp h1
    obtain ⟨j, hj, rfl⟩ := (Tree.mem_kids hs).mp g1
    rw [Tree.later_snoc, Tree.kids_eq hs] at h5 g5
    have key : ∀ {a b : Nat}, a < b → b < s.children.length →
        p ++ [b] ∈ ((List.range s.children.length).map fun i => p ++ [i]).drop (a + 1) := by
      intro a b hab hb
      rw [← List.map_drop]
      refine List.mem_map.mpr ⟨b, ?_, rfl⟩
      rw [List.mem_iff_getElem]
      exact ⟨b - (a + 1), by simp; omega, by simp; omega⟩
    rcases Nat.lt_trichotomy i j with hij | rfl | hij
    · exact absurd g4 (h5 _ (key hij hj))
    · rfl
    · exact absurd h4 (g5 _ (key hij hi))

theorem Tree.Aims.kid {t : Tree} {R : TextRange} {p q : List Nat} (h : t.Aims R p q) : ∃ i, q = p ++ [i] := by
  cases hs : t.at? p with
  | none => have := h.1; simp [Tree.kids, hs] at this
  | some s =>
    obtain ⟨i, -, rfl⟩ := (Tree.mem_kids hs).mp h.1
    exact ⟨i, rfl⟩

theorem Tree.Led.prefix {t : Tree} {R : TextRange} {p q : List Nat} (h : t.Led R p q) : p <+: q := by
  induction h with
  | here => exact List.prefix_refl _
  | down h _ ih =>
    obtain ⟨i, rfl⟩ := h.kid
    exact (List.prefix_append _ _).trans ih

section
variable [Lang]

theorem findLoop_exact {bs : BinarySearch} (hbs : Conforming bs) {r : Root} (ptr : SyntaxNodePtr) :
    ∀ (k : Nat) (n : SNode), Reach r (.node n) → (GNode.subs n.green).length ≤ k →
      n.textRange.start ≤ ptr.range.start →
      ∃ x, ptr.findLoop bs k n = .ok x ∧
        (∀ m, x = some m → Reach r (.node m) ∧ r.tree.nodeAt ptr.kind ptr.range m.path ∧
          r.tree.Led ptr.range n.path m.path ∧
          ∀ q, r.tree.Led ptr.range n.path q → r.tree.nodeAt ptr.kind ptr.range q → m.path <+: q) ∧
        (x = none → ∀ q, r.tree.Led ptr.range n.path q → ¬ r.tree.nodeAt ptr.kind ptr.range q) := by
  intro k
  induction k with
  | zero =>
    intro n _ hk
    have := List.length_pos_of_mem (SElem.green (.node n)).self_mem_subs
    have : (SElem.green (.node n)).subs = GNode.subs n.green := rfl
    simp_all
  | succ k ih =>
    intro n hn hk hle
    rw [SyntaxNodePtr.findLoop]
    have hmatch := nodeAt_path hn ptr.kind ptr.range
    have found : n.textRange = ptr.range ∧ n.tkind = ptr.kind →
        ∃ x, Res.ok (some n) = Res.ok x ∧ (∀ m, x = some m → Reach r (.node m) ∧ r.tree.nodeAt ptr.kind ptr.range m.path ∧
          r.tree.Led ptr.range n.path m.path ∧
          ∀ q, r.tree.Led ptr.range n.path q → r.tree.nodeAt ptr.kind ptr.range q → m.path <+: q) ∧
        (x = none → ∀ q, r.tree.Led ptr.range n.path q → ¬ r.tree.nodeAt ptr.kind ptr.range q) := by
      intro hm
      refine ⟨_, rfl, ?_, by simp⟩
      intro m hm'
      cases hm'
      exact ⟨hn, hmatch.mpr hm, .here, fun q hq _ => hq.prefix⟩
    rcases (C19_child_at_range hbs hn ptr.range).2 hle with ⟨h1, h2⟩ | ⟨c, h1, h2, h3, h4, h5, h6⟩
    · rw [h1]
      simp only [Res.ok_bind, Option.bind_none]
      split
      · next hm => exact found hm
      · next hm =>
        refine ⟨_, rfl, by simp, ?_⟩
        intro _ q hq hqm
        cases hq with
        | here => exact hm (hmatch.mp hqm)
        | down ha _ => exact h2 _ ha.1 ha.2.1
    · rw [h1]
      simp only [Res.ok_bind, Option.bind_some]
      split
      · next hm => exact found hm
      · next hm =>
        have haim : r.tree.Aims ptr.range n.path c.path := by
          refine ⟨h3, h4, ?_⟩
          rcases Nat.lt_or_ge ptr.range.start ptr.range.stop with hne | hge
          · exact .inl (h5 hne)
          · have he : ptr.range.start = ptr.range.stop := Nat.le_antisymm ptr.range.le hge
            rcases h6 he with ⟨a, b⟩ | a
            · refine .inr ⟨he, ?_, ?_⟩
              · obtain ⟨s, hs, -⟩ := h4
                rw [Tree.endAt, hs]
                exact a s hs
              · have hat := hn.valid.1.at_path
                rw [hn.valid.2, SElem.path_node] at hat
                obtain ⟨i, hi, hci⟩ := (Tree.mem_kids hat).mp h3
                have hidx : c.index = i := by
                  cases c with
                  | token t =>
                    cases t with
                    | root => simp [SToken.path] at hci
                    | child => simpa using (List.append_inj' hci rfl).2
                  | node c =>
                    cases c with
                    | root => simp at hci
                    | child => simpa using (List.append_inj' hci rfl).2
                intro u hu
                rw [hci, Tree.later_snoc, Tree.kids_eq hat, ← List.map_drop] at hu
                obtain ⟨j, hj, rfl⟩ := List.mem_map.mp hu
                obtain ⟨x, hx, rfl⟩ := List.mem_iff_getElem.mp hj
                simp only [List.length_drop, List.length_range] at hx
                simp only [List.getElem_drop, List.getElem_range]
                have hlt : i + 1 + x < (SElem.green (.node n)).tree.children.length := by omega
                have hu : r.tree.at? (n.path ++ [i + 1 + x]) = some ((SElem.green (.node n)).tree.children[i + 1 + x]) := by
                  rw [Tree.at?_kid hat, List.getElem?_eq_getElem hlt]
                have := b (i + 1 + x) _ (by omega) hu
                rw [Tree.endAt, hu]
                exact this
            · exact .inl a
        have thru : ∀ q, r.tree.Led ptr.range n.path q → r.tree.nodeAt ptr.kind ptr.range q →
            r.tree.Led ptr.range c.path q := by
          intro q hq hqm
          cases hq with
          | here => exact absurd (hmatch.mp hqm) hm
          | down ha hb => rw [haim.unique ha]; exact hb
        cases c with
        | token t =>
          refine ⟨_, rfl, by simp, ?_⟩
          intro _ q hq hqm
          obtain ⟨u, rfl⟩ := (thru q hq hqm).prefix
          obtain ⟨raw, cs, hcs, -⟩ := hqm
          have hat' := (C11_contents h2).2.1 t rfl
          rw [Tree.at?_append, hat'] at hcs
          cases u with
          | nil => simp at hcs
          | cons b u => simp [Tree.at?_cons, Tree.children] at hcs
        | node c =>
          have hck : .node c ∈ n.kids := by
            obtain ⟨k1, k2⟩ := hn.kids
            have : (SElem.path (.node c)) ∈ n.kids.map SElem.path := by rw [k1]; exact h3
            obtain ⟨c', hc', hcp⟩ := List.mem_map.mp this
            have hc'v := k2 c' hc'
            have : c' = .node c := hc'v.1.unique h2.valid.1 (by rw [hc'v.2, h2.valid.2]) hcp
            rwa [← this]
          have hlt := SNode.subs_kid_lt hck
          have hlt' : (SElem.green (.node c)).subs.length = (GNode.subs c.green).length := rfl
          have hst : c.textRange.start ≤ ptr.range.start := by
            obtain ⟨s, -, c1, -⟩ := h4
            obtain ⟨-, -, -, c2, -⟩ := C11_ranges h2
            have : c.textRange.start = blen (r.tree.before c.path) := c2
            rw [SElem.path_node] at c1
            omega
          obtain ⟨x, x1, x2, x3⟩ := ih c h2 (by omega) hst
          refine ⟨x, x1, ?_, ?_⟩
          · intro m hm'
            obtain ⟨y1, y2, y3, y4⟩ := x2 m hm'
            exact ⟨y1, y2, .down haim y3, fun q hq hqm => y4 q (thru q hq hqm) hqm⟩
          · intro hx q hq hqm
            exact x3 hx q (thru q hq hqm) hqm

/-- **C30, exactly, for every pointer**: resolving it against the root gives the outermost node of the pointer's kind and
range among the positions that the search visits, and `None` if there is none among them. -/
theorem C30_exact_partial {bs : BinarySearch} (hbs : Conforming bs) {r : Root} (him : r.mutable = false)
    {top : SNode} (h : Reach r (.node top)) (hp : top.path = []) (ptr : SyntaxNodePtr) :
    ∃ x, ptr.tryToNode bs top = .ok x ∧
      (∀ m, x = some m → Reach r (.node m) ∧ r.tree.nodeAt ptr.kind ptr.range m.path ∧ r.tree.Led ptr.range [] m.path ∧
        ∀ q, r.tree.Led ptr.range [] q → r.tree.nodeAt ptr.kind ptr.range q → m.path <+: q) ∧
      (x = none → ∀ q, r.tree.Led ptr.range [] q → ¬ r.tree.nodeAt ptr.kind ptr.range q) := by
  have hm : top.mutable = false := by rw [← him]; exact (C11_contents h).2.2
  rw [SyntaxNodePtr.tryToNode, hm]
  simp only [Bool.not_false, if_true]
  rw [if_neg (by rw [SNode.parent_isSome]; simp [hp])]
  have hle : top.textRange.start ≤ ptr.range.start := by rw [SNode.path_nil_start h hp]; omega
  have := findLoop_exact hbs ptr _ top h (Nat.le_refl _) hle
  rwa [hp] at this

/-- **C30, the round trip, exactly**: if no other node has its kind and range, the pointer of a node resolves to this node if
the search visits it, and otherwise to `None`. -/
theorem C30_round_trip_iff_partial {bs : BinarySearch} (hbs : Conforming bs) {r : Root} (him : r.mutable = false)
    {top n : SNode} (ht : Reach r (.node top)) (hp : top.path = []) (h : Reach r (.node n))
    (hu : ∀ q, r.tree.nodeAt n.tkind n.textRange q → q = n.path) :
    ∃ ptr, SyntaxNodePtr.new n = .ok ptr ∧
      (r.tree.Led n.textRange [] n.path → ptr.tryToNode bs top = .ok (some n) ∧ ptr.toNode bs top = .ok n) ∧
      (¬ r.tree.Led n.textRange [] n.path → ptr.tryToNode bs top = .ok none ∧ ptr.toNode bs top = .panic) := by
  have hm : n.mutable = false := by rw [← him]; exact (C11_contents h).2.2
  have hself := (nodeAt_path h n.tkind n.textRange).mpr ⟨rfl, rfl⟩
  refine ⟨⟨n.tkind, n.textRange⟩, by simp [SyntaxNodePtr.new, hm], ?_⟩
  obtain ⟨x, x1, x2, x3⟩ := C30_exact_partial hbs him ht hp ⟨n.tkind, n.textRange⟩
  cases x with
  | none =>
    refine ⟨fun hl => absurd hself (x3 rfl _ hl), fun _ => ⟨x1, ?_⟩⟩
    simp [SyntaxNodePtr.toNode, x1, Res.ofOption]
  | some m =>
    obtain ⟨y1, y2, y3, -⟩ := x2 m rfl
    have e := hu _ y2
    have : m = n := by
      have := y1.valid.1.unique h.valid.1 (by rw [y1.valid.2, h.valid.2]) e
      injection this
    subst this
    exact ⟨fun _ => ⟨x1, by simp [SyntaxNodePtr.toNode, x1, Res.ofOption]⟩, fun hl => absurd y3 hl⟩

end

attribute [local instance] rawLang
/-- The empty node at 4..4 of the example tree is visited: it is the last child ending at 4. -/
theorem synEmpty_led : synRoot.tree.Led ⟨4, 4, by decide⟩ [] [2] := by
  refine .down ⟨by decide, ⟨_, rfl, by decide, by decide⟩, .inr ⟨rfl, by decide, by decide⟩⟩ .here
/-- So, although it is empty, its pointer resolves to it. -/
example : ∃ ptr, SyntaxNodePtr.new (.child synTop 2 4 synEmpty) = .ok ptr ∧
    ptr.toNode stdSearch synTop = .ok (.child synTop 2 4 synEmpty) := by
  obtain ⟨ptr, h1, h2, -⟩ := C30_round_trip_iff_partial stdSearch_conforming (r := synRoot) rfl synTop_reach rfl
    (n := .child synTop 2 4 synEmpty) (Reach.lastChild synTop_reach rfl) fun q => synTree_unique (by decide)
  exact ⟨ptr, h1, (h2 synEmpty_led).2⟩
/-- The one at 1..1 is not visited: the search goes to the token "a". -/
example : synRoot.tree.Aims ⟨1, 1, by decide⟩ [] [0] ∧ ¬ synRoot.tree.Led ⟨1, 1, by decide⟩ [] [1, 0] := by
  have h : synRoot.tree.Aims ⟨1, 1, by decide⟩ [] [0] :=
    ⟨by decide, ⟨_, rfl, by decide, by decide⟩, .inr ⟨rfl, by decide, by decide⟩⟩
  refine ⟨h, fun hl => ?_⟩
  cases hl with
  | down ha hb =>
    have e := h.unique ha
    subst e
    obtain ⟨u, hu⟩ := hb.prefix
    injection hu with h0
    cases h0
example := C30_exact_partial stdSearch_conforming (r := synRoot) rfl synTop_reach rfl ⟨(4 : SyntaxKind), ⟨1, 1, by decide⟩⟩

end Rowan
