import Verif.Spec.Ranges
import Verif.Spec.PtrStable
import Verif.Props.Walk
import Verif.Props.Edit
/-!
# C79: ranges nest, are ordered and tile
-/
namespace Rowan

/-! ### On trees -/

theorem Tree.before_below {t s : Tree} {p : List Nat} (h : t.at? p = some s) (q : List Nat) :
    t.before (p ++ q) = t.before p ++ s.before q := by
  induction p generalizing t with
  | nil => simp only [Tree.at?_nil, Option.some.injEq] at h; subst h; simp [Tree.before]
  | cons i p ih =>
    rw [Tree.at?_cons] at h
    cases hc : t.children[i]? with
    | none => simp [hc] at h
    | some c =>
      simp only [hc, Option.bind_some] at h
      simp only [List.cons_append, Tree.before, hc, ih h, List.append_assoc]

theorem Tree.span_prefix {t s u : Tree} {p q : List Nat} (hp : t.at? p = some s)
    (hq : t.at? q = some u) (h : p <+: q) :
    blen (t.before p) ≤ blen (t.before q) ∧
    blen (t.before q) + blen u.text ≤ blen (t.before p) + blen s.text := by
  obtain ⟨w, rfl⟩ := h
  rw [Tree.at?_append, hp, Option.bind_some] at hq
  have := Tree.before_le hq
  rw [Tree.before_below hp, blen_append]
  omega

theorem Tree.span_earlier {t s u : Tree} {p q : List Nat} (hp : t.at? p = some s)
    (hq : t.at? q = some u) (h : Earlier p q) :
    blen (t.before p) + blen s.text ≤ blen (t.before q) := by
  obtain ⟨C, i, j, U, V, hij, rfl, rfl⟩ := h
  rw [Tree.at?_append] at hp
  cases hc : t.at? C with
  | none => simp [hc] at hp
  | some c =>
    rw [hc, Option.bind_some, Tree.at?_cons] at hp
    rw [Tree.before_below hc, Tree.before_below hc, blen_append, blen_append]
    cases hx : c.children[i]? with
    | none => simp [hx] at hp
    | some x =>
      rw [hx, Option.bind_some] at hp
      have hle := Tree.before_le hp
      have hs := Tree.pre_succ hx
      have hmono := Tree.pre_mono c.children (show i + 1 ≤ j by omega)
      have : Tree.pre c.children j ≤ blen (c.before (j :: V)) := by
        simp only [Tree.before]
        split
        · rw [blen_append, Tree.pre_blen]; omega
        · rw [Tree.at?_append, hc, Option.bind_some, Tree.at?_cons] at hq
          simp_all
      simp only [Tree.len] at hs
      simp only [Tree.before, hx, blen_append, Tree.pre_blen] at *
      omega

/-- Two positions: one is above the other, or one is earlier. -/
theorem positions_trichotomy : ∀ p q : List Nat, p <+: q ∨ q <+: p ∨ Earlier p q ∨ Earlier q p
  | [], q => .inl List.nil_prefix
  | _ :: _, [] => .inr (.inl List.nil_prefix)
  | i :: p, j :: q => by
    rcases Nat.lt_trichotomy i j with hij | rfl | hij
    · exact .inr (.inr (.inl ⟨[], i, j, p, q, hij, rfl, rfl⟩))
    · rcases positions_trichotomy p q with h | h | ⟨C, a, b, U, V, h, rfl, rfl⟩ | ⟨C, a, b, U, V, h, rfl, rfl⟩
      · exact .inl (by simpa using h)
      · exact .inr (.inl (by simpa using h))
      · exact .inr (.inr (.inl ⟨i :: C, a, b, U, V, h, rfl, rfl⟩))
      · exact .inr (.inr (.inr ⟨i :: C, a, b, U, V, h, rfl, rfl⟩))
    · exact .inr (.inr (.inr ⟨[], j, i, q, p, hij, rfl, rfl⟩))

mutual
theorem descend_ordered (sel : Tree → Bool) : ∀ (t : Tree) (p : List Nat),
    (Tree.descend sel t p).Pairwise (fun a b => a <+: b ∨ Earlier a b) ∧
    ∀ a ∈ Tree.descend sel t p, p <+: a
  | .token _ _, p => by simp [Tree.descend]
  | .node _ cs, p => by
    obtain ⟨h1, h2⟩ := descends_ordered sel cs p 0
    have h3 : ∀ a ∈ Tree.descends sel cs p 0, p <+: a := fun a ha => by
      obtain ⟨j, w, -, rfl⟩ := h2 a ha; exact List.prefix_append ..
    refine ⟨?_, ?_⟩
    · rw [Tree.descend, List.pairwise_cons]
      exact ⟨fun a ha => .inl (h3 a ha), h1⟩
    · intro a ha
      rw [Tree.descend, List.mem_cons] at ha
      rcases ha with rfl | ha
      · exact List.prefix_refl _
      · exact h3 a ha
theorem descends_ordered (sel : Tree → Bool) : ∀ (cs : List Tree) (p : List Nat) (i : Nat),
    (Tree.descends sel cs p i).Pairwise (fun a b => a <+: b ∨ Earlier a b) ∧
    ∀ a ∈ Tree.descends sel cs p i, ∃ j w, i ≤ j ∧ a = p ++ j :: w
  | [], p, i => by simp [Tree.descends]
  | c :: cs, p, i => by
    obtain ⟨h1, h2⟩ := descends_ordered sel cs p (i + 1)
    have hc : (if sel c then Tree.descend sel c (p ++ [i]) else []).Pairwise
        (fun a b => a <+: b ∨ Earlier a b) ∧
        ∀ a ∈ (if sel c then Tree.descend sel c (p ++ [i]) else []), p ++ [i] <+: a := by
      split
      · exact descend_ordered sel c (p ++ [i])
      · simp
    obtain ⟨h3, h4⟩ := hc
    rw [Tree.descends]
    refine ⟨List.pairwise_append.mpr ⟨h3, h1, ?_⟩, ?_⟩
    · intro a ha b hb
      obtain ⟨w, rfl⟩ := h4 a ha
      obtain ⟨j, v, hj, rfl⟩ := h2 b hb
      exact .inr ⟨p, i, j, w, v, by omega, by simp, rfl⟩
    · intro a ha
      rw [List.mem_append] at ha
      rcases ha with ha | ha
      · obtain ⟨w, rfl⟩ := h4 a ha
        exact ⟨i, w, Nat.le_refl _, by simp⟩
      · obtain ⟨j, v, hj, rfl⟩ := h2 a ha
        exact ⟨j, v, by omega, rfl⟩
end

/-! ### On handles -/

theorem SElem.span {r : Root} {e : SElem} (h : Reach r e) :
    ∃ s, r.tree.at? e.path = some s ∧ e.textRange.start = blen (r.tree.before e.path) ∧
      e.textRange.stop = blen (r.tree.before e.path) + blen s.text := by
  obtain ⟨s, h1, -, h2, h3, -⟩ := C11_ranges h
  refine ⟨s, h1, h2, ?_⟩
  have := e.textRange.le
  rw [TextRange.len] at h3
  omega

/-- The element `a` is `b` or one of the nodes `b.ancestors()` lists. -/
theorem above_iff {r : Root} {a b : SElem} (ha : Reach r a) (hb : Reach r b) :
    a.path <+: b.path ↔ a = b ∨ ∃ m ∈ b.ancestors, a = .node m := by
  have hu : ∀ (a b : SElem), Reach r a → Reach r b → a.path = b.path → a = b := by
    intro a b ha hb hp
    obtain ⟨h1, h2⟩ := ha.valid
    obtain ⟨h3, h4⟩ := hb.valid
    exact h1.unique h3 (by rw [h2, h4]) hp
  have node : ∀ (n : SNode), Reach r (.node n) →
      (a.path <+: n.path ↔ ∃ m ∈ n.ancestors, a = .node m) := by
    intro n hn
    obtain ⟨⟨h1, h2⟩, -⟩ := C16_ancestors hn
    constructor
    · intro hp
      have : a.path ∈ Tree.upward n.path := by
        simp only [Tree.upward, List.mem_map, List.mem_reverse, List.mem_range]
        exact ⟨a.path.length, by have := hp.length_le; omega, (List.prefix_iff_eq_take.mp hp).symm⟩
      rw [← h1] at this
      obtain ⟨x, hx, hxp⟩ := List.mem_map.mp this
      obtain ⟨m, hm, rfl⟩ := List.mem_map.mp hx
      exact ⟨m, hm, (hu _ _ (h2 _ hx) ha hxp).symm⟩
    · rintro ⟨m, hm, rfl⟩
      have : SElem.path (.node m) ∈ Tree.upward n.path := by
        rw [← h1]
        exact List.mem_map_of_mem (List.mem_map_of_mem hm)
      simp only [Tree.upward, List.mem_map] at this
      obtain ⟨k, -, hk⟩ := this
      rw [← hk]
      exact List.take_prefix ..
  cases b with
  | node n =>
    rw [SElem.path_node, node n hb]
    constructor
    · exact .inr
    · rintro (rfl | h)
      · exact (node n hb).mp (List.prefix_refl _)
      · exact h
  | token t =>
    cases hp : t.parent with
    | none =>
      have hnil : SElem.path (.token t) = [] := SElem.parent_none_iff.mp hp
      rw [hnil, List.prefix_nil]
      constructor
      · intro h
        exact .inl (hu _ _ ha hb (h.trans hnil.symm))
      · rintro (rfl | ⟨m, hm, -⟩)
        · exact hnil
        · simp [SElem.ancestors, SToken.ancestors, hp] at hm
    | some p =>
      have hpp : SElem.parent (.token t) = some p := hp
      obtain ⟨hpr, hpath, -⟩ := hb.sibs hpp
      have hpr' : Reach r (.node p) := Reach.parent hb hpp
      have han : SElem.ancestors (.token t) = p.ancestors := by
        simp [SElem.ancestors, SToken.ancestors, hp]
      rw [han, ← node p hpr', hpath]
      constructor
      · intro h
        rcases List.prefix_concat_iff.mp h with h | h
        · exact .inl (hu _ _ ha hb (h.trans hpath.symm))
        · exact .inr h
      · rintro (rfl | h)
        · rw [hpath]; exact List.prefix_refl _
        · exact h.trans (List.prefix_append ..)

/-- **C79.**  The range of an ancestor contains the ranges of all elements below it. -/
theorem C79_nest {r : Root} {e : SElem} (h : Reach r e) {m : SNode} (hm : m ∈ e.ancestors) :
    m.textRange.containsRange e.textRange = true := by
  have hr := Reach.ancestor h hm
  have hp := (above_iff hr h).mpr (.inr ⟨m, hm, rfl⟩)
  obtain ⟨s, h1, h2, h3⟩ := SElem.span hr
  obtain ⟨u, h4, h5, h6⟩ := SElem.span h
  have := Tree.span_prefix h1 h4 hp
  have hh : (SElem.textRange (.node m)) = m.textRange := rfl
  rw [hh] at h2 h3
  simp only [TextRange.containsRange, Bool.and_eq_true, decide_eq_true_eq]
  omega

/-- **C79.**  Of any two elements of a tree, one is an ancestor of the other (or they are the same),
or one ends before the other begins: ranges never overlap partly. -/
theorem C79_laminar {r : Root} {a b : SElem} (ha : Reach r a) (hb : Reach r b) :
    a = b ∨ (∃ m ∈ b.ancestors, a = .node m) ∨ (∃ m ∈ a.ancestors, b = .node m) ∨
    a.textRange.stop ≤ b.textRange.start ∨ b.textRange.stop ≤ a.textRange.start := by
  obtain ⟨s, h1, h2, h3⟩ := SElem.span ha
  obtain ⟨u, h4, h5, h6⟩ := SElem.span hb
  rcases positions_trichotomy a.path b.path with h | h | h | h
  · rcases (above_iff ha hb).mp h with h | h
    · exact .inl h
    · exact .inr (.inl h)
  · rcases (above_iff hb ha).mp h with h | h
    · exact .inl h.symm
    · exact .inr (.inr (.inl h))
  · have := Tree.span_earlier h1 h4 h
    exact .inr (.inr (.inr (.inl (by omega))))
  · have := Tree.span_earlier h4 h1 h
    exact .inr (.inr (.inr (.inr (by omega))))

/-- The range of the child of `n` in slot `i`, on the tree. -/
theorem child_span {r : Root} {n : SNode} (h : Reach r (.node n)) {e : SElem} (he : Reach r e)
    {s : Tree} (hn : r.tree.at? n.path = some s) {i : Nat} (hp : e.path = n.path ++ [i]) :
    e.textRange.start = n.textRange.start + Tree.pre s.children i ∧
    e.textRange.stop = n.textRange.start + Tree.pre s.children (i + 1) := by
  obtain ⟨s', h1, h2, h3⟩ := SElem.span h
  obtain ⟨u, h4, h5, h6⟩ := SElem.span he
  simp only [SElem.path_node] at h1
  rw [hn] at h1
  cases h1
  have hat : s.children[i]? = some u := by
    rw [hp, Tree.at?_append, hn, Option.bind_some, Tree.at?_cons] at h4
    cases hc : s.children[i]? with
    | none => simp [hc] at h4
    | some c => simpa [hc] using h4
  have hs := Tree.pre_succ hat
  have hb : blen (r.tree.before (n.path ++ [i])) = blen (r.tree.before n.path) + Tree.pre s.children i := by
    rw [Tree.before_below hn, blen_append]
    simp [Tree.before, hat, Tree.pre]
  have hh : (SElem.textRange (.node n)) = n.textRange := rfl
  rw [hh] at h2
  simp only [SElem.path_node] at h2
  simp only [Tree.len] at hs
  rw [hp, hb] at h5 h6
  exact ⟨by omega, by omega⟩

theorem node_span {r : Root} {n : SNode} (h : Reach r (.node n)) :
    ∃ s, r.tree.at? n.path = some s ∧
      n.textRange.stop = n.textRange.start + Tree.pre s.children s.children.length := by
  obtain ⟨s, h1, h2, h3⟩ := SElem.span h
  have hh : (SElem.textRange (.node n)) = n.textRange := rfl
  rw [hh] at h2 h3
  have hn := (C11_contents h).1
  rw [h1] at hn
  refine ⟨s, h1, ?_⟩
  have : s = n.green.tree := Option.some.inj hn
  rw [GNode.tree_eq] at this
  rw [h3, h2, Tree.pre, List.take_length, this]
  rfl

/-- **C79.**  The children of a node tile it: the first begins where the node begins, the last ends
where the node ends (and neighbours touch, `C79_siblings`); a node without children is empty. -/
theorem C79_children {r : Root} {n : SNode} (h : Reach r (.node n)) :
    (∀ c, n.firstChildOrToken = some c → c.textRange.start = n.textRange.start) ∧
    (∀ c, n.lastChildOrToken = some c → c.textRange.stop = n.textRange.stop) ∧
    (n.firstChildOrToken = none → n.textRange.isEmpty = true) := by
  obtain ⟨s, hn, htx⟩ := node_span h
  have hk := Tree.kids_eq hn
  obtain ⟨-, -, ⟨hf, hf'⟩, ⟨hl, hl'⟩, -⟩ := C12_children h (fun _ => true)
  rw [hk] at hf hl
  have hspan := fun {e} (he : Reach r e) {i} => child_span h he hn (i := i)
  generalize s.children = cs at *
  refine ⟨?_, ?_, ?_⟩
  · intro c hc
    rw [hc] at hf
    have hp : c.path = n.path ++ [0] := by
      cases hL : cs.length with
      | zero => simp [hL] at hf
      | succ L => simpa [hL, List.range_succ_eq_map] using hf
    have := (hspan (hf' c hc) hp).1
    simpa [Tree.pre] using this
  · intro c hc
    rw [hc] at hl
    cases hL : cs.length with
    | zero => simp [hL] at hl
    | succ L =>
      have hp : c.path = n.path ++ [L] := by simpa [hL, List.range_succ] using hl
      have := (hspan (hl' c hc) hp).2
      rw [hL] at htx
      omega
  · intro hc
    rw [hc] at hf
    cases hL : cs.length with
    | zero => rw [hL] at htx; simp [Tree.pre] at htx; simp [TextRange.isEmpty, htx]
    | succ L => simp [hL, List.range_succ_eq_map] at hf

/-- **C79.**  Neighbours touch. -/
theorem C79_siblings {r : Root} {e : SElem} (h : Reach r e) :
    (∀ s, e.nextSiblingOrToken = some s → s.textRange.start = e.textRange.stop) ∧
    (∀ s, e.prevSiblingOrToken = some s → s.textRange.stop = e.textRange.start) := by
  obtain ⟨-, -, ⟨hx, hx'⟩, ⟨hy, hy'⟩, -, -⟩ := C12_siblings h (fun _ => true)
  cases hp : e.parent with
  | none =>
    rw [SElem.nextSiblingOrToken_root hp, SElem.prevSiblingOrToken_root hp]
    simp
  | some p =>
    obtain ⟨-, hpath, -⟩ := h.sibs hp
    have hpr : Reach r (.node p) := Reach.parent h hp
    obtain ⟨s, hn, -⟩ := node_span hpr
    have he := child_span hpr h hn hpath
    rw [hpath, Tree.later_snoc, Tree.kids_eq hn] at hx
    rw [hpath, Tree.earlier_snoc, Tree.kids_eq hn] at hy
    constructor
    · intro c hc
      rw [hc, List.head?_drop, List.getElem?_map] at hx
      have hpc : c.path = p.path ++ [e.index + 1] := by
        by_cases hi : e.index + 1 < s.children.length
        · rw [List.getElem?_range hi] at hx
          simpa using hx
        · rw [List.getElem?_eq_none (by simpa using hi)] at hx
          simp at hx
      have := child_span hpr (hx' c hc) hn hpc
      omega
    · intro c hc
      rw [hc, List.head?_reverse, List.getLast?_take] at hy
      split at hy
      · simp at hy
      · next h0 =>
        have hlt : e.index < s.children.length := by
          obtain ⟨u, hu, -⟩ := SElem.span h
          rw [hpath, Tree.at?_append, hn, Option.bind_some, Tree.at?_cons] at hu
          cases hc : s.children[e.index]? with
          | none => simp [hc] at hu
          | some c => exact (List.getElem?_eq_some_iff.mp hc).1
        rw [List.getElem?_map, List.getElem?_range (by omega)] at hy
        have hpc : c.path = p.path ++ [e.index - 1] := by simpa using hy
        have := child_span hpr (hy' c hc) hn hpc
        rw [show e.index - 1 + 1 = e.index from by omega] at this
        omega

/-! ### Document order -/

theorem descendants_reach {r : Root} (hcoh : r.green.Coherent) {n : SNode} (h : Reach r (.node n))
    (k : Nat) : ∀ e ∈ n.descendantsWithTokens k, Reach r e := by
  intro e he
  obtain ⟨s, hs, -⟩ := SElem.span h
  simp only [SNode.descendantsWithTokens, List.mem_filterMap] at he
  obtain ⟨i, -, hi⟩ := he
  obtain ⟨o, ho, -, hr⟩ := C14_preorder_with_tokens hcoh h hs i
  rw [ho] at hi
  cases o with
  | none => simp at hi
  | some ev =>
    cases ev with
    | leave x => simp [WalkEvent.entered] at hi
    | enter x =>
      simp only [WalkEvent.entered, Option.some.injEq] at hi
      subst hi
      exact hr _ rfl

/-- **C79.**  In the order of `descendants_with_tokens()` elements never begin earlier than those
before them; and what comes after an element is inside it or begins after its end. -/
theorem C79_order {r : Root} (hcoh : r.green.Coherent) {n : SNode} (h : Reach r (.node n))
    {s : Tree} (hs : r.tree.at? n.path = some s) {k : Nat}
    (hk : (Tree.walk Tree.all noSkip s n.path).length ≤ k) :
    (n.descendantsWithTokens k).Pairwise fun a b =>
      a.textRange.start ≤ b.textRange.start ∧
      (a.textRange.stop ≤ b.textRange.start ∨ ∃ m ∈ b.ancestors, a = .node m) := by
  have h1 := (C14_descendants hcoh h hs k hk).1
  have h2 := (descend_ordered Tree.all s n.path).1
  have hnd : (Tree.descend Tree.all s n.path).Nodup := descend_nodup ..
  rw [← h1] at h2 hnd
  rw [List.pairwise_map] at h2
  rw [List.Nodup, List.pairwise_map] at hnd
  have hr := descendants_reach hcoh h k
  refine List.Pairwise.imp_of_mem ?_ (h2.and hnd)
  rintro a b ha hb ⟨hab, hne⟩
  obtain ⟨s, h1, h2, h3⟩ := SElem.span (hr a ha)
  obtain ⟨u, h4, h5, h6⟩ := SElem.span (hr b hb)
  rcases hab with hab | hab
  · have := Tree.span_prefix h1 h4 hab
    refine ⟨by omega, .inr ?_⟩
    rcases (above_iff (hr a ha) (hr b hb)).mp hab with rfl | hm
    · exact absurd rfl hne
    · exact hm
  · have := Tree.span_earlier h1 h4 hab
    exact ⟨by omega, .inl (by omega)⟩

theorem Tiles.append {a b c : Nat} {l m : List TextRange} (h : Tiles a l b) (h' : Tiles b m c) :
    Tiles a (l ++ m) c := by
  induction l generalizing a with
  | nil => cases h; exact h'
  | cons x l ih => exact ⟨h.1, ih h.2⟩

/-- The range of the element at a position. -/
def Tree.rangeAt (T : Tree) (p : List Nat) : TextRange :=
  TextRange.at_ (blen (T.before p)) (match T.at? p with | some t => blen t.text | none => 0)

mutual
theorem tokens_tile (T : Tree) : ∀ (t : Tree) (p : List Nat), T.at? p = some t →
    Tiles (blen (T.before p))
      (((Tree.descend Tree.all t p).filter (T.sat fun x => !x.isNode)).map T.rangeAt)
      (blen (T.before p) + blen t.text)
  | .token k x, p, h => by
    have : T.sat (fun x => !x.isNode) p = true := by simp [Tree.sat, h, Tree.isNode]
    simp only [Tree.descend, List.filter_cons, this, if_true, List.filter_nil, List.map_cons,
      List.map_nil, Tiles, Tree.rangeAt, h]
    exact ⟨rfl, rfl⟩
  | .node k cs, p, h => by
    have : T.sat (fun x => !x.isNode) p = false := by simp [Tree.sat, h, Tree.isNode]
    simp only [Tree.descend, List.filter_cons, this, Bool.false_eq_true, if_false]
    have := tokens_tiles T cs p 0 k cs h rfl
    have h0 : Tree.pre cs 0 = 0 := by simp [Tree.pre]
    have h1 : Tree.pre cs cs.length = blen (Tree.node k cs).text := by
      rw [Tree.pre, List.take_length]; rfl
    rw [h0, h1] at this
    exact this
theorem tokens_tiles (T : Tree) : ∀ (cs : List Tree) (p : List Nat) (i : Nat) (k : SyntaxKind)
    (all : List Tree), T.at? p = some (.node k all) → all.drop i = cs →
    Tiles (blen (T.before p) + Tree.pre all i)
      (((Tree.descends Tree.all cs p i).filter (T.sat fun x => !x.isNode)).map T.rangeAt)
      (blen (T.before p) + Tree.pre all all.length)
  | [], p, i, k, all, h, hd => by
    have : all.length ≤ i := List.drop_eq_nil_iff.mp hd
    simp only [Tree.descends, List.filter_nil, List.map_nil, Tiles, Tree.pre]
    rw [List.take_of_length_le this, List.take_length]
  | c :: cs, p, i, k, all, h, hd => by
    have hg : all[i]? = some c := by
      have := congrArg (fun l => l[0]?) hd
      simpa using this
    have hd' : all.drop (i + 1) = cs := by rw [← List.drop_drop, hd]; rfl
    have hat : T.at? (p ++ [i]) = some c := by
      rw [Tree.at?_append, h]; simp [Tree.at?_cons, Tree.children, hg]
    have hb : blen (T.before (p ++ [i])) = blen (T.before p) + Tree.pre all i := by
      rw [Tree.before_below h, blen_append]
      simp [Tree.before, Tree.children, hg, Tree.pre]
    have h1 := tokens_tile T c (p ++ [i]) hat
    have h2 := tokens_tiles T cs p (i + 1) k all h hd'
    have hs := Tree.pre_succ hg
    simp only [Tree.len] at hs
    rw [hb, Nat.add_assoc, ← hs] at h1
    simp only [Tree.descends, Tree.all, if_true, List.filter_append, List.map_append]
    exact h1.append h2
end

/-- **C79.**  The tokens below a node, in the order of `descendants_with_tokens()`, tile its range:
every byte of the node belongs to exactly one token. -/
theorem C79_tokens {r : Root} (hcoh : r.green.Coherent) {n : SNode} (h : Reach r (.node n))
    {s : Tree} (hs : r.tree.at? n.path = some s) {k : Nat}
    (hk : (Tree.walk Tree.all noSkip s n.path).length ≤ k) :
    Tiles n.textRange.start
      (((n.descendantsWithTokens k).filterMap NodeOrToken.asToken).map SToken.textRange)
      n.textRange.stop := by
  obtain ⟨s', h1, h2, h3⟩ := SElem.span h
  simp only [SElem.path_node] at h1 h2 h3
  rw [hs] at h1
  cases h1
  have hh : (SElem.textRange (.node n)) = n.textRange := rfl
  rw [hh] at h2 h3
  have ht := tokens_tile r.tree s n.path hs
  rw [← (C14_descendants hcoh h hs k hk).1, ← h3, ← h2] at ht
  have hr := descendants_reach hcoh h k
  have key : ∀ l : List SElem, (∀ e ∈ l, Reach r e) →
      (l.filterMap NodeOrToken.asToken).map SToken.textRange
        = ((l.map SElem.path).filter (r.tree.sat fun x => !x.isNode)).map r.tree.rangeAt := by
    intro l hl
    induction l with
    | nil => rfl
    | cons e l ih =>
      have ih := ih fun x hx => hl x (List.mem_cons_of_mem _ hx)
      obtain ⟨u, g1, g2, g3⟩ := SElem.span (hl e (List.mem_cons_self ..))
      have g4 := (C11_contents (hl e (List.mem_cons_self ..))).1
      have hrg : r.tree.rangeAt e.path = e.textRange := by
        ext
        · exact g2.symm
        · simp only [Tree.rangeAt, g1, TextRange.at_]; exact g3.symm
      cases e with
      | node m =>
        have : r.tree.sat (fun x => !x.isNode) (SElem.path (.node m)) = false := by
          rw [Tree.sat, g4]
          show (!m.green.tree.isNode) = false
          rw [GNode.tree_eq]; rfl
        rw [List.map_cons, List.filter_cons, this]
        exact ih
      | token t =>
        have : r.tree.sat (fun x => !x.isNode) (SElem.path (.token t)) = true := by
          rw [Tree.sat, g4]; rfl
        rw [List.map_cons, List.filter_cons, this, if_pos rfl, List.map_cons, hrg, ← ih]
        rfl
  rw [key _ hr]
  exact ht

/-! ### A concrete tree meets the hypotheses -/

example := C79_nest synInner_reach (m := synTop) (by simp [SElem.ancestors, synInnerH, SNode.ancestors, synTop])
example := C79_laminar synInner_reach synTop_reach
example := C79_children synTop_reach
example := C79_siblings synInner_reach
example := C79_order synGreen_coherent synTop_reach rfl (k := 20) (by decide)
example := C79_tokens synGreen_coherent synTop_reach rfl (k := 20) (by decide)
example : ((synTop.descendantsWithTokens 20).filterMap NodeOrToken.asToken).map
    (fun t => (t.textRange.start, t.textRange.stop)) = [(0, 1), (1, 2), (2, 4), (4, 6)] := by decide

end Rowan
