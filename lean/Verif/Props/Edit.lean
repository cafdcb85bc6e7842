import Verif.PositionLemmas
import Verif.Props.Cursor
import Verif.Props.Walk
import Verif.Props.Builder
/-!
# C22 – C24: point substitution, copies, identity
-/
namespace Rowan

/-! ### Substitution in plain trees -/

theorem modify_congr {α : Type} {l : List α} {i : Nat} {f g : α → α} {c : α} (h : l[i]? = some c)
    (hfg : f c = g c) : l.modify i f = l.modify i g := by
  apply List.ext_getElem?
  intro j
  rw [List.getElem?_modify, List.getElem?_modify]
  by_cases hj : i = j
  · subst hj; simp [h, hfg]
  · simp [hj]

theorem Tree.set_append {t s : Tree} {q u : List Nat} (h : t.at? q = some s) (x : Tree) :
    t.set (q ++ u) x = t.set q (s.set u x) := by
  induction q generalizing t with
  | nil => simp at h; subst h; simp [Tree.set]
  | cons j q ih =>
    rw [Tree.at?_cons] at h
    cases hc : t.children[j]? with
    | none => simp [hc] at h
    | some c =>
      simp only [hc, Option.bind_some] at h
      cases t with
      | token => simp [Tree.children] at hc
      | node k cs =>
        simp only [List.cons_append, Tree.set, Tree.node.injEq, true_and]
        exact modify_congr hc (ih h)

theorem Tree.set_one (k : SyntaxKind) (cs : List Tree) (i : Nat) (x : Tree) :
    (Tree.node k cs).set [i] x = .node k (cs.set i x) := by
  simp only [Tree.set, Tree.node.injEq, true_and]
  apply List.ext_getElem?
  intro j
  rw [List.getElem?_modify, List.getElem?_set]
  by_cases hj : i = j
  · subst hj
    by_cases hlt : i < cs.length <;> simp [hlt]
  · simp [hj]

theorem Tree.texts_modify {cs : List Tree} {i : Nat} {c : Tree} (h : cs[i]? = some c)
    (f : Tree → Tree) :
    Tree.texts (cs.modify i f) = Tree.texts (cs.take i) ++ (f c).text ++ Tree.texts (cs.drop (i + 1)) := by
  obtain ⟨hlt, rfl⟩ := List.getElem?_eq_some_iff.mp h
  rw [List.modify_eq_take_cons_drop hlt]
  simp

theorem Tree.text_set {t s : Tree} {p : List Nat} (h : t.at? p = some s) (x : Tree) :
    (t.set p x).text = t.before p ++ x.text ++ t.after p := by
  induction p generalizing t with
  | nil => simp [Tree.set, Tree.before, Tree.after]
  | cons i p ih =>
    rw [Tree.at?_cons] at h
    cases hc : t.children[i]? with
    | none => simp [hc] at h
    | some c =>
      simp only [hc, Option.bind_some] at h
      cases t with
      | token => simp [Tree.children] at hc
      | node k cs =>
        simp only [Tree.children] at hc
        simp only [Tree.set, Tree.text_node, Tree.texts_modify hc, ih h, Tree.before, Tree.after,
          Tree.children, hc, List.append_assoc]

theorem Tree.at?_set_self {t s : Tree} {p : List Nat} (h : t.at? p = some s) (x : Tree)
    (u : List Nat) : (t.set p x).at? (p ++ u) = x.at? u := by
  induction p generalizing t with
  | nil => simp [Tree.set]
  | cons i p ih =>
    rw [Tree.at?_cons] at h
    cases hc : t.children[i]? with
    | none => simp [hc] at h
    | some c =>
      simp only [hc, Option.bind_some] at h
      cases t with
      | token => simp [Tree.children] at hc
      | node k cs =>
        simp only [Tree.children] at hc
        simp only [Tree.set, List.cons_append, Tree.at?_cons, Tree.children, List.getElem?_modify, hc]
        simpa using ih h

theorem Tree.at?_set_other {t : Tree} {p q : List Nat} (x : Tree) (h1 : ¬ p <+: q) (h2 : ¬ q <+: p) :
    (t.set p x).at? q = t.at? q := by
  induction p generalizing t q with
  | nil => exact absurd (List.nil_prefix) h1
  | cons i p ih =>
    cases q with
    | nil => exact absurd (List.nil_prefix) h2
    | cons j q =>
      cases t with
      | token k s => simp [Tree.set]
      | node k cs =>
        simp only [Tree.set, Tree.at?_cons, Tree.children, List.getElem?_modify]
        by_cases hij : i = j
        · subst hij
          simp only [List.cons_prefix_cons, true_and] at h1 h2
          cases cs[i]? with
          | none => rfl
          | some c => simpa using ih h1 h2
        · simp [hij]

/-! ## C22 -/

theorem GNode.replaceChild_tree (n : GNode) (a i : Nat) (x : GElem) :
    (n.replaceChild a i x).tree = n.tree.set [i] x.tree := by
  obtain ⟨h1, h2, -⟩ := C02_replace_child n a i x
  rw [GNode.tree_eq n, Tree.set_one, GNode.tree_eq, h1, h2, List.map_set]

theorem GNode.replaceChild_wf {n : GNode} (h : n.WF) (a i : Nat) {x : GElem} (hx : x.WF) :
    (n.replaceChild a i x).WF := by
  have := (GNode.wf_iff n).mp h
  refine GElem.wf_new a n.kind _ ?_
  intro e he
  obtain ⟨j, hj, rfl⟩ := List.mem_mapIdx.mp he
  split
  · exact hx
  · exact this.2 _ (List.getElem_mem _)

/-- The green element at a position below `e`, as an object (with its address). -/
def GElem.at? : GElem → List Nat → Option GElem
  | e, [] => some e
  | .token _, _ :: _ => none
  | .node n, i :: p =>
    match n.children[i]? with
    | some c => GElem.at? c p
    | none => none

theorem GElem.at?_nil (e : GElem) : e.at? [] = some e := by cases e <;> rfl
theorem GElem.at?_cons (n : GNode) (i : Nat) (p : List Nat) :
    GElem.at? (.node n) (i :: p) = (n.children[i]?).bind (GElem.at? · p) := by
  rw [GElem.at?]; cases n.children[i]? <;> rfl
theorem GElem.at?_append (e : GElem) (p q : List Nat) :
    e.at? (p ++ q) = (e.at? p).bind (GElem.at? · q) := by
  induction p generalizing e with
  | nil => simp [GElem.at?_nil]
  | cons i p ih =>
    cases e with
    | token t => rfl
    | node n =>
      simp only [List.cons_append, GElem.at?_cons]
      cases n.children[i]? <;> simp [ih]

theorem SNode.Valid.green_at {n : SNode} (h : n.Valid) :
    n.rootOf.green.at? n.path = some (.node n.green) := by
  induction n with
  | root m i g => rfl
  | child p i o g ih =>
    obtain ⟨hp, c, hc, hg, -⟩ := h
    show p.rootOf.green.at? (p.path ++ [i]) = some (.node g)
    rw [GElem.at?_append, ih hp, Option.bind_some, GElem.at?_cons, GNode.children, List.getElem?_map, hc]
    simp [hg, GElem.at?_nil]

theorem prefix_snoc_of_not {p q : List Nat} {i : Nat} (h1 : ¬ (p ++ [i]) <+: q)
    (h2 : ¬ q <+: (p ++ [i])) : (¬ p <+: q ∧ ¬ q <+: p) ∨ ∃ j v, j ≠ i ∧ q = p ++ j :: v := by
  by_cases h : p <+: q
  · right
    obtain ⟨u, rfl⟩ := h
    cases u with
    | nil => exact absurd (by simp) h2
    | cons j v =>
      refine ⟨j, v, ?_, rfl⟩
      rintro rfl
      exact h1 ⟨v, by simp⟩
  · left
    exact ⟨h, fun hq => h2 (hq.trans ⟨[i], rfl⟩)⟩

theorem SNode.replaceWith_spec {n : SNode} (hv : n.Valid) : ∀ (next : Nat) (g : GNode),
    (n.kind ≠ g.kind → n.replaceWith next g = .panic) ∧
    (n.kind = g.kind → ∃ g', n.replaceWith next g = .ok g' ∧
      g'.tree = n.rootOf.tree.set n.path g.tree ∧ (g.WF → g'.WF) ∧
      (∀ u, GElem.at? (.node g') (n.path ++ u) = GElem.at? (.node g) u) ∧
      (∀ q, ¬ n.path <+: q → ¬ q <+: n.path → GElem.at? (.node g') q = n.rootOf.green.at? q)) := by
  induction n with
  | root m i old =>
    intro next g
    refine ⟨?_, ?_⟩
    · intro h
      have : ¬ old.kind = g.kind := h
      simp [replaceWith, this]
    · intro h
      have : old.kind = g.kind := h
      refine ⟨g, by simp [replaceWith, this], by simp [path, Tree.set], id, fun u => rfl, ?_⟩
      intro q h1
      exact absurd List.nil_prefix h1
  | child p i o old ih =>
    intro next g
    obtain ⟨hp, c, hc, hg, -⟩ := hv
    refine ⟨?_, ?_⟩
    · intro h
      have : ¬ old.kind = g.kind := h
      simp [replaceWith, this]
    · intro h
      have hk : old.kind = g.kind := h
      obtain ⟨g', h1, h2, h3, h4, h5⟩ :=
        (ih hp (next + 1) (p.green.replaceChild next i (.node g))).2 rfl
      have hch := (C02_replace_child p.green next i (.node g)).2.1
      have hi : i < p.green.children.length := by
        rw [GNode.children_length]; exact (List.getElem?_eq_some_iff.mp hc).1
      refine ⟨g', by simpa [replaceWith, hk] using h1, ?_, ?_, ?_, ?_⟩
      · rw [h2, GNode.replaceChild_tree, path, ← Tree.set_append hp.at_path]; rfl
      · intro hw
        exact h3 (GNode.replaceChild_wf hp.green_wf _ _ hw)
      · intro u
        have := h4 (i :: u)
        rw [GElem.at?_cons, hch, List.getElem?_set_self hi] at this
        simpa [path] using this
      · intro q q1 q2
        rcases prefix_snoc_of_not q1 q2 with ⟨a1, a2⟩ | ⟨j, v, hj, rfl⟩
        · exact h5 q a1 a2
        · rw [h4, GElem.at?_cons, hch, List.getElem?_set_ne (Ne.symm hj)]
          show _ = p.rootOf.green.at? _
          rw [GElem.at?_append, hp.green_at, Option.bind_some, GElem.at?_cons]

/-- **C22** for nodes: panics iff the kinds differ; otherwise the result is the old tree with this
subtree substituted; its text is the old text with this node's text replaced. -/
theorem C22_replace_node {r : Root} {n : SNode} (h : Reach r (.node n)) (next : Nat) (g : GNode)
    (hg : g.WF) :
    (n.replaceWith next g = .panic ↔ n.kind ≠ g.kind) ∧
    (n.kind = g.kind → ∃ g', n.replaceWith next g = .ok g' ∧ g'.WF ∧
      g'.tree = r.tree.set n.path g.tree ∧
      g'.tree.text = r.tree.before n.path ++ g.tree.text ++ r.tree.after n.path ∧
      r.tree.text = r.tree.before n.path ++ n.green.tree.text ++ r.tree.after n.path) := by
  obtain ⟨hv, rfl⟩ := h.valid
  obtain ⟨h1, h2⟩ := SNode.replaceWith_spec hv next g
  constructor
  · constructor
    · intro hp hk
      obtain ⟨g', e, -⟩ := h2 hk
      rw [e] at hp; cases hp
    · exact h1
  · intro hk
    obtain ⟨g', e1, e2, e3, -⟩ := h2 hk
    refine ⟨g', e1, e3 hg, e2, ?_, Tree.text_split (SNode.Valid.at_path hv)⟩
    rw [e2]
    exact Tree.text_set (SNode.Valid.at_path hv) _

/-- **C22** for tokens (a token without parent, i.e. a detached one, panics as well). -/
theorem C22_replace_token {r : Root} {t : SToken} (h : Reach r (.token t)) (next : Nat)
    (g : GToken) :
    (t.replaceWith next g = .panic ↔ t.kind ≠ g.kind ∨ t.path = []) ∧
    (t.kind = g.kind → t.path ≠ [] → ∃ g', t.replaceWith next g = .ok g' ∧ g'.WF ∧
      g'.tree = r.tree.set t.path (.token g.kind g.text) ∧
      g'.tree.text = r.tree.before t.path ++ g.text ++ r.tree.after t.path ∧
      r.tree.text = r.tree.before t.path ++ t.text ++ r.tree.after t.path) := by
  have hat := (C11_contents h).2.1 t rfl
  have key : t.kind = g.kind → t.path ≠ [] → ∃ g', t.replaceWith next g = .ok g' ∧ g'.WF ∧
      g'.tree = r.tree.set t.path (.token g.kind g.text) := by
    intro hk hne
    obtain ⟨hv, rfl⟩ := h.valid
    cases t with
    | root m i old => exact absurd rfl hne
    | child p i o old =>
      obtain ⟨hp, c, hc, hg, -⟩ := hv
      obtain ⟨g', h1, h2, h3, -⟩ := (SNode.replaceWith_spec hp (next + 1)
        (p.green.replaceChild next i (.token g))).2 rfl
      refine ⟨g', ?_, h3 (GNode.replaceChild_wf hp.green_wf _ _ trivial), ?_⟩
      · rw [SToken.replaceWith, if_pos (by simpa using hk)]
        exact h1
      · rw [h2, GNode.replaceChild_tree, ← Tree.set_append hp.at_path]; rfl
  constructor
  · constructor
    · intro hp
      by_cases hk : t.kind = g.kind
      · right
        apply Decidable.byContradiction
        intro hne
        obtain ⟨g', e, -⟩ := key hk hne
        rw [e] at hp; cases hp
      · exact .inl hk
    · intro hor
      rw [SToken.replaceWith]
      by_cases hk : t.kind = g.kind
      · rw [if_pos (by simpa using hk)]
        cases t with
        | root m i old => rfl
        | child p i o old =>
          rcases hor with hor | hor
          · exact absurd hk hor
          · simp [SToken.path] at hor
      · rw [if_neg (by simpa using hk)]
  · intro hk hne
    obtain ⟨g', e1, e2, e3⟩ := key hk hne
    refine ⟨g', e1, e2, e3, ?_, ?_⟩
    · rw [e3]
      simpa using Tree.text_set hat (.token g.kind g.text)
    · simpa using Tree.text_split hat

/-- **C22**, what a substitution is: at and below the position the new subtree is found, positions
that are neither above nor below it are untouched. -/
theorem C22_substitution_meaning (t s x : Tree) (p : List Nat) (h : t.at? p = some s) :
    (∀ u, (t.set p x).at? (p ++ u) = x.at? u) ∧
    (∀ q, ¬ p <+: q → ¬ q <+: p → (t.set p x).at? q = t.at? q) :=
  ⟨Tree.at?_set_self h x, fun _ => Tree.at?_set_other x⟩

/-- **C22**, sharing: outside the path to the replaced node the new tree consists of the very same
green objects as the old one (same addresses), and the replacement itself is used as is. -/
theorem C22_sharing {r : Root} {n : SNode} (h : Reach r (.node n)) (next : Nat) (g g' : GNode)
    (hok : n.replaceWith next g = .ok g') :
    (∀ u, GElem.at? (.node g') (n.path ++ u) = GElem.at? (.node g) u) ∧
    (∀ q, ¬ n.path <+: q → ¬ q <+: n.path → GElem.at? (.node g') q = r.green.at? q) := by
  obtain ⟨hv, rfl⟩ := h.valid
  obtain ⟨h1, h2⟩ := SNode.replaceWith_spec hv next g
  by_cases hk : n.kind = g.kind
  · obtain ⟨g'', e, -, -, a, b⟩ := h2 hk
    rw [hok] at e; cases e
    exact ⟨a, b⟩
  · rw [h1 hk] at hok; cases hok

example : ∃ g', synInnerH.replaceWith 20 (GNode.new 19 3 [exTok 11 2 "x"]) = .ok g' ∧
    g'.tree.text = "axbc".toList ∧ g'.tree ≠ synGreen.tree := ⟨_, rfl, by decide, by decide⟩
example : synInnerH.replaceWith 20 (GNode.new 19 4 []) = .panic := rfl

/-! ## C23 -/

/-- **C23** `clone_subtree`: a new immutable root at offset 0 with the identical subtree, for
handles into mutable and immutable trees alike. -/
theorem C23_clone_subtree {r : Root} {n : SNode} (h : Reach r (.node n)) :
    n.cloneSubtree.parent = none ∧ n.cloneSubtree.mutable = false ∧
    n.cloneSubtree.textRange.start = 0 ∧ n.cloneSubtree.textRange.len = n.textRange.len ∧
    ∃ r', Reach r' (.node n.cloneSubtree) ∧ r.tree.at? n.path = some r'.tree ∧
      r'.green = .node n.green := by
  obtain ⟨hv, rfl⟩ := h.valid
  refine ⟨rfl, rfl, rfl, by simp [SNode.textRange, SNode.cloneSubtree, SNode.newRoot, SNode.green],
    ⟨false, 0, .node n.green⟩, Reach.top (SNode.Valid.green_wf hv), SNode.Valid.at_path hv, rfl⟩

theorem SNode.cloneForUpdate_spec {n : SNode} (hv : n.Valid) (hm : n.mutable = false) :
    ∃ m, n.cloneForUpdate = .ok m ∧ m.Valid ∧ m.rootOf = ⟨true, 0, n.rootOf.green⟩ ∧
      m.path = n.path ∧ m.green = n.green := by
  induction n with
  | root mu i g =>
    have : mu = false := hm
    subst this
    exact ⟨_, rfl, hv, rfl, rfl, rfl⟩
  | child p i o g ih =>
    obtain ⟨hp, c, hc, hg, ho⟩ := hv
    obtain ⟨m, h1, h2, h3, h4, h5⟩ := ih hp hm
    have hmu : (child p i o g).mutable = false := hm
    refine ⟨.child m i (child p i o g).offset g, ?_, ⟨h2, c, by rw [h5]; exact hc, hg, ?_⟩, h3, ?_, rfl⟩
    · rw [cloneForUpdate, hmu, h1]; rfl
    · rw [h2.offset_eq, h3, h4]
      rw [offset, hmu]
      simp only [Bool.false_eq_true, if_false]
      rw [ho, hp.offset_eq]; rfl
    · rw [path, path, h4]

/-- **C23** `clone_for_update`: panics on a mutable tree; otherwise returns a handle at the same
position of a new mutable tree over the same green tree, with the same kind and range. -/
theorem C23_clone_for_update {r : Root} {n : SNode} (h : Reach r (.node n)) :
    (r.mutable = true → n.cloneForUpdate = .panic) ∧
    (r.mutable = false → ∃ m, n.cloneForUpdate = .ok m ∧ Reach ⟨true, 0, r.green⟩ (.node m) ∧
      m.path = n.path ∧ m.green = n.green ∧ m.kind = n.kind ∧ m.textRange = n.textRange) := by
  have hmut := (C11_contents h).2.2
  obtain ⟨hv, hr⟩ := h.valid
  constructor
  · intro hm
    have : n.mutable = true := hmut.trans hm
    cases n with
    | root m i g => rw [SNode.cloneForUpdate, this]; rfl
    | child p i o g => rw [SNode.cloneForUpdate, this]; rfl
  · intro hm
    obtain ⟨m, h1, h2, h3, h4, h5⟩ := SNode.cloneForUpdate_spec hv (hmut.trans hm)
    have hr' : n.rootOf = r := hr
    rw [hr'] at h3
    refine ⟨m, h1, reach_iff.mpr ⟨h2, h3⟩, h4, h5, by rw [SNode.kind, SNode.kind, h5], ?_⟩
    rw [SNode.textRange, SNode.textRange, h5, h2.offset_eq, SNode.Valid.offset_eq hv, h3, h4, hr']
    rfl

example : ∃ m, synInnerH.cloneForUpdate = .ok m ∧ m.mutable = true ∧ m.path = [1] ∧
    m.textRange = synInnerH.textRange := ⟨_, rfl, rfl, rfl, by decide⟩
example : synInnerH.cloneSubtree.textRange = ⟨0, 3, by decide⟩ := by decide

/-! ## C24 -/

theorem Tree.pre_blen (cs : List Tree) (i : Nat) : blen (Tree.texts (cs.take i)) = Tree.pre cs i := rfl

theorem Tree.before_le {t s : Tree} {p : List Nat} (h : t.at? p = some s) :
    blen (t.before p) + blen s.text ≤ blen t.text := by
  rw [Tree.text_split h]; simp

/-- Elements at unrelated positions have disjoint ranges. -/
theorem Tree.disjoint {t s u : Tree} {p q : List Nat} (hp : t.at? p = some s) (hq : t.at? q = some u)
    (h1 : ¬ p <+: q) (h2 : ¬ q <+: p) :
    blen (t.before p) + blen s.text ≤ blen (t.before q) ∨
    blen (t.before q) + blen u.text ≤ blen (t.before p) := by
  have key : ∀ (t s u : Tree) (i j : Nat) (p q : List Nat), i < j → t.at? (i :: p) = some s →
      t.at? (j :: q) = some u →
      blen (t.before (i :: p)) + blen s.text ≤ blen (t.before (j :: q)) := by
    intro t s u i j p q hij hp _
    rw [Tree.at?_cons] at hp
    cases hc : t.children[i]? with
    | none => simp [hc] at hp
    | some c =>
      simp only [hc, Option.bind_some] at hp
      have hle := Tree.before_le hp
      have hs := Tree.pre_succ hc
      have hmono := Tree.pre_mono t.children (show i + 1 ≤ j by omega)
      simp only [Tree.len] at hs
      simp only [Tree.before, hc, blen_append, Tree.pre_blen]
      omega
  induction p generalizing t q with
  | nil => exact absurd List.nil_prefix h1
  | cons i p ih =>
    cases q with
    | nil => exact absurd List.nil_prefix h2
    | cons j q =>
      rcases Nat.lt_trichotomy i j with hij | rfl | hij
      · exact .inl (key t s u i j p q hij hp hq)
      · simp only [List.cons_prefix_cons, true_and] at h1 h2
        rw [Tree.at?_cons] at hp hq
        cases hc : t.children[i]? with
        | none => simp [hc] at hp
        | some c =>
          simp only [hc, Option.bind_some] at hp hq
          simp only [Tree.before, hc, blen_append]
          rcases ih hp hq h1 h2 with h | h
          · exact .inl (by omega)
          · exact .inr (by omega)
      · exact .inr (key t u s j i q p hij hq hp)

theorem Tree.sizeOf_at {t s : Tree} {p : List Nat} (h : t.at? p = some s) (hne : p ≠ []) :
    sizeOf s < sizeOf t := by
  induction p generalizing t with
  | nil => exact absurd rfl hne
  | cons i p ih =>
    rw [Tree.at?_cons] at h
    cases hc : t.children[i]? with
    | none => simp [hc] at h
    | some c =>
      simp only [hc, Option.bind_some] at h
      have hlt : sizeOf c < sizeOf t := by
        cases t with
        | token => simp [Tree.children] at hc
        | node k cs =>
          have := List.sizeOf_lt_of_mem (List.mem_of_getElem? hc)
          simp only [Tree.children] at this
          simp; omega
      cases p with
      | nil => simp at h; rw [← h]; exact hlt
      | cons j p => exact Nat.lt_trans (ih h (by simp)) hlt

/-- **C24.**  In one tree (in which an address holds one object), handles to elements with text are
equal iff they denote the same position. -/
theorem C24_identity {r : Root} (hcoh : r.green.Coherent) {a b : SElem} (ha : Reach r a)
    (hb : Reach r b) {s : Tree} (hs : r.tree.at? a.path = some s) (hne : s.text ≠ []) :
    a.eq b = true ↔ a.path = b.path := by
  obtain ⟨va, ra⟩ := ha.valid
  obtain ⟨vb, rb⟩ := hb.valid
  constructor
  · intro h
    obtain ⟨h1, h2⟩ := SElem.eq_green hcoh va vb ra rb h
    have ata := (C11_contents ha).1
    have atb := (C11_contents hb).1
    rw [va.offset_eq, vb.offset_eq, ra, rb] at h2
    rw [hs, Option.some.injEq] at ata
    rw [← h1, ← ata] at atb
    have hpos : 0 < blen s.text := by
      rcases Nat.eq_zero_or_pos (blen s.text) with h0 | h0
      · exact absurd (blen_eq_zero.mp h0) hne
      · exact h0
    by_cases p1 : a.path <+: b.path
    · obtain ⟨u, hu⟩ := p1
      cases u with
      | nil => simpa using hu
      | cons i u =>
        exfalso
        rw [← hu, Tree.at?_append, hs, Option.bind_some] at atb
        have := Tree.sizeOf_at atb (by simp)
        omega
    · by_cases p2 : b.path <+: a.path
      · obtain ⟨u, hu⟩ := p2
        cases u with
        | nil => simpa using hu.symm
        | cons i u =>
          exfalso
          rw [← hu, Tree.at?_append, atb, Option.bind_some] at hs
          have := Tree.sizeOf_at hs (by simp)
          omega
      · exfalso
        rcases Tree.disjoint hs atb p1 p2 with h | h <;> omega
  · intro h
    have : a = b := va.unique vb (by rw [ra, rb]) h
    subst this
    cases a <;> simp [SElem.eq, SNode.eq, SToken.eq]

/-- **C24.**  Equality of handles (into any trees) is an equivalence, and equal handles have the same
hash key. -/
theorem C24_equivalence (a b c : SElem) :
    a.eq a = true ∧ (a.eq b = b.eq a) ∧ (a.eq b = true → b.eq c = true → a.eq c = true) ∧
    (a.eq b = true → a.key = b.key) := by
  have h : ∀ x y : SElem, x.eq y = (decide (x.asNode.isSome = y.asNode.isSome) && x.key == y.key) := by
    intro x y
    cases x <;> cases y <;> simp [SElem.eq, SNode.eq, SToken.eq, SNode.key, SToken.key]
  refine ⟨by simp [h], ?_, ?_, ?_⟩
  · rw [h, h, Bool.eq_iff_iff]
    simp only [Bool.and_eq_true, decide_eq_true_eq, beq_iff_eq]
    exact ⟨fun ⟨x, y⟩ => ⟨x.symm, y.symm⟩, fun ⟨x, y⟩ => ⟨x.symm, y.symm⟩⟩
  · simp only [h, Bool.and_eq_true, decide_eq_true_eq, beq_iff_eq]
    rintro ⟨a1, a2⟩ ⟨b1, b2⟩
    exact ⟨a1.trans b1, a2.trans b2⟩
  · simp only [h, Bool.and_eq_true, beq_iff_eq]
    exact fun h => h.2

/-- **C24**, the case left out above: two empty siblings made of one interned green node are equal
handles at different positions. -/
theorem C24_empty_counterexample :
    ∃ (r : Root) (a b : SElem), r.green.Coherent ∧ Reach r a ∧ Reach r b ∧ a.eq b = true ∧
      a.path ≠ b.path := by
  let g : GNode := GNode.new 9 1 [.node synEmpty, .node synEmpty]
  have hw : GElem.WF (.node g) := by
    refine GElem.wf_new _ _ _ ?_
    intro e he
    simp only [List.mem_cons, List.not_mem_nil, or_false] at he
    rcases he with rfl | rfl <;> exact GElem.wf_new _ _ _ (by simp)
  refine ⟨⟨false, 0, .node g⟩, .node (.child (.root false 0 g) 0 0 synEmpty),
    .node (.child (.root false 0 g) 1 0 synEmpty), ?_, ?_, ?_, by decide, by decide⟩
  · intro a ha b hb hab
    simp only [GElem.subs, GNode.subs, g, synEmpty, GNode.new, GNode.layout, GChild.subss,
      GChild.subs, GChild.ofElem, List.mem_cons, List.mem_append, List.not_mem_nil, or_false,
      List.append_nil] at ha hb
    rcases ha with rfl | rfl | rfl <;> rcases hb with rfl | rfl | rfl <;>
      first | rfl | (exfalso; revert hab; decide)
  · exact Reach.firstChild (Reach.top hw) rfl
  · exact Reach.lastChild (Reach.top hw) rfl

/-- The assumption "an address holds one object" is met by every tree a builder returns, in every
run of the program. -/
theorem C24_builder_trees_coherent (env : HashEnv) (cacheOf : Nat → Nat) (l : List (WOp × BOut))
    (w : World) (h : Run env cacheOf {} l w) (e : GElem) (he : e ∈ w.held) : e.Coherent := by
  have hinv := h.inv (worldInv_init env cacheOf)
  intro x hx y hy hxy
  exact hinv.coherent x y ⟨e, .held e he, hx⟩ ⟨e, .held e he, hy⟩ hxy

/-- The first `"a"` and the inner `"a"` are one green token; the handles differ. -/
example : synRoot.green.Coherent ∧ Reach synRoot (.token (.child synTop 0 0 ⟨0, 2, "a".toList⟩)) ∧
    Reach synRoot (.token (.child synInnerH 1 1 ⟨0, 2, "a".toList⟩)) ∧
    SElem.eq (.token (.child synTop 0 0 ⟨0, 2, "a".toList⟩))
      (.token (.child synInnerH 1 1 ⟨0, 2, "a".toList⟩)) = false :=
  ⟨synGreen_coherent, Reach.firstChildOrToken synTop_reach rfl,
    Reach.prevSiblingOrToken synTok_reach rfl, rfl⟩

end Rowan
