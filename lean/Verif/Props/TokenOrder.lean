import Verif.PositionLemmas
import Verif.Props.Cursor
import Verif.Props.Walk
/-!
# C20, C21: first, last, next and previous token
-/
namespace Rowan

/-! ### Trees in which every node has a child -/

theorem Tree.fulls_mem {cs : List Tree} (h : Tree.Fulls cs) : ∀ c ∈ cs, c.Full := by
  induction cs with
  | nil => simp
  | cons d cs ih =>
    simp only [Tree.Fulls] at h
    intro c hc
    rcases List.mem_cons.mp hc with rfl | hc
    · exact h.1
    · exact ih h.2 c hc

theorem Tree.Full.children {t : Tree} (h : t.Full) : ∀ c ∈ t.children, c.Full := by
  cases t with
  | token => simp [Tree.children]
  | node k cs => exact Tree.fulls_mem h.2

theorem Tree.Full.at {t : Tree} (h : t.Full) : ∀ {p : List Nat} {s : Tree}, t.at? p = some s → s.Full := by
  intro p
  induction p generalizing t with
  | nil => intro s hs; simp at hs; exact hs ▸ h
  | cons i p ih =>
    intro s hs
    rw [Tree.at?_cons] at hs
    cases hc : t.children[i]? with
    | none => simp [hc] at hs
    | some c =>
      simp only [hc, Option.bind_some] at hs
      exact ih (h.children c (List.mem_of_getElem? hc)) hs

theorem Tree.kids_at {t : Tree} {p q : List Nat} (h : q ∈ t.kids p) :
    ∃ c, t.at? q = some c := by
  cases hs : t.at? p with
  | none => simp [Tree.kids, hs] at h
  | some s =>
    obtain ⟨j, hj, rfl⟩ := (Tree.mem_kids hs).mp h
    exact ⟨_, by rw [Tree.at?_kid hs, List.getElem?_eq_getElem hj]⟩

theorem Tree.Full.kids_ne {t s : Tree} {p : List Nat} (hs : t.at? p = some s) (hf : s.Full)
    (hn : s.isNode = true) : t.kids p ≠ [] := by
  cases s with
  | token => simp [Tree.isNode] at hn
  | node k cs =>
    rw [Tree.kids_eq hs]
    intro hk
    have : cs.length = 0 := by simpa [Tree.children] using hk
    exact hf.1 (List.length_eq_zero_iff.mp this)

theorem Tree.Full.toks_ne {t : Tree} : ∀ (s : Tree) (p : List Nat), t.at? p = some s → s.Full →
    t.toks p ≠ [] := by
  intro s
  induction s using Tree.ind with
  | tok k x => intro p h _; rw [Tree.toks_token h]; simp
  | nd k cs ih =>
    intro p h hf
    rw [Tree.toks_node h rfl]
    have hne := hf.kids_ne h rfl
    cases hk : t.kids p with
    | nil => exact absurd hk hne
    | cons q qs =>
      have hq : q ∈ t.kids p := by rw [hk]; simp
      obtain ⟨j, hj, rfl⟩ := (Tree.mem_kids h).mp hq
      have hc : t.at? (p ++ [j]) = some (cs[j]'hj) := by
        rw [Tree.at?_kid h]; exact List.getElem?_eq_getElem hj
      have := ih _ (List.getElem_mem hj) _ hc (hf.children _ (List.getElem_mem hj))
      intro hnil
      simp at hnil
      exact this hnil.1

theorem head?_append_ne {α : Type} {a b : List α} (h : a ≠ []) : (a ++ b).head? = a.head? := by
  cases a with
  | nil => exact absurd rfl h
  | cons x a => rfl

theorem getLast?_append_ne {α : Type} {a b : List α} (h : b ≠ []) :
    (a ++ b).getLast? = b.getLast? := by
  rw [List.getLast?_append]
  cases hb : b.getLast? with
  | none => exact absurd (List.getLast?_eq_none_iff.mp hb) h
  | some x => rfl

theorem Tree.rightmosts_snoc (cs : List Tree) (c : Tree) (p : List Nat) (i : Nat) :
    Tree.rightmosts (cs ++ [c]) p i = c.rightmost (p ++ [i + cs.length]) := by
  induction cs generalizing i with
  | nil => simp [Tree.rightmosts]
  | cons d cs ih =>
    have e : ∃ y ys, cs ++ [c] = y :: ys := by cases cs <;> simp
    obtain ⟨y, ys, hy⟩ := e
    rw [List.cons_append, hy, Tree.rightmosts, ← hy, ih, List.length_cons]
    congr 3; omega

/-! ## C20 -/

theorem GElem.subs_pos (g : GElem) : ∃ k, g.subs.length = k + 1 :=
  ⟨_, (Nat.sub_add_cancel (List.length_pos_of_mem g.self_mem_subs)).symm⟩

theorem firstTokenLoop_spec {r : Root} : ∀ (k : Nat) (e : SElem), Reach r e →
    e.green.subs.length ≤ k → ∃ o, firstTokenLoop k e = .ok o ∧
      PointsTo r (o.map .token) (e.green.tree.leftmost e.path) ∧
      (e.green.tree.Full → e.green.tree.leftmost e.path = (r.tree.toks e.path).head?) := by
  intro k
  induction k with
  | zero =>
    intro e _ hk
    obtain ⟨m, hm⟩ := e.green.subs_pos
    omega
  | succ k ih =>
    intro e he hk
    have hat := (C11_contents he).1
    cases e with
    | token t =>
      have hat' := (C11_contents he).2.1 t rfl
      refine ⟨some t, rfl, ⟨?_, ?_⟩, ?_⟩
      · rw [hat', Option.some.injEq] at hat
        rw [← hat]; rfl
      · intro x hx; simp at hx; subst hx; exact he
      · intro _
        rw [Tree.toks_token hat']
        rw [hat', Option.some.injEq] at hat
        rw [← hat]; rfl
    | node n =>
      have hp := (C12_children he (fun _ => true)).2.2.1
      have hkid : ∀ c, n.firstChildOrToken = some c → c ∈ n.kids := by
        intro c hc; rw [SNode.firstChildOrToken_eq] at hc; exact List.mem_of_head? hc
      rw [firstTokenLoop]
      have hnode : (SElem.green (.node n)).tree.isNode = true := by simp
      rw [SElem.path_node] at hat ⊢
      generalize hs : (SElem.green (.node n)).tree = s at hat hnode
      cases s with
      | token => simp [Tree.isNode] at hnode
      | node kd cs =>
      have hkids := Tree.kids_eq hat
      cases hc : n.firstChildOrToken with
      | none =>
        rw [hc] at hp
        have hn := hp.1
        cases cs with
        | cons c cs => rw [hkids] at hn; simp [Tree.children, List.range_succ_eq_map] at hn
        | nil => exact ⟨none, rfl, pointsTo_none, fun hf => absurd rfl hf.1⟩
      | some c =>
        rw [hc] at hp
        have hcr := hp.2 c rfl
        have hlt := SNode.subs_kid_lt (hkid c hc)
        have hlen : (SElem.green (.node n)).subs.length = (GNode.subs n.green).length := rfl
        obtain ⟨o, h1, h2, h3⟩ := ih c hcr (by omega)
        have hn := hp.1
        rw [hkids] at hn
        cases cs with
        | nil => simp [Tree.children] at hn
        | cons c0 cs =>
          simp only [Tree.children, List.length_cons, List.range_succ_eq_map, List.map_cons,
            List.head?_cons, Option.map_some, Option.some.injEq] at hn
          have hct : c.green.tree = c0 := by
            have := (C11_contents hcr).1
            rw [hn, Tree.at?_kid hat] at this
            simpa [Tree.children] using this.symm
          rw [hct, hn] at h2 h3
          refine ⟨o, h1, h2, ?_⟩
          intro hf
          have hf0 : c0.Full := hf.children c0 (by simp [Tree.children])
          have hcat : r.tree.at? (n.path ++ [0]) = some c0 := by
            rw [Tree.at?_kid hat]; rfl
          rw [Tree.toks_node hat rfl, hkids]
          simp only [Tree.children, List.length_cons, List.range_succ_eq_map, List.map_cons,
            List.flatMap_cons, Tree.leftmost, Tree.leftmosts]
          rw [head?_append_ne (Tree.Full.toks_ne c0 _ hcat hf0), ← h3 hf0]

theorem lastTokenLoop_spec {r : Root} : ∀ (k : Nat) (e : SElem), Reach r e →
    e.green.subs.length ≤ k → ∃ o, lastTokenLoop k e = .ok o ∧
      PointsTo r (o.map .token) (e.green.tree.rightmost e.path) ∧
      (e.green.tree.Full → e.green.tree.rightmost e.path = (r.tree.toks e.path).getLast?) := by
  intro k
  induction k with
  | zero =>
    intro e _ hk
    obtain ⟨m, hm⟩ := e.green.subs_pos
    omega
  | succ k ih =>
    intro e he hk
    have hat := (C11_contents he).1
    cases e with
    | token t =>
      have hat' := (C11_contents he).2.1 t rfl
      refine ⟨some t, rfl, ⟨?_, ?_⟩, ?_⟩
      · rw [hat', Option.some.injEq] at hat
        rw [← hat]; rfl
      · intro x hx; simp at hx; subst hx; exact he
      · intro _
        rw [Tree.toks_token hat']
        rw [hat', Option.some.injEq] at hat
        rw [← hat]; rfl
    | node n =>
      have hp := (C12_children he (fun _ => true)).2.2.2.1
      have hkid : ∀ c, n.lastChildOrToken = some c → c ∈ n.kids := by
        intro c hc; rw [SNode.lastChildOrToken_eq] at hc; exact List.mem_of_getLast? hc
      rw [lastTokenLoop]
      have hnode : (SElem.green (.node n)).tree.isNode = true := by simp
      rw [SElem.path_node] at hat ⊢
      generalize hs : (SElem.green (.node n)).tree = s at hat hnode
      cases s with
      | token => simp [Tree.isNode] at hnode
      | node kd cs =>
      have hkids := Tree.kids_eq hat
      have hcs : cs = [] ∨ ∃ ds d, cs = ds ++ [d] := by
        rcases List.eq_nil_or_concat cs with h | ⟨ds, d, h⟩
        · exact .inl h
        · exact .inr ⟨ds, d, by simpa using h⟩
      cases hc : n.lastChildOrToken with
      | none =>
        rw [hc] at hp
        have hn := hp.1
        rcases hcs with rfl | ⟨ds, d, rfl⟩
        · exact ⟨none, rfl, pointsTo_none, fun hf => absurd rfl hf.1⟩
        · rw [hkids] at hn; simp [Tree.children, List.range_succ] at hn
      | some c =>
        rw [hc] at hp
        have hcr := hp.2 c rfl
        have hlt := SNode.subs_kid_lt (hkid c hc)
        have hlen : (SElem.green (.node n)).subs.length = (GNode.subs n.green).length := rfl
        obtain ⟨o, h1, h2, h3⟩ := ih c hcr (by omega)
        have hn := hp.1
        rw [hkids] at hn
        rcases hcs with rfl | ⟨ds, d, rfl⟩
        · simp [Tree.children] at hn
        · simp only [Tree.children, List.length_append, List.length_cons, List.length_nil,
            Nat.zero_add, List.range_succ, List.map_append, List.map_cons, List.map_nil,
            List.getLast?_concat, Option.map_some, Option.some.injEq] at hn
          have hcat : r.tree.at? (n.path ++ [ds.length]) = some d := by
            rw [Tree.at?_kid hat]; simp [Tree.children]
          have hct : c.green.tree = d := by
            have := (C11_contents hcr).1
            rw [hn, hcat] at this
            simpa using this.symm
          rw [hct, hn] at h2 h3
          have hr : (Tree.node kd (ds ++ [d])).rightmost n.path
              = d.rightmost (n.path ++ [ds.length]) := by
            rw [Tree.rightmost, Tree.rightmosts_snoc, Nat.zero_add]
          refine ⟨o, h1, by rw [hr]; exact h2, ?_⟩
          intro hf
          have hf0 : d.Full := hf.children d (by simp [Tree.children])
          rw [Tree.toks_node hat rfl, hkids, hr]
          simp only [Tree.children, List.length_append, List.length_cons, List.length_nil,
            Nat.zero_add, List.range_succ, List.map_append, List.map_cons, List.map_nil,
            List.flatMap_append, List.flatMap_cons, List.flatMap_nil, List.append_nil]
          rw [getLast?_append_ne (Tree.Full.toks_ne d _ hcat hf0), ← h3 hf0]

/-- **C20, exact behaviour.**  `first_token` follows first children down, `last_token` last children;
both stop with `None` at a node without children. -/
theorem C20_exact_partial {r : Root} {e : SElem} (h : Reach r e) {s : Tree}
    (hs : r.tree.at? e.path = some s) :
    (∃ o, e.firstToken = .ok o ∧ PointsTo r (o.map .token) (s.leftmost e.path)) ∧
    (∃ o, e.lastToken = .ok o ∧ PointsTo r (o.map .token) (s.rightmost e.path)) := by
  have hat := (C11_contents h).1
  rw [hs, Option.some.injEq] at hat
  subst hat
  obtain ⟨o, h1, h2, -⟩ := firstTokenLoop_spec _ e h (Nat.le_refl _)
  obtain ⟨o', h1', h2', -⟩ := lastTokenLoop_spec _ e h (Nat.le_refl _)
  exact ⟨⟨o, h1, h2⟩, ⟨o', h1', h2'⟩⟩

/-- **C20, exact behaviour**, the methods of nodes. -/
theorem C20_node_exact_partial {r : Root} {n : SNode} (h : Reach r (.node n)) {s : Tree}
    (hs : r.tree.at? n.path = some s) :
    (∃ o, n.firstToken = .ok o ∧ PointsTo r (o.map .token) (s.leftmost n.path)) ∧
    (∃ o, n.lastToken = .ok o ∧ PointsTo r (o.map .token) (s.rightmost n.path)) :=
  C20_exact_partial h hs

/-- **C20** for subtrees in which every node has a child: the first and last token of the subtree. -/
theorem C20_first_last_partial {r : Root} {e : SElem} (h : Reach r e) {s : Tree}
    (hs : r.tree.at? e.path = some s) (hf : s.Full) :
    (∃ o, e.firstToken = .ok o ∧ PointsTo r (o.map .token) (s.tokenPaths e.path).head?) ∧
    (∃ o, e.lastToken = .ok o ∧ PointsTo r (o.map .token) (s.tokenPaths e.path).getLast?) := by
  have hat := (C11_contents h).1
  rw [hs, Option.some.injEq] at hat
  subst hat
  obtain ⟨o, h1, h2, h3⟩ := firstTokenLoop_spec _ e h (Nat.le_refl _)
  obtain ⟨o', h1', h2', h3'⟩ := lastTokenLoop_spec _ e h (Nat.le_refl _)
  rw [← Tree.toks_eq hs]
  exact ⟨⟨o, h1, by rw [← h3 hf]; exact h2⟩, ⟨o', h1', by rw [← h3' hf]; exact h2'⟩⟩

theorem Tree.leftmost_sound : ∀ (s : Tree) (p q : List Nat), s.leftmost p = some q →
    (s.tokenPaths p).head? = some q := by
  intro s
  induction s using Tree.ind with
  | tok k x => intro p q h; exact h
  | nd k cs ih =>
    intro p q h
    cases cs with
    | nil => simp [Tree.leftmost, Tree.leftmosts] at h
    | cons c cs =>
      rw [Tree.leftmost, Tree.leftmosts] at h
      have := ih c (by simp) _ _ h
      rw [Tree.tokenPaths, Tree.tokenPathss, head?_append_ne, this]
      intro hn; rw [hn] at this; simp at this

theorem Tree.tokenPathss_snoc (cs : List Tree) (c : Tree) (p : List Nat) (i : Nat) :
    Tree.tokenPathss (cs ++ [c]) p i
      = Tree.tokenPathss cs p i ++ c.tokenPaths (p ++ [i + cs.length]) := by
  induction cs generalizing i with
  | nil => simp [Tree.tokenPathss]
  | cons d cs ih =>
    simp only [List.cons_append, Tree.tokenPathss, ih, List.append_assoc, List.length_cons]
    congr 5; omega

theorem Tree.rightmost_sound : ∀ (s : Tree) (p q : List Nat), s.rightmost p = some q →
    (s.tokenPaths p).getLast? = some q := by
  intro s
  induction s using Tree.ind with
  | tok k x => intro p q h; exact h
  | nd k cs ih =>
    intro p q h
    rcases List.eq_nil_or_concat cs with rfl | ⟨ds, d, rfl⟩
    · simp [Tree.rightmost, Tree.rightmosts] at h
    · simp only [List.concat_eq_append] at h ih ⊢
      rw [Tree.rightmost, Tree.rightmosts_snoc] at h
      have := ih d (by simp) _ _ h
      rw [Tree.tokenPaths, Tree.tokenPathss_snoc, getLast?_append_ne, this]
      intro hn; rw [hn] at this; simp at this

/-- **C20** for arbitrary trees: a returned token is the first (last) token of the subtree. -/
theorem C20_sound_partial {r : Root} {e : SElem} (h : Reach r e) {s : Tree}
    (hs : r.tree.at? e.path = some s) (t : SToken) :
    (e.firstToken = .ok (some t) → Reach r (.token t) ∧
      (s.tokenPaths e.path).head? = some t.path) ∧
    (e.lastToken = .ok (some t) → Reach r (.token t) ∧
      (s.tokenPaths e.path).getLast? = some t.path) := by
  obtain ⟨⟨o, h1, h2⟩, ⟨o', h1', h2'⟩⟩ := C20_exact_partial h hs
  constructor
  · intro he
    rw [h1] at he
    cases he
    exact ⟨h2.2 _ rfl, Tree.leftmost_sound _ _ _ h2.1.symm⟩
  · intro he
    rw [h1'] at he
    cases he
    exact ⟨h2'.2 _ rfl, Tree.rightmost_sound _ _ _ h2'.1.symm⟩

/-- The property without the side condition is false of the code: a node that contains tokens but
whose first child is a childless node has no `first_token`. -/
theorem C20_counterexample :
    ∃ (r : Root) (n : SNode) (s : Tree), Reach r (.node n) ∧ r.tree.at? n.path = some s ∧
      n.firstToken = .ok none ∧ (s.tokenPaths n.path).head? = some [1, 1] :=
  ⟨synRoot, synInnerH, _, synInner_reach, rfl, rfl, by decide⟩

/-- A tree in which every node has a child: `1("a", 3("a", "b"))`. -/
def fullInner : GNode := GNode.new 3 3 [exTok 0 2 "a", exTok 1 2 "b"]
def fullGreen : GNode := GNode.new 2 1 [exTok 0 2 "a", .node fullInner]
def fullRoot : Root := ⟨false, 0, .node fullGreen⟩
def fullTop : SNode := .root false 0 fullGreen

theorem fullTop_reach : Reach fullRoot (.node fullTop) := by
  refine Reach.top (Made.wf (.node _ _ _ ?_))
  intro e he
  simp only [List.mem_cons, List.not_mem_nil, or_false] at he
  rcases he with rfl | rfl
  · exact .token ..
  · refine .node _ _ _ ?_
    intro e he
    simp only [List.mem_cons, List.not_mem_nil, or_false] at he
    rcases he with rfl | rfl <;> exact .token ..

theorem fullRoot_full : fullRoot.tree.Full :=
  ⟨List.cons_ne_nil _ _, trivial, ⟨List.cons_ne_nil _ _, trivial, trivial, trivial⟩, trivial⟩

/-- The side condition holds of this tree. -/
example : Reach fullRoot (.node fullTop) ∧ fullRoot.tree.at? fullTop.path = some fullRoot.tree ∧
    fullRoot.tree.Full ∧ (fullRoot.tree.tokenPaths []).head? = some [0] ∧
    (fullRoot.tree.tokenPaths []).getLast? = some [1, 1] ∧
    (∃ t, fullTop.lastToken = .ok (some t) ∧ t.path = [1, 1]) :=
  ⟨fullTop_reach, rfl, fullRoot_full, by decide, by decide, _, rfl, rfl⟩

/-! ## C21 -/

/-- The tokens after position `p`, in order. -/
def Tree.toksAfter (t : Tree) (p : List Nat) : List (List Nat) :=
  (Tree.upward p).flatMap fun q => (t.later q).flatMap t.toks
/-- The tokens before position `p`, nearest first. -/
def Tree.toksBefore (t : Tree) (p : List Nat) : List (List Nat) :=
  (Tree.upward p).flatMap fun q => (t.earlier q).flatMap fun x => (t.toks x).reverse

theorem reverse_flatMap_reverse {α β : Type} (l : List α) (f : α → List β) :
    (l.reverse.flatMap fun x => (f x).reverse).reverse = l.flatMap f := by
  induction l with
  | nil => rfl
  | cons a l ih => simp [List.flatMap_append, ih]

theorem Tree.toks_split {t : Tree} : ∀ (p : List Nat) (s : Tree), t.at? p = some s →
    t.toks [] = (t.toksBefore p).reverse ++ t.toks p ++ t.toksAfter p := by
  intro p
  generalize hk : p.length = k
  induction k generalizing p with
  | zero =>
    intro s _
    rw [List.length_eq_zero_iff.mp hk]
    simp [Tree.toksBefore, Tree.toksAfter, Tree.upward]
  | succ k ih =>
    intro s hs
    rcases List.eq_nil_or_concat p with rfl | ⟨q, i, rfl⟩
    · simp at hk
    · simp only [List.concat_eq_append] at hk hs ⊢
      have hs' := hs
      rw [Tree.at?_snoc] at hs'
      cases hq : t.at? q with
      | none => simp [hq] at hs'
      | some u =>
        simp only [hq, Option.bind_some] at hs'
        have hlen : i < (t.kids q).length := by
          rw [Tree.kids_eq hq]; simpa using (List.getElem?_eq_some_iff.mp hs').1
        have hki : (t.kids q)[i] = q ++ [i] := by
          simp [Tree.kids_eq hq]
        have := ih q (by simpa using hk) u hq
        rw [this, Tree.toks_node hq (Tree.isNode_of_child hs')]
        simp only [Tree.toksBefore, Tree.toksAfter, Tree.upward_snoc, List.flatMap_cons,
          Tree.later_snoc, Tree.earlier_snoc, List.reverse_append, reverse_flatMap_reverse]
        conv => lhs; rw [← List.take_append_drop i (t.kids q), List.drop_eq_getElem_cons hlen, hki]
        simp [List.flatMap_append]

theorem first_some {α β γ : Type} {f : α → List β} {g : β → List γ} {x : β} :
    ∀ {L : List α}, L.findSome? (fun a => (f a).head?) = some x → g x ≠ [] →
      (L.flatMap fun a => (f a).flatMap g).head? = (g x).head? := by
  intro L
  induction L with
  | nil => simp
  | cons a L ih =>
    intro h hg
    rw [List.findSome?_cons] at h
    rw [List.flatMap_cons]
    cases hf : f a with
    | nil => rw [hf] at h; simpa using ih h hg
    | cons y ys =>
      rw [hf] at h
      simp only [List.head?_cons, Option.some.injEq] at h
      subst h
      rw [List.flatMap_cons, List.append_assoc, head?_append_ne hg]

theorem first_none {α β γ : Type} {f : α → List β} {g : β → List γ} :
    ∀ {L : List α}, L.findSome? (fun a => (f a).head?) = none →
      (L.flatMap fun a => (f a).flatMap g) = [] := by
  intro L h
  rw [List.findSome?_eq_none_iff] at h
  rw [List.flatMap_eq_nil_iff]
  intro a ha
  have := List.head?_eq_none_iff.mp (h a ha)
  rw [this]; rfl

/-- The element where `next_token` / `prev_token` go down. -/
theorem turn_points {r : Root} {t : SToken} (h : Reach r (.token t))
    (nx : SElem → Option SElem) (side : List Nat → List (List Nat))
    (hnx : ∀ e, Reach r e → PointsTo r (nx e) (side e.path).head?)
    (hroot : side [] = []) :
    PointsTo r ((nx (.token t)).or (t.ancestors.findSome? fun a => nx (.node a)))
      ((Tree.upward t.path).findSome? fun q => (side q).head?) := by
  obtain ⟨a1, a2⟩ := C16_token_ancestors h
  have hup : Tree.upward t.path = t.path :: (Tree.upward t.path).tail ∨ t.path = [] := by
    rcases List.eq_nil_or_concat t.path with h | ⟨q, i, h⟩
    · exact .inr h
    · left; rw [h, List.concat_eq_append, Tree.upward_snoc]; rfl
  have h0 := hnx _ h
  have hrest : PointsTo r (t.ancestors.findSome? fun a => nx (.node a))
      ((Tree.upward t.path).tail.findSome? fun q => (side q).head?) := by
    rw [← a1, List.findSome?_map, List.findSome?_map]
    have : ∀ L : List SNode, (∀ a ∈ L, Reach r (.node a)) →
        PointsTo r (L.findSome? fun a => nx (.node a))
          (L.findSome? fun a => (side a.path).head?) := by
      intro L
      induction L with
      | nil => intro _; exact pointsTo_none
      | cons a L ih =>
        intro hL
        have ha := hnx _ (hL a (by simp))
        rw [List.findSome?_cons, List.findSome?_cons]
        have e : (side a.path).head? = (nx (.node a)).map SElem.path := ha.1.symm
        rw [e]
        cases hn : nx (.node a) with
        | none => exact ih (fun x hx => hL x (by simp [hx]))
        | some y => rw [hn] at ha; exact ⟨rfl, ha.2⟩
    exact this _ (fun a ha => a2 _ (List.mem_map.mpr ⟨a, ha, rfl⟩))
  rcases hup with hup | hnil
  · rw [hup, List.findSome?_cons]
    have e : (side t.path).head? = (nx (.token t)).map SElem.path := h0.1.symm
    rw [e]
    cases hn : nx (.token t) with
    | none => exact hrest
    | some y => rw [hn] at h0; exact ⟨rfl, h0.2⟩
  · rw [hnil] at hrest ⊢
    have e : (side []).head? = (nx (.token t)).map SElem.path := by
      rw [← hnil]; exact h0.1.symm
    rw [hroot] at e
    cases hn : nx (.token t) with
    | some y => rw [hn] at e; simp at e
    | none =>
      have : Tree.upward [] = [[]] := rfl
      rw [this, List.findSome?_cons, hroot]
      exact hrest

theorem nextToken_eq (t : SToken) : t.nextToken =
    match t.nextSiblingOrToken.or (t.ancestors.findSome? SNode.nextSiblingOrToken) with
    | some e => e.firstToken
    | none => .ok none := by
  rw [SToken.nextToken]
  cases t.nextSiblingOrToken <;> rfl

theorem prevToken_eq (t : SToken) : t.prevToken =
    match t.prevSiblingOrToken.or (t.ancestors.findSome? SNode.prevSiblingOrToken) with
    | some e => e.lastToken
    | none => .ok none := by
  rw [SToken.prevToken]
  cases t.prevSiblingOrToken <;> rfl

/-- `next_token` against the tokens after the position. -/
theorem nextToken_spec {r : Root} {t : SToken} (h : Reach r (.token t)) :
    ∃ o, t.nextToken = .ok o ∧
      (∀ u, o = some u → Reach r (.token u) ∧ (r.tree.toksAfter t.path).head? = some u.path) ∧
      (r.tree.Full → PointsTo r (o.map .token) (r.tree.toksAfter t.path).head?) := by
  have htp := turn_points h SElem.nextSiblingOrToken r.tree.later
    (fun e he => (C12_siblings he (fun _ => true)).2.2.1) rfl
  rw [nextToken_eq]
  have e1 : SElem.nextSiblingOrToken (.token t) = t.nextSiblingOrToken := rfl
  rw [e1] at htp
  have e2 : (fun a : SNode => SElem.nextSiblingOrToken (.node a)) = SNode.nextSiblingOrToken := rfl
  rw [e2] at htp
  cases hx : t.nextSiblingOrToken.or (t.ancestors.findSome? SNode.nextSiblingOrToken) with
  | none =>
    rw [hx] at htp
    have hnil := first_none (g := r.tree.toks) htp.1.symm
    refine ⟨none, rfl, by simp, fun _ => ?_⟩
    rw [Tree.toksAfter, hnil]
    exact pointsTo_none
  | some e =>
    rw [hx] at htp
    have her := htp.2 e rfl
    have hat := (C11_contents her).1
    obtain ⟨⟨o, o1, o2⟩, -⟩ := C20_exact_partial her hat
    refine ⟨o, o1, ?_, ?_⟩
    · rintro u rfl
      have hs := ((C20_sound_partial her hat u).1 o1)
      refine ⟨hs.1, ?_⟩
      rw [Tree.toksAfter, first_some htp.1.symm, Tree.toks_eq hat]
      · exact hs.2
      · rw [Tree.toks_eq hat]
        intro hn; rw [hn] at hs; simp at hs
    · intro hf
      obtain ⟨⟨o', o1', o2'⟩, -⟩ := C20_first_last_partial her hat (hf.at hat)
      rw [o1] at o1'
      cases o1'
      rw [Tree.toksAfter, first_some htp.1.symm (Tree.Full.toks_ne _ _ hat (hf.at hat)),
        Tree.toks_eq hat]
      exact o2'

theorem prevToken_spec {r : Root} {t : SToken} (h : Reach r (.token t)) :
    ∃ o, t.prevToken = .ok o ∧
      (∀ u, o = some u → Reach r (.token u) ∧ (r.tree.toksBefore t.path).head? = some u.path) ∧
      (r.tree.Full → PointsTo r (o.map .token) (r.tree.toksBefore t.path).head?) := by
  have htp := turn_points h SElem.prevSiblingOrToken r.tree.earlier
    (fun e he => (C12_siblings he (fun _ => true)).2.2.2.1) rfl
  rw [prevToken_eq]
  have e1 : SElem.prevSiblingOrToken (.token t) = t.prevSiblingOrToken := rfl
  rw [e1] at htp
  have e2 : (fun a : SNode => SElem.prevSiblingOrToken (.node a)) = SNode.prevSiblingOrToken := rfl
  rw [e2] at htp
  cases hx : t.prevSiblingOrToken.or (t.ancestors.findSome? SNode.prevSiblingOrToken) with
  | none =>
    rw [hx] at htp
    have hnil := first_none (g := fun x => (r.tree.toks x).reverse) htp.1.symm
    refine ⟨none, rfl, by simp, fun _ => ?_⟩
    rw [Tree.toksBefore, hnil]
    exact pointsTo_none
  | some e =>
    rw [hx] at htp
    have her := htp.2 e rfl
    have hat := (C11_contents her).1
    obtain ⟨-, ⟨o, o1, o2⟩⟩ := C20_exact_partial her hat
    refine ⟨o, o1, ?_, ?_⟩
    · rintro u rfl
      have hs := ((C20_sound_partial her hat u).2 o1)
      refine ⟨hs.1, ?_⟩
      have hne : r.tree.toks e.path ≠ [] := by
        rw [Tree.toks_eq hat]
        intro hn; rw [hn] at hs; simp at hs
      rw [Tree.toksBefore, first_some (g := fun x => (r.tree.toks x).reverse) htp.1.symm (by simpa using hne),
        List.head?_reverse, Tree.toks_eq hat]
      exact hs.2
    · intro hf
      obtain ⟨-, ⟨o', o1', o2'⟩⟩ := C20_first_last_partial her hat (hf.at hat)
      rw [o1] at o1'
      cases o1'
      rw [Tree.toksBefore, first_some (g := fun x => (r.tree.toks x).reverse) htp.1.symm
        (by simpa using Tree.Full.toks_ne _ _ hat (hf.at hat)), List.head?_reverse, Tree.toks_eq hat]
      exact o2'

mutual
theorem Tree.tokenPaths_sublist : ∀ (t : Tree) (p : List Nat),
    (t.tokenPaths p).Sublist (Tree.descend Tree.all t p)
  | .token k x, p => by simp [Tree.tokenPaths, Tree.descend]
  | .node k cs, p => by
    simp only [Tree.tokenPaths, Tree.descend]
    exact (Tree.tokenPathss_sublist cs p 0).trans (List.sublist_cons_self _ _)
theorem Tree.tokenPathss_sublist : ∀ (cs : List Tree) (p : List Nat) (i : Nat),
    (Tree.tokenPathss cs p i).Sublist (Tree.descends Tree.all cs p i)
  | [], p, i => by simp [Tree.tokenPathss]
  | c :: cs, p, i => by
    have ha : Tree.all c = true := rfl
    simp only [Tree.tokenPathss, Tree.descends, ha, if_true]
    exact (Tree.tokenPaths_sublist c _).append (Tree.tokenPathss_sublist cs p (i + 1))
end

theorem Tree.tokenPaths_nodup (t : Tree) (p : List Nat) : (t.tokenPaths p).Nodup :=
  (descend_nodup t p).sublist (Tree.tokenPaths_sublist t p)

theorem nodup_split {α : Type} {x : α} : ∀ {A A' B B' : List α}, (A ++ x :: B).Nodup →
    A ++ x :: B = A' ++ x :: B' → A = A' ∧ B = B' := by
  intro A
  induction A with
  | nil =>
    intro A' B B' hn h
    cases A' with
    | nil => simpa using h
    | cons a A' =>
      exfalso
      simp only [List.nil_append, List.cons_append, List.cons.injEq] at h
      obtain ⟨rfl, rfl⟩ := h
      simp at hn
  | cons a A ih =>
    intro A' B B' hn h
    cases A' with
    | nil =>
      exfalso
      simp only [List.nil_append, List.cons_append, List.cons.injEq] at h
      obtain ⟨rfl, rfl⟩ := h
      simp at hn
    | cons a' A' =>
      simp only [List.cons_append, List.cons.injEq] at h
      obtain ⟨rfl, h⟩ := h
      obtain ⟨rfl, rfl⟩ := ih (by simpa using (List.nodup_cons.mp hn).2) h
      exact ⟨rfl, rfl⟩

/-- Where a token sits in the token sequence. -/
theorem token_place {r : Root} {t : SToken} (h : Reach r (.token t)) {A B : List (List Nat)}
    (hAB : r.tree.tokenPaths [] = A ++ t.path :: B) :
    A = (r.tree.toksBefore t.path).reverse ∧ B = r.tree.toksAfter t.path := by
  have hat := (C11_contents h).2.1 t rfl
  have hs := Tree.toks_split _ _ hat
  rw [Tree.toks_token hat, Tree.toks_eq (Tree.at?_nil _)] at hs
  have hnd := Tree.tokenPaths_nodup r.tree []
  rw [hAB] at hs hnd
  exact nodup_split hnd (by rw [hs]; simp)

/-- A token handle is somewhere in the token sequence. -/
theorem token_mem {r : Root} {t : SToken} (h : Reach r (.token t)) :
    ∃ A B, r.tree.tokenPaths [] = A ++ t.path :: B := by
  have hat := (C11_contents h).2.1 t rfl
  have hs := Tree.toks_split _ _ hat
  rw [Tree.toks_token hat, Tree.toks_eq (Tree.at?_nil _)] at hs
  exact ⟨(r.tree.toksBefore t.path).reverse, r.tree.toksAfter t.path, by rw [hs]; simp⟩

/-- **C21** for trees in which every node has a child: with the tokens of the whole tree listed left
to right as `A`, this token, `B`, the next token is the first of `B` and the previous one the last of
`A`. -/
theorem C21_next_prev_partial {r : Root} (hf : r.tree.Full) {t : SToken} (h : Reach r (.token t)) :
    ∃ A B, r.tree.tokenPaths [] = A ++ t.path :: B ∧
      (∃ o, t.nextToken = .ok o ∧ PointsTo r (o.map .token) B.head?) ∧
      (∃ o, t.prevToken = .ok o ∧ PointsTo r (o.map .token) A.getLast?) := by
  obtain ⟨A, B, hAB⟩ := token_mem h
  obtain ⟨hA, hB⟩ := token_place h hAB
  obtain ⟨o, o1, -, o3⟩ := nextToken_spec h
  obtain ⟨o', o1', -, o3'⟩ := prevToken_spec h
  refine ⟨A, B, hAB, ⟨o, o1, by rw [hB]; exact o3 hf⟩, ⟨o', o1', ?_⟩⟩
  rw [hA, List.getLast?_reverse]
  exact o3' hf

/-- **C21** for arbitrary trees: the calls return normally, and a returned token is the neighbour in
the token sequence. -/
theorem C21_sound_partial {r : Root} {t : SToken} (h : Reach r (.token t)) :
    ∃ A B, r.tree.tokenPaths [] = A ++ t.path :: B ∧
      (∃ o, t.nextToken = .ok o ∧ ∀ u, o = some u → Reach r (.token u) ∧ B.head? = some u.path) ∧
      (∃ o, t.prevToken = .ok o ∧ ∀ u, o = some u → Reach r (.token u) ∧ A.getLast? = some u.path) := by
  obtain ⟨A, B, hAB⟩ := token_mem h
  obtain ⟨hA, hB⟩ := token_place h hAB
  obtain ⟨o, o1, o2, -⟩ := nextToken_spec h
  obtain ⟨o', o1', o2', -⟩ := prevToken_spec h
  refine ⟨A, B, hAB, ⟨o, o1, by rw [hB]; exact o2⟩, ⟨o', o1', ?_⟩⟩
  rw [hA, List.getLast?_reverse]
  exact o2'

/-- The element right after (before) the one at `p`: the next (previous) sibling of the innermost of the elements around
`p`, itself included, that has one. -/
def Tree.following (t : Tree) (p : List Nat) : Option (List Nat) := (Tree.upward p).findSome? fun q => (t.later q).head?
def Tree.preceding (t : Tree) (p : List Nat) : Option (List Nat) := (Tree.upward p).findSome? fun q => (t.earlier q).head?

/-- **C21** for arbitrary trees, exactly: the calls go to the element right after (before) the token and from there down
along first (last) children.  They return the token they arrive at, or nothing if they arrive at a childless node. -/
theorem C21_exact_partial {r : Root} {t : SToken} (h : Reach r (.token t)) :
    (∃ o, t.nextToken = .ok o ∧ PointsTo r (o.map .token)
      ((r.tree.following t.path).bind fun q => (r.tree.at? q).bind fun s => s.leftmost q)) ∧
    (∃ o, t.prevToken = .ok o ∧ PointsTo r (o.map .token)
      ((r.tree.preceding t.path).bind fun q => (r.tree.at? q).bind fun s => s.rightmost q)) := by
  constructor
  · have htp := turn_points h SElem.nextSiblingOrToken r.tree.later
      (fun e he => (C12_siblings he (fun _ => true)).2.2.1) rfl
    rw [nextToken_eq]
    have e1 : SElem.nextSiblingOrToken (.token t) = t.nextSiblingOrToken := rfl
    rw [e1] at htp
    have e2 : (fun a : SNode => SElem.nextSiblingOrToken (.node a)) = SNode.nextSiblingOrToken := rfl
    rw [e2] at htp
    rw [Tree.following, ← htp.1]
    cases hx : t.nextSiblingOrToken.or (t.ancestors.findSome? SNode.nextSiblingOrToken) with
    | none => exact ⟨none, rfl, pointsTo_none⟩
    | some e =>
      rw [hx] at htp
      have her := htp.2 e rfl
      have hat := (C11_contents her).1
      obtain ⟨⟨o, o1, o2⟩, -⟩ := C20_exact_partial her hat
      refine ⟨o, o1, ?_⟩
      simpa [hat] using o2
  · have htp := turn_points h SElem.prevSiblingOrToken r.tree.earlier
      (fun e he => (C12_siblings he (fun _ => true)).2.2.2.1) rfl
    rw [prevToken_eq]
    have e1 : SElem.prevSiblingOrToken (.token t) = t.prevSiblingOrToken := rfl
    rw [e1] at htp
    have e2 : (fun a : SNode => SElem.prevSiblingOrToken (.node a)) = SNode.prevSiblingOrToken := rfl
    rw [e2] at htp
    rw [Tree.preceding, ← htp.1]
    cases hx : t.prevSiblingOrToken.or (t.ancestors.findSome? SNode.prevSiblingOrToken) with
    | none => exact ⟨none, rfl, pointsTo_none⟩
    | some e =>
      rw [hx] at htp
      have her := htp.2 e rfl
      have hat := (C11_contents her).1
      obtain ⟨-, ⟨o, o1, o2⟩⟩ := C20_exact_partial her hat
      refine ⟨o, o1, ?_⟩
      simpa [hat] using o2

/-- **C21** fails exactly in these cases: the walk from the element right after (before) the token arrives at a childless
node, although there are more tokens. -/
theorem C21_right_iff_partial {r : Root} {t : SToken} (h : Reach r (.token t)) {A B : List (List Nat)}
    (hAB : r.tree.tokenPaths [] = A ++ t.path :: B) :
    ((∃ o, t.nextToken = .ok o ∧ PointsTo r (o.map .token) B.head?) ↔
      (∀ q s, r.tree.following t.path = some q → r.tree.at? q = some s → s.leftmost q = none → B = [])) ∧
    ((∃ o, t.prevToken = .ok o ∧ PointsTo r (o.map .token) A.getLast?) ↔
      (∀ q s, r.tree.preceding t.path = some q → r.tree.at? q = some s → s.rightmost q = none → A = [])) := by
  obtain ⟨hA, hB⟩ := token_place h hAB
  obtain ⟨⟨o, o1, o2⟩, ⟨p, p1, p2⟩⟩ := C21_exact_partial h
  obtain ⟨A', B', hAB', ⟨o', s1, s2⟩, ⟨p', t1, t2⟩⟩ := C21_sound_partial h
  obtain ⟨hA', hB'⟩ := token_place h hAB'
  rw [hA', ← hA] at t2
  rw [hB', ← hB] at s2
  rw [o1] at s1; cases s1
  rw [p1] at t1; cases t1
  constructor
  · constructor
    · rintro ⟨o', e, he⟩ q s hq hs hl
      rw [o1] at e; cases e
      simp only [hq, hs, Option.bind_some, hl] at o2
      have := he.1
      rw [o2.1] at this
      exact List.head?_eq_none_iff.mp this.symm
    · intro hc
      refine ⟨o, o1, ?_⟩
      cases o with
      | some u =>
        obtain ⟨a, b⟩ := s2 u rfl
        rw [b]
        exact ⟨rfl, fun e he => by cases he; exact a⟩
      | none =>
        have : B = [] := by
          cases hq : r.tree.following t.path with
          | none => rw [hB, Tree.toksAfter, first_none (g := r.tree.toks) hq]
          | some q =>
            have e := o2.1
            simp only [hq, Option.bind_some, Option.map_none] at e
            cases hs : r.tree.at? q with
            | none =>
              exfalso
              obtain ⟨x, -, hx⟩ := List.exists_of_findSome?_eq_some hq
              have hm := List.mem_of_head? hx
              cases hl : x.getLast? with
              | none => rw [Tree.later, hl] at hm; cases hm
              | some i =>
                rw [Tree.later, hl] at hm
                obtain ⟨c, hc⟩ := Tree.kids_at (List.mem_of_mem_drop hm)
                rw [hs] at hc; cases hc
            | some s =>
              rw [hs, Option.bind_some] at e
              exact hc q s hq hs e.symm
        rw [this]
        exact pointsTo_none
  · constructor
    · rintro ⟨o', e, he⟩ q s hq hs hl
      rw [p1] at e; cases e
      simp only [hq, hs, Option.bind_some, hl] at p2
      have := he.1
      rw [p2.1] at this
      exact List.getLast?_eq_none_iff.mp this.symm
    · intro hc
      refine ⟨p, p1, ?_⟩
      cases p with
      | some u =>
        obtain ⟨a, b⟩ := t2 u rfl
        rw [b]
        exact ⟨rfl, fun e he => by cases he; exact a⟩
      | none =>
        have : A = [] := by
          cases hq : r.tree.preceding t.path with
          | none => rw [hA, Tree.toksBefore, first_none (g := fun x => (r.tree.toks x).reverse) hq]; rfl
          | some q =>
            have e := p2.1
            simp only [hq, Option.bind_some, Option.map_none] at e
            cases hs : r.tree.at? q with
            | none =>
              exfalso
              obtain ⟨x, -, hx⟩ := List.exists_of_findSome?_eq_some hq
              have hm := List.mem_of_head? hx
              cases hl : x.getLast? with
              | none => rw [Tree.earlier, hl] at hm; cases hm
              | some i =>
                rw [Tree.earlier, hl] at hm
                obtain ⟨c, hc⟩ := Tree.kids_at (List.mem_of_mem_take (List.mem_reverse.mp hm))
                rw [hs] at hc; cases hc
            | some s =>
              rw [hs, Option.bind_some] at e
              exact hc q s hq hs e.symm
        rw [this]
        exact pointsTo_none

/-- **C21** for trees in which every node has a child: the two calls undo each other. -/
theorem C21_inverse_partial {r : Root} (hf : r.tree.Full) {t u : SToken} (ht : Reach r (.token t))
    (hu : Reach r (.token u)) :
    t.nextToken = .ok (some u) ↔ u.prevToken = .ok (some t) := by
  obtain ⟨A, B, hAB, ⟨o, o1, o2⟩, -⟩ := C21_next_prev_partial hf ht
  obtain ⟨A', B', hAB', -, ⟨o', o1', o2'⟩⟩ := C21_next_prev_partial hf hu
  have uniq : ∀ {x y : SToken}, Reach r (.token x) → Reach r (.token y) → x.path = y.path → x = y := by
    intro x y hx hy hp
    have := hx.valid.1.unique hy.valid.1 (by rw [hx.valid.2, hy.valid.2]) hp
    cases this; rfl
  have hnd := Tree.tokenPaths_nodup r.tree []
  rw [o1, o1']
  constructor
  · intro he
    cases he
    have hb := o2.1
    simp only [Option.map_some, SElem.path_token] at hb
    cases B with
    | nil => simp at hb
    | cons b B =>
      simp only [List.head?_cons, Option.some.injEq] at hb
      subst hb
      have e : A ++ t.path :: u.path :: B = (A ++ [t.path]) ++ u.path :: B := by simp
      rw [hAB, e] at hAB' hnd
      obtain ⟨rfl, rfl⟩ := nodup_split hnd hAB'
      have ha := o2'.1
      rw [List.getLast?_concat] at ha
      cases o' with
      | none => simp at ha
      | some x =>
        simp only [Option.map_some, SElem.path_token, Option.some.injEq] at ha
        rw [uniq (o2'.2 _ rfl) ht ha]
  · intro he
    cases he
    have ha := o2'.1
    simp only [Option.map_some, SElem.path_token] at ha
    rcases List.eq_nil_or_concat A' with rfl | ⟨A'', a, rfl⟩
    · simp at ha
    · simp only [List.concat_eq_append, List.getLast?_concat, Option.some.injEq] at ha hAB'
      subst ha
      have e : (A'' ++ [t.path]) ++ u.path :: B' = A'' ++ t.path :: u.path :: B' := by simp
      rw [hAB', e] at hAB hnd
      obtain ⟨rfl, rfl⟩ := nodup_split hnd hAB
      have hb := o2.1
      simp only [List.head?_cons] at hb
      cases o with
      | none => simp at hb
      | some x =>
        simp only [Option.map_some, SElem.path_token, Option.some.injEq] at hb
        rw [uniq (o2.2 _ rfl) hu hb]

/-- The property without the side condition is false of the code: the next sibling of the first
token is a node that begins with a childless node, so `next_token` returns `None` although more
tokens follow. -/
theorem C21_counterexample :
    ∃ (r : Root) (t : SToken), Reach r (.token t) ∧ t.nextToken = .ok none ∧
      r.tree.tokenPaths [] = [] ++ t.path :: [[1, 1], [1, 2], [3]] :=
  ⟨synRoot, .child synTop 0 0 ⟨0, 2, "a".toList⟩, Reach.firstChildOrToken synTop_reach rfl, rfl,
    by decide⟩

/-- The side condition of `C21_next_prev_partial` holds here, and the token is not at an end. -/
example : ∃ t, Reach fullRoot (.token t) ∧ fullRoot.tree.Full ∧
    fullRoot.tree.tokenPaths [] = [[0]] ++ t.path :: [[1, 1]] ∧
    (∃ u, t.prevToken = .ok (some u) ∧ u.path = [0]) ∧
    (∃ u, t.nextToken = .ok (some u) ∧ u.path = [1, 1]) :=
  ⟨.child (.child fullTop 1 1 fullInner) 0 1 ⟨0, 2, "a".toList⟩,
    Reach.firstChildOrToken (Reach.firstChild fullTop_reach rfl) rfl, fullRoot_full, by decide,
    ⟨_, rfl, rfl⟩, ⟨_, rfl, rfl⟩⟩

/-- The case of the counterexample: the walk arrives at the childless node at `[1, 0]`. -/
example : ∃ t : SToken, Reach synRoot (.token t) ∧ synRoot.tree.following t.path = some [1] ∧
    ((synRoot.tree.at? [1]).bind fun s => s.leftmost [1]) = none :=
  ⟨.child synTop 0 0 ⟨0, 2, "a".toList⟩, Reach.firstChildOrToken synTop_reach rfl, by decide, by decide⟩

end Rowan
