import Verif.TraverseLemmas
/-!
# Child iterators and walks on snapshots

Unless their comments cite lines of `/repo`, the definitions in this file are vocabulary of the proofs and model no code.
-/
namespace Rowan
namespace Prog
open RProg
variable {L F : List (Nat × SElem)} {h : Nat} {e : SElem}

/-! ### `iter::successors` -/

theorem succNext_comp {f : Nav} {st : Option Nat} {v : Option SElem} (hg : Got F st v L)
    (hf : ∀ z, v = some z → f.fits z = true) :
    Comp (succNext f st) L (.ok (v, v.bind f.on)) fun (a, st') (b, v') L' =>
      ∃ F', Got F a b F' ∧ Got F' st' v' L' := by
  rcases hg.cases with ⟨rfl, rfl, h⟩ | ⟨i, z, rfl, rfl, h⟩
  · exact .pure ⟨F, .refl _, h⟩
  · refine .perm h (.step (nav_comp (List.mem_cons_self ..) (hf z rfl)) fun a L' hg => ?_)
    exact .pure ⟨_, .refl _, hg⟩

/-! ### Children -/

/-- What the iterator of the children of `p` owns, in addition to `F`; `nx` is the child it stands at. -/
def Kids.Holds (it : Kids) (p : SNode) (nx : Option SElem) (F L : List (Nat × SElem)) : Prop :=
  (∀ z, nx = some z → z.parent ≠ none) ∧ ∃ K, L.Perm ((it.parent, .node p) :: K) ∧ Got F it.next nx K

/-- What the next call yields. -/
def kidsVal (nodes : Bool) (p : SNode) (nx : Option SElem) (initialized : Bool) : Option SElem :=
  if !initialized then (if nodes then p.firstChild.map .node else p.firstChildOrToken)
  else nx.bind (·.nextOf nodes)

theorem newChild_parent (g : GNode) (p : SNode) (i o : Nat) : (SNode.newChild g p i o).parent = some p := by
  rw [SNode.newChild]; rfl

theorem new_parent (g : GElem) (p : SNode) (i o : Nat) : (SElem.new g p i o).parent = some p := by
  cases g <;> rfl

theorem nextOf_parent {nodes : Bool} {z z' : SElem} (h : z.nextOf nodes = some z') : z'.parent ≠ none := by
  unfold SElem.nextOf at h
  split at h
  · obtain ⟨m, h1, rfl⟩ := Option.map_eq_some_iff.mp h
    obtain ⟨x, _, h2⟩ := List.exists_of_findSome?_eq_some h1
    obtain ⟨g, _, h3⟩ := Option.bind_eq_some_iff.mp h2
    obtain ⟨q, _, h4⟩ := Option.bind_eq_some_iff.mp h3
    cases h4
    rw [SElem.parent, newChild_parent]; nofun
  · obtain ⟨x, _, h⟩ := Option.bind_eq_some_iff.mp h
    obtain ⟨g, _, h⟩ := Option.bind_eq_some_iff.mp h
    cases h
    rw [new_parent]; nofun

theorem kidsVal_parent {nodes : Bool} {p : SNode} {nx : Option SElem} {i : Bool} {z : SElem}
    (h : kidsVal nodes p nx i = some z) : z.parent ≠ none := by
  unfold kidsVal at h
  split at h
  · split at h
    · simp only [Option.map_eq_some_iff] at h
      obtain ⟨m, h, rfl⟩ := h
      obtain ⟨x, _, h⟩ := List.exists_of_findSome?_eq_some h
      simp only [Option.map_eq_some_iff] at h
      obtain ⟨g, _, rfl⟩ := h
      rw [SElem.parent, newChild_parent]; nofun
    · simp only [SNode.firstChildOrToken, Option.map_eq_some_iff] at h
      obtain ⟨g, _, rfl⟩ := h
      rw [new_parent]; nofun
  · obtain ⟨y, _, h⟩ := Option.bind_eq_some_iff.mp h
    exact nextOf_parent h

theorem kids_comp {p : SNode} (hm : (h, .node p) ∈ L) {α β : Type} {k : Kids → RProg α} {r : Res β}
    {Q : α → β → List (Nat × SElem) → Prop}
    (hk : ∀ it L', it.Holds p none L L' → it.initialized = false → Comp (k it) L' r Q) : Comp (kids h >>= k) L r Q := by
  have : Comp (kids h) L (.ok ()) fun it _ L' => it.Holds p none L L' ∧ it.initialized = false := by
    refine .clone hm fun i => .pure ⟨⟨nofun, L, .refl _, .refl _⟩, rfl⟩
  exact .step this fun it L' h => hk it L' h.1 h.2

theorem kidsNext_comp {nodes : Bool} {it : Kids} {p : SNode} {nx : Option SElem} (hh : it.Holds p nx F L)
    (h0 : it.initialized = false → nx = none) :
    Comp (kidsNext nodes it) L (.ok (kidsVal nodes p nx it.initialized)) fun (a, it') b L' =>
      it'.initialized = true ∧ ∃ F', Got F a b F' ∧ it'.Holds p b F' L' := by
  obtain ⟨hpar, K, hl, hg⟩ := hh
  have first : Comp (kidsMove nodes it) L (.ok (kidsVal nodes p nx it.initialized)) fun a b L' =>
        ∃ K', L'.Perm ((it.parent, .node p) :: K') ∧ Got F a b K' := by
    rw [kidsMove]
    cases hi : it.initialized with
    | false =>
      have := h0 hi
      subst this
      obtain ⟨h1, -, h2⟩ | ⟨_, _, _, h, _⟩ := hg.cases
      · have e : kidsVal nodes p none false =
            (if nodes then Nav.firstChild else .firstChildOrToken).on (.node p) := by cases nodes <;> rfl
        rw [e]
        refine (nav_comp (hl.mem_iff.mpr (List.mem_cons_self ..)) (by cases nodes <;> rfl)).mono fun a b L' _ hg => ?_
        obtain ⟨F', h3, h4⟩ := (hg.perm hl (.refl _)).under
        exact ⟨F', h3, h4.perm h2 (.refl _)⟩
      · cases h
    | true =>
      have e : kidsVal nodes p nx true = nx.bind (·.nextOf nodes) := rfl
      rw [e]
      rcases hg.cases with ⟨h1, rfl, h2⟩ | ⟨i, z, h1, rfl, h2⟩
      · simp only [h1]
        exact .pure ⟨K, hl, h2⟩
      · simp only [h1]
        refine (toNext_comp (F := (it.parent, .node p) :: F) (by perms hl h2) (hpar z rfl)).mono fun a b L' _ hg => ?_
        exact hg.under
  refine .step first fun a L' hg => ?_
  obtain ⟨K', hl', hg⟩ := hg
  rcases hg.cases with ⟨rfl, hb, h2⟩ | ⟨i, z, rfl, hb, h2⟩
  · refine .pure ⟨rfl, F, by rw [hb]; exact .refl _, ?_, K', hl', by rw [hb]; exact h2⟩
    rw [hb]; nofun
  · refine .clone (hl'.mem_iff.mpr (List.mem_cons_of_mem _ (h2.mem_iff.mpr (List.mem_cons_self ..)))) fun c => ?_
    refine .pure ⟨rfl, (c, z) :: F, by rw [hb]; exact .refl _, fun z hz => kidsVal_parent hz, (c, z) :: K', ?_, ?_⟩
    · perms hl'
    · rw [hb]
      show List.Perm _ ((i, z) :: (c, z) :: F)
      perms h2

theorem kidsDrop_comp {it : Kids} {p : SNode} {nx : Option SElem} (hh : it.Holds p nx F L) {α β : Type}
    {k : Unit → RProg α} {r : Res β} {Q : α → β → List (Nat × SElem) → Prop} (hk : Comp (k ()) F r Q) :
    Comp (kidsDrop it >>= k) L r Q := by
  obtain ⟨_, K, hl, hg⟩ := hh
  have : Comp (kidsDrop it) L (.ok ()) fun _ _ L' => L'.Perm F := by
    refine .drop hl ?_
    rcases hg.cases with ⟨h1, -, h2⟩ | ⟨i, z, h1, -, h2⟩
    · rw [h1]; exact .pure h2
    · rw [h1]; exact drop_comp h2
  exact .step this fun _ L' h => hk.perm h

/-- The first element of the filtered iterator. -/
def byKindVal (nodes : Bool) (m : SyntaxKind → Bool) (p : SNode) (nx : Option SElem) (initialized : Bool) :
    Option SElem :=
  if !initialized then (if nodes then (p.firstChildByKind m).map .node else p.firstChildOrTokenByKind m)
  else nx.bind fun z => if m z.kind then some z
    else if nodes then (z.nextSiblingByKind m).map .node else z.nextSiblingOrTokenByKind m

theorem byKind_comp {nodes : Bool} {m : SyntaxKind → Bool} {it : Kids} {p : SNode} {nx : Option SElem}
    (hh : it.Holds p nx F L) (h0 : it.initialized = false → nx = none) :
    Comp (byKind nodes m it) L (.ok (byKindVal nodes m p nx it.initialized)) (Got F) := by
  obtain ⟨hpar, K, hl, hg⟩ := hh
  have first : Comp (byKindFirst nodes m it) L (.ok (byKindVal nodes m p nx it.initialized)) fun a b L' =>
        ∃ K', L'.Perm ((it.parent, .node p) :: K') ∧ Got F a b K' := by
    rw [byKindFirst]
    cases hi : it.initialized with
    | false =>
      have := h0 hi
      subst this
      obtain ⟨h1, -, h2⟩ | ⟨_, _, _, h, _⟩ := hg.cases
      · have e : byKindVal nodes m p none false =
            (if nodes then Nav.firstChildByKind m else .firstChildOrTokenByKind m).on (.node p) := by cases nodes <;> rfl
        rw [e]
        refine (nav_comp (hl.mem_iff.mpr (List.mem_cons_self ..)) (by cases nodes <;> rfl)).mono fun a b L' _ hg => ?_
        obtain ⟨F', h3, h4⟩ := (hg.perm hl (.refl _)).under
        exact ⟨F', h3, h4.perm h2 (.refl _)⟩
      · cases h
    | true =>
      rcases hg.cases with ⟨h1, rfl, h2⟩ | ⟨i, z, h1, rfl, h2⟩
      · simp only [h1]
        exact .pure ⟨K, hl, h2⟩
      · have hm : (i, z) ∈ L := hl.mem_iff.mpr (List.mem_cons_of_mem _ (h2.mem_iff.mpr (List.mem_cons_self ..)))
        simp only [h1, Bool.not_true, Bool.false_eq_true, if_false]
        refine .look hm ?_
        have e : byKindVal nodes m p (some z) true = if m z.kind then some z
          else (if nodes then Nav.nextSiblingByKind m else .nextSiblingOrTokenByKind m).on z := by
          cases nodes <;> rfl
        have e' : ∀ (c : Bool) (a b : Option SElem), Res.ok (if c then a else b) = if c then .ok a else .ok b := by
          intro c a b; cases c <;> rfl
        rw [e, e']
        refine .ite (c := m z.kind) (fun _ => ?_) fun _ => ?_
        · exact .pure ⟨K, hl, h2⟩
        · refine .step (nav_comp hm (by cases nodes <;> cases z <;> rfl)) fun a L' hg => ?_
          obtain ⟨K', h3, h4⟩ := (hg.perm (F' := (i, z) :: (it.parent, .node p) :: F) (by perms hl h2) (.refl _)).under
          exact .drop h3 (.pure h4.under)
  refine .step first fun a L' hg => ?_
  obtain ⟨K', hl', hg⟩ := hg
  exact .drop hl' (.pure hg)

/-! The same in terms of `Verif/Cursor.lean`. -/

theorem kidsVal_elem (u : Bool) (it : ElemChildren) : it.step u =
    (kidsVal false it.parent it.next it.initialized,
      { it with next := kidsVal false it.parent it.next it.initialized, initialized := true }) := by
  have : (fun z : SElem => z.toNextSiblingOrToken u) = fun z => z.nextOf false :=
    funext fun z => SElem.toNextSiblingOrToken_eq u z
  rw [ElemChildren.step, this]
  rfl

theorem kidsVal_node (u : Bool) (it : NodeChildren) :
    (it.step u).1.map .node = kidsVal true it.parent (it.next.map .node) it.initialized ∧
    (it.step u).2 = { it with next := (it.step u).1, initialized := true } := by
  have : (fun z : SNode => z.toNextSibling u) = SNode.nextSibling := funext fun z => SNode.toNextSibling_eq u z
  refine ⟨?_, rfl⟩
  rw [NodeChildren.step, this]
  simp only [kidsVal]
  split
  · rfl
  · cases it.next <;> rfl

theorem byKindVal_elem (m : SyntaxKind → Bool) (it : ElemChildren) :
    it.byKind m = byKindVal false m it.parent it.next it.initialized := rfl

theorem byKindVal_node (m : SyntaxKind → Bool) (it : NodeChildren) :
    (it.byKind m).map .node = byKindVal true m it.parent (it.next.map .node) it.initialized := by
  simp only [NodeChildren.byKind, byKindVal]
  split
  · rfl
  · cases it.next with
    | none => rfl
    | some n =>
      show Option.map (NodeOrToken.node (T := SToken)) (if m n.kind = true then some n else n.nextSiblingByKind m) =
        if m n.kind = true then some (NodeOrToken.node n) else (n.nextSiblingByKind m).map NodeOrToken.node
      split <;> rfl

/-! ### Preorder -/

theorem GotE.cases {a : Option (WalkEvent Nat)} {b : Option (WalkEvent SElem)} (h : GotE F a b L) :
    (a = none ∧ b = none ∧ L.Perm F) ∨ (∃ i z, a = some (.enter i) ∧ b = some (.enter z) ∧ L.Perm ((i, z) :: F)) ∨
    ∃ i z, a = some (.leave i) ∧ b = some (.leave z) ∧ L.Perm ((i, z) :: F) := by
  cases a with
  | none =>
    cases b with
    | none => exact .inl ⟨rfl, rfl, h⟩
    | some y => exact h.elim
  | some x =>
    cases b with
    | none => cases x <;> exact h.elim
    | some y =>
      cases x <;> cases y
      · exact .inr (.inl ⟨_, _, rfl, rfl, h⟩)
      · exact h.elim
      · exact h.elim
      · exact .inr (.inr ⟨_, _, rfl, rfl, h⟩)

/-- What the walk owns; its state on the snapshot is `v`. -/
def Walk.Holds (it : Walk) (v : PreorderT) (F L : List (Nat × SElem)) : Prop :=
  it.skip = v.skip ∧ ∃ K, L.Perm ((it.start, v.start) :: K) ∧ GotE F it.next v.next K

/-- `Preorder.succ` and `PreorderT.succ`. -/
def walkVal (nodes : Bool) (start : SElem) : WalkEvent SElem → Option (WalkEvent SElem)
  | .enter (.node n) =>
    match (if nodes then n.firstChild.map .node else n.firstChildOrToken : Option SElem) with
    | some c => some (.enter c)
    | none => some (.leave (.node n))
  | .enter (.token t) => some (.leave (.token t))
  | .leave e =>
    if e.eq start then none
    else match e.nextOf nodes with
      | some s => some (.enter s)
      | none => e.parent.map fun p => .leave (.node p)

def walkPrep (v : PreorderT) : Res PreorderT := if v.skip then v.doSkip else .ok v

/-- `Preorder.step` and `PreorderT.step`. -/
def walkStep (nodes : Bool) (v : PreorderT) : Res (Option (WalkEvent SElem) × PreorderT) := do
  let v ← walkPrep v
  .ok (v.next, { v with next := v.next.bind (walkVal nodes v.start), skip := false })

theorem same_eq {a b : SElem} : same a.obs b.obs = a.eq b := by
  cases a <;> cases b <;> rfl

theorem walkSucc_comp {nodes : Bool} {start : Nat} {sv : SElem} {ev : WalkEvent Nat} {z : WalkEvent SElem} {i : Nat} {e : SElem}
    (hev : (ev = .enter i ∧ z = .enter e) ∨ (ev = .leave i ∧ z = .leave e)) (hm : (i, e) ∈ L) (hs : (start, sv) ∈ L) :
    Comp (walkSucc nodes start ev) L (.ok (walkVal nodes sv z)) (GotE L) := by
  rcases hev with ⟨rfl, rfl⟩ | ⟨rfl, rfl⟩
  · rw [walkSucc]
    refine .look hm ?_
    cases e with
    | token t => exact .clone hm fun c => .pure (.refl _)
    | node n =>
      simp only [SElem.obs, SElem.green]
      refine .nav hm (by cases nodes <;> rfl) ?_
      have e1 : (if nodes then Nav.firstChild else .firstChildOrToken).on (.node n) =
        (if nodes then n.firstChild.map .node else n.firstChildOrToken : Option SElem) := by cases nodes <;> rfl
      rw [e1]
      simp only [walkVal]
      cases (if nodes = true then n.firstChild.map .node else n.firstChildOrToken : Option SElem) with
      | none => exact .clone hm fun c => .pure (.refl _)
      | some c => exact fun j => .pure (.refl _)
  · rw [walkSucc]
    refine .look hm (.look hs ?_)
    rw [same_eq]
    simp only [walkVal]
    split
    · exact .pure (.refl _)
    · refine .nav hm (by cases nodes <;> cases e <;> rfl) ?_
      have e1 : (if nodes then Nav.nextSibling else .nextSiblingOrToken).on e = e.nextOf nodes := by
        cases nodes <;> rfl
      rw [e1]
      cases e.nextOf nodes with
      | some s => exact fun j => .pure (.refl _)
      | none =>
        refine .nav hm (by cases e <;> rfl) ?_
        have e2 : Nav.parent.on e = e.parent.map .node := by cases e <;> rfl
        rw [e2]
        cases e.parent with
        | none => exact .pure (.refl _)
        | some p => exact fun j => .pure (.refl _)

theorem walk_comp {n : SElem} (hm : (h, n) ∈ L) {α β : Type} {k : Walk → RProg α} {r : Res β}
    {Q : α → β → List (Nat × SElem) → Prop}
    (hk : ∀ it L', it.Holds { start := n, next := some (.enter n) } L L' → Comp (k it) L' r Q) :
    Comp (walk h >>= k) L r Q := by
  have : Comp (walk h) L (.ok ()) fun it _ L' => it.Holds { start := n, next := some (.enter n) } L L' := by
    refine .clone hm fun i => .clone (List.mem_cons_self ..) fun j => .pure ⟨rfl, (j, n) :: L, ?_, ?_⟩
    · exact .swap ..
    · exact .refl _
  exact .step this fun it L' h => hk it L' h

theorem doSkip_comp {it : Walk} {v : PreorderT} (hh : it.Holds v F L) :
    Comp (doSkip it) L v.doSkip fun it' v' L' => it'.Holds v' F L' := by
  obtain ⟨hsk, K, hl, hg⟩ := hh
  rw [doSkip, PreorderT.doSkip]
  rcases hg.cases with ⟨h1, h2, h3⟩ | ⟨i, z, h1, h2, h3⟩ | ⟨i, z, h1, h2, h3⟩
  · rw [h1, h2]
    exact .pure ⟨hsk, K, hl, hg⟩
  · rw [h1, h2]
    simp only
    refine .nav (hl.mem_iff.mpr (List.mem_cons_of_mem _ (h3.mem_iff.mpr (List.mem_cons_self ..)))) (by cases z <;> rfl) ?_
    have e2 : Nav.parent.on z = z.parent.map .node := by cases z <;> rfl
    rw [e2]
    cases z.parent with
    | none => exact .panic
    | some p =>
      intro j
      refine .drop (e := z) (F := (it.start, v.start) :: (j, .node p) :: F) (by perms hl h3) ?_
      exact .pure ⟨hsk, (j, .node p) :: F, .refl _, .refl _⟩
  · rw [h1, h2]
    exact .pure ⟨hsk, K, hl, h3⟩

theorem walkNext_comp {nodes : Bool} {it : Walk} {v : PreorderT} (hh : it.Holds v F L) :
    Comp (walkNext nodes it) L (walkStep nodes v) fun (a, it') (b, v') L' =>
      ∃ F', GotE F a b F' ∧ it'.Holds v' F' L' := by
  have first : Comp (walkReady it) L (walkPrep v) fun it' v' L' => it'.Holds v' F L' := by
    rw [walkReady, walkPrep, hh.1]
    exact .ite (fun _ => doSkip_comp hh) fun _ => .pure hh
  refine .bind first fun it' v' L' _ hh => ?_
  obtain ⟨hsk, K, hl, hg⟩ := hh
  have key : ∀ {ev z i e}, it'.next = some ev → v'.next = some z → L'.Perm ((it'.start, v'.start) :: (i, e) :: F) →
      ((ev = .enter i ∧ z = .enter e) ∨ (ev = .leave i ∧ z = .leave e)) →
      Comp (do
        let next ← walkMove nodes it'
        Pure.pure (it'.next, { it' with next := next, skip := false })) L'
        (.ok (v'.next, ({ v' with next := v'.next.bind (walkVal nodes v'.start), skip := false } : PreorderT)))
        fun (a, it') (b, v') L' => ∃ F', GotE F a b F' ∧ it'.Holds v' F' L' := by
    intro ev z i e h1 h2 h3 h4
    simp only [walkMove, h1, h2]
    refine .step (walkSucc_comp (sv := v'.start) h4 (h3.mem_iff.mpr (by simp)) (h3.mem_iff.mpr (by simp))) fun a L2 hg => ?_
    refine .pure ⟨(i, e) :: F, ?_, rfl, ?_⟩
    · rcases h4 with ⟨rfl, rfl⟩ | ⟨rfl, rfl⟩ <;> exact .refl _
    · rcases hg.cases with ⟨rfl, h5, h6⟩ | ⟨i, z, rfl, h5, h6⟩ | ⟨i, z, rfl, h5, h6⟩
      · exact ⟨_, h6.trans h3, by simp only [Option.bind_some, h5]; exact .refl _⟩
      · exact ⟨_, h6.trans ((h3.cons _).trans (.swap ..)), by simp only [Option.bind_some, h5]; exact .refl _⟩
      · exact ⟨_, h6.trans ((h3.cons _).trans (.swap ..)), by simp only [Option.bind_some, h5]; exact .refl _⟩
  rcases hg.cases with ⟨h1, h2, h3⟩ | ⟨i, z, h1, h2, h3⟩ | ⟨i, z, h1, h2, h3⟩
  · simp only [walkMove, h1, h2]
    exact .pure ⟨F, .refl _, rfl, K, hl, h3⟩
  · exact key h1 h2 (hl.trans (h3.cons _)) (.inl ⟨rfl, rfl⟩)
  · exact key h1 h2 (hl.trans (h3.cons _)) (.inr ⟨rfl, rfl⟩)

theorem walkDrop_comp {it : Walk} {v : PreorderT} (hh : it.Holds v F L) {α β : Type}
    {k : Unit → RProg α} {r : Res β} {Q : α → β → List (Nat × SElem) → Prop} (hk : Comp (k ()) F r Q) :
    Comp (walkDrop it >>= k) L r Q := by
  obtain ⟨_, K, hl, hg⟩ := hh
  have : Comp (walkDrop it) L (.ok ()) fun _ _ L' => L'.Perm F := by
    refine .drop hl ?_
    rcases hg.cases with ⟨h1, -, h2⟩ | ⟨i, z, h1, -, h2⟩ | ⟨i, z, h1, -, h2⟩
    · rw [h1]; exact .pure h2
    · rw [h1]; exact drop_comp h2
    · rw [h1]; exact drop_comp h2
  exact .step this fun _ L' h => hk.perm h

end Prog
end Rowan
