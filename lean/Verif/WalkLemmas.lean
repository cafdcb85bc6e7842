import Verif.CursorLemmas
import Verif.BuilderLemmas
import Verif.Spec.Walk
/-!
# Preorder walks: proof infrastructure

Unless their comments cite lines of `/repo`, the definitions in this file are vocabulary of the proofs and model no code.
-/
namespace Rowan

@[simp] theorem WalkEvent.map_enter {α β : Type} (f : α → β) (a : α) :
    (WalkEvent.enter a).map f = .enter (f a) := rfl
@[simp] theorem WalkEvent.map_leave {α β : Type} (f : α → β) (a : α) :
    (WalkEvent.leave a).map f = .leave (f a) := rfl

/-! ### Linked lists of states -/

/-- Each element's successor (by `f`) is the next one. -/
def Linked {α : Type} (f : α → Option α) : List α → Prop
  | [] => True
  | [_] => True
  | a :: b :: l => f a = some b ∧ Linked f (b :: l)

theorem linked_append {α : Type} {f : α → Option α} : ∀ {l l' : List α}, Linked f l → Linked f l' →
    (∀ a b, l.getLast? = some a → l'.head? = some b → f a = some b) → Linked f (l ++ l')
  | [], _, _, h', _ => h'
  | [a], [], _, _, _ => trivial
  | [a], b :: l', _, h', hj => ⟨hj a b rfl rfl, h'⟩
  | a :: b :: l, l', h, h', hj =>
    ⟨h.1, linked_append (l := b :: l) h.2 h' (fun x y hx hy => hj x y (by simpa using hx) hy)⟩

theorem successors_linked {α : Type} {f : α → Option α} {l : List α} {a z : α}
    (hl : Linked f l) (ha : l.head? = some a) (hz : l.getLast? = some z) (hend : f z = none)
    (k : Nat) : successors f (some a) k = l[k]? := by
  have shift : ∀ (x : Option α) (i : Nat),
      successors f x (i + 1) = successors f (x.bind f) i := by
    intro x i
    induction i with
    | zero => rfl
    | succ i ih => rw [successors, ih]; rfl
  have hnone : ∀ i, successors f none i = none := by
    intro i; induction i with
    | zero => rfl
    | succ i ih => simp [successors, ih]
  induction l generalizing a k with
  | nil => simp at ha
  | cons b l ih =>
    simp at ha; subst ha
    cases k with
    | zero => rfl
    | succ k =>
      rw [shift, Option.bind_some, List.getElem?_cons_succ]
      cases l with
      | nil =>
        simp at hz; subst hz
        rw [hend, hnone]; simp
      | cons c l =>
        rw [hl.1]
        exact ih hl.2 rfl (by simpa using hz) k

/-! ### The abstract walk on handles -/

/-- The visited children. -/
def SElem.kidsSel (sel : SElem → Bool) : SElem → List SElem
  | .node n => n.kids.filter sel
  | .token _ => []

/-- The next visited sibling. -/
def SElem.nextSel (sel : SElem → Bool) (e : SElem) : Option SElem :=
  match e.parent with
  | none => none
  | some p => ((p.kids.drop (e.index + 1)).filter sel).head?

def gsucc (sel : SElem → Bool) (start : SElem) : WalkEvent SElem → Option (WalkEvent SElem)
  | .enter e =>
    match (e.kidsSel sel).head? with
    | some c => some (.enter c)
    | none => some (.leave e)
  | .leave e =>
    if e.eq start then none
    else match e.nextSel sel with
      | some s => some (.enter s)
      | none => e.parent.map fun p => .leave (.node p)

def gnext (sel : SElem → Bool) (skip : List Nat → Bool) (start : SElem) :
    WalkEvent SElem → Option (WalkEvent SElem)
  | .enter e => if skip e.path then some (.leave e) else gsucc sel start (.enter e)
  | .leave e => gsucc sel start (.leave e)

theorem GChild.sizeOf_asRef_lt {n : GNode} {c : GChild} (h : c ∈ n.slice) :
    sizeOf c.asRef < sizeOf (NodeOrToken.node n : GElem) := by
  cases n with
  | mk a k l cs =>
    have h1 := List.sizeOf_lt_of_mem h
    cases c <;> simp at h1 ⊢ <;> omega

theorem SElem.kidsSel_lt {sel : SElem → Bool} {e k : SElem} (h : k ∈ e.kidsSel sel) :
    sizeOf k.green < sizeOf e.green := by
  cases e with
  | token t => simp [kidsSel] at h
  | node n =>
    simp only [kidsSel, List.mem_filter] at h
    obtain ⟨i, c, hc, rfl⟩ := SNode.mem_kids.mp h.1
    rw [SNode.childH_green]
    exact GChild.sizeOf_asRef_lt (List.mem_of_getElem? hc)

/-- The events of the walk of `e`, as handles. -/
def evs (sel : SElem → Bool) (skip : List Nat → Bool) (e : SElem) : List (WalkEvent SElem) :=
  .enter e :: ((if skip e.path then [] else
    (e.kidsSel sel).attach.flatMap fun k => evs sel skip k.1) ++ [.leave e])
termination_by sizeOf e.green
decreasing_by exact SElem.kidsSel_lt k.2

theorem evs_eq (sel : SElem → Bool) (skip : List Nat → Bool) (e : SElem) :
    evs sel skip e = .enter e :: ((if skip e.path then [] else
      (e.kidsSel sel).flatMap (evs sel skip)) ++ [.leave e]) := by
  rw [evs]
  congr 2
  split
  · rfl
  · rw [List.flatMap_def, List.flatMap_def, List.attach_map_val]


theorem evs_head (sel skip) (e : SElem) : (evs sel skip e).head? = some (.enter e) := by
  rw [evs_eq]; rfl

theorem evs_last (sel skip) (e : SElem) : (evs sel skip e).getLast? = some (.leave e) := by
  rw [evs_eq, ← List.cons_append]; exact List.getLast?_concat

/-! ### The abstract walk is the specification's walk -/

theorem walks_kids (sel : SElem → Bool) (selT : Tree → Bool) (skip : List Nat → Bool)
    (p : List Nat) (ks : List SElem) (i : Nat)
    (hs : ∀ k ∈ ks, sel k = selT k.green.tree)
    (hp : ∀ (j : Nat) k, ks[j]? = some k → k.path = p ++ [i + j])
    (hk : ∀ k ∈ ks, (evs sel skip k).map (·.map SElem.path)
      = Tree.walk selT skip k.green.tree k.path) :
    Tree.walks selT skip (ks.map fun k => k.green.tree) p i
      = ((ks.filter sel).flatMap (evs sel skip)).map (·.map SElem.path) := by
  induction ks generalizing i with
  | nil => simp [Tree.walks]
  | cons k ks ih =>
    have h0 : k.path = p ++ [i] := by simpa using hp 0 k rfl
    have hrest := ih (i + 1) (fun x hx => hs x (by simp [hx]))
      (fun j x hx => by rw [hp (j + 1) x (by simpa using hx)]; congr 2; omega)
      (fun x hx => hk x (by simp [hx]))
    have hk0 := hk k (by simp)
    rw [h0] at hk0
    simp only [List.map_cons, Tree.walks, hrest, List.filter_cons, hs k (by simp)]
    cases selT k.green.tree with
    | false => simp
    | true => simp [hk0]

theorem evs_spec (sel : SElem → Bool) (selT : Tree → Bool) (skip : List Nat → Bool)
    (hs : ∀ k : SElem, sel k = selT k.green.tree) (e : SElem) :
    (evs sel skip e).map (·.map SElem.path) = Tree.walk selT skip e.green.tree e.path := by
  generalize hk : sizeOf e.green = k
  induction k using Nat.strongRecOn generalizing e with
  | _ k ih =>
    rw [evs_eq]
    cases e with
    | token t =>
      simp [SElem.kidsSel, GToken.tree, Tree.walk]
    | node n =>
      have hks := walks_kids sel selT skip n.path n.kids 0 (fun k _ => hs k)
        (by
          intro j x hx
          rw [SNode.kids_getElem?] at hx
          cases hc : n.green.slice[j]? with
          | none => simp [hc] at hx
          | some c => simp [hc] at hx; subst hx; simp)
        (by
          intro x hx
          refine ih (sizeOf x.green) ?_ x rfl
          rw [← hk]
          obtain ⟨i, c, hc, rfl⟩ := SNode.mem_kids.mp hx
          rw [SNode.childH_green]
          exact GChild.sizeOf_asRef_lt (List.mem_of_getElem? hc))
      have htrees : (n.kids.map fun k => k.green.tree) = n.green.children.map GElem.tree := by
        rw [← SNode.kids_green, List.map_map]; rfl
      rw [htrees] at hks
      simp only [SElem.green_node, GElem.tree_node]
      rw [GNode.tree_eq]
      simp only [Tree.walk, SElem.kidsSel, List.map_cons, List.map_append, List.map_nil,
        WalkEvent.map_enter, WalkEvent.map_leave, SElem.path_node]
      rw [hks]
      by_cases hsk : skip n.path = true <;> simp [hsk]

/-! ### Addresses -/

theorem GElem.subs_trans {x y z : GElem} (h1 : y ∈ x.subs) (h2 : z ∈ y.subs) : z ∈ x.subs := by
  generalize hk : sizeOf x = k
  induction k using Nat.strongRecOn generalizing x with
  | _ k ih =>
    cases x with
    | token t =>
      simp only [GElem.subs, List.mem_singleton] at h1
      subst h1; exact h2
    | node n =>
      rcases GNode.mem_subs.mp h1 with rfl | ⟨e, he, hy⟩
      · exact h2
      · refine GNode.mem_subs.mpr (.inr ⟨e, he, ih (sizeOf e) ?_ hy rfl⟩)
        simp only [GNode.children, List.mem_map] at he
        obtain ⟨c, hc, rfl⟩ := he
        rw [← hk]; exact GChild.sizeOf_asRef_lt hc

theorem SNode.Valid.mem_subs {n : SNode} (h : n.Valid) :
    (NodeOrToken.node n.green : GElem) ∈ n.rootOf.green.subs := by
  induction n with
  | root m i g => exact GElem.self_mem_subs _
  | child p i o g ih =>
    obtain ⟨hp, c, hc, hg, -⟩ := h
    refine GElem.subs_trans (ih hp) (GNode.children_mem_subs ?_)
    rw [GNode.children, List.mem_map]
    exact ⟨c, List.mem_of_getElem? hc, hg⟩

theorem SElem.Valid.mem_subs {e : SElem} (h : e.Valid) : e.green ∈ e.rootOf.green.subs := by
  cases e with
  | node n => exact SNode.Valid.mem_subs h
  | token t =>
    cases t with
    | root m i g => exact GElem.self_mem_subs _
    | child p i o g =>
      obtain ⟨hp, c, hc, hg, -⟩ := h
      refine GElem.subs_trans (SNode.Valid.mem_subs hp) (GNode.children_mem_subs ?_)
      rw [GNode.children, List.mem_map]
      exact ⟨c, List.mem_of_getElem? hc, hg⟩

theorem SElem.eq_green {r : Root} (hcoh : r.green.Coherent) {a b : SElem} (ha : a.Valid)
    (hb : b.Valid) (har : a.rootOf = r) (hbr : b.rootOf = r) (h : a.eq b = true) :
    a.green = b.green ∧ a.offset = b.offset := by
  have key : a.key = b.key := by
    cases a <;> cases b <;> simp only [SElem.eq, Bool.false_eq_true] at h
    · exact eq_of_beq (a := SNode.key _) h
    · exact eq_of_beq (a := SToken.key _) h
  rw [SElem.key, SElem.key, Prod.mk.injEq] at key
  exact ⟨hcoh _ (har ▸ ha.mem_subs) _ (hbr ▸ hb.mem_subs) key.1, key.2⟩

/-! ### The walk is linked by the successor function -/

theorem drop_cons_of_getElem? {α : Type} {L : List α} {j : Nat} {x : α} (h : L[j]? = some x) :
    L.drop j = x :: L.drop (j + 1) := by
  obtain ⟨hlt, rfl⟩ := List.getElem?_eq_some_iff.mp h
  exact List.drop_eq_getElem_cons hlt

theorem evs_linked {r : Root} (hcoh : r.green.Coherent) (sel : SElem → Bool)
    (skip : List Nat → Bool) (start : SElem) (hsv : start.Valid) (hsr : start.rootOf = r)
    (e : SElem) (hv : e.Valid) (hr : e.rootOf = r)
    (hsize : sizeOf e.green ≤ sizeOf start.green) :
    Linked (gnext sel skip start) (evs sel skip e) ∧
    ∀ x ∈ evs sel skip e, ∃ h : SElem, (x = .enter h ∨ x = .leave h) ∧ h.Valid ∧ h.rootOf = r := by
  generalize hk : sizeOf e.green = k
  induction k using Nat.strongRecOn generalizing e with
  | _ k ih =>
    rw [evs_eq]
    by_cases hsk : skip e.path = true
    · simp only [hsk, if_true, List.nil_append]
      refine ⟨⟨by simp [gnext, hsk], trivial⟩, ?_⟩
      intro x hx
      simp at hx
      exact ⟨e, hx, hv, hr⟩
    · simp only [hsk, Bool.false_eq_true, if_false]
      cases e with
      | token t =>
        simp only [SElem.kidsSel, List.flatMap_nil, List.nil_append]
        refine ⟨⟨?_, trivial⟩, ?_⟩
        · simp only [gnext, hsk, Bool.false_eq_true, if_false]; rfl
        intro x hx
        simp at hx
        exact ⟨_, hx, hv, hr⟩
      | node n =>
        simp only [SElem.kidsSel]
        -- suffixes of the child list
        have suf : ∀ m j, n.kids.length - j = m →
            Linked (gnext sel skip start)
              (((n.kids.drop j).filter sel).flatMap (evs sel skip) ++ [.leave (.node n)]) ∧
            (((n.kids.drop j).filter sel).flatMap (evs sel skip) ++
              [WalkEvent.leave (NodeOrToken.node n : SElem)]).head? =
              (match ((n.kids.drop j).filter sel).head? with
                | some c => some (.enter c)
                | none => some (.leave (.node n))) ∧
            ∀ x ∈ ((n.kids.drop j).filter sel).flatMap (evs sel skip),
              ∃ h : SElem, (x = .enter h ∨ x = .leave h) ∧ h.Valid ∧ h.rootOf = r := by
          intro m
          induction m with
          | zero =>
            intro j hj
            have : n.kids.drop j = [] := List.drop_eq_nil_of_le (by omega)
            simp [this, Linked]
          | succ m ihm =>
            intro j hj
            have hlt : j < n.kids.length := by omega
            obtain ⟨y, hy⟩ : ∃ y, n.kids[j]? = some y := ⟨_, List.getElem?_eq_getElem hlt⟩
            obtain ⟨l1, l2, l3⟩ := ihm (j + 1) (by omega)
            rw [drop_cons_of_getElem? hy, List.filter_cons]
            by_cases hsel : sel y = true
            · simp only [hsel, if_true, List.flatMap_cons, List.append_assoc, List.head?_cons]
              obtain ⟨yv, yr, yp⟩ := SNode.kids_valid hv (List.mem_of_getElem? hy)
              have ysz : sizeOf y.green < sizeOf (SElem.green (.node n)) := by
                apply SElem.kidsSel_lt (sel := fun _ => true)
                simpa [SElem.kidsSel] using List.mem_of_getElem? hy
              have yr' : y.rootOf = r := by rw [yr]; exact hr
              obtain ⟨y1, y2⟩ := ih (sizeOf y.green) (by omega) y yv yr' (by omega) rfl
              have yidx : y.index = j := by
                rw [SNode.kids_getElem?] at hy
                cases hc : n.green.slice[j]? with
                | none => simp [hc] at hy
                | some c => simp [hc] at hy; subst hy; simp
              refine ⟨linked_append y1 l1 ?_, ?_, ?_⟩
              · intro a b ha hb
                rw [evs_last] at ha
                rw [l2] at hb
                simp at ha; subst ha
                have hne : y.eq start = false := by
                  cases hE : y.eq start with
                  | false => rfl
                  | true =>
                    have := (SElem.eq_green hcoh yv hsv yr' hsr hE).1
                    rw [this] at ysz; omega
                simp only [gnext, gsucc, hne, Bool.false_eq_true, if_false, SElem.nextSel, yp, yidx]
                rw [← hb]
                cases ((n.kids.drop (j + 1)).filter sel).head? <;> rfl
              · rw [List.head?_append, evs_head]; rfl
              · intro x hx
                rcases List.mem_append.mp hx with hx | hx
                · exact y2 x hx
                · exact l3 x hx
            · have hself : sel y = false := by simpa using hsel
              simp only [hself, Bool.false_eq_true, if_false]
              exact ⟨l1, l2, l3⟩
        obtain ⟨s1, s2, s3⟩ := suf _ 0 rfl
        simp only [List.drop_zero] at s1 s2 s3
        refine ⟨?_, ?_⟩
        · have := linked_append (f := gnext sel skip start) (l := [.enter (.node n)]) trivial s1
            (by
              intro a b ha hb
              simp at ha; subst ha
              rw [s2] at hb
              simp only [gnext, hsk, Bool.false_eq_true, if_false, gsucc, SElem.kidsSel]
              rw [← hb])
          simpa using this
        · intro x hx
          simp only [List.mem_cons, List.mem_append, List.not_mem_nil, or_false] at hx
          rcases hx with rfl | hx | rfl
          · exact ⟨_, .inl rfl, hv, hr⟩
          · exact s3 x hx
          · exact ⟨_, .inr rfl, hv, hr⟩

theorem gnext_last (sel skip) (start : SElem) : gnext sel skip start (.leave start) = none := by
  have : start.eq start = true := by cases start <;> simp [SElem.eq, SNode.eq, SToken.eq]
  simp [gnext, gsucc, this]

/-- Running the abstract walk. -/
theorem walk_run {r : Root} (hcoh : r.green.Coherent) (sel : SElem → Bool)
    (skip : List Nat → Bool) (start : SElem) (hsv : start.Valid) (hsr : start.rootOf = r) (k : Nat) :
    successors (gnext sel skip start) (some (.enter start)) k = (evs sel skip start)[k]? :=
  successors_linked (evs_linked hcoh sel skip start hsv hsr start hsv hsr (Nat.le_refl _)).1
    (evs_head ..) (evs_last ..) (gnext_last ..) k

/-! ### The two machines are instances -/

theorem PreorderT.succ_eq (start : SElem) (ev : WalkEvent SElem) :
    PreorderT.succ start ev = gsucc (fun _ => true) start ev := by
  cases ev with
  | enter e =>
    cases e with
    | node n =>
      simp only [PreorderT.succ, gsucc, SElem.kidsSel, SNode.firstChildOrToken_eq]
      rw [List.filter_eq_self.mpr (fun _ _ => rfl)]
      rfl
    | token t => rfl
  | leave e =>
    have : e.nextSiblingOrToken = e.nextSel fun _ => true := by
      simp only [SElem.nextSel]
      cases hp : e.parent with
      | none => exact SElem.nextSiblingOrToken_root hp
      | some p =>
        simp only
        rw [SElem.nextSiblingOrToken_eq hp, List.filter_eq_self.mpr (fun _ _ => rfl),
          List.head?_drop]
    simp only [PreorderT.succ, gsucc, this]
    rfl

theorem findSome_asNode (L : List SElem) :
    (L.findSome? NodeOrToken.asNode).map NodeOrToken.node = (L.filter SElem.isNode).head? := by
  induction L with
  | nil => rfl
  | cons e L ih =>
    cases e with
    | node n =>
      rw [List.filter_cons_of_pos (by rfl), List.findSome?_cons]; rfl
    | token t =>
      rw [List.filter_cons_of_neg (by simp [SElem.isNode]), List.findSome?_cons]; exact ih

theorem Preorder.succ_eq (start : SNode) (ev : WalkEvent SNode) :
    (Preorder.succ start ev).map (·.map .node)
      = gsucc SElem.isNode (.node start) (ev.map .node) := by
  cases ev with
  | enter n =>
    have := findSome_asNode n.kids
    rw [← SNode.firstChild_eq] at this
    simp only [Preorder.succ, gsucc, WalkEvent.map, SElem.kidsSel, ← this]
    cases n.firstChild <;> rfl
  | leave n =>
    have h : n.nextSibling.map .node = SElem.nextSel SElem.isNode (.node n) := by
      simp only [SElem.nextSel, SNode.nextSibling]
      cases hp : SElem.parent (.node n) with
      | none => rw [SElem.nextSibling_root hp]; rfl
      | some p => rw [SElem.nextSibling_eq hp, findSome_asNode]
    simp only [Preorder.succ, gsucc, WalkEvent.map, SElem.eq, ← h]
    cases n.eq start with
    | true => rfl
    | false =>
      cases n.nextSibling with
      | some s => rfl
      | none => simp [Function.comp_def]

end Rowan
