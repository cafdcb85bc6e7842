import Verif.Spec.WalkCost
import Verif.Props.Walk
import Verif.Props.Edit
import Verif.BuildCostLemmas
/-!
# Lemmas: the work of walking a tree
-/
namespace Rowan

/-- How far one looks for the first element satisfying `p`. -/
def lookFor {α : Type} (p : α → Bool) : List α → Nat
  | [] => 0
  | x :: xs => if p x then 1 else 1 + lookFor p xs

section
variable {α β γ : Type}
theorem findMapC_fst (f : α → Option β) (l : List α) : (findMapC f l).1 = l.findSome? f := by
  induction l with
  | nil => rfl
  | cons x xs ih =>
    rw [findMapC, List.findSome?_cons]
    cases f x with
    | some y => rfl
    | none => exact ih

theorem findMapC_snd (f : α → Option β) (l : List α) :
    (findMapC f l).2 = lookFor (fun x => (f x).isSome) l := by
  induction l with
  | nil => rfl
  | cons x xs ih =>
    rw [findMapC, lookFor]
    cases h : f x with
    | some y => simp
    | none => simp [ih]

theorem lookFor_map (g : α → γ) (p : γ → Bool) (l : List α) :
    lookFor p (l.map g) = lookFor (fun x => p (g x)) l := by
  induction l with
  | nil => rfl
  | cons x xs ih => simp only [List.map_cons, lookFor, ih]

theorem lookFor_fst (p : α → Bool) (l : List α) (d k : Nat) :
    lookFor (fun x : α × Nat => p x.1) ((l.zipIdx k).drop d) = lookFor p (l.drop d) := by
  rw [← lookFor_map Prod.fst p, List.map_drop, List.zipIdx_map_fst]

theorem lookFor_le (p : α → Bool) (l : List α) : lookFor p l ≤ l.length := by
  induction l with
  | nil => simp [lookFor]
  | cons x xs ih => simp only [lookFor, List.length_cons]; split <;> omega

/-- What is found in an enumerated list, and after how many looks. -/
theorem findMapC_zipIdx (f : α × Nat → Option β) (l : List α) (k : Nat) :
    match findMapC f (l.zipIdx k) with
    | (some y, w) => ∃ c, f (c, k + w - 1) = some y ∧ 0 < w
    | (none, w) => w = l.length := by
  induction l generalizing k with
  | nil => simp [findMapC]
  | cons x xs ih =>
    rw [List.zipIdx_cons, findMapC]
    cases h : f (x, k) with
    | some y => exact ⟨x, by simpa using h, Nat.one_pos⟩
    | none =>
      have := ih (k + 1)
      revert this
      generalize findMapC f (xs.zipIdx (k + 1)) = r
      obtain ⟨o, w⟩ := r
      cases o with
      | none => simp only; rintro rfl; simp; omega
      | some y =>
        rintro ⟨c, hc, hw⟩
        refine ⟨c, ?_, by omega⟩
        simp only
        rw [show k + (1 + w) - 1 = k + 1 + w - 1 from by omega]
        exact hc

theorem zipIdx_drop (l : List α) (d : Nat) : l.zipIdx.drop d = (l.drop d).zipIdx d := by
  apply List.ext_getElem?
  intro i
  simp [List.getElem?_zipIdx, Nat.add_comm]
end

/-! ### The counted functions are the plain ones -/

theorem SNode.firstChildC_fst (n : SNode) : n.firstChildC.1 = n.firstChild := findMapC_fst ..
theorem SElem.nextSiblingC_fst (e : SElem) : e.nextSiblingC.1 = e.nextSibling := findMapC_fst ..
theorem SNode.nextSiblingC_fst (n : SNode) : n.nextSiblingC.1 = n.nextSibling := findMapC_fst ..
theorem SNode.toNextSiblingC_fst (u : Bool) (n : SNode) :
    (n.toNextSiblingC u).1 = n.toNextSibling u := by
  rw [toNextSiblingC, toNextSibling]
  split
  · exact n.nextSiblingC_fst
  · cases n.parent with
    | none => rfl
    | some p => exact findMapC_fst ..

theorem NodeChildren.stepC_fst (u : Bool) (it : NodeChildren) : (it.stepC u).1 = it.step u := by
  simp only [stepC, step]
  cases it.initialized with
  | false => simp only [Bool.not_false, if_true, SNode.firstChildC_fst]
  | true =>
    simp only [Bool.not_true, Bool.false_eq_true, if_false]
    cases it.next with
    | none => rfl
    | some n => simp only [SNode.toNextSiblingC_fst, Option.bind_some]

theorem Preorder.succC_fst (start : SNode) (ev : WalkEvent SNode) :
    (Preorder.succC start ev).1 = Preorder.succ start ev := by
  cases ev with
  | enter n =>
    rw [succC, succ, ← SNode.firstChildC_fst]
    generalize n.firstChildC = r
    obtain ⟨o, w⟩ := r
    cases o <;> rfl
  | leave n =>
    rw [succC, succ, ← SNode.nextSiblingC_fst]
    generalize n.nextSiblingC = r
    obtain ⟨o, w⟩ := r
    cases n.eq start with
    | true => rfl
    | false => cases o <;> rfl

theorem Preorder.succC_snd (start : SNode) (ev : WalkEvent SNode) :
    (Preorder.succC start ev).2 = match ev with
      | .enter n => n.firstChildC.2
      | .leave n => if n.eq start then 0 else n.nextSiblingC.2 := by
  cases ev with
  | enter n =>
    simp only [succC]
    generalize n.firstChildC = r
    obtain ⟨o, w⟩ := r
    cases o <;> rfl
  | leave n =>
    simp only [succC]
    generalize n.nextSiblingC = r
    obtain ⟨o, w⟩ := r
    cases n.eq start with
    | true => rfl
    | false => cases o <;> rfl

theorem Preorder.stepC_of_effective {it it' : Preorder} (h : it.effective = .ok it') : it.stepC
    = .ok ((it'.next, { it' with next := it'.next.bind (Preorder.succ it'.start), skip := false }),
        match it'.next with
        | none => 0
        | some ev => (Preorder.succC it'.start ev).2) := by
  rw [effective] at h
  have key : ∀ x : Preorder, (Res.ok ((x.next, { x with
        next := (match x.next with | none => (none, 0) | some ev => Preorder.succC x.start ev).1,
        skip := false }), (match x.next with
        | none => (none, 0) | some ev => Preorder.succC x.start ev).2) :
          Res ((Option (WalkEvent SNode) × Preorder) × Nat))
      = .ok ((x.next, { x with next := x.next.bind (Preorder.succ x.start), skip := false }),
        match x.next with
        | none => 0
        | some ev => (Preorder.succC x.start ev).2) := by
    intro x
    cases x.next with
    | none => rfl
    | some ev => simp only [Preorder.succC_fst, Option.bind_some]
  rw [stepC]
  cases hs : it.skip with
  | false =>
    simp [hs] at h; subst h
    simp only [Bool.false_eq_true, if_false, Res.ok_bind]
    exact key it
  | true =>
    simp [hs] at h
    simp only [if_true, h, Res.ok_bind]
    exact key it'

/-! ### Slots of positions -/

/-- The children of the element at a position. -/
def Tree.under (T : Tree) (p : List Nat) : List Tree :=
  match T.at? p with
  | some t => t.children
  | none => []

/-- The slots looked at to find the event after `ev`, in a walk that began `d` levels down. -/
def Tree.evCost (T : Tree) (d : Nat) : WalkEvent (List Nat) → Nat
  | .enter p => lookFor Tree.isNode (T.under p)
  | .leave p => if p.length ≤ d then 0 else
      lookFor Tree.isNode ((T.under p.dropLast).drop (p.getLastD 0 + 1))

theorem lookFor_isNode (l : List GChild) :
    lookFor Tree.isNode (l.map fun c => c.asRef.tree) = lookFor (fun c : GChild => c.asRef.asNode.isSome) l := by
  rw [lookFor_map]
  congr 1; funext c
  cases c with
  | node o g => show g.tree.isNode = _; rw [GNode.tree_eq]; rfl
  | token o g => rfl

theorem SNode.under_path {r : Root} {n : SNode} (h : Reach r (.node n)) :
    r.tree.under n.path = n.green.slice.map fun c => c.asRef.tree := by
  have := (C11_contents h).1
  simp only [SElem.path_node] at this
  rw [Tree.under, this]
  show n.green.tree.children = _
  simp [GNode.tree_children, GNode.children, Function.comp_def]

theorem SNode.firstChildC_snd {r : Root} {n : SNode} (h : Reach r (.node n)) :
    n.firstChildC.2 = lookFor Tree.isNode (r.tree.under n.path) := by
  rw [SNode.under_path h, lookFor_isNode, firstChildC, findMapC_snd]
  have := lookFor_fst (fun c : GChild => c.asRef.asNode.isSome) n.green.slice 0 0
  simp only [List.drop_zero] at this
  rw [← this]
  congr 1; funext ⟨c, i⟩; simp

theorem SNode.nextSiblingC_snd {r : Root} {n p : SNode} (h : Reach r (.node n))
    (hp : n.parent = some p) :
    n.nextSiblingC.2 = lookFor Tree.isNode ((r.tree.under p.path).drop (n.index + 1)) := by
  rw [SNode.under_path (Reach.parent h hp), ← List.map_drop, lookFor_isNode, nextSiblingC,
    SElem.nextSiblingC, findMapC_snd, SElem.greenSiblings_eq (e := .node n) hp]
  rw [← lookFor_fst (fun c : GChild => c.asRef.asNode.isSome) p.green.slice (n.index + 1) 0]
  have hp' : SElem.parent (.node n) = some p := hp
  congr 1; funext ⟨c, i⟩
  cases h : c.asRef.asNode <;> simp [hp', h]

mutual
theorem walk_below (skip : List Nat → Bool) : ∀ (t : Tree) (p : List Nat) (ev : WalkEvent (List Nat)),
    ev ∈ Tree.walk Tree.isNode skip t p → ∃ q, ev.elem = p ++ q ∧ (t.at? q).isSome
  | .token _ _, p, ev, h => by
    simp only [Tree.walk, List.mem_cons, List.not_mem_nil, or_false] at h
    rcases h with rfl | rfl <;> exact ⟨[], by simp [WalkEvent.elem], by simp⟩
  | .node k cs, p, ev, h => by
    simp only [Tree.walk, List.mem_cons, List.mem_append, List.not_mem_nil, or_false] at h
    rcases h with rfl | h | rfl
    · exact ⟨[], by simp [WalkEvent.elem], by simp⟩
    · split at h
      · cases h
      · obtain ⟨i, c, q, hc, he, hq⟩ := walks_below skip cs p 0 ev h
        refine ⟨i :: q, ?_, ?_⟩
        · rw [he]; simp
        · rw [Tree.at?_cons]; simp [Tree.children, hc, hq]
    · exact ⟨[], by simp [WalkEvent.elem], by simp⟩
theorem walks_below (skip : List Nat → Bool) : ∀ (cs : List Tree) (p : List Nat) (i : Nat)
    (ev : WalkEvent (List Nat)), ev ∈ Tree.walks Tree.isNode skip cs p i →
    ∃ j c q, cs[j]? = some c ∧ ev.elem = p ++ (i + j) :: q ∧ (c.at? q).isSome
  | [], p, i, ev, h => by simp [Tree.walks] at h
  | c :: cs, p, i, ev, h => by
    rw [Tree.walks, List.mem_append] at h
    rcases h with h | h
    · split at h
      · obtain ⟨q, h1, h2⟩ := walk_below skip c (p ++ [i]) ev h
        exact ⟨0, c, q, rfl, by rw [h1]; simp, h2⟩
      · cases h
    · obtain ⟨j, c', q, h1, h2, h3⟩ := walks_below skip cs p (i + 1) ev h
      exact ⟨j + 1, c', q, by simpa using h1, by rw [h2]; congr 2; omega, h3⟩
end

/-! ### The sum over a walk -/

theorem lookFor_counts (cs : List Tree) : lookFor Tree.isNode cs ≤ Tree.counts cs := by
  induction cs with
  | nil => simp [lookFor]
  | cons c cs ih =>
    have : 1 ≤ c.count := by cases c <;> simp [Tree.count]
    simp only [lookFor, Tree.counts]; split <;> omega

/-- What leaving the child at `p ++ [i]` costs. -/
theorem evCost_leave {T : Tree} {d : Nat} {p : List Nat} {i : Nat} (hd : d ≤ p.length) :
    T.evCost d (.leave (p ++ [i])) = lookFor Tree.isNode ((T.under p).drop (i + 1)) := by
  rw [Tree.evCost, if_neg (by simp; omega), List.dropLast_concat]
  simp

mutual
/-- Inside: the sum over the events of a walk but the last. -/
theorem walk_cost (T : Tree) (d : Nat) (skip : List Nat → Bool) : ∀ (t : Tree) (p : List Nat),
    T.at? p = some t → d ≤ p.length →
    (((Tree.walk Tree.isNode skip t p).map (T.evCost d)).sum + 1
      ≤ t.count + T.evCost d (.leave p)) ∧
    (skip = noSkip → ((Tree.walk Tree.isNode skip t p).map (T.evCost d)).sum + 1
      = t.count + T.evCost d (.leave p))
  | .token _ _, p, h, hd => by
    have : T.evCost d (.enter p) = 0 := by simp [Tree.evCost, Tree.under, h, Tree.children, lookFor]
    simp only [Tree.walk, List.map_cons, List.map_nil, List.sum_cons, List.sum_nil, Tree.count, this]
    exact ⟨by omega, fun _ => by omega⟩
  | .node k cs, p, h, hd => by
    have hu : T.under p = cs := by simp [Tree.under, h, Tree.children]
    have hc : T.evCost d (.enter p) = lookFor Tree.isNode cs := by simp [Tree.evCost, hu]
    have hw := walks_cost T d skip cs p 0 (by simp [hu]) (by simp [hu]) hd
    simp only [Tree.walk, List.map_cons, List.map_append, List.sum_cons, List.sum_append, List.map_nil,
      List.sum_nil, Tree.count, hc]
    refine ⟨?_, ?_⟩
    · split
      · have := lookFor_counts cs
        simp only [List.map_nil, List.sum_nil]; omega
      · omega
    · intro hs
      have := hw.2 hs
      simp only [hs, noSkip, Bool.false_eq_true, if_false] at this ⊢
      omega
theorem walks_cost (T : Tree) (d : Nat) (skip : List Nat → Bool) : ∀ (cs : List Tree) (p : List Nat)
    (i : Nat), (T.under p).drop i = cs → i + cs.length = (T.under p).length → d ≤ p.length →
    (lookFor Tree.isNode cs + ((Tree.walks Tree.isNode skip cs p i).map (T.evCost d)).sum
      ≤ Tree.counts cs) ∧
    (skip = noSkip → lookFor Tree.isNode cs + ((Tree.walks Tree.isNode skip cs p i).map (T.evCost d)).sum
      = Tree.counts cs)
  | [], p, i, _, _, _ => by simp [Tree.walks, lookFor, Tree.counts]
  | c :: cs, p, i, h, hl, hd => by
    have h' : (T.under p).drop (i + 1) = cs := by
      rw [← List.drop_drop, h]; rfl
    have hl' : i + 1 + cs.length = (T.under p).length := by simp at hl; omega
    have hw := walks_cost T d skip cs p (i + 1) h' hl' hd
    have hg : (T.under p)[i]? = some c := by
      have := congrArg (fun l => l[0]?) h
      simpa using this
    cases c with
    | token k x =>
      simp only [Tree.walks, Tree.isNode, Bool.false_eq_true, if_false, List.nil_append, lookFor,
        Tree.counts, Tree.count]
      exact ⟨by omega, fun hs => by have := hw.2 hs; omega⟩
    | node k xs =>
      have hat : T.at? (p ++ [i]) = some (.node k xs) := by
        rw [Tree.at?_append]
        unfold Tree.under at hg
        cases ht : T.at? p with
        | none => simp [ht] at hg
        | some t => simp only [ht] at hg; simp [Tree.at?_cons, hg]
      have hk := walk_cost T d skip (.node k xs) (p ++ [i]) hat (by simp; omega)
      rw [evCost_leave hd, h'] at hk
      simp only [Tree.walks, Tree.isNode, if_true, lookFor, Tree.counts, List.map_append,
        List.sum_append]
      exact ⟨by omega, fun hs => by have := hw.2 hs; have := hk.2 hs; omega⟩
end

theorem sum_take_le (l : List Nat) (k : Nat) : (l.take k).sum ≤ l.sum := by
  conv => rhs; rw [← List.take_append_drop k l, List.sum_append]
  omega

/-! ### Calls and events -/

theorem evCost_call {r : Root} (hcoh : r.green.Coherent) {n : SNode} (h : Reach r (.node n))
    {ev : WalkEvent SNode} (hev : Reach r (.node ev.elem)) {q : List Nat}
    (hq : ev.elem.path = n.path ++ q) :
    (Preorder.succC n ev).2 = r.tree.evCost n.path.length (ev.map SNode.path) := by
  rw [Preorder.succC_snd]
  cases ev with
  | enter m => exact SNode.firstChildC_snd hev
  | leave m =>
    simp only [WalkEvent.elem] at hev hq
    simp only [WalkEvent.map]
    have hv := h.valid
    have hmv := hev.valid
    by_cases hq0 : q = []
    · subst hq0
      rw [List.append_nil] at hq
      have hm : (NodeOrToken.node m : SElem) = .node n :=
        hmv.1.unique hv.1 (hmv.2.trans hv.2.symm) hq
      have hm : m = n := by injection hm
      have : m.eq n = true := by rw [hm]; simp [SNode.eq]
      rw [hm] at this ⊢
      rw [if_pos this, Tree.evCost, if_pos (Nat.le_refl _)]
    · have hne : ¬ (m.eq n = true) := by
        intro he
        obtain ⟨h1, -⟩ := SElem.eq_green hcoh hmv.1 hv.1 hmv.2 hv.2 (a := .node m) (b := .node n) he
        have a1 := (C11_contents hev).1
        have a2 := (C11_contents h).1
        rw [h1] at a1
        simp only [SElem.path_node] at a1 a2
        rw [hq, Tree.at?_append, a2, Option.bind_some] at a1
        have := Tree.sizeOf_at a1 hq0
        exact Nat.lt_irrefl _ this
      rw [if_neg hne]
      cases hp : m.parent with
      | none =>
        cases m with
        | child => simp at hp
        | root =>
          have : n.path ++ q = [] := hq.symm
          simp [hq0] at this
      | some p =>
        have h2 := SElem.Valid.of_parent hmv.1 (e := .node m) hp
        have h3 : m.path = p.path ++ [m.index] := h2.2.2.1
        have hlen : n.path.length ≤ p.path.length := by
          have := congrArg List.length (hq.symm.trans h3)
          have := List.length_pos_iff.mpr hq0
          simp at *
          omega
        rw [h3, evCost_leave hlen, SNode.nextSiblingC_snd hev hp]

theorem Preorder.looked_eq {r : Root} (hcoh : r.green.Coherent) {n : SNode}
    (h : Reach r (.node n)) (skip : List Nat → Bool) {s : Tree} (hs : r.tree.at? n.path = some s)
    (k : Nat) : (Preorder.new n).looked skip k
      = (((Tree.walk Tree.isNode skip s n.path).take k).map (r.tree.evCost n.path.length)).sum := by
  induction k with
  | zero => rfl
  | succ k ih =>
    obtain ⟨it, it', h1, h2, h3, -⟩ := Preorder.drive_inv skip n k
    obtain ⟨o, ho, hm, hr⟩ := C15_skip hcoh h skip hs k
    rw [Preorder.nth, h1, Res.ok_bind, Preorder.step_of_effective h2, Res.ok_bind] at ho
    have ho : it'.next = o := by injection ho
    rw [Preorder.looked, ih, h1]
    simp only [Preorder.stepC_of_effective h2, ho, h3]
    rw [List.take_add_one, ← hm, List.map_append, List.sum_append]
    cases o with
    | none => simp
    | some ev =>
      obtain ⟨q, hq, -⟩ := walk_below skip s n.path (ev.map SNode.path)
        (List.mem_of_getElem? (i := k) hm.symm)
      have : (ev.map SNode.path).elem = ev.elem.path := by cases ev <;> rfl
      rw [this] at hq
      simp [evCost_call hcoh h (hr ev rfl) hq]

/-! ### The child iterator -/

/-- A search among the children of `p` from slot `d` on. -/
theorem scan_found {p : SNode} {d : Nat} (hd : d ≤ p.green.slice.length)
    {f : GChild × Nat → Option SNode} (hf : ∀ x y, f x = some y → y.parent = some p ∧ y.index = x.2) :
    match findMapC f (p.green.slice.zipIdx.drop d) with
    | (some y, w) => y.parent = some p ∧ y.index + 1 = d + w ∧ d + w ≤ p.green.slice.length
    | (none, w) => d + w = p.green.slice.length := by
  have h := findMapC_zipIdx f (p.green.slice.drop d) d
  have hle : (findMapC f (p.green.slice.zipIdx.drop d)).2 ≤ p.green.slice.length - d := by
    rw [findMapC_snd]
    refine Nat.le_trans (lookFor_le ..) ?_
    simp
  rw [← zipIdx_drop] at h
  revert h hle
  generalize findMapC f (p.green.slice.zipIdx.drop d) = r
  obtain ⟨o, w⟩ := r
  cases o with
  | none => intro h _; simp only [List.length_drop] at h ⊢; omega
  | some y =>
    rintro ⟨c, hc, hw⟩ hle
    obtain ⟨h1, h2⟩ := hf _ _ hc
    simp only at h2 hle ⊢
    exact ⟨h1, by omega, by omega⟩

theorem SNode.firstChildC_found (p : SNode) :
    match p.firstChildC with
    | (some y, w) => y.parent = some p ∧ y.index + 1 = w ∧ w ≤ p.green.slice.length
    | (none, w) => w = p.green.slice.length := by
  have := scan_found (p := p) (d := 0) (Nat.zero_le _)
    (f := fun (c, i) => c.asRef.asNode.map fun g => newChild g p i (p.offset + c.relOffset)) (by
      rintro ⟨c, i⟩ y h
      simp only [Option.map_eq_some_iff] at h
      obtain ⟨g, -, rfl⟩ := h
      exact ⟨rfl, rfl⟩)
  simp only [List.drop_zero, Nat.zero_add] at this
  exact this

theorem SNode.toNextSiblingC_found {u : Bool} {p m : SNode} (hp : m.parent = some p)
    (hd : m.index + 1 ≤ p.green.slice.length) :
    match m.toNextSiblingC u with
    | (some y, w) => y.parent = some p ∧ y.index + 1 = m.index + 1 + w ∧
        m.index + 1 + w ≤ p.green.slice.length
    | (none, w) => m.index + 1 + w = p.green.slice.length := by
  have hp' : SElem.parent (.node m) = some p := hp
  rw [toNextSiblingC]
  by_cases hu : (!(u && !m.mutable)) = true
  · rw [if_pos hu, nextSiblingC, SElem.nextSiblingC, SElem.greenSiblings_eq hp']
    refine scan_found hd ?_
    rintro ⟨c, i⟩ y h
    simp only [hp', Option.bind_eq_some_iff] at h
    obtain ⟨g, -, h⟩ := h
    cases h
    exact ⟨rfl, rfl⟩
  · rw [if_neg hu, hp]
    refine scan_found hd ?_
    rintro ⟨c, i⟩ y h
    simp only [Option.map_eq_some_iff] at h
    obtain ⟨g, -, rfl⟩ := h
    exact ⟨rfl, rfl⟩

theorem NodeChildren.looked_eq (u : Nat → Bool) (p : SNode) (k : Nat) :
    (NodeChildren.after u { parent := p } (k + 1)).initialized = true ∧
    (NodeChildren.after u { parent := p } (k + 1)).next = NodeChildren.nth u { parent := p } k ∧
    match NodeChildren.nth u { parent := p } k with
    | some y => y.parent = some p ∧ y.index + 1 = NodeChildren.looked u { parent := p } (k + 1) ∧
        NodeChildren.looked u { parent := p } (k + 1) ≤ p.green.slice.length
    | none => NodeChildren.looked u { parent := p } (k + 1) = p.green.slice.length := by
  induction k with
  | zero =>
    refine ⟨rfl, rfl, ?_⟩
    have h := p.firstChildC_found
    simp only [NodeChildren.nth, NodeChildren.looked, NodeChildren.after, ← NodeChildren.stepC_fst,
      NodeChildren.stepC, Bool.not_false, if_true, Nat.zero_add]
    revert h
    generalize p.firstChildC = r
    obtain ⟨o, w⟩ := r
    cases o <;> exact id
  | succ k ih =>
    obtain ⟨h1, h2, h3⟩ := ih
    refine ⟨rfl, rfl, ?_⟩
    rw [NodeChildren.looked]
    generalize NodeChildren.looked u { parent := p } (k + 1) = L at h3 ⊢
    rw [NodeChildren.nth, ← NodeChildren.stepC_fst]
    simp only [NodeChildren.stepC, h1, Bool.not_true, Bool.false_eq_true, if_false, h2]
    generalize NodeChildren.nth u { parent := p } k = o at h3 ⊢
    cases o with
    | none => exact h3
    | some m =>
      simp only at h3 ⊢
      have h := SNode.toNextSiblingC_found (u := u (k + 1)) h3.1 (by omega)
      revert h
      generalize m.toNextSiblingC (u (k + 1)) = r
      obtain ⟨o, w⟩ := r
      cases o with
      | none => intro h; simp only at h ⊢; omega
      | some y => rintro ⟨h, h', h''⟩; exact ⟨h, by simp only; omega, by simp only; omega⟩

end Rowan
