import Verif.TraverseText
/-!
# Clients that collect everything

Unless their comments cite lines of `/repo`, the definitions in this file are vocabulary of the proofs and model no code.
-/
namespace Rowan

namespace RProg
theorem GotL.perm {F F' : List (Nat × SElem)} (hf : F.Perm F') : ∀ {as : List Nat} {bs : List SElem} {L : List (Nat × SElem)},
    GotL F as bs L → GotL F' as bs L
  | [], [], _, h => h.trans hf
  | _ :: _, _ :: _, _, ⟨G, h1, h2⟩ => ⟨G, h1, h2.perm hf⟩
  | [], _ :: _, _, h => h.elim
  | _ :: _, [], _, h => h.elim

theorem GotL.under {F : List (Nat × SElem)} {x : Nat × SElem} : ∀ {as : List Nat} {bs : List SElem}
    {L : List (Nat × SElem)}, GotL (x :: F) as bs L → ∃ F', L.Perm (x :: F') ∧ GotL F as bs F'
  | [], [], _, h => ⟨F, h, .refl _⟩
  | a :: _, b :: _, _, ⟨G, h1, h2⟩ => by
    obtain ⟨F', h3, h4⟩ := h2.under
    exact ⟨(a, b) :: F', (h1.trans (h3.cons _)).trans (.swap ..), F', .refl _, h4⟩
  | [], _ :: _, _, h => h.elim
  | _ :: _, [], _, h => h.elim
end RProg

namespace Prog
open RProg
variable {L F : List (Nat × SElem)} {h : Nat} {e : SElem}

theorem GotE.split {ev : WalkEvent Nat} {z : WalkEvent SElem} (hg : GotE F (some ev) (some z) L) :
    ∃ i x, L.Perm ((i, x) :: F) ∧ ∀ {F' L' : List (Nat × SElem)}, L'.Perm ((i, x) :: F') → GotE F' (some ev) (some z) L' := by
  cases ev <;> cases z <;> first | exact hg.elim | exact ⟨_, _, hg, fun h => h⟩

theorem GotEs.under {x : Nat × SElem} : ∀ {as : List (WalkEvent Nat)} {bs : List (WalkEvent SElem)}
    {L : List (Nat × SElem)}, GotEs (x :: F) as bs L → ∃ F', L.Perm (x :: F') ∧ GotEs F as bs F'
  | [], [], _, h => ⟨F, h, .refl _⟩
  | a :: _, b :: _, _, ⟨G, h1, h2⟩ => by
    obtain ⟨F', h3, h4⟩ := GotEs.under h2
    obtain ⟨i, z, h5, h6⟩ := GotE.split h1
    exact ⟨(i, z) :: F', (h5.trans (h3.cons _)).trans (.swap ..), F', h6 (.refl _), h4⟩
  | [], _ :: _, _, h => h.elim
  | _ :: _, [], _, h => h.elim

theorem GotEs.perm {F' : List (Nat × SElem)} (hf : F.Perm F') : ∀ {as : List (WalkEvent Nat)}
    {bs : List (WalkEvent SElem)} {L : List (Nat × SElem)}, GotEs F as bs L → GotEs F' as bs L
  | [], [], _, h => h.trans hf
  | _ :: _, _ :: _, _, ⟨G, h1, h2⟩ => ⟨G, h1, GotEs.perm hf h2⟩
  | [], _ :: _, _, h => h.elim
  | _ :: _, [], _, h => h.elim

theorem kidsAll_comp {nodes : Bool} : ∀ (k : Nat) {it : Kids} {p : SNode} {nx : Option SElem}
    {xs : List SElem} {L F : List (Nat × SElem)}, it.Holds p nx F L → (it.initialized = false → nx = none) →
    Yields nodes p nx it.initialized xs → xs.length < k →
    Comp (kidsAll nodes k it) L (.ok xs) (GotL F) := by
  intro k
  induction k with
  | zero => intro it p nx xs L F _ _ _ hk; omega
  | succ k ih =>
    intro it p nx xs L F hh h0 hy hk
    rw [kidsAll]
    refine .step (kidsNext_comp hh h0) fun x L' hq => ?_
    obtain ⟨a, it'⟩ := x
    obtain ⟨hi, F', hg, hh'⟩ := hq
    cases xs with
    | nil =>
      rw [show kidsVal nodes p nx it.initialized = none from hy] at hg hh'
      obtain ⟨rfl, -, h2⟩ | ⟨_, _, _, h, _⟩ := hg.cases
      · exact kidsDrop_comp hh' (.pure h2)
      · cases h
    | cons x xs =>
      rw [hy.1] at hg hh'
      obtain ⟨_, h, _⟩ | ⟨c, z, rfl, h, h2⟩ := hg.cases
      · cases h
      cases h
      refine .step (ih hh' (by rw [hi]; nofun) (by rw [hi]; exact hy.2) (by simpa using hk)) fun cs L2 hq => ?_
      obtain ⟨F2, h3, h4⟩ := (hq.perm h2).under
      exact .pure ⟨F2, h3, h4⟩

/-- The iterates. -/
def Iterates (f : SElem → Option SElem) : Option SElem → List SElem → Prop
  | none, [] => True
  | some x, y :: ys => x = y ∧ Iterates f (f x) ys
  | _, _ => False

theorem succAll_comp {f : Nav} : ∀ (k : Nat) {st : Option Nat} {v : Option SElem} {xs : List SElem}
    {L F : List (Nat × SElem)}, Got F st v L → Iterates f.on v xs → (∀ z ∈ xs, f.fits z = true) → xs.length < k →
    Comp (succAll f k st) L (.ok xs) (GotL F) := by
  intro k
  induction k with
  | zero => intro st v xs L F _ _ _ hk; omega
  | succ k ih =>
    intro st v xs L F hg hit hf hk
    rw [succAll]
    refine .step (succNext_comp hg fun z hz => ?_) fun x L' hq => ?_
    · subst hz
      cases xs with
      | nil => exact hit.elim
      | cons y ys => rw [hit.1]; exact hf y (List.mem_cons_self ..)
    · obtain ⟨a, st'⟩ := x
      obtain ⟨F', h1, h2⟩ := hq
      cases v with
      | none =>
        cases xs with
        | cons => exact hit.elim
        | nil =>
          obtain ⟨rfl, -, h3⟩ | ⟨_, _, _, h, _⟩ := h1.cases
          · obtain ⟨rfl, -, h4⟩ | ⟨_, _, _, h, _⟩ := h2.cases
            · exact .pure (h4.trans h3)
            · cases h
          · cases h
      | some y =>
        cases xs with
        | nil => exact hit.elim
        | cons x xs =>
          obtain ⟨rfl, hit⟩ := hit
          obtain ⟨_, h, _⟩ | ⟨c, z, rfl, h, h3⟩ := h1.cases
          · cases h
          cases h
          refine .step (ih h2 hit (fun z hz => hf z (List.mem_cons_of_mem _ hz)) (by simpa using hk)) fun cs L2 hq => ?_
          obtain ⟨F2, h4, h5⟩ := (hq.perm h3).under
          exact .pure ⟨F2, h4, h5⟩

theorem castAll_comp {can : SyntaxKind → Bool} {m : Nat} : ∀ (k : Nat) {it : Kids} {p : SNode} {nx : Option SElem}
    {xs : List SElem} {L F : List (Nat × SElem)}, it.Holds p nx F L → (it.initialized = false → nx = none) →
    Yields true p nx it.initialized xs → xs.length < m → (xs.filter fun e => can e.kind).length < k →
    Comp (castAll can m k it) L (.ok (xs.filter fun e => can e.kind)) (GotL F) := by
  intro k
  induction k with
  | zero => intro it p nx xs L F _ _ _ _ hk; omega
  | succ k ih =>
    intro it p nx xs L F hh h0 hy hm hk
    rw [castAll]
    refine .step (castNext_comp m hh h0 hy hm) fun x L1 hq => ?_
    obtain ⟨a, it'⟩ := x
    obtain ⟨hi, F', nx', xs', hg, hh', hy', hle, htail⟩ := hq
    rcases hg.cases with ⟨rfl, h1, h2⟩ | ⟨i, z, rfl, h1, h2⟩
    · rw [List.head?_eq_none_iff] at h1
      rw [h1]
      exact kidsDrop_comp hh' (.pure h2)
    · obtain ⟨tl, htl⟩ := List.head?_eq_some_iff.mp h1
      rw [htl] at htail hk ⊢
      simp only [List.tail_cons] at htail
      have := ih hh' (by rw [hi]; nofun) (by rw [hi]; exact hy') (by omega) (by rw [htail]; simp at hk; omega)
      rw [htail] at this
      refine .step this fun cs L2 hq => ?_
      obtain ⟨F2, h3, h4⟩ := GotL.under (hq.perm h2)
      exact .pure ⟨F2, h3, h4⟩

/-- The remaining events. -/
def walkVals (nodes : Bool) (sk : SyntaxKind → TextRange → Bool) : Nat → PreorderT → Res (List (WalkEvent SElem))
  | 0, _ => .diverge
  | k + 1, v => do
    match ← walkStep nodes v with
    | (none, _) => .ok []
    | (some (.leave e), v) => do
      let evs ← walkVals nodes sk k v
      .ok (.leave e :: evs)
    | (some (.enter e), v) => do
      let evs ← walkVals nodes sk k (if sk e.kind e.textRange then v.skipSubtree else v)
      .ok (.enter e :: evs)

theorem Walk.Holds.keeps {it : Walk} {v : PreorderT} (h : it.Holds v F L) {x : Nat × SElem} (hx : x ∈ F) : x ∈ L := by
  obtain ⟨_, K, h1, h2⟩ := h
  refine h1.mem_iff.mpr (List.mem_cons_of_mem _ ?_)
  rcases h2.cases with ⟨-, -, h3⟩ | ⟨i, z, -, -, h3⟩ | ⟨i, z, -, -, h3⟩
  · exact h3.mem_iff.mpr hx
  · exact h3.mem_iff.mpr (List.mem_cons_of_mem _ hx)
  · exact h3.mem_iff.mpr (List.mem_cons_of_mem _ hx)

theorem walkAll_comp {nodes : Bool} {sk : SyntaxKind → TextRange → Bool} : ∀ (k : Nat) {it : Walk} {v : PreorderT}
    {L F : List (Nat × SElem)}, it.Holds v F L → Comp (walkAll nodes sk k it) L (walkVals nodes sk k v) (GotEs F) := by
  intro k
  induction k with
  | zero => intro it v L F _; exact .diverge
  | succ k ih =>
    intro it v L F hh
    rw [walkAll, walkVals]
    refine .bind (walkNext_comp hh) fun x y L1 _ hq => ?_
    obtain ⟨a, it'⟩ := x
    obtain ⟨b, v'⟩ := y
    obtain ⟨F', hg, hh'⟩ := hq
    rcases hg.cases with ⟨rfl, rfl, h1⟩ | ⟨i, z, rfl, rfl, h1⟩ | ⟨i, z, rfl, rfl, h1⟩
    · exact walkDrop_comp hh' (.pure h1)
    · have hm : (i, z) ∈ L1 := Walk.Holds.keeps hh' (h1.mem_iff.mpr (List.mem_cons_self ..))
      refine .look hm ?_
      have hh2 : (if sk z.kind z.textRange then it'.skipSubtree else it').Holds
          (if sk z.kind z.textRange then v'.skipSubtree else v') F' L1 := by
        cases sk z.kind z.textRange with
        | true => exact ⟨rfl, hh'.2⟩
        | false => exact hh'
      refine .bind (ih hh2) fun evs zs L2 _ hq => ?_
      obtain ⟨F2, h3, h4⟩ := GotEs.under (GotEs.perm h1 hq)
      exact .pure ⟨F2, h3, h4⟩
    · refine .bind (ih hh') fun evs zs L2 _ hq => ?_
      obtain ⟨F2, h3, h4⟩ := GotEs.under (GotEs.perm h1 hq)
      exact .pure ⟨F2, h3, h4⟩

/-! ### What they collect -/

theorem iterates_ancestors (n : SNode) : Iterates Nav.parent.on (some (.node n)) (n.ancestors.map .node) := by
  induction n with
  | root m i g => exact ⟨rfl, trivial⟩
  | child p i o g ih => exact ⟨rfl, ih⟩

theorem iterates_token_ancestors (t : SToken) : Iterates Nav.parent.on (t.parent.map .node) (t.ancestors.map .node) := by
  cases t with
  | root m i g => trivial
  | child p i o g => exact iterates_ancestors p

/-- The remaining children. -/
theorem iterates_next (nodes : Bool) (n : SNode) : ∀ (xs : List SElem) (j : Nat) (e : SElem), n.kids[j]? = some e →
    (n.kids.drop (j + 1)).filter (fun e => !nodes || e.isNode) = xs →
    Iterates (if nodes then Nav.nextSibling else .nextSiblingOrToken).on (some e) (e :: xs) := by
  have hon : (if nodes then Nav.nextSibling else .nextSiblingOrToken).on = fun e => e.nextOf nodes := by
    cases nodes <;> rfl
  rw [hon]
  intro xs
  induction xs with
  | nil =>
    intro j e hj hd
    refine ⟨rfl, ?_⟩
    simp only [kid_nextOf hj, hd]
    trivial
  | cons x xs ih =>
    intro j e hj hd
    refine ⟨rfl, ?_⟩
    simp only [kid_nextOf hj, hd]
    obtain ⟨l1, l2, h1, h2, h3, h4⟩ := List.filter_eq_cons_iff.mp hd
    refine ih (j + 1 + l1.length) x ?_ ?_
    · have := congrArg (·[l1.length]?) h1
      simpa [List.getElem?_drop] using this
    · have := congrArg (List.drop (l1.length + 1)) h1
      rw [List.drop_drop, drop_past] at this
      rw [show j + 1 + l1.length + 1 = j + 1 + (l1.length + 1) by omega, this]
      exact h4

theorem head_filter_map {n : SNode} (nodes : Bool) : (if nodes then n.firstChild.map .node else n.firstChildOrToken : Option SElem) =
    (n.kids.filter fun e => !nodes || e.isNode).head? := by
  cases nodes with
  | true =>
    simp only [if_true, SNode.firstChild_eq, Bool.not_true, Bool.false_or]
    exact asNode_findSome _
  | false =>
    rw [List.filter_eq_self.mpr (by simp)]
    exact SNode.firstChildOrToken_eq ..

theorem walkVal_eq (nodes : Bool) (start : SElem) (ev : WalkEvent SElem) :
    walkVal nodes start ev = gsucc (fun e => !nodes || e.isNode) start ev := by
  cases ev with
  | enter e =>
    cases e with
    | token t => rfl
    | node n =>
      simp only [walkVal, gsucc, SElem.kidsSel]
      rw [head_filter_map]
      cases (n.kids.filter fun e => !nodes || e.isNode).head? <;> rfl
  | leave e =>
    have : e.nextOf nodes = e.nextSel fun e => !nodes || e.isNode := by
      rw [SElem.nextSel]
      cases hp : e.parent with
      | none => cases nodes <;> simp [SElem.nextOf, SElem.nextSibling_root hp, SElem.nextSiblingOrToken_root hp]
      | some p =>
        cases nodes with
        | true =>
          simp only [SElem.nextOf, if_true, SElem.nextSibling_eq hp, Bool.not_true, Bool.false_or]
          exact asNode_findSome _
        | false =>
          simp only [SElem.nextOf, Bool.false_eq_true, if_false]
          rw [List.filter_eq_self.mpr (by simp), List.head?_drop]
          exact SElem.nextSiblingOrToken_eq hp
    simp only [walkVal, gsucc, this]
    split
    · rfl
    · cases e.nextSel fun e => !nodes || e.isNode <;> rfl

theorem walkVals_drop {nodes : Bool} {sk : SyntaxKind → TextRange → Bool} {skip : List Nat → Bool} {E : List (WalkEvent SElem)}
    {start : SElem} (hE : ∀ k : Nat, (E[k]?).bind (gnext (fun e => !nodes || e.isNode) skip start) = E[k + 1]?)
    (hs : ∀ e, .enter e ∈ E → skip e.path = sk e.kind e.textRange) :
    ∀ (m j : Nat) (v v' : PreorderT), walkPrep v = .ok v' → v'.start = start → v'.next = E[j]? →
      j ≤ E.length → E.length < j + m → walkVals nodes sk m v = .ok (E.drop j) := by
  intro m
  induction m with
  | zero => intro j v _ _ _ _ _ hm; omega
  | succ m ih =>
    intro j v v' h1 h2 h3 hle hm
    rw [walkVals, walkStep, h1]
    have hn := hE j
    cases hj : E[j]? with
    | none =>
      rw [hj] at h3
      simp [h3]
      simpa using hj
    | some ev =>
      rw [hj] at h3 hn
      have hlt := (List.getElem?_eq_some_iff.mp hj).1
      simp only [Res.ok_bind, h3]
      cases ev with
      | leave e =>
        have := ih (j + 1) { start := v'.start, next := (some (.leave e)).bind (walkVal nodes v'.start) } _ rfl h2
          (by rw [h2]; simp only [Option.bind_some, walkVal_eq]; exact hn) hlt (by omega)
        show (do let evs ← walkVals nodes sk m _; Res.ok (WalkEvent.leave e :: evs)) = _
        rw [this]
        simp [drop_cons_of_getElem? hj]
      | enter e =>
        have hse := hs e (List.mem_of_getElem? hj)
        simp only [Option.bind_some, gnext] at hn
        cases hk : sk e.kind e.textRange with
        | false =>
          rw [hse, hk] at hn
          simp only [Bool.false_eq_true, if_false, hk] at hn ⊢
          have := ih (j + 1) { start := v'.start, next := (some (.enter e)).bind (walkVal nodes v'.start) } _ rfl h2
            (by rw [h2]; simp only [Option.bind_some, walkVal_eq]; exact hn) hlt (by omega)
          rw [this]
          simp [drop_cons_of_getElem? hj]
        | true =>
          rw [hse, hk] at hn
          simp only [if_true, hk] at hn ⊢
          have hp : walkPrep (PreorderT.skipSubtree { start := v'.start, next := (some (.enter e)).bind (walkVal nodes v'.start) }) =
              .ok { start := v'.start, next := some (.leave e), skip := true } := by
            simp only [walkPrep, PreorderT.skipSubtree, if_true, Option.bind_some, walkVal_eq, PreorderT.doSkip, gsucc]
            cases hc : (e.kidsSel fun e => !nodes || e.isNode).head? with
            | none => rfl
            | some c =>
              obtain ⟨m, rfl, hp⟩ := kidsSel_head_parent hc
              simp only [hp, Res.ofOption_some, Res.ok_bind]
          have := ih (j + 1) _ _ hp h2 hn hlt (by omega)
          rw [this]
          simp [drop_cons_of_getElem? hj]

theorem walkVals_eq {nodes : Bool} {sk : SyntaxKind → TextRange → Bool} {skip : List Nat → Bool} {r : Root}
    (hcoh : r.green.Coherent) {e : SElem} (h : Reach r e) (hs : ∀ x, Reach r x → skip x.path = sk x.kind x.textRange)
    {k : Nat} (hk : (evs (fun e => !nodes || e.isNode) skip e).length < k) :
    walkVals nodes sk k { start := e, next := some (.enter e) } = .ok (evs (fun e => !nodes || e.isNode) skip e) := by
  obtain ⟨hv, hr⟩ := h.valid
  have hrun := walk_run hcoh (fun e => !nodes || e.isNode) skip e hv hr
  have := walkVals_drop (nodes := nodes) (sk := sk) (skip := skip) (E := evs (fun e => !nodes || e.isNode) skip e) (start := e)
    (fun k => by rw [← hrun k, ← hrun (k + 1), successors])
    (fun x hx => hs x (evs_reach hcoh h hx))
    k 0 { start := e, next := some (.enter e) } _ rfl rfl (by rw [← hrun 0]; rfl) (Nat.zero_le _) (by omega)
  simpa using this

end Prog
end Rowan
