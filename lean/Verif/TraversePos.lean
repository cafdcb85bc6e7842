import Verif.TraverseKids
import Verif.Props.SyntaxText
/-!
# Position queries, pointers, text and replacing on snapshots

Unless their comments cite lines of `/repo`, the definitions in this file are vocabulary of the proofs and model no code.
-/
namespace Rowan
namespace Prog
open RProg
variable {L F : List (Nat × SElem)} {h : Nat} {e : SElem}

/-! ### Ranges -/

theorem childAt_of_range {bs : BinarySearch} {n : SNode} {rel : TextRange} {i o : Nat} {g : GElem}
    (hc : n.green.childAtRange bs rel = some (i, o, g)) : n.childAt i = some (SElem.new g n i (n.offset + o)) := by
  simp only [GNode.childAtRange, Option.bind_eq_bind, Option.bind_eq_some_iff] at hc
  obtain ⟨c, h1, h2⟩ := hc
  cases h2
  rw [SNode.childAt]
  have := Option.filter_eq_some_iff.mp h1
  rw [this.1]
  rfl

theorem childAtRange_comp {bs : BinarySearch} {range : TextRange} {n : SNode} (hm : (h, .node n) ∈ L) :
    Comp (childAtRange bs range h) L (n.childOrTokenAtRange bs range) (Got L) := by
  rw [childAtRange, SNode.childOrTokenAtRange]
  refine .look hm ?_
  have e1 : (SElem.obs (.node n)).range.start = n.offset := rfl
  simp only [e1]
  simp only [SElem.obs, SElem.green]
  cases range.sub? n.offset with
  | none => exact .panic
  | some rel =>
    show Comp (match n.green.childAtRange bs rel with
      | none => Pure.pure none
      | some (i, _, _) => nav (.childAt i) h) L (.ok ((n.green.childAtRange bs rel).map fun (i, o, g) =>
        SElem.new g n i (n.offset + o))) (Got L)
    cases hc : n.green.childAtRange bs rel with
    | none => exact .pure (.none (.refl _))
    | some x =>
      obtain ⟨i, o, g⟩ := x
      have := nav_comp (f := .childAt i) hm rfl
      rw [show (Nav.childAt i).on (.node n) = some (SElem.new g n i (n.offset + o)) from childAt_of_range hc] at this
      exact this

theorem coverLoop_comp {bs : BinarySearch} {range : TextRange} : ∀ (k : Nat) {h : Nat} {e : SElem}
    {L F : List (Nat × SElem)}, L.Perm ((h, e) :: F) →
    Comp (coverLoop bs range k h) L (Rowan.coverLoop bs range k e) fun a b L' => L'.Perm ((a, b) :: F) := by
  intro k
  induction k with
  | zero => intro h e L F _; exact .diverge
  | succ k ih =>
    intro h e L F hl
    have hm : (h, e) ∈ L := hl.mem_iff.mpr (List.mem_cons_self ..)
    rw [coverLoop, Rowan.coverLoop.eq_def]
    refine .look hm ?_
    refine .ite (c := !e.textRange.containsRange range) (fun _ => .panic) fun _ => ?_
    cases e with
    | token t => exact .pure hl
    | node n =>
      refine .bind (childAtRange_comp hm) fun a b L' _ hg => ?_
      rcases hg.cases with ⟨rfl, rfl, h2⟩ | ⟨i, z, rfl, rfl, h2⟩
      · exact .pure (h2.trans hl)
      · exact .drop (e := .node n) (F := (i, z) :: F) (by perms h2 hl) (ih (.refl _))

theorem coveringElement_comp {bs : BinarySearch} {range : TextRange} (k : Nat) (hm : (h, e) ∈ L) :
    Comp (coveringElement bs range k h) L (Rowan.coverLoop bs range k e) fun a b L' => L'.Perm ((a, b) :: L) :=
  .clone hm fun _ => coverLoop_comp k (.refl _)

/-! ### `children_with_tokens().filter(…)` -/

/-- The iterator will yield `xs`. -/
def Yields (nodes : Bool) (p : SNode) (nx : Option SElem) (initialized : Bool) : List SElem → Prop
  | [] => kidsVal nodes p nx initialized = none
  | x :: xs => kidsVal nodes p nx initialized = some x ∧ Yields nodes p (some x) true xs

/-- The children that the iterator is for. -/
def kidsOf (nodes : Bool) (n : SNode) : List SElem := n.kids.filter fun e => !nodes || e.isNode

theorem asNode_findSome (l : List SElem) :
    (l.findSome? NodeOrToken.asNode).map (NodeOrToken.node (T := SToken)) = (l.filter fun e => e.isNode).head? := by
  induction l with
  | nil => rfl
  | cons e l ih =>
    cases e with
    | node n => rfl
    | token t => exact ih

theorem drop_past {α : Type} (l1 l2 : List α) (x : α) : (l1 ++ x :: l2).drop (l1.length + 1) = l2 := by
  induction l1 with
  | nil => rfl
  | cons y l1 ih => exact ih

theorem kid_nextOf {nodes : Bool} {n : SNode} {j : Nat} {e : SElem} (hj : n.kids[j]? = some e) :
    e.nextOf nodes = ((n.kids.drop (j + 1)).filter fun e => !nodes || e.isNode).head? := by
  have hpar : e.parent = some n ∧ e.index = j := by
    rw [SNode.kids_getElem?] at hj
    cases hc : n.green.slice[j]? with
    | none => simp [hc] at hj
    | some c => simp [hc] at hj; subst hj; simp
  cases nodes with
  | true =>
    simp only [SElem.nextOf, if_true, SElem.nextSibling_eq hpar.1, hpar.2, Bool.not_true, Bool.false_or]
    exact asNode_findSome _
  | false =>
    rw [List.filter_eq_self.mpr (by simp), List.head?_drop, ← hpar.2]
    exact SElem.nextSiblingOrToken_eq hpar.1

theorem yields_kids (nodes : Bool) (n : SNode) : Yields nodes n none false (kidsOf nodes n) := by
  have key : ∀ (xs : List SElem) (j : Nat) (e : SElem), n.kids[j]? = some e →
      (n.kids.drop (j + 1)).filter (fun e => !nodes || e.isNode) = xs → Yields nodes n (some e) true xs := by
    intro xs
    induction xs with
    | nil =>
      intro j e hj hd
      show (some e).bind (·.nextOf nodes) = none
      rw [Option.bind_some, kid_nextOf hj, hd]; rfl
    | cons x xs ih =>
      intro j e hj hd
      refine ⟨?_, ?_⟩
      · show (some e).bind (·.nextOf nodes) = some x
        rw [Option.bind_some, kid_nextOf hj, hd]; rfl
      · obtain ⟨l1, l2, h1, h2, h3, h4⟩ := List.filter_eq_cons_iff.mp hd
        refine ih (j + 1 + l1.length) x ?_ ?_
        · have := congrArg (·[l1.length]?) h1
          simpa [List.getElem?_drop] using this
        · have := congrArg (List.drop (l1.length + 1)) h1
          rw [List.drop_drop, drop_past] at this
          rw [show j + 1 + l1.length + 1 = j + 1 + (l1.length + 1) by omega, this]
          exact h4
  have h0 : kidsVal nodes n none false = (kidsOf nodes n).head? := by
    cases nodes with
    | true =>
      simp only [kidsVal, kidsOf, Bool.not_false, if_true, SNode.firstChild_eq, Bool.not_true, Bool.false_or]
      exact asNode_findSome _
    | false =>
      rw [kidsOf, List.filter_eq_self.mpr (by simp)]
      exact SNode.firstChildOrToken_eq ..
  cases hx : kidsOf nodes n with
  | nil => rw [hx] at h0; exact h0
  | cons x xs =>
    rw [hx] at h0
    refine ⟨h0, ?_⟩
    obtain ⟨l1, l2, h1, h2, h3, h4⟩ := List.filter_eq_cons_iff.mp hx
    refine key xs l1.length x ?_ ?_
    · rw [h1]; simp
    · rw [h1, drop_past]; exact h4

theorem filterNext_comp {pred : Obs → Bool} : ∀ (k : Nat) {it : Kids} {p : SNode} {nx : Option SElem}
    {xs : List SElem} {L F : List (Nat × SElem)}, it.Holds p nx F L → (it.initialized = false → nx = none) →
    Yields false p nx it.initialized xs → xs.length < k →
    Comp (filterNext pred k it) L (.ok (xs.filter fun e => pred e.obs).head?) fun (a, it') b L' =>
      it'.initialized = true ∧ ∃ F' nx' xs', Got F a b F' ∧ it'.Holds p nx' F' L' ∧ Yields false p nx' true xs' ∧
        xs'.length ≤ xs.length ∧ (xs'.filter fun e => pred e.obs) = (xs.filter fun e => pred e.obs).tail := by
  intro k
  induction k with
  | zero => intro it p nx xs L F _ _ _ hk; omega
  | succ k ih =>
    intro it p nx xs L F hh h0 hy hk
    rw [filterNext]
    refine .step (kidsNext_comp hh h0) fun x L' hq => ?_
    obtain ⟨a, it'⟩ := x
    obtain ⟨hi, F', hg, hh'⟩ := hq
    cases xs with
    | nil =>
      rw [show kidsVal false p nx it.initialized = none from hy] at hg hh'
      obtain ⟨rfl, -, h2⟩ | ⟨_, _, _, h, _⟩ := hg.cases
      · exact .pure ⟨hi, F', none, [], h2, hh', rfl, Nat.le_refl _, rfl⟩
      · cases h
    | cons x xs =>
      rw [hy.1] at hg hh'
      obtain ⟨_, h, _⟩ | ⟨c, z, rfl, h, h2⟩ := hg.cases
      · cases h
      cases h
      have hhF : ∃ K, L'.Perm ((c, x) :: K) ∧ it'.Holds p (some x) F K := by
        obtain ⟨q, K, h3, h4⟩ := hh'
        obtain ⟨K', h5, h6⟩ := (h4.perm h2 (.refl _)).under
        exact ⟨(it'.parent, .node p) :: K', by perms h3 h5, q, K', .refl _, h6⟩
      obtain ⟨K, hK, hhK⟩ := hhF
      refine .look (hK.mem_iff.mpr (List.mem_cons_self ..)) ?_
      cases hp : pred x.obs with
      | true =>
        simp only [if_true]
        rw [List.filter_cons_of_pos (by simpa using hp)]
        exact .pure ⟨hi, F', some x, xs, h2, hh', hy.2, by simp, rfl⟩
      | false =>
        simp only [Bool.false_eq_true, if_false]
        rw [List.filter_cons_of_neg (by simpa using hp)]
        refine .drop hK ?_
        refine (ih hhK (by rw [hi]; nofun) (by rw [hi]; exact hy.2) (by simpa using hk)).mono fun a b L2 _ hq => ?_
        obtain ⟨q1, F2, nx', xs', q2, q3, q4, q5, q6⟩ := hq
        exact ⟨q1, F2, nx', xs', q2, q3, q4, by simp; omega, q6⟩

/-! ### `token_at_offset` -/

theorem GotT.under {a : TokenAtOffset Nat} {b : TokenAtOffset SToken} {x : Nat × SElem} (h : GotT (x :: F) a b L) :
    ∃ F', L.Perm (x :: F') ∧ GotT F a b F' := by
  cases a <;> cases b <;> try exact h.elim
  · exact ⟨F, h, .refl _⟩
  · exact ⟨_ :: F, h.trans (.swap ..), .refl _⟩
  · rename_i i j t u
    refine ⟨(i, .token t) :: (j, .token u) :: F, ?_, .refl _⟩
    have h : L.Perm ((i, .token t) :: (j, .token u) :: x :: F) := h
    perms h

theorem GotT.perm {a : TokenAtOffset Nat} {b : TokenAtOffset SToken} {F' L' : List (Nat × SElem)} (h : GotT F a b L)
    (hf : F.Perm F') (hl : L'.Perm L) : GotT F' a b L' := by
  cases a <;> cases b <;> try exact h.elim
  · exact (hl.trans h).trans hf
  · exact (hl.trans h).trans (hf.cons _)
  · exact (hl.trans h).trans ((hf.cons _).cons _)

/-- The iterator is at the bottom of what is held. -/
theorem GotT.holds {a : TokenAtOffset Nat} {b : TokenAtOffset SToken} {it : Kids} {p : SNode} {nx : Option SElem}
    {M : List (Nat × SElem)} (h : GotT M a b L) (hh : it.Holds p nx F M) : ∃ F', it.Holds p nx F' L ∧ GotT F a b F' := by
  obtain ⟨q, K, h1, h2⟩ := hh
  obtain ⟨K1, h3, h4⟩ := (h.perm h1 (.refl _)).under
  rcases h2.cases with ⟨e1, rfl, h5⟩ | ⟨i, z, e1, rfl, h5⟩
  · exact ⟨K1, ⟨q, K1, h3, by rw [e1]; exact .none (.refl _)⟩, h4.perm h5 (.refl _)⟩
  · obtain ⟨K2, h6, h7⟩ := (h4.perm h5 (.refl _)).under
    exact ⟨K2, ⟨q, K1, h3, by rw [e1]; exact .some h6⟩, h7⟩

theorem tokenAtOffset_comp (o : Nat) : ∀ (k : Nat) {h : Nat} {e : SElem} {L : List (Nat × SElem)}, (h, e) ∈ L →
    Comp (tokenAtOffset o k h) L (tokenAtOffsetLoop o k e) (GotT L) := by
  intro k
  induction k with
  | zero => intro h e L _; exact .diverge
  | succ k ih =>
    intro h e L hm
    rw [tokenAtOffset, tokenAtOffsetLoop.eq_def]
    refine .look hm ?_
    refine .ite (c := !(decide (e.textRange.start ≤ o) && decide (o ≤ e.textRange.stop))) (fun _ => .panic) fun _ => ?_
    cases e with
    | token t => exact .clone hm fun i => .pure (.refl _)
    | node n =>
      refine .ite (c := n.textRange.isEmpty) (fun _ => .pure (.refl _)) fun _ => ?_
      rw [SNode.childrenWithTokens_eq]
      have hfil : (n.kids.filter fun c => !c.textRange.isEmpty &&
          (decide (c.textRange.start ≤ o) && decide (o ≤ c.textRange.stop))) =
          n.kids.filter fun c => touches o c.obs := rfl
      simp only [hfil]
      have hlen : n.kids.length < n.green.slice.length + 1 := by simp
      refine kids_comp hm fun it0 L0 hh0 hi0 => ?_
      have hy := yields_kids false n
      rw [show kidsOf false n = n.kids from List.filter_eq_self.mpr (by simp)] at hy
      refine .step (filterNext_comp (pred := touches o) _ hh0 (fun _ => rfl) (by rw [hi0]; exact hy) hlen)
        fun x L1 hq => ?_
      obtain ⟨left, it1⟩ := x
      obtain ⟨hi1, F1, nx1, xs1, g1, hh1, hy1, hl1, hf1⟩ := hq
      simp only
      cases hc : n.kids.filter fun c => touches o c.obs with
      | nil =>
        rw [hc] at g1
        obtain ⟨rfl, -, -⟩ | ⟨_, _, _, h, _⟩ := g1.cases
        · exact .panic
        · cases h
      | cons l rest =>
        rw [hc] at g1 hf1
        obtain ⟨_, h, _⟩ | ⟨li, z, rfl, h, p1⟩ := g1.cases
        · cases h
        cases h
        simp only
        refine .step (filterNext_comp (pred := touches o) _ hh1 (by rw [hi1]; nofun) (by rw [hi1]; exact hy1) (by omega))
          fun x L2 hq => ?_
        obtain ⟨right, it2⟩ := x
        obtain ⟨hi2, F2, nx2, xs2, g2, hh2, hy2, hl2, hf2⟩ := hq
        refine .step (filterNext_comp (pred := touches o) _ hh2 (by rw [hi2]; nofun) (by rw [hi2]; exact hy2) (by omega))
          fun x L3 hq => ?_
        obtain ⟨third, it3⟩ := x
        obtain ⟨hi3, F3, nx3, xs3, g3, hh3, hy3, hl3, hf3⟩ := hq
        simp only
        rw [hf1] at hf2 g2
        rw [hf2] at g3
        simp only [List.tail_cons] at g2 g3
        cases rest with
        | nil =>
          obtain ⟨rfl, -, p3⟩ | ⟨_, _, _, h, _⟩ := g3.cases
          case inr => cases h
          obtain ⟨rfl, -, p2⟩ | ⟨_, _, _, h, _⟩ := g2.cases
          case inr => cases h
          simp only
          have hhL : it3.Holds n nx3 ((li, l) :: L) L3 := by
            obtain ⟨q, K, h1, h2⟩ := hh3
            exact ⟨q, K, h1, h2.perm (p3.trans (p2.trans p1)) (.refl _)⟩
          have hml : (li, l) ∈ L3 := by
            obtain ⟨q, K, h1, h2⟩ := hhL
            obtain ⟨K', h3, h4⟩ := h2.under
            exact h1.mem_iff.mpr (List.mem_cons_of_mem _ (h3.mem_iff.mpr (List.mem_cons_self ..)))
          refine .post (ih hml) fun a b L4 _ hg => ?_
          obtain ⟨F4, hh4, hg4⟩ := hg.holds hhL
          obtain ⟨F5, p5, hg5⟩ := hg4.under
          have hh5 : ∃ M, L4.Perm ((li, l) :: M) ∧ it3.Holds n nx3 F5 M := by
            obtain ⟨q, K, h1, h2⟩ := hh4
            obtain ⟨K', h3, h4⟩ := (h2.perm p5 (.refl _)).under
            exact ⟨(it3.parent, .node n) :: K', by perms h1 h3, q, K', .refl _, h4⟩
          obtain ⟨M, hM, hh5⟩ := hh5
          exact .drop hM (kidsDrop_comp hh5 (.pure hg5))
        | cons r rest =>
          obtain ⟨_, h, _⟩ | ⟨ri, z, rfl, h, p2⟩ := g2.cases
          · cases h
          cases h
          cases rest with
          | cons t rest =>
            obtain ⟨_, h, _⟩ | ⟨ti, z, rfl, h, p3⟩ := g3.cases
            · cases h
            exact .panic
          | nil =>
            obtain ⟨rfl, -, p3⟩ | ⟨_, _, _, h, _⟩ := g3.cases
            case inr => cases h
            simp only
            have hhL : it3.Holds n nx3 ((ri, r) :: (li, l) :: L) L3 := by
              obtain ⟨q, K, h1, h2⟩ := hh3
              exact ⟨q, K, h1, h2.perm (p3.trans (p2.trans (p1.cons _))) (.refl _)⟩
            have hsplit : ∃ M, L3.Perm ((ri, r) :: (li, l) :: M) ∧ it3.Holds n nx3 L M := by
              obtain ⟨q, K, h1, h2⟩ := hhL
              obtain ⟨K', h3, h4⟩ := h2.under
              obtain ⟨K2, h5, h6⟩ := h4.under
              exact ⟨(it3.parent, .node n) :: K2, by perms h1 h3 h5, q, K2, .refl _, h6⟩
            obtain ⟨M, hM, hh5⟩ := hsplit
            refine .bind (ih (hM.mem_iff.mpr (by simp))) fun a b L4 _ hg => ?_
            have hg' := hg.perm hM (.refl _)
            obtain ⟨M4, p4, hg4⟩ := hg'.under
            refine .bind (ih (h := ri) (e := r) (p4.mem_iff.mpr (by simp))) fun a' b' L5 _ hg2 => ?_
            cases a <;> cases b <;> (try exact hg.elim) <;> cases a' <;> cases b' <;> (try exact hg2.elim) <;>
              (try exact .panic)
            rename_i i t _ j u _
            have q1 : L4.Perm ((i, .token t) :: L3) := hg
            have q2 : L5.Perm ((j, .token u) :: L4) := hg2
            refine .drop (e := l) (F := (ri, r) :: (i, .token t) :: (j, .token u) :: M) (by perms q1 q2 hM) ?_
            refine .drop (.refl _) ?_
            refine kidsDrop_comp (p := n) (nx := nx3) (F := (i, .token t) :: (j, .token u) :: L) ?_ (.pure (.refl _))
            obtain ⟨q, K, h1, h2⟩ := hh5
            refine ⟨q, (i, .token t) :: (j, .token u) :: K, by perms h1, ?_⟩
            rcases h2.cases with ⟨e1, rfl, h5⟩ | ⟨x, z, e1, rfl, h5⟩
            · rw [e1]; exact .none (by perms h5)
            · rw [e1]; exact .some (by perms h5)

/-! ### Replacing -/

theorem replaceWith_comp : ∀ (k next : Nat) (n : SNode) (g : GNode) {h : Nat} {L : List (Nat × SElem)},
    n.ancestors.length ≤ k → (h, .node n) ∈ L →
    Comp (replaceWith k next h g) L (n.replaceWith next g) fun a b L' => a = b ∧ L'.Perm L := by
  intro k
  induction k with
  | zero => intro next n g h L hk; cases n <;> simp [SNode.ancestors] at hk
  | succ k ih =>
    intro next n g h L hk hm
    rw [replaceWith]
    refine .look hm ?_
    cases n with
    | root m i old =>
      rw [SNode.replaceWith]
      refine .ite (c := old.kind == g.kind) (fun _ => ?_) fun _ => .panic
      exact .nav hm rfl (.pure ⟨rfl, .refl _⟩)
    | child p i o old =>
      rw [SNode.replaceWith]
      refine .ite (c := old.kind == g.kind) (fun _ => ?_) fun _ => .panic
      refine .nav hm rfl fun j => ?_
      refine .look (List.mem_cons_self ..) ?_
      refine .post (ih (next + 1) p (p.green.replaceChild next i (.node g)) (by simpa [SNode.ancestors] using hk)
        (h := j) (List.mem_cons_self ..)) fun a b L' _ hg => ?_
      exact .drop hg.2 (.pure ⟨hg.1, .refl _⟩)

theorem replaceTokenWith_comp {k next : Nat} {t : SToken} {g : GToken} (hk : t.ancestors.length ≤ k)
    (hm : (h, .token t) ∈ L) :
    Comp (replaceTokenWith k next h g) L (t.replaceWith next g) fun a b L' => a = b ∧ L'.Perm L := by
  rw [replaceTokenWith, SToken.replaceWith]
  refine .look hm ?_
  refine .ite (c := t.kind == g.kind) (fun _ => ?_) fun _ => .panic
  cases t with
  | root m i old => exact .nav hm rfl .panic
  | child p i o old =>
    refine .nav hm rfl fun j => ?_
    refine .look (List.mem_cons_self ..) ?_
    refine .post (replaceWith_comp k (next + 1) p (p.green.replaceChild next i (.token g)) hk
      (h := j) (List.mem_cons_self ..)) fun a b L' _ hg => ?_
    exact .drop hg.2 (.pure ⟨hg.1, .refl _⟩)

end Prog
end Rowan
