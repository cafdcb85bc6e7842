import Verif.TraversePos
/-!
# Pointers, casts and text on snapshots

Unless their comments cite lines of `/repo`, the definitions in this file are vocabulary of the proofs and model no code.
-/
namespace Rowan
namespace Prog
open RProg
variable {L F : List (Nat × SElem)} {h : Nat} {e : SElem}

theorem intoNode_comp {a : Option Nat} {b : Option SElem} (hg : Got F a b L) :
    Comp (intoNode a) L (.ok ((b.bind NodeOrToken.asNode).map .node)) (Got F) := by
  rcases hg.cases with ⟨rfl, rfl, h⟩ | ⟨i, z, rfl, rfl, h⟩
  · exact .pure h
  · refine .look (h.mem_iff.mpr (List.mem_cons_self ..)) ?_
    cases z with
    | node n => exact .pure h
    | token t => exact .drop h (.pure (.none (.refl _)))

theorem ptrFind_comp [Lang] {bs : BinarySearch} {ptr : SyntaxNodePtr} : ∀ (k : Nat) {h : Nat} {n : SNode}
    {L F : List (Nat × SElem)}, L.Perm ((h, .node n) :: F) →
    Comp (ptrFind bs ptr k h) L (ptr.findLoop bs k n) fun a b => Got F a (b.map .node) := by
  intro k
  induction k with
  | zero => intro h n L F _; exact .diverge
  | succ k ih =>
    intro h n L F hl
    rw [ptrFind, SyntaxNodePtr.findLoop]
    refine .bind (childAtRange_comp (hl.mem_iff.mpr (List.mem_cons_self ..))) fun a b L1 _ hg => ?_
    refine .step (intoNode_comp (hg.perm hl (.refl _))) fun a L2 hg => ?_
    obtain ⟨F', h1, h2⟩ := hg.under
    refine .look (h1.mem_iff.mpr (List.mem_cons_self ..)) ?_
    have e1 : (SElem.obs (.node n)).range = n.textRange := rfl
    have e2 : (SElem.obs (.node n)).kind = n.kind := rfl
    simp only [e1, e2]
    rw [← SNode.tkind]
    by_cases hc : n.textRange = ptr.range ∧ n.tkind = ptr.kind
    · simp only [hc, and_self, if_true]
      rcases h2.cases with ⟨rfl, hb, h3⟩ | ⟨i, z, rfl, hb, h3⟩
      · exact .pure (h1.trans (h3.cons _))
      · exact .drop (e := z) (F := (h, .node n) :: F) (by perms h1 h3) (.pure (.refl _))
    · simp only [hc, if_false]
      refine .drop h1 ?_
      cases hb : b.bind NodeOrToken.asNode with
      | none =>
        rw [hb] at h2
        obtain ⟨rfl, -, h3⟩ | ⟨_, _, _, h, _⟩ := h2.cases
        · exact .pure h3
        · cases h
      | some m =>
        rw [hb] at h2
        obtain ⟨_, h, _⟩ | ⟨i, z, rfl, h, h3⟩ := h2.cases
        · cases h
        cases h
        exact ih h3

theorem tryToNode_comp [Lang] {bs : BinarySearch} {ptr : SyntaxNodePtr} {n : SNode} (hm : (h, .node n) ∈ L) :
    Comp (tryToNode bs ptr h) L (ptr.tryToNode bs n) fun a b => Got L a (b.map .node) := by
  rw [tryToNode, SyntaxNodePtr.tryToNode]
  refine .look hm ?_
  refine .ite (c := !n.mutable) (fun _ => ?_) fun _ => .panic
  refine .nav hm rfl ?_
  have e2 : Nav.parent.on (.node n) = n.parent.map .node := rfl
  rw [e2]
  cases n.parent with
  | some p => exact fun j => .drop (.refl _) (.pure (.none (.refl _)))
  | none => exact .clone hm fun i => ptrFind_comp _ (.refl _)

/-- `find_map` on the children, for a cast that looks at the kind and keeps the node. -/
theorem castNext_comp {can : SyntaxKind → Bool} : ∀ (k : Nat) {it : Kids} {p : SNode} {nx : Option SElem}
    {xs : List SElem} {L F : List (Nat × SElem)}, it.Holds p nx F L → (it.initialized = false → nx = none) →
    Yields true p nx it.initialized xs → xs.length < k →
    Comp (castNext can k it) L (.ok (xs.filter fun e => can e.kind).head?) fun (a, it') b L' =>
      it'.initialized = true ∧ ∃ F' nx' xs', Got F a b F' ∧ it'.Holds p nx' F' L' ∧ Yields true p nx' true xs' ∧
        xs'.length ≤ xs.length ∧ (xs'.filter fun e => can e.kind) = (xs.filter fun e => can e.kind).tail := by
  intro k
  induction k with
  | zero => intro it p nx xs L F _ _ _ hk; omega
  | succ k ih =>
    intro it p nx xs L F hh h0 hy hk
    rw [castNext]
    refine .step (kidsNext_comp hh h0) fun x L' hq => ?_
    obtain ⟨a, it'⟩ := x
    obtain ⟨hi, F', hg, hh'⟩ := hq
    cases xs with
    | nil =>
      rw [show kidsVal true p nx it.initialized = none from hy] at hg hh'
      obtain ⟨rfl, -, h2⟩ | ⟨_, _, _, h, _⟩ := hg.cases
      · exact .pure ⟨hi, F', none, [], h2, hh', rfl, Nat.le_refl _, rfl⟩
      · cases h
    | cons x xs =>
      rw [hy.1] at hg hh'
      obtain ⟨_, h, _⟩ | ⟨c, z, rfl, h, h2⟩ := hg.cases
      · cases h
      cases h
      have hhF : ∃ K, L'.Perm ((c, x) :: K) ∧ it'.Holds p (some x) F K := by
        obtain ⟨q, K, h3, h4⟩ := hh'
        obtain ⟨K', h5, h6⟩ := (h4.perm h2 (.refl _)).under
        exact ⟨(it'.parent, .node p) :: K', by perms h3 h5, q, K', .refl _, h6⟩
      obtain ⟨K, hK, hhK⟩ := hhF
      refine .look (hK.mem_iff.mpr (List.mem_cons_self ..)) ?_
      have e1 : (SElem.obs x).kind = x.kind := rfl
      simp only [e1]
      cases hp : can x.kind with
      | true =>
        simp only [if_true]
        rw [List.filter_cons_of_pos (by simpa using hp)]
        exact .pure ⟨hi, F', some x, xs, h2, hh', hy.2, by simp, rfl⟩
      | false =>
        simp only [Bool.false_eq_true, if_false]
        rw [List.filter_cons_of_neg (by simp [hp])]
        refine .drop hK ?_
        refine (ih hhK (by rw [hi]; nofun) (by rw [hi]; exact hy.2) (by simpa using hk)).mono fun a b L2 _ hq => ?_
        obtain ⟨q1, F2, nx', xs', q2, q3, q4, q5, q6⟩ := hq
        exact ⟨q1, F2, nx', xs', q2, q3, q4, by simp; omega, q6⟩

/-! ### Text -/

theorem ofRes_comp {α : Type} {r : Res α} (hr : r ≠ .ub) : Comp (ofRes r) L r fun a b L' => a = b ∧ L' = L := by
  cases r with
  | ok a => exact .ret ⟨rfl, rfl⟩
  | panic => exact .panic
  | diverge => exact .diverge
  | ub => exact absurd rfl hr

/-- `try_fold_chunks`, taking the tokens from the walk one at a time. -/
def foldWalk {T E : Type} (range : TextRange) (f : T → List Char → Res (Except E T)) :
    Nat → PreorderT → T → Res (Except E T)
  | 0, _, _ => .diverge
  | k + 1, v, acc => do
    match ← walkStep false v with
    | (none, _) => .ok (.ok acc)
    | (some (.leave _), v) => foldWalk range f k v acc
    | (some (.enter (.node _)), v) => foldWalk range f k v acc
    | (some (.enter (.token t)), v) =>
      match range.intersect t.textRange with
      | none => foldWalk range f k v acc
      | some r => do
        let r ← Res.ofOption (r.sub? t.textRange.start)
        let chunk ← sliceText t.text r
        match ← f acc chunk with
        | .ok acc => foldWalk range f k v acc
        | .error e => .ok (.error e)

theorem Walk.Holds.split {it : Walk} {v : PreorderT} {x : Nat × SElem} (hh : it.Holds v (x :: F) L) :
    ∃ M, L.Perm (x :: M) ∧ it.Holds v F M := by
  obtain ⟨q, K, h1, h2⟩ := hh
  rcases h2.cases with ⟨e1, e2, h3⟩ | ⟨i, z, e1, e2, h3⟩ | ⟨i, z, e1, e2, h3⟩
  · exact ⟨(it.start, v.start) :: F, by perms h1 h3, q, F, .refl _, by rw [e1, e2]; exact .refl _⟩
  · exact ⟨(it.start, v.start) :: (i, z) :: F, by perms h1 h3, q, _, .refl _, by rw [e1, e2]; exact .refl _⟩
  · exact ⟨(it.start, v.start) :: (i, z) :: F, by perms h1 h3, q, _, .refl _, by rw [e1, e2]; exact .refl _⟩

theorem Walk.Holds.perm {it : Walk} {v : PreorderT} {F' : List (Nat × SElem)} (hh : it.Holds v F L) (hp : F.Perm F') :
    it.Holds v F' L := by
  obtain ⟨q, K, h1, h2⟩ := hh
  refine ⟨q, K, h1, ?_⟩
  rcases h2.cases with ⟨e1, e2, h3⟩ | ⟨i, z, e1, e2, h3⟩ | ⟨i, z, e1, e2, h3⟩
  · rw [e1, e2]; exact h3.trans hp
  · rw [e1, e2]; exact h3.trans (hp.cons _)
  · rw [e1, e2]; exact h3.trans (hp.cons _)

theorem ofOption_ub {α : Type} (o : Option α) : Res.ofOption o ≠ .ub := by cases o <;> nofun

theorem foldChunks_comp {T E : Type} {range : TextRange} {f : T → List Char → Res (Except E T)}
    (hf : ∀ acc c, f acc c ≠ .ub) : ∀ (k : Nat) {it : Walk} {v : PreorderT} {acc : T} {L F : List (Nat × SElem)},
    it.Holds v F L →
    Comp (foldChunks range f k it acc) L (foldWalk range f k v acc) fun a b L' => a = b ∧ L'.Perm F := by
  intro k
  induction k with
  | zero => intro it v acc L F _; exact .diverge
  | succ k ih =>
    intro it v acc L F hh
    rw [foldChunks, foldWalk]
    refine .bind (walkNext_comp hh) fun x y L1 _ hq => ?_
    obtain ⟨a, it'⟩ := x
    obtain ⟨b, v'⟩ := y
    obtain ⟨F', hg, hh'⟩ := hq
    rcases hg.cases with ⟨rfl, rfl, h1⟩ | ⟨i, z, rfl, rfl, h1⟩ | ⟨i, z, rfl, rfl, h1⟩
    · simp only
      exact walkDrop_comp hh' (.pure ⟨rfl, h1⟩)
    · simp only
      obtain ⟨M, hM, hhM⟩ := (hh'.perm h1).split
      refine .look (hM.mem_iff.mpr (List.mem_cons_self ..)) ?_
      cases z with
      | node n => exact .drop hM (ih hhM)
      | token t =>
        have e1 : (SElem.obs (.token t)).range = t.textRange := rfl
        have e2 : (SElem.obs (.token t)).green = .token t.green := rfl
        simp only [e1, e2]
        cases range.intersect t.textRange with
        | none => exact .drop hM (ih hhM)
        | some r =>
          refine .bind (ofRes_comp (ofOption_ub _)) fun r' r'' L2 _ h => ?_
          obtain ⟨rfl, rfl⟩ := h
          refine .bind (ofRes_comp (ofOption_ub _)) fun c c' L3 _ h => ?_
          obtain ⟨rfl, rfl⟩ := h
          refine .bind (ofRes_comp (hf _ _)) fun c c' L4 _ h => ?_
          obtain ⟨rfl, rfl⟩ := h
          cases c with
          | ok acc => exact .drop hM (ih hhM)
          | error e => exact .drop hM (walkDrop_comp hhM (.pure ⟨rfl, .refl _⟩))
    · simp only
      obtain ⟨M, hM, hhM⟩ := (hh'.perm h1).split
      exact .drop hM (ih hhM)

theorem walkVal_false (start : SElem) : walkVal false start = PreorderT.succ start := by
  funext ev
  cases ev with
  | enter e => cases e <;> rfl
  | leave e => rfl

theorem walkStep_false (v : PreorderT) : walkStep false v = v.step := by
  simp only [walkStep, walkVal_false, PreorderT.step, walkPrep]
  split <;> rfl

theorem foldWalk_eq {T E : Type} {range : TextRange} {f : T → List Char → Res (Except E T)} :
    ∀ (k : Nat) {v : PreorderT} {evs : List (WalkEvent SElem)} {ws : List (SToken × TextRange)} {acc : T},
    PreorderT.collect k v = .ok evs → SyntaxText.withRanges range (eventToks evs) = .ok ws →
    foldWalk range f k v acc = SyntaxText.foldChunks f acc ws := by
  intro k
  induction k with
  | zero => intro v evs ws acc h; cases h
  | succ k ih =>
    intro v evs ws acc h1 h2
    rw [PreorderT.collect] at h1
    rw [foldWalk, walkStep_false]
    cases hs : v.step with
    | ok x =>
      obtain ⟨o, v'⟩ := x
      rw [hs] at h1
      cases o with
      | none =>
        cases h1
        cases h2
        rfl
      | some ev =>
        simp only [Res.ok_bind] at h1 ⊢
        cases hc : PreorderT.collect k v' with
        | ok evs' =>
          rw [hc] at h1
          cases h1
          cases ev with
          | leave z => exact ih hc h2
          | enter z =>
            cases z with
            | node n => exact ih hc h2
            | token t =>
              simp only
              have e : eventToks (.enter (.token t) :: evs') = t :: eventToks evs' := rfl
              rw [e, SyntaxText.withRanges] at h2
              cases hi : range.intersect t.textRange with
              | none => rw [hi] at h2; exact ih hc h2
              | some r =>
                rw [hi] at h2
                simp only at h2 ⊢
                cases hr : Res.ofOption (r.sub? t.textRange.start) with
                | ok r' =>
                  rw [hr] at h2
                  simp only [Res.ok_bind] at h2 ⊢
                  cases hw : SyntaxText.withRanges range (eventToks evs') with
                  | ok ws' =>
                    rw [hw] at h2
                    cases h2
                    rw [SyntaxText.foldChunks]
                    congr 1; funext chunk
                    congr 1; funext x
                    cases x with
                    | ok acc => exact ih hc hw
                    | error e => rfl
                  | _ => rw [hw] at h2; cases h2
                | _ => rw [hr] at h2; cases h2
        | _ => rw [hc] at h1; cases h1
    | _ => rw [hs] at h1; cases h1

/-- `try_fold_chunks` of a text whose tokens and their parts are defined. -/
theorem tryFoldChunks_comp {T E : Type} {t : SyntaxText} {f : T → List Char → Res (Except E T)} {init : T}
    (hf : ∀ acc c, f acc c ≠ .ub) (hw : ∃ ws, t.tokensWithRanges = .ok ws) (hm : (h, .node t.node) ∈ L) :
    Comp (tryFoldChunks t.range h init f) L (t.tryFoldChunks init f) fun a b L' => a = b ∧ L'.Perm L := by
  obtain ⟨ws, hw⟩ := hw
  have e0 : t.tryFoldChunks init f = SyntaxText.foldChunks f init ws := by
    rw [SyntaxText.tryFoldChunks, hw]; rfl
  rw [SyntaxText.tokensWithRanges, SNode.tokens, SNode.walkEvents] at hw
  cases hc : PreorderT.collect (2 * (GNode.subs t.node.green).length + 1) (PreorderT.new t.node) with
  | ok evs =>
    rw [hc] at hw
    rw [e0, ← foldWalk_eq (f := f) (acc := init) _ hc hw, tryFoldChunks]
    refine .look hm ?_
    exact walk_comp hm fun it L' hh => foldChunks_comp hf _ hh
  | _ => rw [hc] at hw; cases hw

end Prog
end Rowan
