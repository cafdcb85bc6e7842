import Verif.TextEq
import Verif.StaleTextLemmas
/-!
# Comparing texts on snapshots

Unless their comments cite lines of `/repo`, the definitions in this file are vocabulary of the proofs and model no code.
-/
namespace Rowan
namespace Prog
open RProg
variable {L F O : List (Nat × SElem)}

theorem Walk.Holds.frame {it : Walk} {v : PreorderT} (hh : it.Holds v F L) :
    ∃ O, it.Holds v [] O ∧ L.Perm (O ++ F) := by
  obtain ⟨q, K, h1, h2⟩ := hh
  rcases h2.cases with ⟨e1, e2, h3⟩ | ⟨i, z, e1, e2, h3⟩ | ⟨i, z, e1, e2, h3⟩
  · exact ⟨[(it.start, v.start)], ⟨q, [], .refl _, by rw [e1, e2]; exact .refl _⟩, by perms h1 h3⟩
  · exact ⟨[(it.start, v.start), (i, z)], ⟨q, [(i, z)], .refl _, by rw [e1, e2]; exact .refl _⟩, by perms h1 h3⟩
  · exact ⟨[(it.start, v.start), (i, z)], ⟨q, [(i, z)], .refl _, by rw [e1, e2]; exact .refl _⟩, by perms h1 h3⟩

theorem Walk.Holds.unframe {it : Walk} {v : PreorderT} (hh : it.Holds v [] O) (hl : L.Perm (O ++ F)) : it.Holds v F L := by
  obtain ⟨q, K, h1, h2⟩ := hh
  rcases h2.cases with ⟨e1, e2, h3⟩ | ⟨i, z, e1, e2, h3⟩ | ⟨i, z, e1, e2, h3⟩
  · exact ⟨q, F, by perms h1 h3 hl, by rw [e1, e2]; exact .refl _⟩
  · exact ⟨q, (i, z) :: F, by perms h1 h3 hl, by rw [e1, e2]; exact .refl _⟩
  · exact ⟨q, (i, z) :: F, by perms h1 h3 hl, by rw [e1, e2]; exact .refl _⟩

/-- What is still to come from a walk, of the tokens with their parts in the range. -/
def Pieces (range : TextRange) (K : Nat) (v : PreorderT) (ws : List (SToken × TextRange)) : Prop :=
  ∃ k, k ≤ K ∧ ∃ evs, PreorderT.collect k v = .ok evs ∧ SyntaxText.withRanges range (eventToks evs) = .ok ws

theorem withRanges_length {range : TextRange} : ∀ {toks : List SToken} {ws : List (SToken × TextRange)},
    SyntaxText.withRanges range toks = .ok ws → ws.length ≤ toks.length
  | [], ws, h => by cases h; exact Nat.le_refl _
  | t :: ts, ws, h => by
    rw [SyntaxText.withRanges] at h
    cases hi : range.intersect t.textRange with
    | none =>
      rw [hi] at h
      exact Nat.le_succ_of_le (withRanges_length h)
    | some r =>
      rw [hi] at h
      simp only at h
      cases hr : Res.ofOption (r.sub? t.textRange.start) with
      | ok r' =>
        rw [hr] at h
        simp only [Res.ok_bind] at h
        cases hw : SyntaxText.withRanges range ts with
        | ok ws' =>
          rw [hw] at h
          cases h
          exact Nat.succ_le_succ (withRanges_length hw)
        | _ => rw [hw] at h; cases h
      | _ => rw [hr] at h; cases h

theorem collect_length : ∀ (k : Nat) {v : PreorderT} {evs : List (WalkEvent SElem)},
    PreorderT.collect k v = .ok evs → evs.length < k
  | 0, _, _, h => by cases h
  | k + 1, v, evs, h => by
    rw [PreorderT.collect] at h
    cases hs : v.step with
    | ok x =>
      obtain ⟨o, v'⟩ := x
      rw [hs] at h
      cases o with
      | none => cases h; exact Nat.succ_pos _
      | some ev =>
        simp only [Res.ok_bind] at h
        cases hc : PreorderT.collect k v' with
        | ok evs' => rw [hc] at h; cases h; exact Nat.succ_lt_succ (collect_length k hc)
        | _ => rw [hc] at h; cases h
    | _ => rw [hs] at h; cases h

theorem Pieces.short {range : TextRange} {K : Nat} {v : PreorderT} {ws : List (SToken × TextRange)} (h : Pieces range K v ws) :
    ws.length < K := by
  obtain ⟨k, hk, evs, h1, h2⟩ := h
  have a := collect_length k h1
  have b := withRanges_length h2
  have c : (eventToks evs).length ≤ evs.length :=
    Nat.le_trans (List.length_filterMap_le ..) (List.length_filterMap_le ..)
  omega

theorem step_end {v v' : PreorderT} (h : v.step = .ok (none, v')) : v'.step = .ok (none, v') := by
  have key : ∀ w : PreorderT, w.next = none →
      (Res.ok (none, v') : Res (Option (WalkEvent SElem) × PreorderT)) =
        .ok (w.next, { w with next := w.next.bind (PreorderT.succ w.start), skip := false }) → v'.step = .ok (none, v') := by
    intro w hw e
    rw [hw] at e
    cases e
    rfl
  rw [PreorderT.step] at h
  by_cases hk : v.skip = true
  · rw [if_pos hk] at h
    cases hs : v.doSkip with
    | ok w =>
      rw [hs] at h
      exact key w (Prod.mk.inj (Res.ok.inj h)).1 h.symm
    | _ => rw [hs] at h; cases h
  · rw [if_neg hk] at h
    exact key v (Prod.mk.inj (Res.ok.inj h)).1 h.symm

/-- The token handed out: a handle of it, and the part. -/
def PieceGot (F : List (Nat × SElem)) : Option (Nat × TextRange) → Option (SToken × TextRange) → List (Nat × SElem) → Prop
  | none, none, L => L.Perm F
  | some x, some y, L => x.2 = y.2 ∧ L.Perm ((x.1, .token y.1) :: F)
  | _, _, _ => False

theorem PieceGot.cases {a : Option (Nat × TextRange)} {b : Option (SToken × TextRange)} (h : PieceGot F a b L) :
    (a = none ∧ b = none ∧ L.Perm F) ∨ ∃ x t, a = some x ∧ b = some (t, x.2) ∧ L.Perm ((x.1, .token t) :: F) := by
  cases a <;> cases b
  · exact .inl ⟨rfl, rfl, h⟩
  · exact h.elim
  · exact h.elim
  · rename_i x y
    exact .inr ⟨x, y.1, rfl, by rw [h.1], h.2⟩

/-- `O` is what the walk owns, `ws` what it is still to hand out. -/
def Own (range : TextRange) (K : Nat) (it : Walk) (ws : List (SToken × TextRange)) (O : List (Nat × SElem)) : Prop :=
  ∃ v, Pieces range K v ws ∧ it.Holds v [] O

theorem piecesNext_loop {range : TextRange} : ∀ (k : Nat) {K k0 : Nat} {it : Walk} {v : PreorderT}
    {evs : List (WalkEvent SElem)} {ws : List (SToken × TextRange)} {L F : List (Nat × SElem)},
    PreorderT.collect k v = .ok evs → SyntaxText.withRanges range (eventToks evs) = .ok ws → k ≤ k0 → k ≤ K →
    it.Holds v F L →
    Comp (piecesNext range k0 it) L (.ok ws.head?) fun a b L' => ∃ O', Own range K a.2 ws.tail O' ∧ PieceGot (O' ++ F) a.1 b L' := by
  intro k
  induction k with
  | zero => intro K k0 it v evs ws L F h; cases h
  | succ k ih =>
    intro K k0 it v evs ws L F h1 h2 hk hK hh
    obtain ⟨k0, rfl⟩ : ∃ m, k0 = m + 1 := ⟨k0 - 1, by omega⟩
    rw [PreorderT.collect] at h1
    rw [piecesNext]
    have hn := walkNext_comp (nodes := false) hh
    rw [walkStep_false] at hn
    cases hs : v.step with
    | ok x =>
      obtain ⟨o, v'⟩ := x
      rw [hs] at h1 hn
      refine .step hn fun a L1 hq => ?_
      obtain ⟨a, it'⟩ := a
      obtain ⟨F', hg, hh'⟩ := hq
      rcases hg.cases with ⟨rfl, rfl, p1⟩ | ⟨i, z, rfl, rfl, p1⟩ | ⟨i, z, rfl, rfl, p1⟩
      · cases h1
        cases h2
        obtain ⟨O', o1, o2⟩ := (hh'.perm p1).frame
        refine .pure ⟨O', ⟨v', ⟨1, by omega, [], ?_, rfl⟩, o1⟩, o2⟩
        rw [PreorderT.collect, step_end hs]
        rfl
      · simp only [Res.ok_bind] at h1
        obtain ⟨M, hM, hhM⟩ := (hh'.perm p1).split
        cases hc : PreorderT.collect k v' with
        | ok evs' =>
          rw [hc] at h1
          cases h1
          refine .look (hM.mem_iff.mpr (List.mem_cons_self ..)) ?_
          cases z with
          | node n => exact .drop hM (ih hc h2 (by omega) (by omega) hhM)
          | token t =>
            have e1 : (SElem.obs (.token t)).range = t.textRange := rfl
            have e2 : (SElem.obs (.token t)).green = .token t.green := rfl
            simp only [e1, e2]
            have e : eventToks (.enter (.token t) :: evs') = t :: eventToks evs' := rfl
            rw [e, SyntaxText.withRanges] at h2
            cases hi : range.intersect t.textRange with
            | none => rw [hi] at h2; exact .drop hM (ih hc h2 (by omega) (by omega) hhM)
            | some r =>
              rw [hi] at h2
              simp only at h2 ⊢
              cases hr : Res.ofOption (r.sub? t.textRange.start) with
              | ok r' =>
                rw [hr] at h2
                simp only [Res.ok_bind] at h2
                cases hw : SyntaxText.withRanges range (eventToks evs') with
                | ok ws' =>
                  rw [hw] at h2
                  cases h2
                  obtain ⟨O', o1, o2⟩ := hhM.frame
                  exact .pure ⟨O', ⟨v', ⟨k, by omega, evs', hc, hw⟩, o1⟩, rfl, hM.trans (o2.cons _)⟩
                | _ => rw [hw] at h2; cases h2
              | _ => rw [hr] at h2; cases h2
        | _ => rw [hc] at h1; cases h1
      · simp only [Res.ok_bind] at h1
        obtain ⟨M, hM, hhM⟩ := (hh'.perm p1).split
        cases hc : PreorderT.collect k v' with
        | ok evs' =>
          rw [hc] at h1
          cases h1
          exact .drop hM (ih hc h2 (by omega) (by omega) hhM)
        | _ => rw [hc] at h1; cases h1
    | _ => rw [hs] at h1; cases h1

theorem piecesNext_comp {range : TextRange} {K : Nat} {it : Walk} {ws : List (SToken × TextRange)} (h : Own range K it ws O)
    (hl : L.Perm (O ++ F)) :
    Comp (piecesNext range K it) L (.ok ws.head?) fun a b L' => ∃ O', Own range K a.2 ws.tail O' ∧ PieceGot (O' ++ F) a.1 b L' := by
  obtain ⟨v, ⟨k, hk, evs, h1, h2⟩, hh⟩ := h
  exact piecesNext_loop k h1 h2 hk hk (hh.unframe hl)

theorem skipPieces_comp {range : TextRange} {K : Nat} : ∀ (k : Nat) {x : Nat × TextRange} {t : SToken} {it : Walk}
    {ws : List (SToken × TextRange)} {O L F : List (Nat × SElem)}, ws.length < k → Own range K it ws O →
    L.Perm ((x.1, .token t) :: (O ++ F)) →
    Comp (skipPieces range K k x it) L (.ok (SyntaxText.skipEmpty (t, x.2) ws)) fun a b L' =>
      ∃ O', Own range K a.2 b.2 O' ∧ PieceGot (O' ++ F) a.1 b.1 L' := by
  intro k
  induction k with
  | zero => intro x t it ws O L F h; omega
  | succ k ih =>
    intro x t it ws O L F hk ho hl
    rw [skipPieces]
    cases hx : x.2.isEmpty with
    | false =>
      have e : SyntaxText.skipEmpty (t, x.2) ws = (some (t, x.2), ws) := by
        cases ws <;> simp [SyntaxText.skipEmpty, hx]
      rw [e]
      exact .pure ⟨O, ho, rfl, hl⟩
    | true =>
      simp only [if_true]
      refine .step (piecesNext_comp (F := (x.1, .token t) :: F) ho (by perms hl)) fun a L1 hq => ?_
      obtain ⟨a, it'⟩ := a
      obtain ⟨O', o1, o2⟩ := hq
      cases ws with
      | nil =>
        cases a with
        | some y => exact o2.elim
        | none =>
          have o2 : L1.Perm (O' ++ (x.1, .token t) :: F) := o2
          rw [SyntaxText.skipEmpty, if_pos hx]
          exact .drop (e := .token t) (F := O' ++ F) (by perms o2) (.pure ⟨O', o1, .refl _⟩)
      | cons w ws =>
        cases a with
        | none => exact o2.elim
        | some y =>
          obtain ⟨o2, o3⟩ := o2
          rw [SyntaxText.skipEmpty, if_pos hx]
          refine .drop (e := .token t) (F := (y.1, .token w.1) :: (O' ++ F)) (by perms o3) ?_
          have := ih (x := y) (t := w.1) (F := F) (by simpa using hk) o1 (.refl _)
          rw [o2] at this
          exact this

theorem pieceText_comp {x : Nat × TextRange} {t : SToken} (hm : (x.1, .token t) ∈ L) :
    Comp (pieceText x) L (sliceText t.text x.2) fun a b L' => a = b ∧ L' = L := by
  refine .look hm ?_
  have e2 : (SElem.obs (.token t)).green = .token t.green := rfl
  simp only [e2]
  exact ofRes_comp (ofOption_ub _)

/-- The two walks of `==`. -/
def Both (a b : TextRange) (Ka Kb : Nat) (F : List (Nat × SElem)) (r : Walk × Walk)
    (v : List (SToken × TextRange) × List (SToken × TextRange)) (L : List (Nat × SElem)) : Prop :=
  ∃ O O', Own a Ka r.1 v.1 O ∧ Own b Kb r.2 v.2 O' ∧ L.Perm (O ++ (O' ++ F))

variable {a b : TextRange} {Ka Kb : Nat}

theorem zipPieces_comp : ∀ (k : Nat) {x y : Nat × TextRange} {t u : SToken} {xs ys : Walk}
    {v w : List (SToken × TextRange)} {O O' L F : List (Nat × SElem)}, Own a Ka xs v O → Own b Kb ys w O' →
    L.Perm ((x.1, .token t) :: (y.1, .token u) :: (O ++ (O' ++ F))) →
    Comp (zipPieces a b Ka Kb k x xs y ys) L (SyntaxText.zipLoop k (t, x.2) v (u, y.2) w) fun r v L' =>
      r.1 = v.1 ∧ Both a b Ka Kb F r.2 v.2 L' := by
  intro k
  induction k with
  | zero => intros; exact .diverge
  | succ k ih =>
    intro x y t u xs ys v w O O' L F ho ho' hl
    rw [zipPieces, SyntaxText.zipLoop]
    have l1 : v.length < Ka := ho.choose_spec.1.short
    have l2 : w.length < Kb := ho'.choose_spec.1.short
    refine .step (skipPieces_comp (Ka + 1) (t := t) (F := (y.1, .token u) :: (O' ++ F)) (by omega) ho (by perms hl)) fun r L1 hq => ?_
    obtain ⟨r, xs⟩ := r
    generalize SyntaxText.skipEmpty (t, x.2) v = sv at hq
    obtain ⟨r', v⟩ := sv
    obtain ⟨O, ho, hg⟩ := hq
    simp only at ho hg
    rcases hg.cases with ⟨rfl, rfl, hg⟩ | ⟨x, t, rfl, rfl, hp⟩
    · exact .drop (e := .token u) (F := O ++ (O' ++ F)) (by perms hg) (.pure ⟨rfl, O, O', ho, ho', .refl _⟩)
    · simp only
      refine .step (skipPieces_comp (Kb + 1) (t := u) (F := (x.1, .token t) :: (O ++ F)) (by omega) ho' (by perms hp)) fun r L2 hq => ?_
      obtain ⟨r, ys⟩ := r
      generalize SyntaxText.skipEmpty (u, y.2) w = sv at hq
      obtain ⟨r', w⟩ := sv
      obtain ⟨O', ho', hg'⟩ := hq
      simp only at ho' hg'
      rcases hg'.cases with ⟨rfl, rfl, hg'⟩ | ⟨y, u, rfl, rfl, hp'⟩
      · exact .drop (e := .token t) (F := O ++ (O' ++ F)) (by perms hg') (.pure ⟨rfl, O, O', ho, ho', .refl _⟩)
      · simp only
        have hl : L2.Perm ((x.1, .token t) :: (y.1, .token u) :: (O ++ (O' ++ F))) := by perms hp'
        refine .bind (pieceText_comp (t := t) (hl.mem_iff.mpr (by simp))) fun c c' L3 _ h => ?_
        obtain ⟨rfl, rfl⟩ := h
        refine .bind (pieceText_comp (t := u) (hl.mem_iff.mpr (by simp))) fun d d' L3 _ h => ?_
        obtain ⟨rfl, rfl⟩ := h
        refine .ite (fun _ => ?_) fun _ => ?_
        · refine .drop (e := .token u) (F := (x.1, .token t) :: (O ++ (O' ++ F))) (by perms hl) ?_
          exact .drop (.refl _) (.pure ⟨rfl, O, O', ho, ho', .refl _⟩)
        · refine .bind (ofRes_comp (ofOption_ub _)) fun xr xr' L4 _ h => ?_
          obtain ⟨rfl, rfl⟩ := h
          refine .bind (ofRes_comp (ofOption_ub _)) fun yr yr' L4 _ h => ?_
          obtain ⟨rfl, rfl⟩ := h
          exact ih ho ho' hl

theorem zipTexts_comp {k : Nat} {xs ys : Walk} {v w : List (SToken × TextRange)} {O' : List (Nat × SElem)}
    (ho : Own a Ka xs v O) (ho' : Own b Kb ys w O') (hl : L.Perm (O ++ (O' ++ F))) :
    Comp (zipTexts a b Ka Kb k xs ys) L (SyntaxText.zipTexts k v w) fun r v L' =>
      r.1 = v.1 ∧ Both a b Ka Kb F r.2 v.2 L' := by
  rw [zipTexts]
  refine .step (piecesNext_comp (F := O' ++ F) ho hl) fun r L1 hq => ?_
  obtain ⟨r, xs⟩ := r
  obtain ⟨O, ho, hg⟩ := hq
  cases v with
  | nil =>
    cases r with
    | some x => exact hg.elim
    | none => exact .pure ⟨rfl, O, O', ho, ho', hg⟩
  | cons t v =>
    cases r with
    | none => exact hg.elim
    | some x =>
      obtain ⟨t, tr⟩ := t
      obtain ⟨rfl, hg⟩ := hg
      simp only at hg ⊢
      refine .step (piecesNext_comp (F := (x.1, .token t) :: (O ++ F)) ho' (by perms hg)) fun r L2 hq => ?_
      obtain ⟨r, ys⟩ := r
      obtain ⟨O', ho', hg'⟩ := hq
      cases w with
      | nil =>
        cases r with
        | some x => exact hg'.elim
        | none =>
          have hg' : L2.Perm (O' ++ (x.1, .token t) :: (O ++ F)) := hg'
          exact .drop (e := .token t) (F := O ++ (O' ++ F)) (by perms hg') (.pure ⟨rfl, O, O', ho, ho', .refl _⟩)
      | cons u w =>
        cases r with
        | none => exact hg'.elim
        | some y =>
          obtain ⟨u, ur⟩ := u
          obtain ⟨rfl, hg'⟩ := hg'
          simp only at hg' ⊢
          exact zipPieces_comp k ho ho' (by perms hg')

theorem allEmpty_comp {range : TextRange} {K : Nat} : ∀ (k : Nat) {it : Walk}
    {ws : List (SToken × TextRange)} {O L F : List (Nat × SElem)}, ws.length < k → Own range K it ws O → L.Perm (O ++ F) →
    Comp (allEmpty range K k it) L (.ok (ws.all fun it => it.2.isEmpty)) fun a b L' =>
      a.1 = b ∧ ∃ ws' O', Own range K a.2 ws' O' ∧ L'.Perm (O' ++ F) := by
  intro k
  induction k with
  | zero => intro it ws O L F h; omega
  | succ k ih =>
    intro it ws O L F hk ho hl
    rw [allEmpty]
    refine .step (piecesNext_comp (F := F) ho hl) fun r L1 hq => ?_
    obtain ⟨r, it⟩ := r
    obtain ⟨O, ho, hg⟩ := hq
    cases ws with
    | nil =>
      cases r with
      | some x => exact hg.elim
      | none => exact .pure ⟨rfl, [], O, ho, hg⟩
    | cons t v =>
      cases r with
      | none => exact hg.elim
      | some x =>
        obtain ⟨t, tr⟩ := t
        obtain ⟨rfl, hg⟩ := hg
        refine .drop hg ?_
        rw [List.all_cons]
        cases hx : x.2.isEmpty with
        | true => exact ih (by simpa using hk) ho (.refl _)
        | false => exact .pure ⟨rfl, v, O, ho, .refl _⟩

theorem restEmpty_comp {r : Option Unit × Walk × Walk} {p : Option Unit}
    {v : List (SToken × TextRange) × List (SToken × TextRange)} (hp : r.1 = p) (hb : Both a b Ka Kb F r.2 v L) :
    Comp (restEmpty a b Ka Kb r) L (.ok (p.isNone && v.1.all (fun it => it.2.isEmpty) && v.2.all (fun it => it.2.isEmpty)))
      fun a' b' L' => a'.1 = b' ∧ ∃ v', Both a b Ka Kb F a'.2 v' L' := by
  obtain ⟨p', xs, ys⟩ := r
  obtain ⟨v, w⟩ := v
  cases hp
  obtain ⟨O, O', ho, ho', hl⟩ := hb
  have l1 : v.length < Ka := ho.choose_spec.1.short
  have l2 : w.length < Kb := ho'.choose_spec.1.short
  simp only at ho ho'
  cases p' with
  | some _ => exact .pure ⟨rfl, (v, w), O, O', ho, ho', hl⟩
  | none =>
    have l1' : v.length < Ka + 1 := Nat.lt_succ_of_lt l1
    have l2' : w.length < Kb + 1 := Nat.lt_succ_of_lt l2
    rw [restEmpty]
    refine .step (allEmpty_comp (Ka + 1) (F := O' ++ F) l1' ho hl) fun r L1 hq => ?_
    obtain ⟨e, xs⟩ := r
    obtain ⟨rfl, v', O, ho, hl⟩ := hq
    simp only at ho ⊢
    cases v.all (fun it => it.2.isEmpty) with
    | false => exact .pure ⟨rfl, (v', w), O, O', ho, ho', hl⟩
    | true =>
      refine .step (allEmpty_comp (Kb + 1) (F := O ++ F) l2' ho' (by perms hl)) fun r L1 hq => ?_
      obtain ⟨e, ys⟩ := r
      obtain ⟨rfl, w', O', ho', hl⟩ := hq
      exact .pure ⟨rfl, (v', w'), O, O', ho, ho', by perms hl⟩

/-- `==` of two texts whose tokens and their parts are defined. -/
theorem Text.eq_comp {t u : SyntaxText} {h h' : Nat} (hw : ∃ ws, t.tokensWithRanges = .ok ws)
    (hw' : ∃ ws, u.tokensWithRanges = .ok ws) (hm : (h, .node t.node) ∈ L) (hm' : (h', .node u.node) ∈ L) :
    Comp (Text.eq ⟨h, t.range⟩ ⟨h', u.range⟩) L (t.eq u) fun a b L' => a = b ∧ L'.Perm L := by
  obtain ⟨ws, hw⟩ := hw
  obtain ⟨ws', hw'⟩ := hw'
  rw [Text.eq, SyntaxText.eq, hw, hw']
  rw [SyntaxText.tokensWithRanges, SNode.tokens, SNode.walkEvents] at hw hw'
  simp only
  by_cases hlen : t.range.len ≠ u.range.len
  · rw [if_pos hlen, if_pos hlen]
    exact .pure ⟨rfl, .refl _⟩
  · rw [if_neg hlen, if_neg hlen]
    simp only [Res.ok_bind]
    cases hc : PreorderT.collect (2 * (GNode.subs t.node.green).length + 1) (PreorderT.new t.node) with
    | ok evs =>
      cases hc' : PreorderT.collect (2 * (GNode.subs u.node.green).length + 1) (PreorderT.new u.node) with
      | ok evs' =>
        rw [hc] at hw
        rw [hc'] at hw'
        refine .look hm (walk_comp hm fun xs L1 h1 => ?_)
        obtain ⟨O, o1, o2⟩ := h1.frame
        have hm1 : (h', NodeOrToken.node u.node) ∈ L1 := o2.mem_iff.mpr (List.mem_append_right _ hm')
        refine .look hm1 (walk_comp hm1 fun ys L2 h2 => ?_)
        obtain ⟨O', o3, o4⟩ := h2.frame
        refine .bind (zipTexts_comp (F := L) ⟨_, ⟨_, Nat.le_refl _, evs, hc, hw⟩, o1⟩ ⟨_, ⟨_, Nat.le_refl _, evs', hc', hw'⟩, o3⟩
          (by perms o2 o4)) fun r v L3 _ hq => ?_
        obtain ⟨p, v⟩ := v
        refine .step (restEmpty_comp hq.1 hq.2) fun r L4 hq => ?_
        obtain ⟨q, v', P, P', ⟨x, -, p1⟩, ⟨y, -, p2⟩, p3⟩ := hq
        refine walkDrop_comp (p2.unframe (F := P ++ L) (by perms p3)) ?_
        exact walkDrop_comp (p1.unframe (.refl _)) (.pure ⟨q, .refl _⟩)
      | _ => rw [hc'] at hw'; cases hw'
    | _ => rw [hc] at hw; cases hw

end Prog

/-! ### What `==` says about texts with arbitrary ranges -/

theorem zipLoop_any : ∀ (k : Nat) (x y : SToken × TextRange) (xs ys : List (SToken × TextRange))
    (cx cy : List (List Char)), chunksOf (x :: xs) = some cx → chunksOf (y :: ys) = some cy → blen cx.flatten < k →
    ∃ r xs' ys', SyntaxText.zipLoop k x xs y ys = .ok (r, xs', ys') ∧
      (cx.flatten = cy.flatten →
        (r.isNone && xs'.all (fun it => it.2.isEmpty) && ys'.all (fun it => it.2.isEmpty)) = true) ∧
      (r = none → cx.flatten <+: cy.flatten ∨ cy.flatten <+: cx.flatten) := by
  intro k
  induction k with
  | zero => intro x y xs ys cx cy _ _ h; omega
  | succ k ih =>
    intro x y xs ys cx cy hx hy hk
    rw [SyntaxText.zipLoop]
    rcases skipEmpty_spec xs x cx hx with ⟨e1, e2⟩ | ⟨x', xs', c, cs', e1, e2, e3, e4⟩
    · rw [e1]
      obtain ⟨c, cs', rfl, h1, h2⟩ := chunksOf_cons.mp hy
      refine ⟨none, [], ys, rfl, fun heq => ?_, fun _ => .inl (by rw [e2]; exact List.nil_prefix)⟩
      rw [e2] at heq
      have hnil := heq.symm
      simp only [List.flatten_cons, List.append_eq_nil_iff] at hnil
      simpa using (all_empty h2).mpr hnil.2
    · rw [e1]
      simp only
      rcases skipEmpty_spec ys y cy hy with ⟨f1, f2⟩ | ⟨y', ys', d, ds', f1, f2, f3, f4⟩
      · rw [f1]
        refine ⟨none, xs', [], rfl, fun heq => ?_, fun _ => .inr (by rw [f2]; exact List.nil_prefix)⟩
        rw [f2, ← e4, List.append_eq_nil_iff] at heq
        exact absurd heq.1 e3
      · rw [f1]
        obtain ⟨_, _, he, x1, x2⟩ := chunksOf_cons.mp e2
        cases he
        obtain ⟨_, _, he, y1, y2⟩ := chunksOf_cons.mp f2
        cases he
        simp only [sliceText, x1, y1, Res.ofOption_some, Res.ok_bind]
        rw [← e4, ← f4]
        rw [← e4] at hk
        by_cases hp : (d.isPrefixOf c || c.isPrefixOf d) = true
        · rw [hp]
          simp only [Bool.not_true, Bool.false_eq_true, if_false]
          have lx := (bslice_len x1).1
          have ly := (bslice_len y1).1
          have step : ∀ u c' d', u ≠ [] → c = u ++ c' → d = u ++ d' →
              min x'.2.len y'.2.len = blen u →
              ∃ r xs'' ys'', (do
                let xr ← Res.ofOption (TextRange.new? (x'.2.start + min x'.2.len y'.2.len) x'.2.stop)
                let yr ← Res.ofOption (TextRange.new? (y'.2.start + min x'.2.len y'.2.len) y'.2.stop)
                SyntaxText.zipLoop k (x'.1, xr) xs' (y'.1, yr) ys') = .ok (r, xs'', ys'') ∧
                (c ++ cs'.flatten = d ++ ds'.flatten →
                  (r.isNone && xs''.all (fun it => it.2.isEmpty) && ys''.all (fun it => it.2.isEmpty)) = true) ∧
                (r = none → c ++ cs'.flatten <+: d ++ ds'.flatten ∨ d ++ ds'.flatten <+: c ++ cs'.flatten) := by
            intro u c' d' hu hc hd hm
            subst hc hd
            rw [hm]
            obtain ⟨xr, hx1, hx2⟩ := bslice_advance x1
            obtain ⟨yr, hy1, hy2⟩ := bslice_advance y1
            have hpos : blen u ≠ 0 := fun h => hu (blen_eq_zero.mp h)
            simp only [blen_append] at hk
            obtain ⟨r, a, b, h1, h2, h3⟩ := ih (x'.1, xr) (y'.1, yr) xs' ys' (c' :: cs') (d' :: ds')
              (chunksOf_cons.mpr ⟨_, _, rfl, hx2, x2⟩) (chunksOf_cons.mpr ⟨_, _, rfl, hy2, y2⟩)
              (by simp only [List.flatten_cons, blen_append]; omega)
            refine ⟨r, a, b, by rw [hx1, hy1]; exact h1, fun heq => h2 ?_, fun hr => ?_⟩
            · simpa [List.append_assoc] using heq
            · simpa only [List.append_assoc, List.prefix_append_right_inj, List.flatten_cons] using h3 hr
          rcases Bool.or_eq_true _ _ ▸ hp with hp | hp
          · obtain ⟨z, rfl⟩ := List.isPrefixOf_iff_prefix.mp hp
            exact step d z [] f3 rfl (by simp) (by rw [lx, ly]; simp)
          · obtain ⟨z, rfl⟩ := List.isPrefixOf_iff_prefix.mp hp
            exact step c [] z e3 (by simp) rfl (by rw [lx, ly]; simp)
        · have hp' : (d.isPrefixOf c || c.isPrefixOf d) = false := Bool.not_eq_true _ ▸ hp
          rw [hp']
          refine ⟨some (), xs', ys', rfl, fun heq => absurd ?_ hp, nofun⟩
          rw [Bool.or_eq_true, List.isPrefixOf_iff_prefix, List.isPrefixOf_iff_prefix]
          rcases List.append_eq_append_iff.mp heq with ⟨z, h1, -⟩ | ⟨z, h1, -⟩
          · exact .inr ⟨z, h1.symm⟩
          · exact .inl ⟨z, h1.symm⟩

theorem SyntaxText.eq_any {a b : SyntaxText} {v w : List (SToken × TextRange)} (hv : a.tokensWithRanges = .ok v)
    (hw : b.tokensWithRanges = .ok w) {cx cy : List (List Char)} (hx : chunksOf v = some cx) (hy : chunksOf w = some cy)
    (hlen : blen cx.flatten ≤ a.range.len) :
    ∃ e, a.eq b = .ok e ∧ (a.range.len = b.range.len → cx.flatten = cy.flatten → e = true) ∧
      (e = true → a.range.len = b.range.len ∧ (cx.flatten <+: cy.flatten ∨ cy.flatten <+: cx.flatten)) := by
  rw [SyntaxText.eq, hv, hw]
  by_cases hl : a.range.len = b.range.len
  · rw [if_neg (by simp [hl])]
    simp only [Res.ok_bind]
    have done : ∀ (r : Option Unit) (xs ys : List (SToken × TextRange)),
        SyntaxText.zipTexts (a.range.len + 1) v w = .ok (r, xs, ys) →
        (cx.flatten = cy.flatten →
          (r.isNone && xs.all (fun it => it.2.isEmpty) && ys.all (fun it => it.2.isEmpty)) = true) →
        (r = none → cx.flatten <+: cy.flatten ∨ cy.flatten <+: cx.flatten) →
        ∃ e, (do
          let __x ← SyntaxText.zipTexts (a.range.len + 1) v w
          match __x with
          | (r, lhs, rhs) => Res.ok (r.isNone && lhs.all (fun it => it.2.isEmpty) &&
              rhs.all (fun it => it.2.isEmpty))) = .ok e ∧ (a.range.len = b.range.len → cx.flatten = cy.flatten → e = true) ∧
          (e = true → a.range.len = b.range.len ∧ (cx.flatten <+: cy.flatten ∨ cy.flatten <+: cx.flatten)) := by
      intro r xs ys h1 h2 h3
      rw [h1, Res.ok_bind]
      refine ⟨_, rfl, fun _ => h2, fun he => ⟨hl, h3 ?_⟩⟩
      cases r with
      | none => rfl
      | some _ => simp at he
    cases v with
    | nil =>
      simp [chunksOf] at hx
      subst hx
      exact done none [] w rfl (fun h => by simpa using (all_empty hy).mpr h.symm) (fun _ => .inl List.nil_prefix)
    | cons x' v =>
      cases w with
      | nil =>
        simp [chunksOf] at hy
        subst hy
        refine done none v [] rfl (fun h => ?_) (fun _ => .inr List.nil_prefix)
        obtain ⟨c, cs', rfl, h1, h2⟩ := chunksOf_cons.mp hx
        simp only [List.flatten_cons, List.append_eq_nil_iff, List.flatten_nil] at h
        simpa using (all_empty h2).mpr h.2
      | cons y' w =>
        obtain ⟨r, xs', ys', e1, e2, e3⟩ := zipLoop_any (a.range.len + 1) x' y' v w cx cy hx hy (by omega)
        exact done r xs' ys' e1 e2 e3
  · rw [if_pos hl]
    exact ⟨false, rfl, fun h => absurd h hl, nofun⟩

theorem shown_len {whole x : List Char} {now old : TextRange} (h : shown whole now old = some x) : blen x ≤ old.len := by
  rw [shown] at h
  by_cases hx : max old.start now.start ≤ min old.stop now.stop
  · rw [if_pos hx] at h
    obtain ⟨p, q, -, h2, h3⟩ := bslice_eq_some.mp h
    simp at h3
    rw [TextRange.len]
    omega
  · rw [if_neg hx] at h
    cases h
    exact Nat.zero_le _

end Rowan
