import Verif.ViewLemmas
/-!
# What edits do to the content of the elements

Unless their comments cite lines of `/repo`, the definitions in this file are vocabulary of the proofs and model no code.
-/
namespace Rowan
namespace Tree

theorem editKids_cons (k : SyntaxKind) (cs : List Tree) (a : Nat) (P : List Nat)
    (f : List Tree → List Tree) :
    (node k cs).editKids (a :: P) f = node k (cs.modify a (·.editKids P f)) := by
  simp only [editKids, at?_cons, children]
  cases h : cs[a]? with
  | none =>
    simp only [Option.bind_none]
    rw [List.modify_eq_self (by simpa using h)]
  | some c =>
    simp only [Option.bind_some]
    cases hc : c.at? P with
    | none =>
      simp only []
      congr 1
      apply List.ext_getElem?
      intro j
      rw [List.getElem?_modify]
      by_cases e : a = j
      · subst e; simp [h, hc]
      · simp [e]
    | some u =>
      cases u with
      | token k' x =>
        simp only []
        congr 1
        apply List.ext_getElem?
        intro j
        rw [List.getElem?_modify]
        by_cases e : a = j
        · subst e; simp [h, hc]
        · simp [e]
      | node k' us =>
        simp only [set]
        congr 1
        apply List.ext_getElem?
        intro j
        rw [List.getElem?_modify, List.getElem?_modify]
        by_cases e : a = j
        · subst e; simp [h, hc]
        · simp [e]

@[simp] theorem editKids_token (k : SyntaxKind) (x : List Char) (P : List Nat)
    (f : List Tree → List Tree) : (token k x).editKids P f = token k x := by
  cases P <;> simp [editKids, at?_cons, children]

@[simp] theorem editKids_nil (k : SyntaxKind) (cs : List Tree) (f : List Tree → List Tree) :
    (node k cs).editKids [] f = node k (f cs) := by simp [editKids, set]

/-- Above the edited element. -/
theorem at?_editKids_above (t : Tree) (Q R : List Nat) (f : List Tree → List Tree) :
    (t.editKids (Q ++ R) f).at? Q = (t.at? Q).map (·.editKids R f) := by
  induction Q generalizing t with
  | nil => simp
  | cons a Q ih =>
    cases t with
    | token k x => simp [at?_cons, children]
    | node k cs =>
      rw [List.cons_append, editKids_cons, at?_cons, at?_cons]
      simp only [children, List.getElem?_modify]
      cases cs[a]? with
      | none => simp
      | some c => simp [ih]

/-- An element that stays and is not above the cut keeps its content. -/
theorem at?_removeAt {t : Tree} {P Q Q' : List Nat} {i : Nat} (hn : ¬ Q <+: P)
    (h : afterCut P i Q = .stays Q') : (t.removeAt P i).at? Q' = t.at? Q := by
  induction P generalizing t Q Q' with
  | nil =>
    cases Q with
    | nil => exact absurd (List.prefix_refl _) hn
    | cons j R =>
      simp only [afterCut] at h
      cases t with
      | token k x =>
        simp only [removeAt, editKids_token]
        split at h
        · cases h
        · split at h <;> cases h <;> simp [at?_cons, children]
      | node k cs =>
        simp only [removeAt, editKids_nil]
        split at h
        · cases h
        · split at h <;> cases h <;> simp only [at?_cons, children, List.getElem?_eraseIdx]
          · rw [if_neg (by omega), show j - 1 + 1 = j by omega]
          · rw [if_pos (by omega)]
  | cons a P ih =>
    cases Q with
    | nil => exact absurd List.nil_prefix hn
    | cons b R =>
      cases t with
      | token k x =>
        simp only [removeAt, editKids_token]
        have : Q' ≠ [] := by
          rintro rfl
          have := View.stays_nil h
          simp at this
        obtain ⟨c, Q1, rfl⟩ := List.exists_cons_of_ne_nil this
        simp [at?_cons, children]
      | node k cs =>
        simp only [afterCut] at h
        simp only [removeAt, editKids_cons]
        split at h
        · next e =>
          subst e
          split at h
          · next Q1 hx =>
            cases h
            simp only [at?_cons, children, List.getElem?_modify]
            cases cs[a]? with
            | none => rfl
            | some c =>
              have := ih (t := c) (fun hp => hn (by simpa using hp)) hx
              simpa [removeAt] using this
          · cases h
        · next e =>
          cases h
          simp [at?_cons, children, e]

/-- An element that is not above the place of insertion keeps its content. -/
theorem at?_insertAt {t u c : Tree} {P Q : List Nat} {i : Nat} (hn : ¬ Q <+: P) (hs : t.at? Q = some c) :
    (t.insertAt P i u).at? (afterInsert P i Q) = some c := by
  induction P generalizing t Q with
  | nil =>
    cases Q with
    | nil => exact absurd (List.prefix_refl _) hn
    | cons j R =>
      simp only [afterInsert]
      cases t with
      | token k x => simp [at?_cons, children] at hs
      | node k cs =>
        simp only [insertAt, editKids_nil]
        rw [at?_cons] at hs
        have hj : j < cs.length := by
          cases h : cs[j]? with
          | none => simp [children, h] at hs
          | some c => exact (List.getElem?_eq_some_iff.mp h).1
        rw [← hs]
        split
        · next h =>
          simp only [at?_cons, children, List.getElem?_append, List.length_take]
          rw [if_neg (by omega), Nat.min_eq_left (by omega), show j + 1 - i = (j - i) + 1 by omega,
            List.getElem?_cons_succ, List.getElem?_drop, show i + (j - i) = j by omega]
        · next h =>
          simp only [at?_cons, children, List.getElem?_append, List.length_take]
          rw [if_pos (by omega), List.getElem?_take, if_pos (by omega)]
  | cons a P ih =>
    cases Q with
    | nil => exact absurd List.nil_prefix hn
    | cons b R =>
      cases t with
      | token k x => simp [at?_cons, children] at hs
      | node k cs =>
        simp only [afterInsert, insertAt, editKids_cons]
        split
        · next e =>
          subst e
          rw [at?_cons] at hs
          simp only [at?_cons, children, List.getElem?_modify]
          cases hc : cs[a]? with
          | none => simp [children, hc] at hs
          | some c' =>
            have := ih (t := c') (fun hp => hn (by simpa using hp)) (by simpa [children, hc] using hs)
            simpa [insertAt] using this
        · next e => rw [← hs]; simp [at?_cons, children, e]

/-- The inserted tree. -/
theorem at?_insertAt_here {t u : Tree} {P R : List Nat} {i : Nat} {k : SyntaxKind} {cs : List Tree}
    (hs : t.at? P = some (node k cs)) (hi : i ≤ cs.length) :
    (t.insertAt P i u).at? (P ++ i :: R) = u.at? R := by
  have h := at?_editKids_above t P [] fun cs => cs.take i ++ u :: cs.drop i
  rw [List.append_nil] at h
  rw [at?_append, insertAt, h, hs, Option.map_some, editKids_nil, Option.bind_some, at?_cons]
  simp only [children, List.getElem?_append, List.length_take]
  rw [if_neg (by omega), Nat.min_eq_left hi, Nat.sub_self]
  rfl

end Tree

namespace View
variable {v : View} {hc : Nat → Nat} {p q i : Nat}

/-- Cutting the element `e` out. -/
theorem cutAt_named {e r j : Nat} {P : List Nat} (h : v.Named fun x => 0 < hc x)
    (he : v.IsAt hc e r (P ++ [j])) : (v.cutAt e r P j).Named fun x => 0 < hc x := by
  obtain ⟨her, he⟩ := he
  have hpos : ∀ x, (v.cutAt e r P j).pos x = cutLoc r e P j (v.pos x).1 (v.pos x).2 := fun _ => rfl
  refine ⟨?_, ?_, ?_⟩
  · intro x hx hx2
    rw [hpos] at hx2 ⊢
    rcases cutLoc_cases r e P j (v.pos x).1 (v.pos x).2 with ⟨a, Q', e1, e2⟩ | ⟨a, R, e1, e2⟩ | ⟨a, e2⟩ <;>
      rw [e2] at hx2 ⊢
    · have hx2 : Q' = [] := hx2
      subst hx2
      exact a.symm.trans (h.root x hx (stays_nil e1))
    · have hx2 : R = [] := hx2
      subst hx2
      exact ((he x hx).1.mpr (Prod.ext a e1)).symm
    · exact h.root x hx hx2
  · intro x y hx hy hxy
    rw [hpos] at hxy ⊢
    by_cases hye : y = e
    · have := (he y hy).1.mp hye
      rw [this]
      simp [cutLoc, Tree.afterCut_here]
    have hold : (v.pos x).1 = y := by
      rcases cutLoc_cases r e P j (v.pos x).1 (v.pos x).2 with ⟨a, Q', e1, e2⟩ | ⟨a, R, e1, e2⟩ | ⟨a, e2⟩ <;>
        rw [e2] at hxy
      · exact a.trans hxy
      · exact absurd hxy.symm hye
      · exact hxy
    rw [h.top x y hx hy hold]
    simp only [cutLoc, Tree.afterCut_nil]
    split <;> rfl
  · intro x y hx hy hmy hxy
    refine h.inj x y hx hy hmy ?_
    rw [hpos, hpos] at hxy
    have hx1 := (he x hx).2
    have hy1 := (he y hy).2
    rcases cutLoc_cases r e P j (v.pos x).1 (v.pos x).2 with ⟨a, Q', e1, e2⟩ | ⟨a, R, e1, e2⟩ | ⟨a, e2⟩ <;>
    rcases cutLoc_cases r e P j (v.pos y).1 (v.pos y).2 with
      ⟨f, S', f1, f2⟩ | ⟨f, S, f1, f2⟩ | ⟨f, f2⟩ <;> rw [e2, f2] at hxy
    · have : Q' = S' := (Prod.mk.inj hxy).2
      subst this
      exact Prod.ext (a.trans f.symm) (Tree.afterCut_inj (e1.trans f1.symm))
    · exact absurd (Prod.mk.inj hxy).1.symm her
    · exact absurd (Prod.mk.inj hxy).1.symm f
    · exact absurd (Prod.mk.inj hxy).1 her
    · have : R = S := (Prod.mk.inj hxy).2
      subst this
      exact Prod.ext (a.trans f.symm) (e1.trans f1.symm)
    · exact absurd (Prod.mk.inj hxy).1.symm hy1
    · exact absurd (Prod.mk.inj hxy).1 a
    · exact absurd (Prod.mk.inj hxy).1 hx1
    · exact Prod.ext (Prod.mk.inj hxy).1 (Prod.mk.inj hxy).2

theorem cutAt_pos_eq (v : View) (e r : Nat) (P : List Nat) (j x : Nat) :
    (v.cutAt e r P j).pos x = cutLoc r e P j (v.pos x).1 (v.pos x).2 := rfl

theorem cutAt_tree_eq (v : View) (e r : Nat) (P : List Nat) (j y : Nat) :
    (v.cutAt e r P j).tree y = if y = e then ((v.tree r).at? (P ++ [j])).getD (v.tree y)
      else if y = r then (v.tree r).removeAt P j else v.tree y := rfl

theorem join_pos_eq (v : View) (q i p x : Nat) :
    (v.join q i p).pos x = joinLoc (v.pos q).1 p (v.pos q).2 i (v.pos x).1 (v.pos x).2 := rfl

theorem join_tree_eq (v : View) (q i p y : Nat) :
    (v.join q i p).tree y =
      if y = (v.pos q).1 then (v.tree y).insertAt (v.pos q).2 i (v.tree p) else v.tree y := rfl

/-- A child cut out: elements that are not above it keep their content. -/
theorem cutAt_sub_off {e r j x : Nat} {P : List Nat} {t : Tree} (he : e ≠ r) (hx : (v.pos x).1 ≠ e)
    (ht : (v.tree r).at? (P ++ [j]) = some t) (hn : (v.pos x).1 = r → ¬ (v.pos x).2 <+: P) :
    (v.cutAt e r P j).sub x = v.sub x := by
  rw [View.sub, View.sub, cutAt_pos_eq, cutAt_tree_eq]
  rcases cutLoc_cases r e P j (v.pos x).1 (v.pos x).2 with ⟨a, Q', e1, e2⟩ | ⟨a, R, e1, e2⟩ | ⟨a, e2⟩ <;>
    rw [e2]
  · simp only [if_neg (Ne.symm he), if_true]
    rw [a]
    exact Tree.at?_removeAt (hn a) e1
  · simp only [if_true, ht, Option.getD_some]
    rw [a, e1, List.append_cons, Tree.at?_append, ht]; rfl
  · simp only [if_neg hx, if_neg a]

/-- A child cut out: elements above it lose it. -/
theorem cutAt_sub_above {e r j x : Nat} {P R : List Nat} (he : e ≠ r)
    (hx : (v.pos x).1 = r) (hR : P = (v.pos x).2 ++ R) :
    (v.cutAt e r P j).pos x = v.pos x ∧ (v.cutAt e r P j).sub x = (v.sub x).map (·.removeAt R j) := by
  have hloc : cutLoc r e P j (v.pos x).1 (v.pos x).2 = v.pos x := by
    rw [cutLoc, if_pos hx]
    have : Tree.afterCut P j (v.pos x).2 = .stays (v.pos x).2 := by
      rw [hR]
      generalize (v.pos x).2 = X
      clear hR hx
      induction X with
      | nil => simp
      | cons a X ih => simp [Tree.afterCut, ih]
    rw [this]
    exact Prod.ext hx.symm rfl
  refine ⟨hloc, ?_⟩
  rw [View.sub, View.sub, cutAt_pos_eq, cutAt_tree_eq]
  rw [hloc, hx]
  simp only [if_neg (Ne.symm he), if_true]
  rw [hR, Tree.removeAt, Tree.at?_editKids_above]
  rfl

variable {A : Nat → Prop}

/-- `detach`: elements that are not above the detached one keep their content. -/
theorem cut_sub_off {x : Nat} (h : v.Named A) (hp : A p) (hx : A x) (hs : (v.sub p).isSome)
    (hn : v.Above x p → x = p) : (v.cut p).sub x = v.sub x := by
  by_cases hn' : (v.pos p).2 = []
  · have e : v.cut p = v := by simp [View.cut, hn']
    rw [e]
  · obtain ⟨P, j, h1, h2⟩ := cut_eq hn'
    rw [h2]
    have hnq : ∀ y, A y → (v.pos y).1 ≠ p := fun y hy e => hn' (h.top y p hy hp e)
    obtain ⟨t, ht⟩ := Option.isSome_iff_exists.mp hs
    rw [View.sub, h1] at ht
    refine cutAt_sub_off (t := t) (Ne.symm (hnq p hp)) (hnq x hx) ht fun e hpre => ?_
    have : x = p := hn ⟨e, by rw [h1]; exact hpre.trans (List.prefix_append ..)⟩
    rw [this, h1] at hpre
    have := hpre.length_le
    simp at this; omega

/-- `join`: the elements of the tree put in and those not above the place keep their content. -/
theorem join_sub_off {x : Nat} {k : SyntaxKind} {cs : List Tree} {c : Tree}
    (hq : v.sub q = some (.node k cs)) (hi : i ≤ cs.length)
    (hn : ¬ v.Above x q) (hx : v.sub x = some c) : (v.join q i p).sub x = some c := by
  rw [View.sub, join_pos_eq, join_tree_eq]
  rw [View.sub] at hq hx
  rcases joinLoc_cases (v.pos q).1 p (v.pos q).2 i (v.pos x).1 (v.pos x).2 with
    ⟨e, e2⟩ | ⟨e0, e, e2⟩ | ⟨e0, e, e2⟩ <;> rw [e2]
  · simp only [if_true]
    rw [Tree.at?_insertAt_here hq hi, ← e]
    exact hx
  · simp only [if_true]
    rw [e] at hx
    exact Tree.at?_insertAt (fun hpre => hn ⟨e, hpre⟩) hx
  · simp only [if_neg e]; exact hx

theorem join_sub_above {x : Nat} {R : List Nat} (hne : (v.pos q).1 ≠ p)
    (hx : (v.pos x).1 = (v.pos q).1) (hR : (v.pos q).2 = (v.pos x).2 ++ R) :
    (v.join q i p).pos x = v.pos x ∧
      (v.join q i p).sub x = (v.sub x).map (·.insertAt R i (v.tree p)) := by
  have hloc : joinLoc (v.pos q).1 p (v.pos q).2 i (v.pos x).1 (v.pos x).2 = v.pos x := by
    have : Tree.afterInsert (v.pos q).2 i (v.pos x).2 = (v.pos x).2 := by
      rw [hR]
      generalize (v.pos x).2 = X
      induction X with
      | nil => simp
      | cons a X ih => simp [Tree.afterInsert, ih]
    rw [joinLoc, hx, if_neg hne, if_pos rfl, this]
    exact Prod.ext hx.symm rfl
  refine ⟨hloc, ?_⟩
  rw [View.sub, View.sub, join_pos_eq, join_tree_eq]
  rw [hloc, if_pos hx, hR, Tree.insertAt, Tree.at?_editKids_above]
  rfl

/-- Neither is above the other. -/
def Apart (v : View) (x y : Nat) : Prop := ¬ v.Above x y ∧ ¬ v.Above y x

theorem cut_mutable (v : View) (p : Nat) : (v.cut p).mutable = v.mutable := by
  rw [View.cut]; split <;> rfl

/-- Putting a tree in puts nothing above the elements of other trees that was not there. -/
theorem above_of_join' {x y : Nat} (hy : (v.pos y).1 ≠ p) (hx : (v.join q i p).Above x y) :
    v.Above x y := by
  obtain ⟨x1, x2⟩ := hx
  rw [join_pos_eq, join_pos_eq] at x1 x2
  rcases joinLoc_cases (v.pos q).1 p (v.pos q).2 i (v.pos y).1 (v.pos y).2 with
    ⟨f, f2⟩ | ⟨f0, f, f2⟩ | ⟨f0, f, f2⟩
  · exact absurd f hy
  · rw [f2] at x1 x2
    rcases joinLoc_cases (v.pos q).1 p (v.pos q).2 i (v.pos x).1 (v.pos x).2 with
      ⟨e, e2⟩ | ⟨e0, e, e2⟩ | ⟨e0, e, e2⟩ <;> rw [e2] at x1 x2
    · obtain ⟨Z, hZ⟩ := x2
      exact absurd hZ.symm (by simpa using Tree.afterInsert_ne)
    · exact ⟨e.trans f.symm, Tree.afterInsert_prefix x2⟩
    · exact absurd x1 e
  · rw [f2] at x1 x2
    rcases joinLoc_cases (v.pos q).1 p (v.pos q).2 i (v.pos x).1 (v.pos x).2 with
      ⟨e, e2⟩ | ⟨e0, e, e2⟩ | ⟨e0, e, e2⟩ <;> rw [e2] at x1 x2
    · exact absurd x1.symm f
    · exact absurd x1.symm f
    · exact ⟨x1, x2⟩

/-- Moving elements that are apart from `q` and from each other below `q`. -/
theorem insertAll_apart (hq : A q) : ∀ (ps : List Nat) (i : Nat) (v : View) (k : SyntaxKind)
    (cs ts : List Tree), v.Named A → v.sub q = some (.node k cs) → i ≤ cs.length →
    (∀ p ∈ ps, A p ∧ v.mutable p = true ∧ v.Apart p q) → ps.Pairwise v.Apart →
    ps.map v.sub = ts.map some →
    ∃ w, v.insertAll q i ps = .done w ∧ w.sub q = some (.node k (cs.take i ++ ts ++ cs.drop i))
  | [], i, v, k, cs, ts, hN, hs, hi, _, _, ht => by
    have : ts = [] := by simpa using ht.symm
    subst this
    exact ⟨v, rfl, by simpa using hs⟩
  | p :: ps, i, v, k, cs, [], hN, hs, hi, h, hpw, ht => by simp at ht
  | p :: ps, i, v, k, cs, t :: ts, hN, hs, hi, h, hpw, ht => by
    obtain ⟨hp, hm, hpq, hqp⟩ := h p (by simp)
    obtain ⟨ht1, ht2⟩ := List.cons.inj ht
    obtain ⟨hpw1, hpw2⟩ := List.pairwise_cons.mp hpw
    have hne : ((v.cut p).pos q).1 ≠ p := fun e => hpq ((cut_above hN hp hq).mp e)
    obtain ⟨hN1, hpp⟩ := cut_named hN hp hm
    have hs1 : (v.cut p).sub q = some (.node k cs) := by
      rw [cut_sub_off hN hp hq (by rw [ht1]; rfl) (fun hx => absurd hx hqp)]; exact hs
    have hw : (v.cut p).width q = cs.length := by rw [View.width, hs1]; rfl
    have htp : (v.cut p).tree p = t := by
      have := cut_sub_off (x := p) hN hp hp (by rw [ht1]; rfl) (fun _ => rfl)
      rw [ht1, View.sub, hpp] at this
      simpa using this
    have hs2 : ((v.cut p).join q i p).sub q = some (.node k (cs.take i ++ t :: cs.drop i)) := by
      rw [(join_sub_above (x := q) (R := []) hne rfl (by simp)).2, hs1, htp]
      simp [Tree.insertAt]
    have hns : ∀ x ∈ ps, (v.cut p).sub x = v.sub x := fun x hx =>
      cut_sub_off hN hp (h x (by simp [hx])).1 (by rw [ht1]; rfl) fun e => absurd e (hpw1 x hx).2
    have hna : ∀ x ∈ ps, ¬ (v.cut p).Above x q := fun x hx e =>
      (h x (by simp [hx])).2.2.1 (above_of_cut hN hp hq hpq e)
    have hnr : ∀ x ∈ ps, ((v.cut p).pos x).1 ≠ p := fun x hx e =>
      (hpw1 x hx).1 ((cut_above hN hp (h x (by simp [hx])).1).mp e)
    have g1 : ∀ x ∈ ps, A x ∧ ((v.cut p).join q i p).mutable x = true ∧ ((v.cut p).join q i p).Apart x q := by
      intro x hx
      obtain ⟨x1, x2, x3, x4⟩ := h x (by simp [hx])
      refine ⟨x1, ?_, fun e => hna x hx (above_of_join hne e), fun e => ?_⟩
      · show (v.cut p).mutable x = true
        rw [cut_mutable]; exact x2
      · exact x4 (above_of_cut hN hp x1 (hpw1 x hx).1 (above_of_join' (hnr x hx) e))
    have g2 : ps.Pairwise ((v.cut p).join q i p).Apart := by
      refine hpw2.imp_of_mem fun {x y} hx hy hxy => ⟨fun e => hxy.1 ?_, fun e => hxy.2 ?_⟩
      · exact above_of_cut hN hp (h y (by simp [hy])).1 (hpw1 y hy).1 (above_of_join' (hnr y hy) e)
      · exact above_of_cut hN hp (h x (by simp [hx])).1 (hpw1 x hx).1 (above_of_join' (hnr x hx) e)
    have g3 : ps.map ((v.cut p).join q i p).sub = ts.map some := by
      rw [← ht2]
      refine List.map_congr_left fun x hx => ?_
      have : ∃ c, v.sub x = some c := by
        have : v.sub x ∈ ts.map some := by rw [← ht2]; exact List.mem_map_of_mem hx
        obtain ⟨c, _, hc⟩ := List.mem_map.mp this
        exact ⟨c, hc.symm⟩
      obtain ⟨c, hc⟩ := this
      rw [hc]
      exact join_sub_off hs1 hi (hna x hx) (by rw [hns x hx]; exact hc)
    obtain ⟨w, h1, h2⟩ := insertAll_apart hq ps (i + 1) _ k _ ts (join_named (i := i) hN1 hq hne) hs2
      (by simp; omega) g1 g2 g3
    refine ⟨w, ?_, ?_⟩
    · rw [insertAll, if_neg (by rw [hm]; simp), if_neg hne, if_pos (by rw [hw]; exact hi)]
      exact h1
    · rw [h2]
      congr 2
      have e1 : (cs.take i ++ t :: cs.drop i).take (i + 1) = cs.take i ++ [t] := by
        rw [List.take_append, List.length_take, Nat.min_eq_left hi,
          List.take_of_length_le (by simp; omega), show i + 1 - i = 1 by omega]; rfl
      have e2 : (cs.take i ++ t :: cs.drop i).drop (i + 1) = cs.drop i := by
        rw [List.drop_append, List.length_take, Nat.min_eq_left hi,
          List.drop_eq_nil_of_le (by simp; omega), show i + 1 - i = 1 by omega]; rfl
      rw [e1, e2]; simp

/-- Cutting a child out puts nothing above the elements that stay. -/
theorem above_of_cutAt {e r j x y : Nat} {P : List Nat} (he : e ≠ r) (hy1 : (v.pos y).1 ≠ e)
    (hy : (v.pos y).1 = r → ¬ P ++ [j] <+: (v.pos y).2) (hx : (v.cutAt e r P j).Above x y) :
    v.Above x y := by
  obtain ⟨x1, x2⟩ := hx
  rw [cutAt_pos_eq, cutAt_pos_eq] at x1 x2
  rcases cutLoc_cases r e P j (v.pos y).1 (v.pos y).2 with ⟨f, S', f1, f2⟩ | ⟨f, S, f1, f2⟩ | ⟨f, f2⟩
  · rw [f2] at x1 x2
    rcases cutLoc_cases r e P j (v.pos x).1 (v.pos x).2 with ⟨a, Q', e1, e2⟩ | ⟨a, R, e1, e2⟩ | ⟨a, e2⟩ <;>
      rw [e2] at x1 x2
    · exact ⟨a.trans f.symm, Tree.afterCut_prefix e1 f1 x2⟩
    · exact absurd x1 he
    · exact absurd x1 a
  · exact absurd ⟨S, by rw [f1]; simp⟩ (hy f)
  · rw [f2] at x1 x2
    rcases cutLoc_cases r e P j (v.pos x).1 (v.pos x).2 with ⟨a, Q', e1, e2⟩ | ⟨a, R, e1, e2⟩ | ⟨a, e2⟩ <;>
      rw [e2] at x1 x2
    · exact absurd x1.symm f
    · exact absurd x1.symm hy1
    · exact ⟨x1, x2⟩

/-- What `splice_children` leaves below `q` when the elements put in are apart from `q` and from each
other. -/
theorem splice_apart {e a b : Nat} {ps : List Nat} {k : SyntaxKind} {cs ts : List Tree}
    (hN : v.Named fun x => 0 < hc x) (hq : 0 < hc q) (he : v.Victim hc e q a b) (hm : v.mutable q = true)
    (hs : v.sub q = some (.node k cs)) (ha : a ≤ cs.length)
    (hps : ∀ p ∈ ps, 0 < hc p ∧ v.mutable p = true ∧ v.Apart p q) (hpw : ps.Pairwise v.Apart)
    (hts : ps.map v.sub = ts.map some) :
    ∃ w, v.splice e q a b ps = .done w ∧
      w.sub q = some (.node k (cs.take a ++ ts ++ cs.drop (if a < b then a + 1 else a))) := by
  rw [splice, if_neg (by rw [hm]; simp)]
  have hw : v.width q = cs.length := by rw [width, hs]; rfl
  rw [deleted, hw]
  by_cases hd : a < b ∧ a < cs.length
  · rw [if_pos hd, if_pos hd.1]
    have hat := he hm hd.1 (by rw [hw]; exact hd.2)
    have hN' := cutAt_named hN hat
    obtain ⟨her, hat⟩ := hat
    have hsq : (v.cutAt e (v.pos q).1 (v.pos q).2 a).sub q = some (.node k (cs.eraseIdx a)) := by
      rw [(cutAt_sub_above (x := q) (R := []) her rfl (by simp)).2, hs]
      simp [Tree.removeAt]
    have hca : (v.tree (v.pos q).1).at? ((v.pos q).2 ++ [a]) = some cs[a] := by
      rw [Tree.at?_snoc]
      rw [sub] at hs
      rw [hs]
      simp [Tree.children, hd.2]
    have hoff : ∀ p ∈ ps, (v.pos p).1 = (v.pos q).1 → ¬ (v.pos q).2 ++ [a] <+: (v.pos p).2 := by
      intro p hp e1 e2
      exact (hps p hp).2.2.2 ⟨e1.symm, (List.prefix_append ..).trans e2⟩
    obtain ⟨w, h1, h2⟩ := insertAll_apart (A := fun x => 0 < hc x) hq ps a _ k _ ts hN' hsq
      (by rw [List.length_eraseIdx, if_pos hd.2]; omega)
      (fun p hp => by
        obtain ⟨x1, x2, x3, x4⟩ := hps p hp
        refine ⟨x1, x2, fun e1 => x3 ?_, fun e1 => x4 ?_⟩
        · refine above_of_cutAt her (hat q hq).2 (fun _ hpre => ?_) e1
          have := hpre.length_le
          simp at this; omega
        · exact above_of_cutAt her (hat p x1).2 (hoff p hp) e1)
      (hpw.imp_of_mem fun {x y} hx hy hxy =>
        ⟨fun e1 => hxy.1 (above_of_cutAt her (hat y (hps y hy).1).2 (hoff y hy) e1),
          fun e1 => hxy.2 (above_of_cutAt her (hat x (hps x hx).1).2 (hoff x hx) e1)⟩)
      (by
        rw [← hts]
        refine List.map_congr_left fun p hp => ?_
        exact cutAt_sub_off her (hat p (hps p hp).1).2 hca
          fun e1 hpre => (hps p hp).2.2.1 ⟨e1, hpre⟩)
    refine ⟨w, h1, ?_⟩
    rw [h2]
    congr 2
    rw [List.eraseIdx_eq_take_drop_succ, List.take_append, List.drop_append, List.take_take,
      List.length_take, Nat.min_self, Nat.min_eq_left ha, Nat.sub_self, List.take_zero, List.append_nil,
      List.drop_eq_nil_of_le (by simp; omega)]
    rfl
  · rw [if_neg hd]
    obtain ⟨w, h1, h2⟩ := insertAll_apart (A := fun x => 0 < hc x) hq ps a v k cs ts hN hs ha hps hpw hts
    refine ⟨w, h1, ?_⟩
    rw [h2]
    by_cases hab : a < b
    · rw [if_pos hab, List.drop_eq_nil_of_le (by omega), List.drop_eq_nil_of_le (by omega)]
    · rw [if_neg hab]

/-- Cutting puts nothing above anything. -/
theorem above_of_cut' {x y : Nat} (h : v.Named A) (hp : A p) (hx : A x) (hy : A y)
    (hxy : (v.cut p).Above x y) : v.Above x y := by
  by_cases hpy : v.Above p y
  · by_cases hn : (v.pos p).2 = []
    · have e : v.cut p = v := by simp [View.cut, hn]
      rwa [e] at hxy
    · have e1 := (cut_above h hp hy).mpr hpy
      have e2 : ((v.cut p).pos x).1 = p := hxy.1.trans e1
      obtain ⟨P, j, h1, h2⟩ := cut_eq hn
      rw [h2] at hxy e1 e2
      obtain ⟨_, x2⟩ := hxy
      rw [cutAt_pos_eq] at e1 e2
      rw [cutAt_pos_eq, cutAt_pos_eq] at x2
      have hnr : p ≠ (v.pos p).1 := fun e => hn (h.top p p hp hp e.symm)
      rcases cutLoc_cases (v.pos p).1 p P j (v.pos x).1 (v.pos x).2 with
        ⟨e, Q', f1, f2⟩ | ⟨e, R, f1, f2⟩ | ⟨e, f2⟩ <;> rw [f2] at e2 x2
      · exact absurd e2.symm hnr
      · rcases cutLoc_cases (v.pos p).1 p P j (v.pos y).1 (v.pos y).2 with
          ⟨g, S', g1, g2⟩ | ⟨g, S, g1, g2⟩ | ⟨g, g2⟩ <;> rw [g2] at e1 x2
        · exact absurd e1.symm hnr
        · refine ⟨e.trans g.symm, ?_⟩
          rw [f1, g1, List.prefix_append_right_inj, List.cons_prefix_cons]
          exact ⟨rfl, x2⟩
        · exact absurd (h.top y p hy hp e1) hn
      · exact absurd (h.top x p hx hp e2) hn
  · exact above_of_cut h hp hy hpy hxy

/-- Putting a tree into `q` puts only `q` and the elements above `q` above anything. -/
theorem above_of_join'' {x y : Nat} (hx : (v.join q i p).Above x y) : v.Above x y ∨ v.Above x q := by
  by_cases hy : (v.pos y).1 = p
  · obtain ⟨x1, x2⟩ := hx
    rw [join_pos_eq, join_pos_eq] at x1 x2
    have hy2 : joinLoc (v.pos q).1 p (v.pos q).2 i (v.pos y).1 (v.pos y).2 =
        ((v.pos q).1, (v.pos q).2 ++ i :: (v.pos y).2) := by rw [joinLoc, if_pos hy]
    rw [hy2] at x1 x2
    rcases joinLoc_cases (v.pos q).1 p (v.pos q).2 i (v.pos x).1 (v.pos x).2 with
      ⟨e, e2⟩ | ⟨e0, e, e2⟩ | ⟨e0, e, e2⟩ <;> rw [e2] at x1 x2
    · left
      refine ⟨e.trans hy.symm, ?_⟩
      simpa [List.prefix_append_right_inj, List.cons_prefix_cons] using x2
    · right
      refine ⟨e, ?_⟩
      have x2 : Tree.afterInsert (v.pos q).2 i (v.pos x).2 <+: (v.pos q).2 ++ i :: (v.pos y).2 := x2
      have hlen : (Tree.afterInsert (v.pos q).2 i (v.pos x).2).length ≤ (v.pos q).2.length := by
        apply Nat.le_of_not_lt
        intro hlt
        obtain ⟨Z, hZ⟩ := x2
        have := List.append_eq_append_iff.mp hZ
        rcases this with ⟨l, h1, _⟩ | ⟨l, h1, h2⟩
        · have := congrArg List.length h1; simp at this; omega
        · cases l with
          | nil => rw [h1] at hlt; simp at hlt
          | cons c l =>
            have := (List.cons.inj h2).1
            subst this
            exact Tree.afterInsert_ne h1
      have hpre : Tree.afterInsert (v.pos q).2 i (v.pos x).2 <+: (v.pos q).2 :=
        List.prefix_of_prefix_length_le x2 (List.prefix_append ..) hlen
      refine Tree.afterInsert_prefix (P := (v.pos q).2) (i := i) ?_
      rw [Tree.afterInsert_self]; exact hpre
    · exact absurd x1 e
  · exact .inl (above_of_join' hy hx)

/-- Every element has content. -/
def Full (v : View) (A : Nat → Prop) : Prop := ∀ x, A x → (v.sub x).isSome

/-- An element loses at most something inside. -/
theorem cut_sub_cases {x : Nat} (h : v.Named A) (hf : v.Full A) (hp : A p) (hx : A x) :
    (v.cut p).sub x = v.sub x ∨ ∃ R j, (v.cut p).sub x = (v.sub x).map (·.removeAt R j) := by
  by_cases ha : v.Above x p → x = p
  · exact .inl (cut_sub_off h hp hx (hf p hp) ha)
  · have hxp : x ≠ p := fun e => ha fun _ => e
    have ha : v.Above x p := Classical.byContradiction fun hn => ha fun h' => absurd h' hn
    have hn : (v.pos p).2 ≠ [] := fun e => by
      obtain ⟨a1, a2⟩ := ha
      rw [e] at a2
      have : (v.pos x).2 = [] := by simpa using a2
      exact hxp ((h.root x hx this).symm.trans (a1.trans (h.root p hp e)))
    obtain ⟨P, j, h1, h2⟩ := cut_eq hn
    have hpr : p ≠ (v.pos p).1 := fun e => hn (h.top p p hp hp e.symm)
    rw [h2]
    obtain ⟨a1, R, hR⟩ := ha
    rw [h1] at hR
    rcases List.eq_nil_or_concat R with rfl | ⟨R', j', rfl⟩
    · have hR : (v.pos x).2 = P ++ [j] := by simpa using hR
      have := cutAt_sub_off (v := v) (e := p) (r := (v.pos p).1) (j := j) (x := x) (P := P)
        (t := ((v.sub p).get (hf p hp))) hpr (fun e => hn (h.top x p hx hp e))
        (by rw [← h1]; exact (Option.some_get _).symm) (fun _ hpre => by
          rw [hR] at hpre
          have := hpre.length_le
          simp at this; omega)
      exact .inl this
    · rw [List.concat_eq_append, ← List.append_assoc] at hR
      have := List.append_inj' hR rfl
      exact .inr ⟨_, _, (cutAt_sub_above hpr a1 this.1.symm).2⟩

theorem cut_full (h : v.Named A) (hf : v.Full A) (hp : A p) : (v.cut p).Full A := by
  intro x hx
  rcases cut_sub_cases h hf hp hx with e | ⟨R, j, e⟩
  · rw [e]; exact hf x hx
  · rw [e]; simpa using hf x hx

theorem editKids_node (k : SyntaxKind) (cs : List Tree) (P : List Nat) (f : List Tree → List Tree) :
    ∃ cs', (Tree.node k cs).editKids P f = .node k cs' := by
  cases P with
  | nil => exact ⟨_, Tree.editKids_nil ..⟩
  | cons a P => exact ⟨_, Tree.editKids_cons ..⟩

theorem cut_node {x : Nat} {k : SyntaxKind} {cs : List Tree} (h : v.Named A) (hf : v.Full A) (hp : A p)
    (hx : A x) (hs : v.sub x = some (.node k cs)) : ∃ cs', (v.cut p).sub x = some (.node k cs') := by
  rcases cut_sub_cases h hf hp hx with e | ⟨R, j, e⟩
  · exact ⟨cs, e.trans hs⟩
  · rw [e, hs]
    obtain ⟨cs', e'⟩ := editKids_node k cs R (·.eraseIdx j)
    exact ⟨cs', by rw [Option.map_some, Tree.removeAt, e']⟩

theorem join_full {k : SyntaxKind} {cs : List Tree} (hf : v.Full A) (hq : v.sub q = some (.node k cs))
    (hi : i ≤ cs.length) (hne : (v.pos q).1 ≠ p) : (v.join q i p).Full A := by
  intro x hx
  by_cases ha : v.Above x q
  · obtain ⟨a1, R, hR⟩ := ha
    rw [(join_sub_above hne a1 hR.symm).2]
    simpa using hf x hx
  · obtain ⟨c, hc⟩ := Option.isSome_iff_exists.mp (hf x hx)
    rw [join_sub_off hq hi ha hc]; rfl

/-- The view after an edit that returns or panics and leaves only trees. -/
def Outcome.view? : Outcome → Option View
  | done v | refused v | outOfRange v _ _ => some v
  | _ => none

/-- Elements that are neither above `q` nor above what is moved keep their content. -/
theorem insertAll_sub_off (hq : A q) {x : Nat} (hx : A x) {w : View} : ∀ (ps : List Nat) (i : Nat) (v : View),
    v.Named A → v.Full A → (∃ k cs, v.sub q = some (.node k cs)) → (∀ p ∈ ps, A p) → ¬ v.Above x q → (∀ p ∈ ps, v.Above x p → x = p) →
    (v.insertAll q i ps).view? = some w → w.sub x = v.sub x
  | [], i, v, hN, hf, _, _, _, _, h => by cases h; rfl
  | p :: ps, i, v, hN, hf, ⟨k, cs0, hs0⟩, hps, hxq, hxp, h => by
    have hp := hps p (by simp)
    rw [insertAll] at h
    split at h
    · cases h; rfl
    next hm =>
    have hm : v.mutable p = true := by simpa using hm
    split at h
    · split at h <;> cases h
    next hne =>
    split at h
    next hi =>
      have hN1 := (cut_named hN hp hm).1
      have hxq1 : ¬ (v.cut p).Above x q := fun e => hxq (above_of_cut' hN hp hx hq e)
      have hsx := cut_sub_off hN hp hx (hf p hp) (hxp p (by simp))
      obtain ⟨c, hc⟩ := Option.isSome_iff_exists.mp (hf x hx)
      -- the content of `q`
      obtain ⟨cs, htq⟩ := cut_node hN hf hp hq hs0
      rw [View.width, htq] at hi
      have k1 : ((v.cut p).join q i p).sub x = v.sub x := by
        rw [join_sub_off htq hi hxq1 (hsx.trans hc), hc]
      have k2 : ((v.cut p).join q i p).Full A := join_full (cut_full hN hf hp) htq hi hne
      have k3 : ∃ k cs, ((v.cut p).join q i p).sub q = some (.node k cs) := by
        refine ⟨k, cs.take i ++ (v.cut p).tree p :: cs.drop i, ?_⟩
        rw [(join_sub_above (x := q) (R := []) hne rfl (by simp)).2, htq]
        simp [Tree.insertAt]
      rw [← k1]
      refine insertAll_sub_off hq hx ps (i + 1) _ (join_named hN1 hq hne) k2 k3
        (fun y hy => hps y (by simp [hy])) (fun e => hxq1 (above_of_join hne e)) (fun y hy e => ?_) h
      rcases above_of_join'' e with e | e
      · exact hxp y (by simp [hy]) (above_of_cut' hN hp hx (hps y (by simp [hy])) e)
      · exact absurd e hxq1
    · cases h
      exact cut_sub_off hN hp hx (hf p hp) (hxp p (by simp))

theorem above_of_cutAt' {e r j x y : Nat} {P : List Nat} (he : e ≠ r) (hx1 : (v.pos x).1 ≠ e)
    (hy1 : (v.pos y).1 ≠ e) (hxy : (v.cutAt e r P j).Above x y) : v.Above x y := by
  by_cases hy : (v.pos y).1 = r ∧ P ++ [j] <+: (v.pos y).2
  · obtain ⟨hy, S, hS⟩ := hy
    have hy2 : cutLoc r e P j (v.pos y).1 (v.pos y).2 = (e, S) := by
      rw [cutLoc, if_pos hy, ← hS, List.append_assoc]
      have := Tree.afterCut_below P j S
      rw [show P ++ ([j] ++ S) = P ++ j :: S from rfl, this]
    obtain ⟨x1, x2⟩ := hxy
    rw [cutAt_pos_eq, cutAt_pos_eq, hy2] at x1 x2
    rcases cutLoc_cases r e P j (v.pos x).1 (v.pos x).2 with ⟨a, Q', e1, e2⟩ | ⟨a, R, e1, e2⟩ | ⟨a, e2⟩ <;>
      rw [e2] at x1 x2
    · exact absurd x1.symm he
    · refine ⟨a.trans hy.symm, ?_⟩
      rw [e1, ← hS, List.append_assoc]
      rw [List.prefix_append_right_inj]
      exact List.cons_prefix_cons.mpr ⟨rfl, x2⟩
    · exact absurd x1 hx1
  · exact above_of_cutAt he hy1 (fun a b => hy ⟨a, b⟩) hxy

/-- What `splice_children` does to the elements that are neither above the node nor above what is moved. -/
theorem splice_sub_off {e a b x : Nat} {ps : List Nat} {w : View} {k : SyntaxKind} {cs : List Tree}
    (hN : v.Named fun x => 0 < hc x) (hf : v.Full fun x => 0 < hc x) (hq : 0 < hc q)
    (he : v.Victim hc e q a b) (hs : v.sub q = some (.node k cs)) (hx : 0 < hc x) (hxq : ¬ v.Above x q)
    (hps : ∀ p ∈ ps, 0 < hc p) (hxp : ∀ p ∈ ps, v.Above x p → x = p)
    (h : (v.splice e q a b ps).view? = some w) : w.sub x = v.sub x := by
  rw [splice] at h
  split at h
  · cases h; rfl
  next hm =>
  have hm : v.mutable q = true := by simpa using hm
  have hw : v.width q = cs.length := by rw [width, hs]; rfl
  rw [deleted, hw] at h
  split at h
  next hd =>
    have hat := he hm hd.1 (by rw [hw]; exact hd.2)
    have hN' := cutAt_named hN hat
    obtain ⟨her, hat⟩ := hat
    have hca : (v.tree (v.pos q).1).at? ((v.pos q).2 ++ [a]) = some cs[a] := by
      rw [Tree.at?_snoc]
      rw [sub] at hs
      rw [hs]
      simp [Tree.children, hd.2]
    have hoff : ∀ y, 0 < hc y → ¬ v.Above y q →
        (v.cutAt e (v.pos q).1 (v.pos q).2 a).sub y = v.sub y := fun y hy hn =>
      cutAt_sub_off her (hat y hy).2 hca fun e1 hpre => hn ⟨e1, hpre⟩
    have hon : ∀ y, 0 < hc y → v.Above y q → ∃ R,
        (v.cutAt e (v.pos q).1 (v.pos q).2 a).sub y = (v.sub y).map (·.removeAt R a) := by
      rintro y hy ⟨a1, R, hR⟩
      exact ⟨R, (cutAt_sub_above her a1 hR.symm).2⟩
    have hcut : ∀ y z, 0 < hc y → 0 < hc z → (v.cutAt e (v.pos q).1 (v.pos q).2 a).Above y z →
        v.Above y z := fun y z hy hz => above_of_cutAt' her (hat y hy).2 (hat z hz).2
    rw [← hoff x hx hxq]
    refine insertAll_sub_off (A := fun x => 0 < hc x) hq hx ps a _ hN' (fun y hy => ?_) ?_ hps
      (fun e1 => hxq (hcut x q hx hq e1)) (fun p hp e1 => hxp p hp (hcut x p hx (hps p hp) e1)) h
    · by_cases ha : v.Above y q
      · obtain ⟨R, e1⟩ := hon y hy ha
        rw [e1]; simpa using hf y hy
      · rw [hoff y hy ha]; exact hf y hy
    · obtain ⟨R, e1⟩ := hon q hq ⟨rfl, List.prefix_refl _⟩
      obtain ⟨cs', e'⟩ := editKids_node k cs R (·.eraseIdx a)
      exact ⟨k, cs', by rw [e1, hs, Option.map_some, Tree.removeAt, e']⟩
  · exact insertAll_sub_off (A := fun x => 0 < hc x) hq hx ps a v hN hf ⟨k, cs, hs⟩ hps hxq hxp h

end View
end Rowan
