import Verif.EditWalkPrune
/-!
# Two cuts in one tree, in both orders

The definitions in this file are vocabulary of the proofs and model no code.
-/
namespace Rowan
namespace Tree

/-- Where position `X` of tree `r` goes (in terms of `r`, `n` and `n'`) when child `i` of `Q` is cut out as tree `n`, and then child `j` of `R` as tree `n'`. -/
def twoCuts (r n n' : List Nat → Nat × List Nat) (Q : List Nat) (i : Nat) (R : List Nat) (j : Nat) (X : List Nat) : Nat × List Nat :=
  match afterCut Q i X with
  | .cut Z => n Z
  | .stays Y =>
    match afterCut R j Y with
    | .cut Z => n' Z
    | .stays W => r W

/-- The positions after one cut in front. -/
theorem afterCut_append (Z D X : List Nat) (j : Nat) : afterCut (Z ++ D) j (Z ++ X) =
    match afterCut D j X with
    | .stays Y => .stays (Z ++ Y)
    | .cut Y => .cut Y := by
  induction Z with
  | nil => simp only [List.nil_append]; cases afterCut D j X <;> rfl
  | cons a Z ih =>
    simp only [List.cons_append, afterCut, if_true, ih]
    cases afterCut D j X <;> rfl

/-- What is done inside a subtree is not seen after it was cut out. -/
theorem removeAt_editKids (t : Tree) (Q D : List Nat) (i : Nat) (f : List Tree → List Tree) :
    (t.editKids (Q ++ i :: D) f).removeAt Q i = t.removeAt Q i := by
  induction Q generalizing t with
  | nil =>
    cases t with
    | token k x => simp
    | node k cs =>
      rw [List.nil_append, editKids_cons, removeAt, removeAt, editKids_nil, editKids_nil]
      congr 1
      apply List.ext_getElem?
      intro l
      simp only [List.getElem?_eraseIdx, List.getElem?_modify]
      split
      · have : i ≠ l := by omega
        simp [this]
      · have : i ≠ l + 1 := by omega
        simp [this]
  | cons a Q ih =>
    cases t with
    | token k x => simp
    | node k cs =>
      rw [List.cons_append, editKids_cons, removeAt, removeAt, editKids_cons, editKids_cons]
      congr 1
      apply List.ext_getElem?
      intro l
      simp only [List.getElem?_modify]
      split
      · simp only [Option.map_eq_map, Option.map_map]
        congr 1
        funext c
        exact ih c
      · simp

theorem eraseIdx_comm (cs : List Tree) {i j : Nat} (h : i < j) :
    (cs.eraseIdx i).eraseIdx (j - 1) = (cs.eraseIdx j).eraseIdx i := by
  apply List.ext_getElem?
  intro l
  simp only [List.getElem?_eraseIdx]
  by_cases h1 : l < i
  · simp [h1, show l < j - 1 by omega, show l < j by omega]
  · by_cases h2 : l < j - 1
    · simp [h1, h2, show l + 1 < j by omega]
    · simp [h1, h2, show ¬ l + 1 < i by omega, show ¬ l + 1 < j by omega]

theorem eraseIdx_modify (cs : List Tree) {i b : Nat} (h : b ≠ i) (f : Tree → Tree) :
    (cs.eraseIdx i).modify (if i < b then b - 1 else b) f = (cs.modify b f).eraseIdx i := by
  apply List.ext_getElem?
  intro l
  simp only [List.getElem?_eraseIdx, List.getElem?_modify]
  by_cases h1 : l < i
  · simp only [h1, if_true]
    by_cases h2 : b = l
    · simp [h2, show ¬ i < l by omega]
    · have : (if i < b then b - 1 else b) ≠ l := by split <;> omega
      simp [h2, this]
  · simp only [h1, if_false]
    by_cases h2 : b = l + 1
    · simp [h2, show i < l + 1 by omega]
    · have : (if i < b then b - 1 else b) ≠ l := by split <;> omega
      simp [h2, this]

theorem twoCuts_cons (r n n' : List Nat → Nat × List Nat) (a : Nat) (Q : List Nat) (i : Nat) (R : List Nat) (j : Nat)
    (X : List Nat) : twoCuts r n n' (a :: Q) i (a :: R) j (a :: X) = twoCuts (fun W => r (a :: W)) n n' Q i R j X := by
  simp only [twoCuts, afterCut, if_true]
  cases afterCut Q i X with
  | cut Z => rfl
  | stays Y =>
    simp only [afterCut, if_true]
    cases afterCut R j Y <;> rfl

/-- One of the cuts takes a child, the other something below another child. -/
theorem cut_kid (r n n' : List Nat → Nat × List Nat) {i b : Nat} {R : List Nat} {j : Nat} (hbi : b ≠ i) : ∃ R1 j1 Q1 i1,
    afterCut [] i (b :: R ++ [j]) = .stays (R1 ++ [j1]) ∧ afterCut (b :: R) j ([] ++ [i]) = .stays (Q1 ++ [i1]) ∧
      (∀ t : Tree, (t.removeAt [] i).removeAt R1 j1 = (t.removeAt (b :: R) j).removeAt Q1 i1) ∧
      ∀ X, twoCuts r n n' [] i R1 j1 X = twoCuts r n' n (b :: R) j Q1 i1 X := by
  refine ⟨(if i < b then b - 1 else b) :: R, j, [], i, ?_, ?_, ?_, ?_⟩
  · simp only [List.cons_append, afterCut, hbi, if_false]
    split <;> rfl
  · simp [afterCut, hbi]
  · intro t
    cases t with
    | token k x => simp [removeAt]
    | node k cs =>
      simp only [removeAt, editKids_nil, editKids_cons]
      rw [eraseIdx_modify cs hbi]
  · intro X
    cases X with
    | nil => simp [twoCuts]
    | cons x X =>
      simp only [twoCuts, afterCut]
      by_cases h1 : x = i
      · simp [h1, hbi, afterCut]
      · by_cases h2 : b = x
        · subst h2
          by_cases h3 : i < b
          · simp only [h1, h3, if_true, if_false, afterCut]
            cases afterCut R j X <;> simp [afterCut, h1, h3]
          · simp only [h1, h3, if_true, if_false, afterCut]
            cases afterCut R j X <;> simp [afterCut, h1, h3]
        · by_cases h3 : i < x
          · have : (if i < b then b - 1 else b) ≠ x - 1 := by split <;> omega
            simp [h1, h2, h3, this, afterCut]
          · have : (if i < b then b - 1 else b) ≠ x := by split <;> omega
            simp [h1, h2, h3, this, afterCut]

/-- Two cuts of elements that are not inside each other commute. -/
theorem cuts_apart (r n n' : List Nat → Nat × List Nat) : ∀ {Q : List Nat} {i : Nat} {R : List Nat} {j : Nat}, ¬ Q ++ [i] <+: R ++ [j] →
    ¬ R ++ [j] <+: Q ++ [i] → ∃ R1 j1 Q1 i1, afterCut Q i (R ++ [j]) = .stays (R1 ++ [j1]) ∧
      afterCut R j (Q ++ [i]) = .stays (Q1 ++ [i1]) ∧
      (∀ t : Tree, (t.removeAt Q i).removeAt R1 j1 = (t.removeAt R j).removeAt Q1 i1) ∧
      ∀ X, twoCuts r n n' Q i R1 j1 X = twoCuts r n' n R j Q1 i1 X
  | [], i, [], j, h1, h2 => by
    have hij : i ≠ j := by rintro rfl; exact h1 (List.prefix_refl _)
    refine ⟨[], if i < j then j - 1 else j, [], if j < i then i - 1 else i, ?_, ?_, ?_, ?_⟩
    · exact afterCut_kid [] (Ne.symm hij)
    · exact afterCut_kid [] hij
    · intro t
      cases t with
      | token k x => simp [removeAt]
      | node k cs =>
        simp only [removeAt, editKids_nil]
        congr 1
        rcases Nat.lt_or_gt_of_ne hij with h | h
        · rw [if_pos h, if_neg (by omega), eraseIdx_comm cs h]
        · rw [if_neg (by omega), if_pos h, eraseIdx_comm cs h]
    · intro X
      cases X with
      | nil => simp [twoCuts]
      | cons x X =>
        simp only [twoCuts, afterCut]
        rcases Nat.lt_or_gt_of_ne hij with h | h
        · simp only [h, if_true, show ¬ j < i by omega, if_false]
          by_cases h3 : x = i
          · simp [h3, hij, show ¬ j < i by omega, afterCut]
          · by_cases h4 : x = j
            · simp [h4, Ne.symm hij, h, afterCut]
            · by_cases h5 : i < x
              · by_cases h6 : j < x
                · simp [h3, h4, h5, h6, afterCut, show x - 1 ≠ j - 1 by omega, show x - 1 ≠ i by omega,
                    show j - 1 < x - 1 by omega, show i < x - 1 by omega]
                · simp [h3, h4, h5, h6, afterCut, show x - 1 ≠ j - 1 by omega, show ¬ j - 1 < x - 1 by omega]
              · simp [h3, h4, h5, show ¬ j < x by omega, afterCut, show x ≠ j - 1 by omega, show ¬ j - 1 < x by omega]
        · simp only [h, if_true, show ¬ i < j by omega, if_false]
          by_cases h3 : x = i
          · simp [h3, hij, h, afterCut]
          · by_cases h4 : x = j
            · simp [h4, Ne.symm hij, show ¬ i < j by omega, afterCut]
            · by_cases h5 : i < x
              · simp [h3, h4, h5, show j < x by omega, afterCut, show x - 1 ≠ j by omega, show j < x - 1 by omega,
                  show x - 1 ≠ i - 1 by omega, show i - 1 < x - 1 by omega]
              · by_cases h6 : j < x
                · simp [h3, h4, h5, h6, afterCut, show x - 1 ≠ i - 1 by omega, show ¬ i - 1 < x - 1 by omega]
                · simp [h3, h4, h5, h6, afterCut, show x ≠ i - 1 by omega, show ¬ i - 1 < x by omega]
  | [], i, b :: R, j, h1, h2 => by
    have hbi : b ≠ i := by rintro rfl; exact h1 (by simp)
    exact cut_kid r n n' hbi
  | a :: Q, i, [], j, h1, h2 => by
    have haj : a ≠ j := by rintro rfl; exact h2 (by simp)
    obtain ⟨R1, j1, Q1, i1, e1, e2, e3, e4⟩ := cut_kid r n' n (R := Q) (j := i) haj
    exact ⟨Q1, i1, R1, j1, e2, e1, fun t => (e3 t).symm, fun X => (e4 X).symm⟩
  | a :: Q, i, b :: R, j, h1, h2 => by
    by_cases hab : a = b
    · subst hab
      obtain ⟨R1, j1, Q1, i1, e1, e2, e3, e4⟩ := cuts_apart (fun W => r (a :: W)) n n' (Q := Q) (i := i) (R := R) (j := j)
        (fun h => h1 (by simpa using h)) (fun h => h2 (by simpa using h))
      refine ⟨a :: R1, j1, a :: Q1, i1, ?_, ?_, ?_, ?_⟩
      · simp [afterCut, e1]
      · simp [afterCut, e2]
      · intro t
        cases t with
        | token k x => simp [removeAt]
        | node k cs =>
          simp only [removeAt, editKids_cons]
          congr 1
          apply List.ext_getElem?
          intro l
          simp only [List.getElem?_modify]
          cases cs[l]? with
          | none => rfl
          | some c =>
            by_cases h : a = l
            · simp only [h, if_true, Option.map_eq_map, Option.map_some]
              exact congrArg some (e3 c)
            · simp [h]
      · intro X
        cases X with
        | nil => simp [twoCuts]
        | cons x X =>
          by_cases h : a = x
          · subst h
            rw [twoCuts_cons, twoCuts_cons, e4 X]
          · simp [twoCuts, afterCut, h]
    · refine ⟨b :: R, j, a :: Q, i, ?_, ?_, ?_, ?_⟩
      · simp [afterCut, hab]
      · simp [afterCut, Ne.symm hab]
      · intro t
        cases t with
        | token k x => simp [removeAt]
        | node k cs =>
          simp only [removeAt, editKids_cons]
          congr 1
          apply List.ext_getElem?
          intro l
          simp only [List.getElem?_modify]
          cases cs[l]? with
          | none => rfl
          | some c =>
            by_cases h : a = l
            · subst h; simp [Ne.symm hab]
            · simp [h]
      · intro X
        cases X with
        | nil => simp [twoCuts]
        | cons x X =>
          by_cases h : a = x
          · subst h
            simp only [twoCuts, afterCut, if_true, Ne.symm hab, if_false]
            cases afterCut Q i X <;> simp [afterCut, Ne.symm hab]
          · by_cases h' : b = x
            · subst h'
              simp only [twoCuts, afterCut, if_true, hab, if_false]
              cases afterCut R j X <;> simp [afterCut, hab]
            · simp [twoCuts, afterCut, h, h']
end Tree
end Rowan
