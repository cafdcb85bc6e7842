import Verif.Spec.Edit
/-!
# Lemmas about editing plain trees
-/
namespace Rowan
namespace Tree

theorem set_append {t u : Tree} {P Q : List Nat} (h : t.at? P = some u) (T : Tree) :
    t.set (P ++ Q) T = t.set P (u.set Q T) := by
  induction P generalizing t with
  | nil => simp at h; subst h; simp [set]
  | cons i P ih =>
    cases t with
    | token k x => simp [at?_cons, children] at h
    | node k cs =>
      rw [at?_cons] at h
      simp only [children] at h
      cases hc : cs[i]? with
      | none => simp [hc] at h
      | some c =>
        simp [hc] at h
        simp only [List.cons_append, set]
        congr 1
        apply List.ext_getElem?
        intro j
        simp only [List.getElem?_modify]
        by_cases hj : i = j
        · subst hj; simp [hc, ih h]
        · simp [hj]

theorem editKids_eq {t : Tree} {P : List Nat} {k : SyntaxKind} {cs : List Tree}
    (h : t.at? P = some (node k cs)) (f : List Tree → List Tree) :
    t.editKids P f = t.set P (node k (f cs)) := by simp [editKids, h]

@[simp] theorem afterCut_nil (P : List Nat) (i : Nat) : afterCut P i [] = .stays [] := by
  cases P <;> simp [afterCut]

@[simp] theorem afterCut_self (P : List Nat) (i : Nat) : afterCut P i P = .stays P := by
  induction P with
  | nil => simp
  | cons a P ih => simp [afterCut, ih]

theorem afterCut_here (P : List Nat) (i : Nat) : afterCut P i (P ++ [i]) = .cut [] := by
  induction P with
  | nil => simp [afterCut]
  | cons a P ih => simp [afterCut, ih]

theorem afterCut_kid (P : List Nat) {i j : Nat} (h : j ≠ i) :
    afterCut P i (P ++ [j]) = .stays (P ++ [if i < j then j - 1 else j]) := by
  induction P with
  | nil => simp only [List.nil_append, afterCut, if_neg h]; split <;> rfl
  | cons a P ih => simp [afterCut, ih]

theorem afterCut_snoc {P Q : List Nat} (h : Q ≠ P) (i j : Nat) :
    afterCut P i (Q ++ [j]) = match afterCut P i Q with
      | .stays Q' => .stays (Q' ++ [j])
      | .cut R => .cut (R ++ [j]) := by
  induction P generalizing Q with
  | nil =>
    cases Q with
    | nil => exact absurd rfl h
    | cons b R => by_cases h1 : b = i <;> by_cases h2 : i < b <;> simp [afterCut, h1, h2]
  | cons a P ih =>
    cases Q with
    | nil =>
      simp only [List.nil_append, afterCut]
      split
      · next e => subst e; simp
      · rfl
    | cons b R =>
      simp only [List.cons_append, afterCut]
      split
      · next e =>
        subst e
        rw [ih (by intro e; exact h (by rw [e]))]
        cases afterCut P i R <;> rfl
      · rfl

@[simp] theorem afterInsert_nil (P : List Nat) (i : Nat) : afterInsert P i [] = [] := by
  cases P <;> simp [afterInsert]

@[simp] theorem afterInsert_self (P : List Nat) (i : Nat) : afterInsert P i P = P := by
  induction P with
  | nil => simp
  | cons a P ih => simp [afterInsert, ih]

theorem afterInsert_kid (P : List Nat) (i j : Nat) :
    afterInsert P i (P ++ [j]) = P ++ [if i ≤ j then j + 1 else j] := by
  induction P with
  | nil => simp only [List.nil_append, afterInsert]; split <;> rfl
  | cons a P ih => simp [afterInsert, ih]

theorem afterInsert_snoc {P Q : List Nat} (h : Q ≠ P) (i j : Nat) :
    afterInsert P i (Q ++ [j]) = afterInsert P i Q ++ [j] := by
  induction P generalizing Q with
  | nil =>
    cases Q with
    | nil => exact absurd rfl h
    | cons b R => simp only [List.cons_append, afterInsert]; split <;> rfl
  | cons a P ih =>
    cases Q with
    | nil =>
      simp only [List.nil_append, afterInsert]
      split <;> simp
    | cons b R =>
      simp only [List.cons_append, afterInsert]
      split
      · next e => subst e; rw [ih (by intro e; exact h (by rw [e]))]; rfl
      · rfl

end Tree
end Rowan
