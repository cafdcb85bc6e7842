import Verif.Props.Ast
/-!
# Texts and positions around a place where a subtree is substituted

The definitions in this file are vocabulary of the proofs and model no code.
-/
namespace Rowan

theorem blen_texts_modify (f : Tree → Tree) : ∀ (l : List Tree) (i : Nat) (c : Tree), l[i]? = some c →
    blen (Tree.texts (l.modify i f)) + blen c.text = blen (Tree.texts l) + blen (f c).text
  | [], i, c, h => by simp at h
  | d :: l, 0, c, h => by
    simp only [List.getElem?_cons_zero, Option.some.injEq] at h
    subst h
    simp only [List.modify_zero_cons, Tree.texts_cons, blen_append]; omega
  | d :: l, i + 1, c, h => by
    rw [List.getElem?_cons_succ] at h
    have := blen_texts_modify f l i c h
    simp only [List.modify_succ_cons, Tree.texts_cons, blen_append]; omega

theorem modify_get_self {α : Type} (f : α → α) (l : List α) (i : Nat) : (l.modify i f)[i]? = l[i]?.map f := by
  simp

theorem modify_get_other {α : Type} (f : α → α) {l : List α} {i j : Nat} (h : i ≠ j) : (l.modify i f)[j]? = l[j]? := by
  simp [h]

theorem modify_take {α : Type} (f : α → α) (l : List α) {i j : Nat} (h : i ≤ j) : (l.modify j f).take i = l.take i := by
  apply List.ext_getElem?
  intro a
  rw [List.getElem?_take, List.getElem?_take]
  split
  · rw [modify_get_other f (by omega)]
  · rfl

namespace Tree

theorem blen_set {t s : Tree} {P : List Nat} (h : t.at? P = some s) (x : Tree) :
    blen (t.set P x).text + blen s.text = blen t.text + blen x.text := by
  rw [text_set h, text_split h]
  simp only [blen_append]; omega

/-- Before the place nothing changes. -/
theorem before_set_earlier (x : Tree) {i j : Nat} (hij : i < j) (U V : List Nat) : ∀ (C : List Nat) (t : Tree),
    (t.set (C ++ j :: V) x).before (C ++ i :: U) = t.before (C ++ i :: U)
  | [], token k w => by simp [set]
  | [], node k cs => by
    simp only [List.nil_append, set, before, children]
    rw [modify_get_other _ (by omega)]
    rw [modify_take _ _ (by omega)]
  | c :: C, token k w => by simp [set]
  | c :: C, node k cs => by
    simp only [List.cons_append, set, before, children]
    rw [modify_get_self]
    rw [modify_take _ _ (by omega)]
    cases hd : cs[c]? with
    | none => simp
    | some d => simp [before_set_earlier x hij U V C d]

/-- Behind the place everything moves by the difference of the lengths. -/
theorem before_set_later {s : Tree} (x : Tree) {i j : Nat} (hij : i < j) (U V : List Nat) : ∀ (C : List Nat) (t : Tree),
    t.at? (C ++ i :: U) = some s →
    blen ((t.set (C ++ i :: U) x).before (C ++ j :: V)) + blen s.text = blen (t.before (C ++ j :: V)) + blen x.text
  | [], token k w, h => by simp [at?_cons, children] at h
  | [], node k cs, h => by
    rw [List.nil_append, at?_cons] at h
    simp only [children] at h
    cases hc : cs[i]? with
    | none => rw [hc] at h; cases h
    | some c =>
      rw [hc, Option.bind_some] at h
      simp only [List.nil_append, set, before, children, blen_append]
      rw [modify_get_other _ (by omega)]
      have : (cs.modify i fun c => c.set U x).take j = (cs.take j).modify i fun c => c.set U x := by
        apply List.ext_getElem?
        intro a
        simp only [List.getElem?_take, List.getElem?_modify]
        split
        · rfl
        · simp
      rw [this]
      have h1 := blen_texts_modify (fun c => c.set U x) (cs.take j) i c (by rw [List.getElem?_take, if_pos hij, hc])
      have h2 := blen_set h x
      omega
  | c :: C, token k w, h => by simp [at?_cons, children] at h
  | c :: C, node k cs, h => by
    rw [List.cons_append, at?_cons] at h
    simp only [children] at h
    cases hd : cs[c]? with
    | none => rw [hd] at h; cases h
    | some d =>
      rw [hd, Option.bind_some] at h
      simp only [List.cons_append, set, before, children, blen_append]
      rw [modify_get_self, hd]
      rw [modify_take _ _ (by omega)]
      have := before_set_later x hij U V C d h
      simp only [Option.map_some]
      omega

/-- Above the place nothing changes in front. -/
theorem before_set_above (x : Tree) : ∀ (A P : List Nat) (t : Tree), (t.set (A ++ P) x).before A = t.before A
  | [], P, t => by simp [before]
  | a :: A, P, token k w => by simp [set]
  | a :: A, P, node k cs => by
    simp only [List.cons_append, set, before, children]
    rw [modify_get_self]
    rw [modify_take _ _ (by omega)]
    cases hd : cs[a]? with
    | none => simp
    | some d => simp [before_set_above x A P d]

/-- Two elements, neither inside the other one: the first one ends before the second one starts. -/
theorem before_mono {q : Tree} {i j : Nat} (hij : i < j) (U V : List Nat) : ∀ (C : List Nat) (t : Tree),
    t.at? (C ++ i :: U) = some q → blen (t.before (C ++ i :: U)) + blen q.text ≤ blen (t.before (C ++ j :: V))
  | [], t, h => by
    rw [List.nil_append, at?_cons] at h
    cases hc : t.children[i]? with
    | none => rw [hc] at h; cases h
    | some c =>
      rw [hc, Option.bind_some] at h
      simp only [List.nil_append, before, hc, blen_append]
      have h1 : t.children.take j = t.children.take i ++ c :: (t.children.take j).drop (i + 1) := by
        have h2 : (t.children.take j)[i]? = some c := by rw [List.getElem?_take, if_pos hij, hc]
        obtain ⟨hi, e⟩ := List.getElem?_eq_some_iff.mp h2
        conv => lhs; rw [← List.take_append_drop i (t.children.take j)]
        rw [List.take_take, Nat.min_eq_left (Nat.le_of_lt hij), List.drop_eq_getElem_cons hi, e]
      rw [h1, texts_append, texts_cons, text_split h]
      simp only [blen_append]
      omega
  | c :: C, t, h => by
    rw [List.cons_append, at?_cons] at h
    cases hd : t.children[c]? with
    | none => rw [hd] at h; cases h
    | some d =>
      rw [hd, Option.bind_some] at h
      simp only [List.cons_append, before, hd, blen_append]
      have := before_mono hij U V C d h
      omega

/-- A common ancestor has at least the text of both. -/
theorem blen_two {t p q : Tree} {i j : Nat} (hij : i < j) {C U V : List Nat} (hq : t.at? (C ++ i :: U) = some q)
    (hp : t.at? (C ++ j :: V) = some p) : blen q.text + blen p.text ≤ blen t.text := by
  have h1 := before_mono hij U V C t hq
  have h2 := congrArg blen (text_split hp)
  simp only [blen_append] at h2
  omega

end Tree
end Rowan
