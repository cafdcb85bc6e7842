import Verif.EditLawsRun
/-!
# The order in which elements are put into nodes

The definitions in this file are vocabulary of the proofs and model no code.
-/
namespace Rowan
namespace Tree

theorem afterInsert_comm {i i' : Nat} : ∀ {P P' : List Nat} (Q : List Nat), P ≠ P' →
    afterInsert (afterInsert P i P') i' (afterInsert P i Q) = afterInsert (afterInsert P' i' P) i (afterInsert P' i' Q)
  | [], [], _, h => absurd rfl h
  | [], b :: R', [], _ => by simp [afterInsert]
  | [], b :: R', j :: S, _ => by
    by_cases h1 : i ≤ b <;> by_cases h2 : i ≤ j <;> by_cases h3 : b = j <;> simp [afterInsert, h1, h2, h3] <;> omega
  | a :: R, [], [], _ => by simp [afterInsert]
  | a :: R, [], j :: S, _ => by
    by_cases h1 : i' ≤ a <;> by_cases h2 : i' ≤ j <;> by_cases h3 : a = j <;> simp [afterInsert, h1, h2, h3] <;> omega
  | a :: P, b :: P', Q, h => by
    cases Q with
    | nil => simp only [afterInsert]
    | cons j S =>
      by_cases h1 : a = b
      · subst h1
        have hne : P ≠ P' := fun e => h (by rw [e])
        by_cases h2 : a = j
        · subst h2
          simp only [afterInsert, if_true]
          rw [afterInsert_comm S hne]
        · simp [afterInsert, h2]
      · by_cases h2 : a = j
        · subst h2
          simp [afterInsert, h1, Ne.symm h1]
        · by_cases h3 : b = j
          · subst h3
            simp [afterInsert, h1, Ne.symm h1]
          · simp [afterInsert, h1, Ne.symm h1, h2, h3]

theorem afterInsert_under {i i' : Nat} : ∀ {P P' : List Nat} (Q : List Nat), P ≠ P' →
    afterInsert (afterInsert P i P') i' (P ++ i :: Q) = afterInsert P' i' P ++ i :: Q
  | [], [], _, h => absurd rfl h
  | [], b :: R', Q, _ => by
    by_cases h1 : i ≤ b <;> simp [afterInsert, h1] <;> omega
  | a :: R, [], Q, _ => by
    by_cases h1 : i' ≤ a <;> simp [afterInsert, h1]
  | a :: P, b :: P', Q, h => by
    by_cases h1 : a = b
    · subst h1
      have hne : P ≠ P' := fun e => h (by rw [e])
      simp only [afterInsert, if_true, List.cons_append]
      rw [afterInsert_under Q hne]
    · simp [afterInsert, h1, Ne.symm h1]

theorem afterInsert_inside {i i' : Nat} {P' : List Nat} : ∀ (P Q : List Nat),
    afterInsert (P ++ i :: P') i' (P ++ i :: Q) = P ++ i :: afterInsert P' i' Q
  | [], Q => by simp [afterInsert]
  | a :: P, Q => by simp [afterInsert, afterInsert_inside P Q]

theorem afterInsert_outside {i i' : Nat} {P' : List Nat} (P Q : List Nat) :
    afterInsert (P ++ i :: P') i' (afterInsert P i Q) = afterInsert P i Q := by
  apply afterInsert_off
  rintro ⟨j, R, e⟩
  exact afterInsert_ne (R := P' ++ j :: R) (by rw [e]; simp)

theorem afterInsert_same {i i' : Nat} (hi : i ≤ i') : ∀ (P Q : List Nat),
    afterInsert P i (afterInsert P i' Q) = afterInsert P (i' + 1) (afterInsert P i Q)
  | [], [] => by simp [afterInsert]
  | [], j :: S => by
    simp only [afterInsert]
    split
    · rw [afterInsert, if_pos (by omega), if_pos (by omega), afterInsert, if_pos (by omega)]
    · split
      · rw [afterInsert, if_pos (by omega), afterInsert, if_neg (by omega)]
      · rw [afterInsert, if_neg (by omega), afterInsert, if_neg (by omega)]
  | a :: P, [] => by simp [afterInsert]
  | a :: P, b :: S => by
    simp only [afterInsert]
    split
    · next h => rw [afterInsert, if_pos h, afterInsert, if_pos h, afterInsert_same hi P S]
    · next h => rw [afterInsert, if_neg h, afterInsert, if_neg h]

theorem afterInsert_here (i i' : Nat) (Q : List Nat) : ∀ (P : List Nat),
    afterInsert P i (P ++ i' :: Q) = P ++ (if i ≤ i' then i' + 1 else i') :: Q
  | [] => by simp only [List.nil_append, afterInsert]; split <;> rfl
  | a :: P => by simp [afterInsert, afterInsert_here i i' Q P]

/-! ### The trees -/

theorem insertAt_cons (k : SyntaxKind) (cs : List Tree) (a : Nat) (P : List Nat) (i : Nat) (u : Tree) :
    (node k cs).insertAt (a :: P) i u = node k (cs.modify a fun c => c.insertAt P i u) := by
  simp only [insertAt]
  rw [editKids_cons]

theorem insertAt_nil (k : SyntaxKind) (cs : List Tree) (i : Nat) (u : Tree) :
    (node k cs).insertAt [] i u = node k (cs.take i ++ u :: cs.drop i) := by
  rw [insertAt, editKids_nil]

theorem getElem?_insert {cs : List Tree} {i : Nat} (hi : i ≤ cs.length) (u : Tree) (j : Nat) :
    (cs.take i ++ u :: cs.drop i)[j]? = if j < i then cs[j]? else if j = i then some u else cs[j - 1]? := by
  rw [List.getElem?_append, List.length_take, Nat.min_eq_left hi]
  split
  · next h => rw [List.getElem?_take, if_pos h]
  · next h =>
    split
    · next e => subst e; simp
    · next e =>
      obtain ⟨d, rfl⟩ : ∃ d, j = i + d + 1 := ⟨j - i - 1, by omega⟩
      rw [show i + d + 1 - i = d + 1 by omega, List.getElem?_cons_succ, List.getElem?_drop, show i + d + 1 - 1 = i + d by omega]

theorem insert_modify {cs : List Tree} {i b : Nat} (hi : i ≤ cs.length) (u : Tree) (f : Tree → Tree) :
    (cs.take i ++ u :: cs.drop i).modify (if i ≤ b then b + 1 else b) f =
      (cs.modify b f).take i ++ u :: (cs.modify b f).drop i := by
  apply List.ext_getElem?
  intro j
  rw [getElem?_insert (by simpa using hi), List.getElem?_modify, getElem?_insert hi, List.getElem?_modify, List.getElem?_modify]
  by_cases h1 : j < i
  · by_cases h2 : i ≤ b
    · have e1 : ¬ b + 1 = j := by omega
      have e2 : ¬ b = j := by omega
      simp [h1, h2, e1, e2]
    · simp [h1, h2]
  · by_cases h3 : j = i
    · subst h3
      by_cases h2 : j ≤ b
      · have e1 : ¬ b + 1 = j := by omega
        simp [h2, e1]
      · have e1 : ¬ b = j := by omega
        simp [h2, e1]
    · by_cases h2 : i ≤ b
      · by_cases e : b + 1 = j
        · subst e
          simp only [h1, h2, h3, if_true, if_false, Nat.add_sub_cancel]
        · have e' : ¬ b = j - 1 := by omega
          simp [h1, h2, h3, e, e']
      · have e1 : ¬ b = j := by omega
        have e2 : ¬ b = j - 1 := by omega
        simp [h1, h2, h3, e1, e2]

theorem at?_step {k : SyntaxKind} {cs : List Tree} {a : Nat} {P : List Nat} {u : Tree} (h : (node k cs).at? (a :: P) = some u) :
    ∃ c, cs[a]? = some c ∧ c.at? P = some u := by
  rw [at?_cons] at h
  simp only [children] at h
  cases hc : cs[a]? with
  | none => rw [hc] at h; cases h
  | some c => rw [hc, Option.bind_some] at h; exact ⟨c, rfl, h⟩

theorem insertAt_comm {u u' : Tree} {i i' : Nat} : ∀ {P P' : List Nat} {t : Tree} {k k' : SyntaxKind} {cs cs' : List Tree}, P ≠ P' →
    t.at? P = some (node k cs) → i ≤ cs.length → t.at? P' = some (node k' cs') → i' ≤ cs'.length →
    (t.insertAt P i u).insertAt (afterInsert P i P') i' u' = (t.insertAt P' i' u').insertAt (afterInsert P' i' P) i u
  | [], [], _, _, _, _, _, h, _, _, _, _ => absurd rfl h
  | [], b :: R', t, k, k', cs, cs', _, h1, h2, h3, h4 => by
    simp only [at?_nil] at h1
    cases h1
    rw [insertAt_nil, insertAt_cons]
    simp only [afterInsert]
    rw [insertAt_nil]
    have := insert_modify (b := b) h2 u fun c => c.insertAt R' i' u'
    by_cases hb : i ≤ b
    · rw [if_pos hb] at this ⊢
      rw [insertAt_cons, this]
    · rw [if_neg hb] at this ⊢
      rw [insertAt_cons, this]
  | a :: R, [], t, k, k', cs, cs', _, h1, h2, h3, h4 => by
    simp only [at?_nil] at h3
    cases h3
    rw [insertAt_nil, insertAt_cons]
    simp only [afterInsert]
    rw [insertAt_nil]
    have := insert_modify (b := a) h4 u' fun c => c.insertAt R i u
    by_cases hb : i' ≤ a
    · rw [if_pos hb] at this ⊢
      rw [insertAt_cons, this]
    · rw [if_neg hb] at this ⊢
      rw [insertAt_cons, this]
  | a :: P, b :: P', t, k, k', cs, cs', hne, h1, h2, h3, h4 => by
    cases t with
    | token k x => simp [at?_cons, children] at h1
    | node kt ds =>
      obtain ⟨c, g1, g2⟩ := at?_step h1
      obtain ⟨c', g3, g4⟩ := at?_step h3
      rw [insertAt_cons, insertAt_cons]
      by_cases hab : a = b
      · subst hab
        have hne' : P ≠ P' := fun e => hne (by rw [e])
        rw [g1] at g3
        cases g3
        simp only [afterInsert, if_true]
        rw [insertAt_cons, insertAt_cons]
        congr 1
        apply List.ext_getElem?
        intro j
        simp only [List.getElem?_modify]
        by_cases e : a = j
        · subst e
          simp only [g1, if_true, Option.map_eq_map, Option.map_some]
          rw [insertAt_comm hne' g2 h2 g4 h4]
        · simp [e]
      · simp only [afterInsert, hab, Ne.symm hab, if_false]
        rw [insertAt_cons, insertAt_cons]
        congr 1
        apply List.ext_getElem?
        intro j
        simp only [List.getElem?_modify]
        by_cases e : a = j
        · have : ¬ b = j := by omega
          simp [e, this]
        · simp [e]

theorem insertAt_inside {u u' : Tree} {i i' : Nat} {P' : List Nat} : ∀ {P : List Nat} {t : Tree} {k : SyntaxKind} {cs : List Tree},
    t.at? P = some (node k cs) → i ≤ cs.length →
    (t.insertAt P i u).insertAt (P ++ i :: P') i' u' = t.insertAt P i (u.insertAt P' i' u')
  | [], t, k, cs, h1, h2 => by
    simp only [at?_nil] at h1
    cases h1
    rw [insertAt_nil, List.nil_append, insertAt_cons, insertAt_nil]
    congr 1
    apply List.ext_getElem?
    intro j
    rw [List.getElem?_modify, getElem?_insert h2, getElem?_insert h2]
    by_cases e : i = j
    · subst e; simp
    · simp [e, Ne.symm e]
  | a :: P, t, k, cs, h1, h2 => by
    cases t with
    | token k x => simp [at?_cons, children] at h1
    | node kt ds =>
      obtain ⟨c, g1, g2⟩ := at?_step h1
      rw [insertAt_cons, List.cons_append, insertAt_cons, insertAt_cons]
      congr 1
      apply List.ext_getElem?
      intro j
      simp only [List.getElem?_modify]
      by_cases e : a = j
      · subst e
        simp only [g1, if_true, Option.map_eq_map, Option.map_some]
        rw [insertAt_inside g2 h2]
      · simp [e]

theorem insertAt_same {u u' : Tree} {i i' : Nat} (hi : i ≤ i') : ∀ {P : List Nat} {t : Tree} {k : SyntaxKind} {cs : List Tree},
    t.at? P = some (node k cs) → i' ≤ cs.length →
    (t.insertAt P i' u').insertAt P i u = (t.insertAt P i u).insertAt P (i' + 1) u'
  | [], t, k, cs, h1, h2 => by
    simp only [at?_nil] at h1
    cases h1
    rw [insertAt_nil, insertAt_nil, insertAt_nil, insertAt_nil]
    congr 1
    apply List.ext_getElem?
    intro j
    have hl : ∀ n v, (cs.take n ++ v :: cs.drop n).length = cs.length + 1 := by intro n v; simp; omega
    rw [getElem?_insert (cs := cs.take i' ++ u' :: cs.drop i') (by rw [hl]; omega),
      getElem?_insert (cs := cs.take i ++ u :: cs.drop i) (by rw [hl]; omega)]
    simp only [getElem?_insert h2, getElem?_insert (Nat.le_trans hi h2)]
    by_cases h3 : j < i
    · have a1 : j < i' := by omega
      have a2 : j < i' + 1 := by omega
      simp [h3, a1, a2]
    · by_cases h4 : j = i
      · subst h4
        have a2 : j < i' + 1 := by omega
        simp [a2]
      · by_cases h5 : j < i' + 1
        · have a1 : j - 1 < i' := by omega
          simp [h3, h4, h5, a1]
        · by_cases h6 : j = i' + 1
          · subst h6
            simp [h3, h4]
          · have a1 : ¬ j - 1 < i' := by omega
            have a2 : ¬ j - 1 = i' := by omega
            have a3 : ¬ j - 1 < i := by omega
            have a4 : ¬ j - 1 = i := by omega
            simp [h3, h4, h5, h6, a1, a2, a3, a4]
  | a :: P, t, k, cs, h1, h2 => by
    cases t with
    | token k x => simp [at?_cons, children] at h1
    | node kt ds =>
      obtain ⟨c, g1, g2⟩ := at?_step h1
      rw [insertAt_cons, insertAt_cons, insertAt_cons, insertAt_cons]
      congr 1
      apply List.ext_getElem?
      intro j
      simp only [List.getElem?_modify]
      by_cases e : a = j
      · subst e
        simp only [g1, if_true, Option.map_eq_map, Option.map_some]
        rw [insertAt_same hi g2 h2]
      · simp [e]

end Tree

/-! ### The places -/

theorem joinLoc_comm {r r' y y' i i' : Nat} {P P' : List Nat} (hyy : y ≠ y') (hr : r ≠ y) (hr' : r' ≠ y')
    (hc : ¬ (r' = y ∧ r = y')) (hne : (r, P) ≠ (r', P')) (m : Nat) (Q : List Nat) :
    joinLoc (joinLoc r y P i r' P').1 y' (joinLoc r y P i r' P').2 i' (joinLoc r y P i m Q).1 (joinLoc r y P i m Q).2 =
      joinLoc (joinLoc r' y' P' i' r P).1 y (joinLoc r' y' P' i' r P).2 i (joinLoc r' y' P' i' m Q).1 (joinLoc r' y' P' i' m Q).2 := by
  by_cases h1 : r' = y
  · subst h1
    have h2 : r ≠ y' := fun e => hc ⟨rfl, e⟩
    by_cases m1 : m = r'
    · subst m1
      simp [joinLoc, h2, hyy, hr, Tree.afterInsert_inside]
    · by_cases m2 : m = y'
      · subst m2
        simp [joinLoc, m1, Ne.symm h2, hr, h2]
      · by_cases m3 : m = r
        · subst m3
          simp [joinLoc, m1, m2, Tree.afterInsert_outside]
        · simp [joinLoc, m1, m2, m3, hr, h2]
  · by_cases h2 : r = y'
    · subst h2
      by_cases m1 : m = y
      · subst m1
        simp [joinLoc, hyy, h1, Ne.symm h1, hr']
      · by_cases m2 : m = r
        · subst m2
          simp [joinLoc, hr, h1, hr', Tree.afterInsert_inside]
        · by_cases m3 : m = r'
          · subst m3
            simp [joinLoc, m1, m2, Tree.afterInsert_outside]
          · simp [joinLoc, m1, m2, m3, h1, hr']
    · by_cases h3 : r = r'
      · subst h3
        have hP : P ≠ P' := fun e => hne (by rw [e])
        by_cases m1 : m = y
        · subst m1
          simp [joinLoc, hyy, hr, h2, Ne.symm hr, Tree.afterInsert_under Q hP]
        · by_cases m2 : m = y'
          · subst m2
            simp [joinLoc, m1, h1, h2, Ne.symm h2, Tree.afterInsert_under Q (Ne.symm hP)]
          · by_cases m3 : m = r
            · subst m3
              simp [joinLoc, hr, h2, Tree.afterInsert_comm Q hP]
            · simp [joinLoc, m1, m2, m3, hr, h2]
      · by_cases m1 : m = y
        · subst m1
          simp [joinLoc, hyy, h1, Ne.symm h1, h2, h3, Ne.symm h3]
        · by_cases m2 : m = y'
          · subst m2
            simp [joinLoc, m1, h1, Ne.symm h2, h2, h3, Ne.symm h3]
          · by_cases m3 : m = r
            · subst m3
              simp [joinLoc, h1, m1, h2, h3, Ne.symm h3]
            · by_cases m4 : m = r'
              · subst m4
                simp [joinLoc, h1, m2, h2, h3, Ne.symm h3]
              · simp [joinLoc, m1, m2, m3, m4, h1, h2, h3, Ne.symm h3]

theorem joinLoc_same {r y y' i i' : Nat} {P : List Nat} (hyy : y ≠ y') (hr : r ≠ y) (hr' : r ≠ y') (hi : i ≤ i') (m : Nat)
    (Q : List Nat) :
    joinLoc r y P i (joinLoc r y' P i' m Q).1 (joinLoc r y' P i' m Q).2 =
      joinLoc r y' P (i' + 1) (joinLoc r y P i m Q).1 (joinLoc r y P i m Q).2 := by
  by_cases m1 : m = y
  · subst m1
    have : ¬ i' + 1 ≤ i := by omega
    simp [joinLoc, hyy, Ne.symm hr, hr', Tree.afterInsert_here, this]
  · by_cases m2 : m = y'
    · subst m2
      simp [joinLoc, m1, hr, Ne.symm hr', Tree.afterInsert_here, hi]
    · by_cases m3 : m = r
      · subst m3
        simp [joinLoc, hr, hr', Tree.afterInsert_same hi]
      · simp [joinLoc, m1, m2, m3]

/-! ### The forests -/

namespace Forest
variable {F : Forest}

/-- Other nodes have as many children as before. -/
theorem join_width {z z' : Nat × List Nat} {i y : Nat} {k k' : SyntaxKind} {cs cs' : List Tree} (hne : z.1 ≠ y) (hzz : z ≠ z')
    (hz : F.sub z = some (.node k cs)) (hi : i ≤ cs.length) (hz' : F.sub z' = some (.node k' cs')) :
    ∃ ds, (F.join z i y).sub (joinLoc z.1 y z.2 i z'.1 z'.2) = some (.node k' ds) ∧ ds.length = cs'.length := by
  obtain ⟨r, P⟩ := z
  obtain ⟨r', P'⟩ := z'
  simp only [joinLoc]
  split
  · next h =>
    subst h
    refine ⟨cs', ?_, rfl⟩
    simp only [sub, Forest.join, if_true]
    rw [Tree.at?_insertAt_here hz hi]
    exact hz'
  · next h =>
    split
    · next h' =>
      subst h'
      simp only [sub, Forest.join, if_true] at hz' ⊢
      by_cases hp : P' <+: P
      · obtain ⟨R, hR⟩ := hp
        have hoff : Tree.afterInsert P i P' = P' := Tree.afterInsert_off fun ⟨j, S, e⟩ => by
          have := congrArg List.length e
          rw [← hR] at this
          simp at this
        rw [hoff, Tree.insertAt, ← hR, Tree.at?_editKids_above, hz', Option.map_some]
        cases R with
        | nil => exact absurd (by rw [← hR]; simp) hzz
        | cons j S =>
          rw [Tree.editKids_cons]
          exact ⟨_, rfl, by simp⟩
      · rw [Tree.at?_insertAt hp hz']
        exact ⟨cs', rfl, rfl⟩
    · next h' =>
      refine ⟨cs', ?_, rfl⟩
      simp only [sub, Forest.join, h', if_false] at hz' ⊢
      exact hz'

theorem joinLoc_ne {r y i m : Nat} {P Q : List Nat} (h : r ≠ y) : (joinLoc r y P i m Q).1 ≠ y := by
  simp only [joinLoc]
  split
  · exact h
  · next h1 =>
    split
    · exact h
    · exact h1

/-- Two elements are put into two nodes, in both orders. -/
theorem join_join (hF : F.Sound) {z z' : Nat × List Nat} {i i' y y' : Nat} {k k' : SyntaxKind} {cs cs' : List Tree}
    (hzl : z.1 < F.fresh) (hzl' : z'.1 < F.fresh) (hyy : y ≠ y') (h1 : z.1 ≠ y) (h2 : z'.1 ≠ y') (hc : ¬ (z'.1 = y ∧ z.1 = y')) (hzz : z ≠ z')
    (hz : F.sub z = some (.node k cs)) (hi : i ≤ cs.length) (hz' : F.sub z' = some (.node k' cs')) (hi' : i' ≤ cs'.length) :
    TwinBy id ((F.join z i y).join (joinLoc z.1 y z.2 i z'.1 z'.2) i' y')
      ((F.join z' i' y').join (joinLoc z'.1 y' z'.2 i' z.1 z.2) i y) := by
  have henv : ((F.join z i y).join (joinLoc z.1 y z.2 i z'.1 z'.2) i' y').env =
      ((F.join z' i' y').join (joinLoc z'.1 y' z'.2 i' z.1 z.2) i y).env := by
    simp only [Forest.join, Env.map_map]
    apply Env.map_congr
    intro e _
    exact joinLoc_comm hyy h1 h2 hc hzz e.2.1 e.2.2
  have hsome : ∀ e ∈ ((F.join z i y).join (joinLoc z.1 y z.2 i z'.1 z'.2) i' y').env.held,
      e.2.1 < F.fresh ∧ e.2.1 ≠ y ∧ e.2.1 ≠ y' := by
    obtain ⟨ds, g1, g2⟩ := join_width h1 hzz hz hi hz'
    have hl1 : (joinLoc z.1 y z.2 i z'.1 z'.2).1 < F.fresh := by
      simp only [joinLoc]; split
      · exact hzl
      · split
        · exact hzl
        · exact hzl'
    have hn1 : (joinLoc z.1 y z.2 i z'.1 z'.2).1 ≠ y' := by
      simp only [joinLoc]; split
      · next e => exact fun e' => hc ⟨e, e'⟩
      · split
        · next e => exact fun e' => h2 (e.trans e')
        · exact h2
    have hS := (hF.join hzl hz hi h1).join (i := i') hl1 g1 (by omega) hn1
    intro e he
    have hlt : e.2.1 < F.fresh := (hS e he).1
    refine ⟨hlt, ?_, ?_⟩
    · rw [henv] at he
      obtain ⟨e0, -, rfl⟩ := List.mem_map.mp he
      refine joinLoc_ne ?_
      simp only [joinLoc]; split
      · next e => exact fun e' => hc ⟨e', e⟩
      · split
        · next e => exact fun e' => h1 (e.trans e')
        · exact h1
    · obtain ⟨e0, -, rfl⟩ := List.mem_map.mp he
      exact joinLoc_ne hn1
  refine ⟨by rw [henv]; simp [Env.map], rfl, fun _ _ _ _ h => h, ?_, fun _ _ => rfl, fun e he => (hsome e he).1⟩
  intro e he
  obtain ⟨-, n1, n2⟩ := hsome e he
  clear he hsome henv
  obtain ⟨r, P⟩ := z
  obtain ⟨r', P'⟩ := z'
  simp only at h1 h2 hc n1 n2 hzl hzl'
  simp only [sub] at hz hz'
  generalize e.2.1 = n at n1 n2
  simp only [id, Forest.join]
  by_cases c1 : r' = y
  · subst c1
    have c2 : r ≠ y' := fun e => hc ⟨rfl, e⟩
    simp only [joinLoc, if_true, h1, c2, if_false]
    by_cases m : n = r
    · subst m
      simp only [if_true, h1, if_false, Ne.symm c2]
      rw [Tree.insertAt_inside hz hi]
    · simp [m, n1]
  · by_cases c2 : r = y'
    · subst c2
      simp only [joinLoc, if_true, h2, c1, if_false]
      by_cases m : n = r'
      · subst m
        simp only [if_true, h2, if_false, Ne.symm c1]
        rw [Tree.insertAt_inside hz' hi']
      · simp [m, n2]
    · by_cases c3 : r = r'
      · subst c3
        have hP : P ≠ P' := fun e => hzz (by rw [e])
        simp only [joinLoc, if_true, h1, c2, if_false]
        by_cases m : n = r
        · subst m
          simp only [if_true, Ne.symm h1, Ne.symm c2, if_false]
          rw [Tree.insertAt_comm hP hz hi hz' hi']
        · simp [m]
      · simp only [joinLoc, c1, c2, c3, Ne.symm c3, if_false]
        by_cases m : n = r
        · subst m
          simp [c3, Ne.symm c1]
        · by_cases m' : n = r'
          · subst m'
            simp [Ne.symm c3, Ne.symm c2]
          · simp [m, m']

/-- Two elements are put into the same node, in both orders. -/
theorem join_same (hF : F.Sound) {z : Nat × List Nat} {i i' y y' : Nat} {k : SyntaxKind} {cs : List Tree}
    (hzl : z.1 < F.fresh) (hyy : y ≠ y') (h1 : z.1 ≠ y) (h2 : z.1 ≠ y') (hii : i ≤ i')
    (hz : F.sub z = some (.node k cs)) (hi : i' ≤ cs.length) :
    TwinBy id ((F.join z i' y').join z i y) ((F.join z i y).join z (i' + 1) y') := by
  have henv : ((F.join z i' y').join z i y).env = ((F.join z i y).join z (i' + 1) y').env := by
    simp only [Forest.join, Env.map_map]
    apply Env.map_congr
    intro e _
    exact joinLoc_same hyy h1 h2 hii e.2.1 e.2.2
  have hS := (hF.join hzl hz hi h2).join (i := i) hzl (join_sub _ hz) (by simp; omega) h1
  refine ⟨by rw [henv]; simp [Env.map], rfl, fun _ _ _ _ h => h, ?_, fun _ _ => rfl, fun e he => (hS e he).1⟩
  intro e he
  generalize e.2.1 = n
  simp only [id, Forest.join]
  by_cases m : n = z.1
  · subst m
    simp only [if_true, Ne.symm h1, Ne.symm h2, if_false]
    rw [Tree.insertAt_same hii hz hi]
  · simp [m]

end Forest
end Rowan
