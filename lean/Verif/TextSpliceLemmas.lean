import Verif.TextEditLemmas
import Verif.EditContent
import Verif.EditWalkPrune
import Verif.DetachContent
/-!
# Lemmas: where elements and texts are after some children have been replaced
-/
namespace Rowan
namespace Tree
variable {t t' : Tree} {P : List Nat} {k : SyntaxKind} {cs : List Tree} {a b : Nat} {xs : List Tree}

theorem Spliced.text (h : t.Spliced t' P k cs a b xs) :
    t.text = (t.before P ++ texts (cs.take a)) ++ texts ((cs.take b).drop a) ++ (texts (cs.drop b) ++ t.after P) ∧
    t'.text = (t.before P ++ texts (cs.take a)) ++ texts xs ++ (texts (cs.drop b) ++ t.after P) := by
  constructor
  · rw [text_split h.here, text_node, texts_split3 cs h.le]
    simp
  · rw [h.eq, text_set h.here, text_node]
    simp [texts_append]

theorem Spliced.around (h : t.Spliced t' P k cs a b xs) {Q : List Nat} (hp : Q <+: P) {d : Tree} (hQ : t.at? Q = some d) :
    t'.before Q = t.before Q ∧
      ∃ d', t'.at? Q = some d' ∧ blen d'.text + goneLen cs a b = blen d.text + blen (texts xs) := by
  have hlen := spliced_len k cs xs h.le
  have hh := h.here
  obtain ⟨B, rfl⟩ := hp
  refine ⟨?_, d.set B (.node k (cs.take a ++ xs ++ cs.drop b)), ?_, ?_⟩
  · rw [h.eq]; exact before_set_above _ Q B t
  · rw [h.eq, set_at_above, hQ]; rfl
  · have hd : d.at? B = some (.node k cs) := by
      rw [at?_append, hQ, Option.bind_some] at hh; exact hh
    have e1 := text_set hd (.node k (cs.take a ++ xs ++ cs.drop b))
    have e2 := text_split hd
    rw [e1, e2]
    simp only [blen_append]
    omega

theorem Spliced.ahead (h : t.Spliced t' P k cs a b xs) {Q : List Nat} (he : Earlier Q (P ++ [a])) :
    t'.before Q = t.before Q ∧ t'.at? Q = t.at? Q := by
  have hl : a ≤ cs.length := Nat.le_trans h.le h.inside
  rcases he.split with hE | ⟨j, U, hj, rfl⟩
  · refine ⟨?_, by rw [h.eq, at?_set_other _ hE.apart.2 hE.apart.1]⟩
    obtain ⟨C, a, b, U, V, hab, rfl, rfl⟩ := hE
    rw [h.eq]; exact before_set_earlier _ hab U V C t
  · have hget : (cs.take a ++ xs ++ cs.drop b)[j]? = cs[j]? := by
      rw [List.append_assoc, List.getElem?_append_left (by simp; omega), List.getElem?_take, if_pos hj]
    have htake : (cs.take a ++ xs ++ cs.drop b).take j = cs.take j := by
      rw [List.append_assoc, List.take_append_of_le_length (by simp; omega), List.take_take, Nat.min_eq_left (Nat.le_of_lt hj)]
    constructor
    · rw [h.before, before_at_append h.here]
      simp only [Tree.before, children, hget, htake]
    · rw [h.at, at?_append t, h.here, Option.bind_some, at?_cons, at?_cons]
      simp only [children, hget]

theorem Spliced.moved (h : t.Spliced t' P k cs a b xs) {Q Q' : List Nat} (hQ : Behind P a b xs.length Q Q') :
    t'.at? Q' = t.at? Q ∧ blen (t'.before Q') + goneLen cs a b = blen (t.before Q) + blen (texts xs) := by
  have hlen := spliced_len k cs xs h.le
  have hl : a ≤ cs.length := Nat.le_trans h.le h.inside
  cases hQ with
  | outside hE =>
    refine ⟨by rw [h.eq]; exact at?_set_other _ hE.apart.1 hE.apart.2, ?_⟩
    have hh := h.here
    obtain ⟨C, i, j, U, V, hij, rfl, rfl⟩ := hE
    have := before_set_later (.node k (cs.take a ++ xs ++ cs.drop b)) hij U V C t hh
    rw [h.eq]
    omega
  | inside j U =>
    have hla : (cs.take a ++ xs).length = a + xs.length := by simp; omega
    have hget : (cs.take a ++ xs ++ cs.drop b)[a + xs.length + j]? = cs[b + j]? := by
      rw [List.getElem?_append_right (by omega), hla, List.getElem?_drop]
      congr 1; omega
    have htake : (cs.take a ++ xs ++ cs.drop b).take (a + xs.length + j) = cs.take a ++ xs ++ (cs.drop b).take j := by
      rw [List.take_append, hla, List.take_of_length_le (by omega)]
      congr 2; omega
    have htake' : cs.take (b + j) = cs.take a ++ (cs.take b).drop a ++ (cs.drop b).take j := by
      rw [List.take_add]
      congr 1
      conv => lhs; rw [← List.take_append_drop a (cs.take b), List.take_take, Nat.min_eq_left h.le]
    constructor
    · rw [h.at, at?_append t, h.here, Option.bind_some, at?_cons, at?_cons]
      simp only [children, hget]
    · rw [h.before, before_at_append h.here]
      simp only [Tree.before, children, hget, htake, htake', texts_append, blen_append, goneLen]
      omega

theorem Spliced.fresh (h : t.Spliced t' P k cs a b xs) {j : Nat} {x : Tree} (hj : xs[j]? = some x) (R : List Nat) :
    t'.at? (P ++ (a + j) :: R) = x.at? R ∧
    t'.before (P ++ (a + j) :: R) = (t.before P ++ texts (cs.take a)) ++ texts (xs.take j) ++ x.before R := by
  have hl : a ≤ cs.length := Nat.le_trans h.le h.inside
  have hla : (cs.take a).length = a := by simp; omega
  have hjl := (List.getElem?_eq_some_iff.mp hj).1
  have hget : (cs.take a ++ xs ++ cs.drop b)[a + j]? = some x := by
    rw [List.append_assoc, List.getElem?_append_right (by omega), hla, Nat.add_sub_cancel_left,
      List.getElem?_append_left hjl, hj]
  have htake : (cs.take a ++ xs ++ cs.drop b).take (a + j) = cs.take a ++ xs.take j := by
    rw [List.append_assoc, List.take_append, hla, List.take_of_length_le (by omega), Nat.add_sub_cancel_left,
      List.take_append_of_le_length (by omega)]
  constructor
  · rw [h.at, at?_cons]
    simp only [children, hget, Option.bind_some]
  · rw [h.before]
    simp only [Tree.before, children, hget, htake, texts_append]
    simp only [List.append_assoc]

end Tree

namespace View

/-- Putting whole trees in one after the other. -/
theorem insertAll_roots {q r : Nat} {P : List Nat} : ∀ (ps : List Nat) (i : Nat) (v : View) (k : SyntaxKind) (cs : List Tree),
    v.pos q = (r, P) → (v.tree r).at? P = some (.node k cs) → i ≤ cs.length →
    (∀ p ∈ ps, v.mutable p = true ∧ v.pos p = (p, []) ∧ p ≠ r) → ps.Nodup →
    ∃ w, v.insertAll q i ps = .done w ∧
      w.tree r = (v.tree r).set P (.node k (cs.take i ++ ps.map v.tree ++ cs.drop i)) ∧
      (∀ y, y ≠ r → w.tree y = v.tree y) ∧
      (∀ x, (v.pos x).1 ≠ r → (v.pos x).1 ∉ ps → w.pos x = v.pos x) ∧
      (∀ x Q, v.pos x = (r, Q) → (¬ ∃ j U, Q = P ++ (i + j) :: U) → w.pos x = (r, Q)) ∧
      (∀ x j U, v.pos x = (r, P ++ (i + j) :: U) → w.pos x = (r, P ++ (i + ps.length + j) :: U)) ∧
      (∀ (x j p : Nat) R, ps[j]? = some p → v.pos x = (p, R) → w.pos x = (r, P ++ (i + j) :: R))
  | [], i, v, k, cs, hq, ht, hi, _, _ => by
    refine ⟨v, rfl, ?_, fun _ _ => rfl, fun _ _ _ => rfl, fun _ _ h _ => h, fun _ _ _ h => by simpa using h, fun _ _ _ _ h => by simp at h⟩
    simp only [List.map_nil, List.append_nil, List.take_append_drop]
    exact (Tree.set_same ht).symm
  | p :: ps, i, v, k, cs, hq, ht, hi, hp, hn => by
    obtain ⟨hm, hpp, hpr⟩ := hp p (by simp)
    obtain ⟨hn1, hn2⟩ := List.nodup_cons.mp hn
    have hcut : v.cut p = v := by simp [View.cut, hpp]
    have hw : v.width q = cs.length := by simp only [View.width, View.sub, hq, ht, Tree.children]
    have hins : (v.tree r).insertAt P i (v.tree p) = (v.tree r).set P (.node k (cs.take i ++ v.tree p :: cs.drop i)) := by
      simp only [Tree.insertAt, Tree.editKids, ht]
    have htr : (v.join q i p).tree r = (v.tree r).set P (.node k (cs.take i ++ v.tree p :: cs.drop i)) := by
      rw [join_tree_eq, hq, if_pos rfl]; exact hins
    have hto : ∀ y, y ≠ r → (v.join q i p).tree y = v.tree y := fun y hy => by
      rw [join_tree_eq, hq, if_neg hy]
    have hpos : ∀ x, (v.join q i p).pos x = joinLoc r p P i (v.pos x).1 (v.pos x).2 := fun x => by
      rw [join_pos_eq, hq]
    have hat : ((v.join q i p).tree r).at? P = some (.node k (cs.take i ++ v.tree p :: cs.drop i)) := by
      have := Tree.at?_set_self ht (.node k (cs.take i ++ v.tree p :: cs.drop i)) []
      rw [List.append_nil, Tree.at?_nil] at this
      rw [htr, this]
    obtain ⟨w, w1, w2, w3, w4, w5, w6, w7⟩ := insertAll_roots ps (i + 1) (v.join q i p) k _
      (by rw [hpos, hq]; simp [joinLoc, hpr.symm]) hat (by simp; omega)
      (fun p' h' => by
        obtain ⟨m', e', n'⟩ := hp p' (by simp [h'])
        have hne : p' ≠ p := fun e => hn1 (e ▸ h')
        exact ⟨m', by rw [hpos, e']; simp [joinLoc, hne, n'], n'⟩) hn2
    refine ⟨w, ?_, ?_, fun y hy => by rw [w3 y hy, hto y hy], fun x h1 h2 => ?_, fun x Q hx hQ => ?_, fun x j U hx => ?_, fun x j p' R hj hx => ?_⟩
    · rw [insertAll, if_neg (by rw [hm]; simp), hcut, if_neg (by rw [hq]; exact fun e => hpr e.symm), if_pos (by rw [hw]; exact hi)]
      exact w1
    · rw [w2, htr, Tree.set_set ht]
      congr 2
      have hmap : ps.map (v.join q i p).tree = ps.map v.tree :=
        List.map_congr_left fun y hy => hto y (hp y (by simp [hy])).2.2
      have e1 : (cs.take i ++ v.tree p :: cs.drop i).take (i + 1) = cs.take i ++ [v.tree p] := by
        rw [List.take_append, List.length_take, Nat.min_eq_left hi,
          List.take_of_length_le (by simp; omega), show i + 1 - i = 1 by omega]; rfl
      have e2 : (cs.take i ++ v.tree p :: cs.drop i).drop (i + 1) = cs.drop i := by
        rw [List.drop_append, List.length_take, Nat.min_eq_left hi,
          List.drop_eq_nil_of_le (by simp; omega), show i + 1 - i = 1 by omega]; rfl
      rw [hmap, e1, e2]; simp
    · simp only [List.mem_cons, not_or] at h2
      have e : (v.join q i p).pos x = v.pos x := by rw [hpos]; simp [joinLoc, h1, h2.1]
      rw [w4 x (by rw [e]; exact h1) (by rw [e]; exact h2.2), e]
    · have e : (v.join q i p).pos x = (r, Q) := by
        rw [hpos, hx]
        simp only [joinLoc, if_neg hpr.symm, if_true]
        congr 1
        by_cases hb : ∃ j U, Q = P ++ j :: U
        · obtain ⟨j, U, rfl⟩ := hb
          rw [Tree.afterInsert_below, if_neg]
          exact fun hij => hQ ⟨j - i, U, by simp; omega⟩
        · exact Tree.afterInsert_off hb
      exact w5 x Q e fun ⟨j, U, e'⟩ => hQ ⟨1 + j, U, by rw [e']; simp; omega⟩
    · have e : (v.join q i p).pos x = (r, P ++ (i + 1 + j) :: U) := by
        rw [hpos, hx]
        simp only [joinLoc, if_neg hpr.symm, if_true]
        rw [Tree.afterInsert_below, if_pos (by omega), show i + j + 1 = i + 1 + j by omega]
      rw [w6 x j U e]
      simp only [List.length_cons, show i + 1 + ps.length + j = i + (ps.length + 1) + j by omega]
    · cases j with
      | zero =>
        simp only [List.getElem?_cons_zero, Option.some.injEq] at hj
        subst hj
        refine w5 x _ (by rw [hpos, hx]; simp [joinLoc]) fun ⟨j, U, e'⟩ => ?_
        have := List.append_cancel_left e'
        simp at this; omega
      | succ j =>
        rw [List.getElem?_cons_succ] at hj
        have hmem := List.mem_of_getElem? hj
        have hne : p' ≠ p := fun e => hn1 (e ▸ hmem)
        have hnr := (hp p' (by simp [hmem])).2.2
        rw [w7 x j p' R hj (by rw [hpos, hx]; simp [joinLoc, hne, hnr]), show i + 1 + j = i + (j + 1) by omega]

/-- Replacing at most one child by whole trees. -/
theorem splice_roots {v : View} {hc : Nat → Nat} {e q r a b : Nat} {P : List Nat} {ps : List Nat} {k : SyntaxKind} {cs : List Tree}
    (hm : v.mutable q = true) (hv : v.Victim hc e q a b) (hq : v.pos q = (r, P)) (ht : (v.tree r).at? P = some (.node k cs))
    (hab : a ≤ b) (hb1 : b ≤ a + 1) (hb : b ≤ cs.length)
    (hp : ∀ p ∈ ps, 0 < hc p ∧ v.mutable p = true ∧ v.pos p = (p, []) ∧ p ≠ r) (hn : ps.Nodup) :
    ∃ w, v.splice e q a b ps = .done w ∧ (v.tree r).Spliced (w.tree r) P k cs a b (ps.map v.tree) ∧
      (∀ x, 0 < hc x → (v.pos x).1 ≠ r → (v.pos x).1 ∉ ps → w.pos x = v.pos x ∧ w.tree (v.pos x).1 = v.tree (v.pos x).1) ∧
      (∀ x Q, v.pos x = (r, Q) → Q <+: P ∨ Earlier Q (P ++ [a]) → w.pos x = (r, Q)) ∧
      (∀ x Q Q', v.pos x = (r, Q) → Behind P a b ps.length Q Q' → w.pos x = (r, Q')) ∧
      (∀ x R, a < b → v.pos x = (r, P ++ a :: R) → w.pos x = (e, R) ∧ some (w.tree e) = cs[a]?) ∧
      (∀ (x j p : Nat) R, ps[j]? = some p → v.pos x = (p, R) → w.pos x = (r, P ++ (a + j) :: R)) := by
  have hw : v.width q = cs.length := by simp only [View.width, View.sub, hq, ht, Tree.children]
  have hQ : ∀ {Q}, Q <+: P ∨ Earlier Q (P ++ [a]) → ¬ ∃ j U, Q = P ++ (a + j) :: U := by
    rintro Q h ⟨j, U, rfl⟩
    rcases h with h | h
    · have := h.length_le
      simp at this; omega
    · rcases h.split with h | ⟨j', U', hj, e⟩
      · exact h.apart.2 (List.prefix_append ..)
      · have := List.append_cancel_left e
        simp at this; omega
  have hE : ∀ {Q}, Earlier P Q → ¬ ∃ j U, Q = P ++ j :: U := by
    rintro Q h ⟨j, U, rfl⟩
    exact h.apart.1 (List.prefix_append ..)
  rw [splice, if_neg (by rw [hm]; simp), deleted, hw]
  by_cases hd : a < b
  · have hbe : b = a + 1 := by omega
    subst hbe
    rw [if_pos ⟨hd, by omega⟩, hq]
    have hat := hv hm hd (by omega)
    rw [hq] at hat
    obtain ⟨her, hat⟩ := hat
    have hpe : ∀ p ∈ ps, p ≠ e := fun p h => by
      have := (hat p (hp p h).1).2
      rw [(hp p h).2.2.1] at this; exact this
    have hrem : (v.tree r).removeAt P a = (v.tree r).set P (.node k (cs.eraseIdx a)) := by
      simp only [Tree.removeAt, Tree.editKids, ht]
    have htr : (v.cutAt e r P a).tree r = (v.tree r).set P (.node k (cs.eraseIdx a)) := by
      rw [cutAt_tree_eq, if_neg (fun h => her h.symm), if_pos rfl, hrem]
    have hto : ∀ y, y ≠ r → y ≠ e → (v.cutAt e r P a).tree y = v.tree y := fun y h1 h2 => by
      rw [cutAt_tree_eq, if_neg h2, if_neg h1]
    have hte : some ((v.cutAt e r P a).tree e) = cs[a]? := by
      rw [cutAt_tree_eq, if_pos rfl, Tree.at?_snoc, ht]
      simp only [Option.bind_some, Tree.children]
      rw [List.getElem?_eq_getElem (by omega)]; rfl
    have hpos : ∀ x, (v.cutAt e r P a).pos x = cutLoc r e P a (v.pos x).1 (v.pos x).2 := fun x => rfl
    have hat' : ((v.cutAt e r P a).tree r).at? P = some (.node k (cs.eraseIdx a)) := by
      have := Tree.at?_set_self ht (.node k (cs.eraseIdx a)) []
      rw [List.append_nil, Tree.at?_nil] at this
      rw [htr, this]
    obtain ⟨w, w1, w2, w3, w4, w5, w6, w7⟩ := insertAll_roots (q := q) ps a (v.cutAt e r P a) k _
      (by rw [hpos, hq]; simp [cutLoc]) hat' (by rw [List.length_eraseIdx, if_pos (by omega)]; omega)
      (fun p h => by
        obtain ⟨-, m', e', n'⟩ := hp p h
        exact ⟨m', by rw [hpos, e']; simp [cutLoc, n'], n'⟩) hn
    have hstay : ∀ {x Q}, v.pos x = (r, Q) → (¬ ∃ j U, Q = P ++ (a + j) :: U) → (v.cutAt e r P a).pos x = (r, Q) := by
      intro x Q hx hQ
      rw [hpos, hx]
      simp only [cutLoc, if_true]
      have : Tree.afterCut P a Q = .stays Q := by
        by_cases hb : ∃ j U, Q = P ++ j :: U
        · obtain ⟨j, U, rfl⟩ := hb
          have := Tree.afterCut_afterInsert P a (P ++ j :: U)
          rwa [Tree.afterInsert_below, if_neg] at this
          exact fun hij => hQ ⟨j - a, U, by simp; omega⟩
        · exact EProg.afterCut_off hb
      rw [this]
    refine ⟨w, w1, ⟨ht, by omega, hb, ?_⟩, fun x hx h1 h2 => ?_, fun x Q hx h => ?_, fun x Q Q' hx h => ?_, fun x R _ hx => ?_, fun x j p R hj hx => ?_⟩
    · rw [w2, htr, Tree.set_set ht]
      congr 2
      have hmap : ps.map (v.cutAt e r P a).tree = ps.map v.tree :=
        List.map_congr_left fun y hy => hto y (hp y hy).2.2.2 (hpe y hy)
      rw [hmap, List.eraseIdx_eq_take_drop_succ, List.take_append, List.drop_append, List.take_take,
        List.length_take, Nat.min_self, Nat.min_eq_left (by omega), Nat.sub_self, List.take_zero, List.append_nil,
        List.drop_eq_nil_of_le (by simp; omega)]
      rfl
    · have ex : (v.cutAt e r P a).pos x = v.pos x := by rw [hpos]; simp [cutLoc, h1]
      exact ⟨by rw [w4 x (by rw [ex]; exact h1) (by rw [ex]; exact h2), ex],
        by rw [w3 _ h1, hto _ h1 (hat x hx).2]⟩
    · exact w5 x Q (hstay hx (hQ h)) (hQ h)
    · cases h with
      | outside h =>
        exact w5 x Q (hstay hx fun ⟨j, U, e⟩ => hE h ⟨_, U, e⟩) fun ⟨j, U, e⟩ => hE h ⟨_, U, e⟩
      | inside j U =>
        refine w6 x j U ?_
        rw [hpos, hx]
        simp only [cutLoc, if_true]
        have := Tree.afterCut_afterInsert P a (P ++ (a + j) :: U)
        rw [Tree.afterInsert_below, if_pos (by omega), show a + j + 1 = a + 1 + j by omega] at this
        rw [this]
    · have ex : (v.cutAt e r P a).pos x = (e, R) := by
        rw [hpos, hx]; simp [cutLoc, Tree.afterCut_below]
      exact ⟨by rw [w4 x (by rw [ex]; exact her) (by rw [ex]; exact fun h => hpe e h rfl), ex], by rw [w3 e her, hte]⟩
    · obtain ⟨-, -, -, n'⟩ := hp p (List.mem_of_getElem? hj)
      exact w7 x j p R hj (by rw [hpos, hx]; simp [cutLoc, n'])
  · have hbe : b = a := by omega
    subst hbe
    rw [if_neg (by omega)]
    obtain ⟨w, w1, w2, w3, w4, w5, w6, w7⟩ := insertAll_roots ps b v k cs hq ht hb (fun p h => (hp p h).2) hn
    refine ⟨w, w1, ⟨ht, Nat.le_refl _, hb, w2⟩, fun x _ h1 h2 => ⟨w4 x h1 h2, w3 _ h1⟩, fun x Q hx h => w5 x Q hx (hQ h), fun x Q Q' hx h => ?_,
      fun x R h => absurd h hd, w7⟩
    cases h with
    | outside h => exact w5 x Q hx fun ⟨j, U, e⟩ => hE h ⟨_, U, e⟩
    | inside j U => exact w6 x j U hx

end View
end Rowan
