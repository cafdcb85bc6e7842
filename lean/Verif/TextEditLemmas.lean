import Verif.PtrSplice
import Verif.Twin
import Verif.EditLawsRun
import Verif.Props.Ranges
import Verif.Props.Edit
/-!
# Lemmas: where elements and texts are after a subtree is put in or taken out
-/
namespace Rowan
namespace Tree

theorem afterInsert_below {i j : Nat} (U : List Nat) : ∀ (P : List Nat), afterInsert P i (P ++ j :: U) = P ++ (if i ≤ j then j + 1 else j) :: U
  | [] => by simp only [List.nil_append, afterInsert]; split <;> rfl
  | a :: P => by simp [afterInsert, afterInsert_below U P]

theorem set_at_above {x : Tree} : ∀ (A B : List Nat) (t : Tree), (t.set (A ++ B) x).at? A = (t.at? A).map fun s => s.set B x
  | [], B, t => by simp [at?_nil]
  | a :: A, B, token k w => by simp [set, at?_cons, children]
  | a :: A, B, node k cs => by
    simp only [List.cons_append, set, at?_cons, children]
    rw [List.getElem?_modify]
    cases hc : cs[a]? with
    | none => simp
    | some c => simp [set_at_above A B c]

/-- Where the elements of a tree are when `u` is put in front of child `i` of the node at `P`. -/
theorem insertAt_moves {t u : Tree} {P : List Nat} {k : SyntaxKind} {cs : List Tree} {i : Nat} (h : t.at? P = some (.node k cs))
    (hi : i ≤ cs.length) {Q : List Nat} {d : Tree} (hQ : t.at? Q = some d) :
    (Q <+: P → afterInsert P i Q = Q ∧ (t.insertAt P i u).before Q = t.before Q ∧
      ∃ d', (t.insertAt P i u).at? Q = some d' ∧ blen d'.text = blen d.text + blen u.text) ∧
    (Earlier Q (P ++ [i]) → afterInsert P i Q = Q ∧ (t.insertAt P i u).before Q = t.before Q ∧ (t.insertAt P i u).at? Q = some d) ∧
    (P ++ [i] <+: Q ∨ Earlier (P ++ [i]) Q → Earlier (P ++ [i]) (afterInsert P i Q) ∧
      blen ((t.insertAt P i u).before (afterInsert P i Q)) = blen (t.before Q) + blen u.text ∧
      (t.insertAt P i u).at? (afterInsert P i Q) = some d) := by
  have hins : t.insertAt P i u = t.set P (.node k (cs.take i ++ [u] ++ cs.drop i)) := by
    simp only [insertAt, editKids, h, List.append_assoc, List.singleton_append]
  have hsp : t.Spliced (t.insertAt P i u) P k cs i i [u] := ⟨h, Nat.le_refl _, hi, hins⟩
  have hone : texts [u] = u.text := by simp [texts]
  have hgone : goneLen cs i i = 0 := by simp [goneLen, texts]
  have hlen := spliced_len k cs [u] (Nat.le_refl i)
  rw [hone, hgone] at hlen
  refine ⟨fun hp => ?_, fun he => ?_, fun he => ?_⟩
  · obtain ⟨B, rfl⟩ := hp
    refine ⟨afterInsert_off fun ⟨j, R, e⟩ => ?_, ?_, d.set B (.node k (cs.take i ++ [u] ++ cs.drop i)), ?_, ?_⟩
    · have := congrArg List.length e
      simp at this
    · rw [hins]; exact before_set_above _ Q B t
    · rw [hins, set_at_above, hQ]; rfl
    · have hd : d.at? B = some (.node k cs) := by
        rw [at?_append, hQ, Option.bind_some] at h; exact h
      have e1 := text_set hd (.node k (cs.take i ++ [u] ++ cs.drop i))
      have e2 := text_split hd
      rw [e1, e2]
      simp only [blen_append]
      omega
  · refine ⟨?_, ?_, ?_⟩
    · rcases he.split with hE | ⟨j, U, hj, rfl⟩
      · exact afterInsert_off fun ⟨j, R, e⟩ => hE.apart.2 ⟨_, e.symm⟩
      · rw [afterInsert_below, if_neg (by omega)]
    · rcases he.split with hE | ⟨j, U, hj, rfl⟩
      · obtain ⟨C, a, b, U, V, hab, rfl, rfl⟩ := hE
        rw [hins]; exact before_set_earlier _ hab U V C t
      · rw [hsp.before, before_at_append h]
        have hget : (cs.take i ++ [u] ++ cs.drop i)[j]? = cs[j]? := by
          rw [List.append_assoc, List.getElem?_append_left (by simp; omega), List.getElem?_take, if_pos hj]
        have htake : (cs.take i ++ [u] ++ cs.drop i).take j = cs.take j := by
          rw [List.append_assoc, List.take_append_of_le_length (by simp; omega), List.take_take, Nat.min_eq_left (Nat.le_of_lt hj)]
        simp only [before, children, hget, htake]
    · rcases he.split with hE | ⟨j, U, hj, rfl⟩
      · rw [hins, at?_set_other _ hE.apart.2 hE.apart.1, hQ]
      · rw [hsp.at, ← hQ, at?_append t, h, Option.bind_some, at?_cons, at?_cons]
        have hget : (cs.take i ++ [u] ++ cs.drop i)[j]? = cs[j]? := by
          rw [List.append_assoc, List.getElem?_append_left (by simp; omega), List.getElem?_take, if_pos hj]
        simp only [children, hget]
  · have hcase : Earlier P Q ∨ ∃ j U, Q = P ++ (i + j) :: U := by
      rcases he with ⟨U, rfl⟩ | ⟨C, a, b, U, V, hab, e, rfl⟩
      · exact .inr ⟨0, U, by simp⟩
      · rcases List.append_eq_append_iff.mp e with ⟨D, rfl, hD⟩ | ⟨D, rfl, hD⟩
        · cases D with
          | nil =>
            simp only [List.nil_append, List.cons.injEq] at hD
            exact .inr ⟨b - i, V, by simp; omega⟩
          | cons d D => simp at hD
        · cases D with
          | nil =>
            simp only [List.nil_append, List.cons.injEq] at hD
            exact .inr ⟨b - i, V, by simp; omega⟩
          | cons d D =>
            simp only [List.cons_append, List.cons.injEq] at hD
            exact .inl ⟨C, a, b, D, V, hab, by rw [hD.1], rfl⟩
    rcases hcase with hE | ⟨j, U, rfl⟩
    · have hoff : afterInsert P i Q = Q := afterInsert_off fun ⟨j, R, e⟩ => hE.apart.1 ⟨_, e.symm⟩
      rw [hoff]
      refine ⟨hE.snoc' [i], ?_, by rw [hins, at?_set_other _ hE.apart.1 hE.apart.2, hQ]⟩
      obtain ⟨C, a, b, U, V, hab, rfl, rfl⟩ := hE
      have := before_set_later (.node k (cs.take i ++ [u] ++ cs.drop i)) hab U V C t h
      rw [hins]
      omega
    · rw [afterInsert_below, if_pos (by omega)]
      have hla : (cs.take i ++ [u]).length = i + 1 := by simp; omega
      have hget : (cs.take i ++ [u] ++ cs.drop i)[i + j + 1]? = cs[i + j]? := by
        rw [List.getElem?_append_right (by omega), hla, List.getElem?_drop]
        congr 1; omega
      have htake : (cs.take i ++ [u] ++ cs.drop i).take (i + j + 1) = cs.take i ++ [u] ++ (cs.drop i).take j := by
        rw [List.take_append, hla, List.take_of_length_le (by omega)]
        congr 2; omega
      have htake' : cs.take (i + j) = cs.take i ++ (cs.drop i).take j := List.take_add
      refine ⟨⟨P, i, i + j + 1, [], U, by omega, rfl, rfl⟩, ?_, ?_⟩
      · rw [hsp.before, before_at_append h]
        simp only [before, children, hget, htake, htake', texts_append, blen_append, hone]
        omega
      · rw [hsp.at, ← hQ, at?_append t, h, Option.bind_some, at?_cons, at?_cons]
        simp only [children, hget]

/-- The text, and the elements put in. -/
theorem insertAt_text {t u : Tree} {P : List Nat} {k : SyntaxKind} {cs : List Tree} {i : Nat} (h : t.at? P = some (.node k cs))
    (hi : i ≤ cs.length) : t.text = (t.before P ++ texts (cs.take i)) ++ (texts (cs.drop i) ++ t.after P) ∧
    (t.insertAt P i u).text = (t.before P ++ texts (cs.take i)) ++ u.text ++ (texts (cs.drop i) ++ t.after P) ∧
    ∀ R, (t.insertAt P i u).before (P ++ i :: R) = (t.before P ++ texts (cs.take i)) ++ u.before R := by
  have hins : t.insertAt P i u = t.set P (.node k (cs.take i ++ [u] ++ cs.drop i)) := by
    simp only [insertAt, editKids, h, List.append_assoc, List.singleton_append]
  have hsp : t.Spliced (t.insertAt P i u) P k cs i i [u] := ⟨h, Nat.le_refl _, hi, hins⟩
  refine ⟨?_, ?_, fun R => ?_⟩
  · have := text_split h
    rw [text_node, ← List.take_append_drop i cs, texts_append] at this
    rw [this]
    simp
  · rw [hins, text_set h]
    simp [text_node, texts_append, texts]
  · rw [hsp.before]
    have hla : (cs.take i).length = i := by simp; omega
    have hget : (cs.take i ++ [u] ++ cs.drop i)[i]? = some u := by
      rw [List.append_assoc, List.getElem?_append_right (by omega), hla]; simp
    have htake : (cs.take i ++ [u] ++ cs.drop i).take i = cs.take i := by
      rw [List.append_assoc, List.take_append_of_le_length (by omega), List.take_take, Nat.min_self]
    simp only [before, children, hget, htake]
    simp only [List.append_assoc]

end Tree
end Rowan
