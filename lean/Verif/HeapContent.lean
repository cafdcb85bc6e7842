import Verif.HeapShows
import Verif.HeapByKind
/-!
# Content after detaching loops
-/
namespace Rowan

theorem eraseIdx_first {cs : List Tree} {ok : Tree → Bool} {j : Nat} {c : Tree} (h : cs[j]? = some c)
    (hc : ok c = true) (hf : ∀ j' < j, ∀ c', cs[j']? = some c' → ok c' = false) :
    cs.eraseIdx j = cs.eraseP ok := by
  induction cs generalizing j with
  | nil => simp at h
  | cons d cs ih =>
    cases j with
    | zero =>
      have : d = c := by simpa using h
      subst this
      simp [hc]
    | succ j =>
      have hd := hf 0 (by omega) d rfl
      rw [List.eraseIdx_cons_succ, List.eraseP_cons_of_neg (by simp [hd])]
      rw [ih (by simpa using h) fun j' hj c' hc' => hf (j' + 1) (by omega) c' (by simpa using hc')]

theorem filter_eraseP {cs : List Tree} {ok : Tree → Bool} :
    (cs.eraseP ok).filter (fun c => !ok c) = cs.filter (fun c => !ok c) := by
  induction cs with
  | nil => rfl
  | cons d cs ih =>
    by_cases hd : ok d = true
    · rw [List.eraseP_cons_of_pos hd, List.filter_cons_of_neg (by simp [hd])]
    · rw [List.eraseP_cons_of_neg hd, List.filter_cons_of_pos (by simp [hd]),
        List.filter_cons_of_pos (by simp [hd]), ih]

namespace View
variable {v w : View} {hc : Nat → Nat} {ok : Tree → Bool} {q : Nat} {k : SyntaxKind} {cs : List Tree}

theorem no_firstKid (hs : v.sub q = some (.node k cs)) (h : ∀ j, ¬ v.firstKid ok q j) :
    ∀ c ∈ cs, ok c = false := by
  intro c hm
  cases hok : ok c with
  | false => rfl
  | true =>
    exfalso
    have : ∃ j, cs.findIdx? ok = some j := by
      cases hf : cs.findIdx? ok with
      | some j => exact ⟨j, rfl⟩
      | none =>
        have := List.findIdx?_eq_none_iff.mp hf c hm
        rw [hok] at this; cases this
    obtain ⟨j, hj⟩ := this
    rw [List.findIdx?_eq_some_iff_getElem] at hj
    obtain ⟨h1, h2, h3⟩ := hj
    refine h j ⟨_, cs[j], hs, by simp [Tree.children, h1], h2, fun j' hj' c' hc' => ?_⟩
    have h4 := h3 j' hj'
    have : cs[j']? = some c' := hc'
    obtain ⟨h5, h6⟩ := List.getElem?_eq_some_iff.mp this
    rw [← h6]; simpa using h4

theorem cutKid_sub {e j : Nat} (hs : v.sub q = some (.node k cs)) (hf : v.firstKid ok q j)
    (he : e ≠ (v.pos q).1) :
    (v.cutAt e (v.pos q).1 (v.pos q).2 j).sub q = some (.node k (cs.eraseP ok)) := by
  obtain ⟨t, c, h1, h2, h3, h4⟩ := hf
  rw [hs] at h1; cases h1
  rw [(cutAt_sub_above (x := q) (R := []) he rfl (by simp)).2, hs]
  simp only [Option.map_some, Tree.removeAt, Tree.editKids_nil]
  rw [eraseIdx_first (cs := cs) h2 h3 h4]

theorem cutKid_off {e j x : Nat} (hf : v.firstKid ok q j)
    (he : v.IsAt hc e (v.pos q).1 ((v.pos q).2 ++ [j])) (hx : 0 < hc x) (hn : ¬ v.Above x q) :
    (v.cutAt e (v.pos q).1 (v.pos q).2 j).sub x = v.sub x := by
  obtain ⟨t, c, h1, h2, _⟩ := hf
  refine cutAt_sub_off (t := c) he.1 (he.2 x hx).2 ?_ fun e1 hpre => hn ⟨e1, hpre⟩
  rw [Tree.at?_snoc]
  rw [sub] at h1
  rw [h1]; exact h2

theorem cutKids_sub (h : CutKids hc ok q v w) (hs : v.sub q = some (.node k cs)) :
    w.sub q = some (.node k (cs.filter fun c => !ok c)) := by
  induction h generalizing cs with
  | done hn =>
    rw [hs, List.filter_eq_self.mpr fun c hm => by rw [no_firstKid hs hn c hm]; rfl]
  | cut hf he _ ih =>
    rw [ih (cutKid_sub hs hf he.1), filter_eraseP]

theorem cutKids_off {x : Nat} (h : CutKids hc ok q v w) (hq : 0 < hc q) (hx : 0 < hc x) (hn : ¬ v.Above x q) :
    w.sub x = v.sub x := by
  induction h with
  | done _ => rfl
  | cut hf he _ ih =>
    rw [ih fun e => hn (above_of_cutAt' he.1 (he.2 x hx).2 (he.2 q hq).2 e), cutKid_off hf he hx hn]

end View
end Rowan
