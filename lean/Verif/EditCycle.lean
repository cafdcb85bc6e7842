import Verif.EditContent
/-!
# Edits of views that would put an element below itself
-/
namespace Rowan

/-- Positions above an element that stays stay, and stay above. -/
theorem Tree.afterCut_mono {P : List Nat} {i : Nat} {A B B' : List Nat} (h : A <+: B)
    (hb : afterCut P i B = .stays B') : ∃ A', afterCut P i A = .stays A' ∧ A' <+: B' := by
  induction P generalizing A B B' with
  | nil =>
    cases A with
    | nil => exact ⟨[], by simp, List.nil_prefix⟩
    | cons a A =>
      cases B with
      | nil => simp at h
      | cons b B =>
        obtain ⟨rfl, h'⟩ := List.cons_prefix_cons.mp h
        simp only [afterCut] at hb ⊢
        split at hb
        · cases hb
        next h1 =>
        split at hb
        · next h2 =>
          cases hb
          exact ⟨_, by rw [if_neg h1, if_pos h2], List.cons_prefix_cons.mpr ⟨rfl, h'⟩⟩
        · next h2 =>
          cases hb
          exact ⟨_, by rw [if_neg h1, if_neg h2], List.cons_prefix_cons.mpr ⟨rfl, h'⟩⟩
  | cons c P ih =>
    cases A with
    | nil => exact ⟨[], by simp, List.nil_prefix⟩
    | cons a A =>
      cases B with
      | nil => simp at h
      | cons b B =>
        obtain ⟨rfl, h'⟩ := List.cons_prefix_cons.mp h
        simp only [afterCut] at hb ⊢
        split at hb
        · rename_i hc
          rw [if_pos hc]
          split at hb <;> cases hb
          rename_i e
          obtain ⟨A', e1, e2⟩ := ih h' e
          exact ⟨_, by rw [e1], List.cons_prefix_cons.mpr ⟨rfl, e2⟩⟩
        · cases hb
          rename_i hc
          exact ⟨_, by rw [if_neg hc], List.cons_prefix_cons.mpr ⟨rfl, h'⟩⟩

namespace View
variable {v : View} {A : Nat → Prop} {hc : Nat → Nat} {p q i : Nat}

theorem cutAt_above_mono {e r j x y : Nat} {P : List Nat} (h : v.Above x y)
    (hy : (v.pos y).1 = r → ¬ P ++ [j] <+: (v.pos y).2) : (v.cutAt e r P j).Above x y := by
  obtain ⟨h1, h2⟩ := h
  rw [View.Above, cutAt_pos_eq, cutAt_pos_eq, h1]
  by_cases hr : (v.pos y).1 = r
  · simp only [cutLoc, if_pos hr]
    cases hb : Tree.afterCut P j (v.pos y).2 with
    | cut R =>
      refine absurd ?_ (hy hr)
      rw [Tree.afterCut_cut hb]
      exact ⟨R, by simp⟩
    | stays B' =>
      obtain ⟨A', e1, e2⟩ := Tree.afterCut_mono h2 hb
      rw [e1]
      exact ⟨rfl, e2⟩
  · simp only [cutLoc, if_neg hr]
    exact ⟨trivial, h2⟩

theorem cut_above_mono {x : Nat} (h : v.Above x q) (hpq : ¬ v.Above p q) : (v.cut p).Above x q := by
  by_cases hn : (v.pos p).2 = []
  · have e : v.cut p = v := by simp [View.cut, hn]
    rwa [e]
  · obtain ⟨P, j, h1, h2⟩ := cut_eq hn
    rw [h2]
    refine cutAt_above_mono h fun hr hpre => hpq ⟨hr.symm, ?_⟩
    rw [h1]; exact hpre

theorem join_above_mono {x : Nat} (h : v.Above x q) (hne : (v.pos q).1 ≠ p) : (v.join q i p).Above x q := by
  obtain ⟨h1, R, h2⟩ := h
  have e1 := (join_sub_above (i := i) hne h1 h2.symm).1
  have e2 := (join_sub_above (i := i) (x := q) (R := []) hne rfl (by simp)).1
  rw [View.Above, e1, e2]
  exact ⟨h1, R, h2⟩

/-- If one of the elements to be moved below `q` is above `q`, the move does not succeed. -/
theorem insertAll_cyclic (hq : A q) : ∀ (ps : List Nat) (i : Nat) (v w : View), v.Named A →
    (∀ p ∈ ps, A p) → (∃ p ∈ ps, v.Above p q) → v.insertAll q i ps ≠ .done w
  | [], _, _, _, _, _, h => by simp at h
  | p :: ps, i, v, w, hN, hA, hx => by
    have hp := hA p (by simp)
    simp only [insertAll]
    split
    · simp
    next hm =>
    have hm : v.mutable p = true := by simpa using hm
    by_cases hpq : v.Above p q
    · rw [if_pos ((cut_above hN hp hq).mpr hpq)]
      split <;> simp
    · have hne : ((v.cut p).pos q).1 ≠ p := fun e => hpq ((cut_above hN hp hq).mp e)
      rw [if_neg hne]
      split
      · obtain ⟨x, hx1, hx2⟩ := hx
        refine insertAll_cyclic hq ps (i + 1) _ w (join_named (cut_named hN hp hm).1 hq hne)
          (fun y hy => hA y (by simp [hy])) ⟨x, ?_, join_above_mono (cut_above_mono hx2 hpq) hne⟩
        rcases List.mem_cons.mp hx1 with rfl | h
        · exact absurd hx2 hpq
        · exact h
      · simp

theorem splice_cyclic {e a b : Nat} {ps : List Nat} {w : View} (hN : v.Named fun x => 0 < hc x) (hq : 0 < hc q)
    (he : v.Victim hc e q a b) (hps : ∀ p ∈ ps, 0 < hc p) (hx : ∃ p ∈ ps, v.Above p q) :
    v.splice e q a b ps ≠ .done w := by
  rw [splice]
  split
  · simp
  next hm =>
  have hm : v.mutable q = true := by simpa using hm
  rw [deleted]
  split
  · next hd =>
    have hat := he hm hd.1 hd.2
    refine insertAll_cyclic (A := fun x => 0 < hc x) hq ps a _ w (cutAt_named hN hat) hps ?_
    obtain ⟨p, h1, h2⟩ := hx
    refine ⟨p, h1, cutAt_above_mono h2 fun _ h => ?_⟩
    have := h.length_le
    simp at this; omega
  · exact insertAll_cyclic (A := fun x => 0 < hc x) hq ps a v w hN hps hx

/-- A single element above `q`, with the index in range. -/
theorem splice_loops {e a : Nat} {k : SyntaxKind} {cs : List Tree} (hN : v.Named fun x => 0 < hc x)
    (hf : v.Full fun x => 0 < hc x) (hq : 0 < hc q)
    (hp : 0 < hc p) (hm : v.mutable q = true) (hmp : v.mutable p = true) (hs : v.sub q = some (.node k cs))
    (ha : a ≤ cs.length) (hx : v.Above p q) : v.splice e q a a [p] = .loops := by
  rw [splice, if_neg (by simp [hm]), deleted, if_neg (by omega), insertAll, if_neg (by simp [hmp]),
    if_pos ((cut_above (A := fun x => 0 < hc x) hN hp hq).mpr hx), if_pos]
  have : (v.cut p).sub q = v.sub q := by
    refine cut_sub_off (A := fun x => 0 < hc x) hN hp hq (hf p hp) fun h => ?_
    have e1 : (v.pos q).2 = (v.pos p).2 := h.2.eq_of_length_le hx.2.length_le
    exact hN.inj q p hq hp hmp (Prod.ext h.1 e1)
  rw [width, this, hs]
  exact ha

/-- A single element above `q`, with the index out of range. -/
theorem splice_tangles {e a : Nat} {k : SyntaxKind} {cs : List Tree} (hN : v.Named fun x => 0 < hc x)
    (hf : v.Full fun x => 0 < hc x) (hq : 0 < hc q)
    (hp : 0 < hc p) (hm : v.mutable q = true) (hmp : v.mutable p = true) (hs : v.sub q = some (.node k cs))
    (ha : cs.length < a) (hx : v.Above p q) : v.splice e q a a [p] = .tangled q p a := by
  rw [splice, if_neg (by simp [hm]), deleted, if_neg (by omega), insertAll, if_neg (by simp [hmp]),
    if_pos ((cut_above (A := fun x => 0 < hc x) hN hp hq).mpr hx), if_neg]
  have : (v.cut p).sub q = v.sub q := by
    refine cut_sub_off (A := fun x => 0 < hc x) hN hp hq (hf p hp) fun h => ?_
    have e1 : (v.pos q).2 = (v.pos p).2 := h.2.eq_of_length_le hx.2.length_le
    exact hN.inj q p hq hp hmp (Prod.ext h.1 e1)
  rw [width, this, hs]
  exact Nat.not_le.mpr ha

end View
end Rowan
