import Verif.DetachRun
/-!
# What is left after many elements were cut out

The definitions in this file are vocabulary of the proofs and model no code.
-/
namespace Rowan
namespace Tree

mutual
theorem without_congr : ∀ (t : Tree) {g g' : List Nat → Bool}, (∀ D, D ≠ [] → g D = g' D) → t.without g = t.without g'
  | token k x, _, _, _ => by simp [without]
  | node k cs, g, g', h => by rw [without, without, withouts_congr cs 0 h]
theorem withouts_congr : ∀ (cs : List Tree) (i : Nat) {g g' : List Nat → Bool}, (∀ D, D ≠ [] → g D = g' D) →
    withouts g i cs = withouts g' i cs
  | [], _, _, _, _ => by simp [withouts]
  | c :: cs, i, g, g', h => by
    rw [withouts, withouts, h [i] (by simp), withouts_congr cs (i + 1) h,
      without_congr c (g := fun D => g (i :: D)) (g' := fun D => g' (i :: D)) fun D _ => h _ (by simp)]
end

mutual
theorem without_none : ∀ (t : Tree) {g : List Nat → Bool}, (∀ D, D ≠ [] → g D = false) → t.without g = t
  | token k x, _, _ => by simp [without]
  | node k cs, g, h => by rw [without, withouts_none cs 0 h]
theorem withouts_none : ∀ (cs : List Tree) (i : Nat) {g : List Nat → Bool}, (∀ D, D ≠ [] → g D = false) → withouts g i cs = cs
  | [], _, _, _ => by simp [withouts]
  | c :: cs, i, g, h => by
    rw [withouts, h [i] (by simp), withouts_none cs (i + 1) h,
      without_none c (g := fun D => g (i :: D)) fun D _ => h _ (by simp)]
    simp
end

/-- Two lists of children of which the same is left. -/
theorem withouts_pointwise : ∀ {cs cs' : List Tree} {k k' : Nat} {g g' : List Nat → Bool}, cs.length = cs'.length →
    (∀ j c c', cs[j]? = some c → cs'[j]? = some c' → g [k + j] = g' [k' + j] ∧
      (g [k + j] = false → c.without (fun D => g ((k + j) :: D)) = c'.without (fun D => g' ((k' + j) :: D)))) →
    withouts g k cs = withouts g' k' cs'
  | [], [], _, _, _, _, _, _ => by simp [withouts]
  | [], _ :: _, _, _, _, _, h, _ => by simp at h
  | _ :: _, [], _, _, _, _, h, _ => by simp at h
  | c :: cs, c' :: cs', k, k', g, g', h, hp => by
    obtain ⟨h1, h2⟩ := hp 0 c c' rfl rfl
    have := withouts_pointwise (cs := cs) (cs' := cs') (k := k + 1) (k' := k' + 1) (g := g) (g' := g') (by simpa using h)
      (fun j d d' hd hd' => by
        have := hp (j + 1) d d' (by simpa using hd) (by simpa using hd')
        rwa [show k + (j + 1) = k + 1 + j by omega, show k' + (j + 1) = k' + 1 + j by omega] at this)
    simp only [Nat.add_zero] at h1 h2
    rw [withouts, withouts, this, h1]
    split
    · rfl
    · next hn =>
      rw [h2 (by rw [h1]; simpa using hn)]

theorem withouts_eraseIdx : ∀ {cs : List Tree} {i k : Nat} {g g' : List Nat → Bool}, g [k + i] = true →
    (∀ j D, j < i → g ((k + j) :: D) = g' ((k + j) :: D)) → (∀ j D, i ≤ j → g ((k + j + 1) :: D) = g' ((k + j) :: D)) →
    withouts g' k (cs.eraseIdx i) = withouts g k cs
  | [], _, _, _, _, _, _, _ => by simp [withouts]
  | c :: cs, 0, k, g, g', h1, _, h3 => by
    rw [List.eraseIdx_cons_zero, withouts, if_pos (by simpa using h1)]
    refine withouts_pointwise rfl fun j d d' hd hd' => ?_
    rw [hd] at hd'
    cases hd'
    have := h3 j
    simp only [Nat.zero_le, true_implies] at this
    rw [show k + 1 + j = k + j + 1 by omega]
    refine ⟨(this []).symm, fun _ => ?_⟩
    congr 1
    funext D
    exact (this D).symm
  | c :: cs, i + 1, k, g, g', h1, h2, h3 => by
    rw [List.eraseIdx_cons_succ, withouts, withouts]
    have h0 := fun D => h2 0 D (by omega)
    simp only [Nat.add_zero] at h0
    rw [← h0 [], show (fun D => g' (k :: D)) = fun D => g (k :: D) from funext fun D => (h0 D).symm,
      withouts_eraseIdx (i := i) (k := k + 1) (g := g) (g' := g') (by rw [← h1]; congr 2; omega)
        (fun j D hj => by have := h2 (j + 1) D (by omega); rwa [show k + (j + 1) = k + 1 + j by omega] at this)
        (fun j D hj => by have := h3 (j + 1) D (by omega); rwa [show k + (j + 1) = k + 1 + j by omega] at this)]

/-- An element that has gone anyway may be cut out before. -/
theorem without_removeAt : ∀ {Q : List Nat} {t : Tree} {i : Nat} {g g' : List Nat → Bool}, g (Q ++ [i]) = true →
    (∀ D D', D ≠ [] → afterCut Q i D = .stays D' → g D = g' D') → (t.removeAt Q i).without g' = t.without g
  | [], t, i, g, g', h1, h2 => by
    cases t with
    | token k x => simp [removeAt, without]
    | node k cs =>
      rw [removeAt, editKids_nil, without, without]
      congr 1
      refine withouts_eraseIdx (by simpa using h1) (fun j D hj => ?_) fun j D hj => ?_
      · refine h2 _ _ (by simp) ?_
        simp only [Nat.zero_add, afterCut]
        rw [if_neg (by omega), if_neg (by omega)]
      · refine h2 _ _ (by simp) ?_
        simp only [Nat.zero_add, afterCut]
        rw [if_neg (by omega), if_pos (by omega)]
        simp
  | a :: Q, t, i, g, g', h1, h2 => by
    cases t with
    | token k x => simp [removeAt, without]
    | node k cs =>
      rw [removeAt, editKids_cons, without, without]
      congr 1
      refine withouts_pointwise (by simp) fun j c c' hc hc' => ?_
      rw [List.getElem?_modify, hc'] at hc
      simp only [Nat.zero_add]
      by_cases hj : a = j
      · subst hj
        simp only [if_true, Option.map_eq_map, Option.map_some, Option.some.injEq] at hc
        subst hc
        refine ⟨?_, fun _ => ?_⟩
        · exact (h2 [a] [a] (by simp) (by simp [afterCut])).symm
        · refine without_removeAt (Q := Q) (i := i) (g := fun D => g (a :: D)) (g' := fun D => g' (a :: D)) (by simpa using h1)
            fun D D' hD hc => ?_
          exact h2 _ _ (by simp) (by simp [afterCut, hc])
      · simp only [hj, if_false, Option.map_eq_map, Option.map_some, Option.some.injEq] at hc
        subst hc
        have : ∀ D, g (j :: D) = g' (j :: D) := fun D => h2 _ _ (by simp) (by simp [afterCut, hj])
        refine ⟨(this []).symm, fun _ => ?_⟩
        congr 1
        funext D
        exact (this D).symm

/-- The positions below an element that stays, or is cut out, go with it. -/
theorem afterCut_with (i : Nat) (D : List Nat) : ∀ {Q P : List Nat}, ¬ P <+: Q → afterCut Q i (P ++ D) =
    match afterCut Q i P with
    | .stays P' => .stays (P' ++ D)
    | .cut R => .cut (R ++ D)
  | [], [], h => absurd (List.prefix_refl _) h
  | [], p :: P, _ => by
    simp only [List.cons_append, afterCut]
    split
    · rfl
    · split <;> rfl
  | _ :: _, [], h => absurd List.nil_prefix h
  | a :: Q, b :: P, h => by
    simp only [List.cons_append, afterCut]
    split
    · next e =>
      subst e
      rw [afterCut_with i D (Q := Q) (P := P) (fun hp => h (by simpa using hp))]
      cases afterCut Q i P <;> rfl
    · rfl

theorem shift_congr : ∀ {D : List Nat} {g g' : List Nat → Bool}, (∀ E, E ≠ [] → g E = g' E) → shift g D = shift g' D
  | [], _, _, _ => by simp [shift]
  | i :: D, g, g', h => by
    rw [shift, shift, h [i] (by simp), shift_congr (D := D) (g := fun E => g (i :: E)) (g' := fun E => g' (i :: E)) fun E _ => h _ (by simp),
      show (fun j => !g [j]) = fun j => !g' [j] from funext fun j => by rw [h [j] (by simp)]]

theorem shift_none : ∀ {D : List Nat} {g : List Nat → Bool}, (∀ E, E ≠ [] → g E = false) → shift g D = some D
  | [], _, _ => by simp [shift]
  | i :: D, g, h => by
    rw [shift, h [i] (by simp), shift_none (D := D) (g := fun E => g (i :: E)) fun E _ => h _ (by simp)]
    have : (List.range i).countP (fun j => !g [j]) = i := by
      rw [List.countP_eq_length.mpr fun j _ => by rw [h [j] (by simp)]; rfl, List.length_range]
    rw [this]
    rfl

theorem countP_range_cut {g g' : Nat → Bool} {i j : Nat} (hij : i < j) (h1 : g i = false) (h2 : ∀ k, k < i → g k = g' k)
    (h3 : ∀ k, i ≤ k → g (k + 1) = g' k) : (List.range j).countP g = (List.range (j - 1)).countP g' := by
  obtain ⟨k, rfl⟩ : ∃ k, j = i + 1 + k := ⟨j - (i + 1), by omega⟩
  rw [show i + 1 + k - 1 = i + k by omega]
  clear hij
  induction k with
  | zero =>
    rw [Nat.add_zero, Nat.add_zero, List.range_succ, List.countP_append]
    simp only [List.countP_singleton, h1]
    exact List.countP_congr fun k hk => by rw [h2 k (List.mem_range.mp hk)]
  | succ k ih =>
    rw [show i + 1 + (k + 1) = (i + 1 + k) + 1 by omega, show i + (k + 1) = (i + k) + 1 by omega, List.range_succ,
      List.range_succ, List.countP_append, List.countP_append, ih, List.countP_singleton, List.countP_singleton,
      show i + 1 + k = i + k + 1 by omega, h3 (i + k) (by omega)]

/-- An element that has gone anyway may be cut out before: the positions. -/
theorem shift_cut : ∀ {Q : List Nat} {i : Nat} {g g' : List Nat → Bool} {D : List Nat}, g (Q ++ [i]) = true →
    (∀ D D', D ≠ [] → afterCut Q i D = .stays D' → g D = g' D') →
    match afterCut Q i D with
    | .stays D' => shift g' D' = shift g D
    | .cut _ => shift g D = none
  | Q, i, g, g', [], _, _ => by simp [shift]
  | [], i, g, g', j :: D, h1, h2 => by
    have hlt : ∀ {k E}, k < i → g (k :: E) = g' (k :: E) := fun {k E} hk =>
      h2 _ _ (by simp) (by rw [afterCut, if_neg (by omega), if_neg (by omega)])
    have hge : ∀ {k E}, i ≤ k → g ((k + 1) :: E) = g' (k :: E) := fun {k E} hk =>
      h2 _ _ (by simp) (by rw [afterCut, if_neg (by omega), if_pos (by omega)]; simp)
    rw [afterCut]
    by_cases e : j = i
    · subst e
      simp only [if_true]
      rw [shift, if_pos (by simpa using h1)]
    · by_cases hij : i < j
      · simp only [e, hij, if_true, if_false]
        obtain ⟨k, rfl⟩ : ∃ k, j = k + 1 := ⟨j - 1, by omega⟩
        have := countP_range_cut (g := fun k => !g [k]) (g' := fun k => !g' [k]) hij (by simpa using h1)
          (fun k hk => by rw [hlt hk]) (fun k hk => by rw [hge hk])
        simp only [Nat.add_sub_cancel] at this ⊢
        rw [shift, shift, hge (by omega), this, show (fun E => g ((k + 1) :: E)) = fun E => g' (k :: E) from
          funext fun E => hge (by omega)]
      · simp only [e, hij, if_false]
        have hji : j < i := by omega
        rw [shift, shift, hlt hji, show (fun E => g (j :: E)) = fun E => g' (j :: E) from funext fun E => hlt hji,
          List.countP_congr (p := fun k => !g [k]) (q := fun k => !g' [k]) fun k hk => by
            rw [hlt (Nat.lt_trans (List.mem_range.mp hk) hji)]]
  | a :: Q, i, g, g', b :: D, h1, h2 => by
    have hone : ∀ k, g [k] = g' [k] := fun k => by
      refine h2 _ _ (by simp) ?_
      rw [afterCut]
      split <;> simp
    have hcount : (List.range b).countP (fun k => !g [k]) = (List.range b).countP fun k => !g' [k] := by
      congr 1; funext k; rw [hone]
    rw [afterCut]
    by_cases hab : a = b
    · subst hab
      simp only [if_true]
      have ih := shift_cut (Q := Q) (i := i) (g := fun E => g (a :: E)) (g' := fun E => g' (a :: E)) (D := D) (by simpa using h1)
        fun E E' hE hc => h2 _ _ (by simp) (by simp [afterCut, hc])
      cases hc : afterCut Q i D with
      | stays D' =>
        rw [hc] at ih
        simp only at ih ⊢
        rw [shift, shift, hone, hcount, ih]
      | cut R =>
        rw [hc] at ih
        simp only at ih ⊢
        rw [shift, ih]
        simp
    · simp only [hab, if_false]
      have : (fun E => g (b :: E)) = fun E => g' (b :: E) := funext fun E => h2 _ _ (by simp) (by simp [afterCut, hab])
      rw [shift, shift, hone, hcount, this]

end Tree

namespace Forest
variable {F G : Forest}

theorem cutLoc_inj {r n : Nat} {Q : List Nat} {i : Nat} {x y : Nat × List Nat} (hx : x.1 ≠ n) (hy : y.1 ≠ n)
    (hr : r ≠ n) (h : cutLoc r n Q i x.1 x.2 = cutLoc r n Q i y.1 y.2) : x = y := by
  obtain ⟨a, X⟩ := x
  obtain ⟨b, Y⟩ := y
  simp only [cutLoc] at *
  by_cases h1 : a = r
  · by_cases h2 : b = r
    · subst h1; subst h2
      simp only [if_true] at h
      have : Tree.afterCut Q i X = Tree.afterCut Q i Y := by
        cases h3 : Tree.afterCut Q i X <;> cases h4 : Tree.afterCut Q i Y <;> rw [h3, h4] at h <;> simp at h <;>
          first | (rw [h]) | exact absurd h.1 (by omega)
      rw [Tree.afterCut_inj this]
    · simp only [h1, if_true, h2, if_false] at h
      split at h
      · cases h; exact absurd rfl h2
      · cases h; exact absurd rfl hy
  · by_cases h2 : b = r
    · simp only [h1, if_false, h2, if_true] at h
      split at h
      · cases h; exact absurd rfl h1
      · cases h; exact absurd rfl hx
    · simp only [h1, h2, if_false] at h
      exact h

theorem picked_cons (F : Forest) (h : Nat) (hs : List Nat) (x : Nat × List Nat) :
    F.picked (h :: hs) x = ((F.env.get h == some x) || F.picked hs x) := by simp [picked]

theorem picked_cutAt (hF : F.Sound) {r : Nat} {Q : List Nat} {i : Nat} (hr : r < F.fresh) (hs : List Nat) {x : Nat × List Nat}
    (hx : x.1 < F.fresh) : (F.cutAt r Q i).picked hs (cutLoc r F.fresh Q i x.1 x.2) = F.picked hs x := by
  simp only [picked, cutAt, Env.get_map]
  congr 1
  funext h
  cases hg : F.env.get h with
  | none => simp
  | some y =>
    have := (hF.get hg).1
    rw [Option.map_some, Bool.eq_iff_iff]
    simp only [beq_iff_eq, Option.some.injEq]
    refine ⟨fun e => cutLoc_inj (by omega) (by omega) (by omega) e, fun e => by rw [e]⟩

/-- What one cut leaves of the element at a place. -/
theorem cutAt_sub_without (hF : F.Sound) {h : Nat} {hs : List Nat} {a : Nat} {Q : List Nat} {i : Nat}
    (hx : F.env.get h = some (a, Q ++ [i])) {r : Nat} {P : List Nat} {u : Tree} (hr : r < F.fresh) (hu : F.sub (r, P) = some u) :
    ∃ u', (F.cutAt a Q i).sub (cutLoc a F.fresh Q i r P) = some u' ∧
      u'.without (fun D => (F.cutAt a Q i).picked hs ((cutLoc a F.fresh Q i r P).1, (cutLoc a F.fresh Q i r P).2 ++ D)) =
        u.without fun D => F.picked (h :: hs) (r, P ++ D) := by
  obtain ⟨ha, hA⟩ := hF.get hx
  simp only at ha
  have hpk := fun (x : Nat × List Nat) (hx : x.1 < F.fresh) => picked_cutAt (Q := Q) (i := i) hF ha hs hx
  have pick : ∀ D, F.picked (h :: hs) (r, P ++ D) = (decide ((a, Q ++ [i]) = (r, P ++ D)) || F.picked hs (r, P ++ D)) := by
    intro D
    rw [picked_cons, hx]
    congr 1
    rw [Bool.eq_iff_iff]
    simp
  rw [sub] at hu
  simp only at hu
  by_cases hra : r = a
  · subst hra
    by_cases hp : P <+: Q
    · obtain ⟨D0, rfl⟩ := hp
      have hloc : cutLoc r F.fresh (P ++ D0) i r P = (r, P) := by
        rw [cutLoc, if_pos rfl, EProg.afterCut_off]
        rintro ⟨j, R, e⟩
        have := congrArg List.length e
        simp at this
      rw [hloc]
      refine ⟨u.removeAt D0 i, ?_, ?_⟩
      · simp only [sub, cutAt, Nat.ne_of_lt hr, if_false, if_true, Tree.removeAt]
        rw [Tree.at?_editKids_above, hu]; rfl
      · refine Tree.without_removeAt ?_ fun D D' hD hc => ?_
        · rw [pick]; simp
        · have hl : cutLoc r F.fresh (P ++ D0) i r (P ++ D) = (r, P ++ D') := by
            rw [cutLoc, if_pos rfl, Tree.afterCut_append, hc]
          have := hpk (r, P ++ D) hr
          simp only [hl] at this
          rw [this, pick D]
          have hne : (r, P ++ D0 ++ [i]) ≠ (r, P ++ D) := by
            intro e
            simp only [Prod.mk.injEq, true_and] at e
            have hh := Tree.afterCut_here (P ++ D0) i
            rw [e, Tree.afterCut_append, hc] at hh
            cases hh
          rw [decide_eq_false hne, Bool.false_or]
    · have hl : ∀ D, cutLoc r F.fresh Q i r (P ++ D) = ((cutLoc r F.fresh Q i r P).1, (cutLoc r F.fresh Q i r P).2 ++ D) := by
        intro D
        simp only [cutLoc, if_true]
        rw [Tree.afterCut_with i D hp]
        cases Tree.afterCut Q i P <;> rfl
      refine ⟨u, ?_, ?_⟩
      · simp only [cutLoc, if_true]
        cases hc : Tree.afterCut Q i P with
        | stays P' =>
          simp only [sub, cutAt, Nat.ne_of_lt hr, if_false, if_true]
          rw [Tree.at?_removeAt hp hc, hu]
        | cut R =>
          have := Tree.afterCut_cut hc
          rw [this, show Q ++ i :: R = (Q ++ [i]) ++ R by simp, Tree.at?_append] at hu
          obtain ⟨v, hv⟩ := Option.isSome_iff_exists.mp hA
          rw [sub] at hv
          rw [hv] at hu
          simp only [sub, cutAt, if_true, hv]
          exact hu
      · refine Tree.without_congr u fun D hD => ?_
        have := hpk (r, P ++ D) hr
        simp only [hl] at this
        rw [this, pick]
        have hne : (r, Q ++ [i]) ≠ (r, P ++ D) := by
          intro e
          simp only [Prod.mk.injEq, true_and] at e
          rcases List.eq_nil_or_concat D with rfl | ⟨D, k, rfl⟩
          · exact hD rfl
          · rw [List.concat_eq_append, ← List.append_assoc] at e
            exact hp ⟨D, (List.append_inj' e rfl).1.symm⟩
        rw [decide_eq_false hne, Bool.false_or]
  · have hl : ∀ D, cutLoc a F.fresh Q i r D = (r, D) := by
      intro D; rw [cutLoc, if_neg hra]
    rw [hl]
    refine ⟨u, ?_, ?_⟩
    · simp only [sub, cutAt, Nat.ne_of_lt hr, hra, if_false, hu]
    · refine Tree.without_congr u fun D hD => ?_
      have := hpk (r, P ++ D) hr
      simp only [hl] at this
      rw [this, pick]
      simp [Ne.symm hra]

/-- A top element stays one. -/
theorem cuts_top {hs : List Nat} {m r : Nat} (hm : F.env.get m = some (r, [])) : (F.cuts hs).env.get m = some (r, []) := by
  induction hs generalizing F with
  | nil => exact hm
  | cons h hs ih =>
    rw [cuts]
    split
    · exact ih hm
    · next x hx =>
      refine ih ?_
      obtain ⟨a, X⟩ := x
      rcases List.eq_nil_or_concat X with rfl | ⟨Q, i, rfl⟩
      · exact hm
      · rw [List.concat_eq_append, cut_snoc]
        simp only [cutAt, Env.get_map, hm, Option.map_some, cutLoc, Tree.afterCut_nil]
        split <;> simp [*]

/-- What is left of the elements that the handles denote. -/
theorem cuts_sub (hF : F.Sound) {hs : List Nat} {m r : Nat} {P : List Nat} {u : Tree} (hm : F.env.get m = some (r, P))
    (hu : F.sub (r, P) = some u) :
    ∃ z, (F.cuts hs).env.get m = some z ∧ (F.cuts hs).sub z = some (u.without fun D => F.picked hs (r, P ++ D)) ∧
      (m ∈ hs → z.2 = []) := by
  induction hs generalizing F r P u with
  | nil =>
    refine ⟨(r, P), hm, ?_, nofun⟩
    rw [cuts, hu]
    rw [Tree.without_none u fun D _ => by simp [picked]]
  | cons h hs ih =>
    rw [cuts]
    cases hx : F.env.get h with
    | none =>
      obtain ⟨z, z1, z2, z3⟩ := ih hF hm hu
      refine ⟨z, z1, ?_, fun hmem => ?_⟩
      · simp only [z2, picked_cons, hx]
        congr 1
      · rcases List.mem_cons.mp hmem with rfl | hmem
        · rw [hm] at hx; cases hx
        · exact z3 hmem
    | some x =>
      obtain ⟨a, X⟩ := x
      simp only
      rcases List.eq_nil_or_concat X with rfl | ⟨Q, i, rfl⟩
      · obtain ⟨z, z1, z2, z3⟩ := ih hF hm hu
        refine ⟨z, z1, ?_, fun hmem => ?_⟩
        · show (F.cuts hs).sub z = _
          rw [z2]
          congr 1
          refine Tree.without_congr u fun D hD => ?_
          rw [picked_cons, hx]
          have : (a, []) ≠ (r, P ++ D) := by
            intro e
            have := congrArg Prod.snd e
            simp at this
            exact hD this.2
          have h2 : (some (a, ([] : List Nat)) == some (r, P ++ D)) = false := by
            rw [beq_eq_false_iff_ne]
            intro e
            exact this (Option.some.inj e)
          simp [h2]
        · rcases List.mem_cons.mp hmem with rfl | hmem
          · rw [hm] at hx
            cases hx
            have := cuts_top (hs := hs) hm
            have z1 : (F.cuts hs).env.get m = some z := z1
            rw [this] at z1
            cases z1
            rfl
          · exact z3 hmem
      · rw [List.concat_eq_append] at hx ⊢
        rw [cut_snoc]
        have hr : r < F.fresh := (hF.get hm).1
        obtain ⟨u', e1, e2⟩ := cutAt_sub_without hF (hs := hs) hx hr hu
        have hm' : (F.cutAt a Q i).env.get m = some (cutLoc a F.fresh Q i r P) := by
          simp [cutAt, Env.get_map, hm]
        have hS : (F.cutAt a Q i).Sound := by
          have := hF.cut (hF.get hx).1 (hF.get hx).2
          rwa [cut_snoc] at this
        obtain ⟨z, z1, z2, z3⟩ := ih hS (r := (cutLoc a F.fresh Q i r P).1) (P := (cutLoc a F.fresh Q i r P).2) hm' e1
        refine ⟨z, z1, by rw [z2, e2], fun hmem => ?_⟩
        rcases List.mem_cons.mp hmem with rfl | hmem
        · rw [hm] at hx
          cases hx
          have : (F.cutAt r Q i).env.get m = some (F.fresh, []) := by
            rw [hm', cutLoc, if_pos rfl, Tree.afterCut_here]
          have := cuts_top (hs := hs) this
          rw [this] at z1
          cases z1
          rfl
        · exact z3 hmem

/-- How elements stand to each other after one cut. -/
theorem cutAt_shift (hF : F.Sound) {h : Nat} {hs : List Nat} {a : Nat} {Q : List Nat} {i : Nat}
    (hx : F.env.get h = some (a, Q ++ [i])) {r : Nat} {P D D' : List Nat} (hr : r < F.fresh)
    (hd : Tree.shift (fun E => F.picked (h :: hs) (r, P ++ E)) D = some D') :
    ∃ D2, cutLoc a F.fresh Q i r (P ++ D) = ((cutLoc a F.fresh Q i r P).1, (cutLoc a F.fresh Q i r P).2 ++ D2) ∧
      Tree.shift (fun E => (F.cutAt a Q i).picked hs ((cutLoc a F.fresh Q i r P).1, (cutLoc a F.fresh Q i r P).2 ++ E)) D2 =
        some D' := by
  obtain ⟨ha, hA⟩ := hF.get hx
  simp only at ha
  have hpk := fun (x : Nat × List Nat) (hx : x.1 < F.fresh) => picked_cutAt (Q := Q) (i := i) hF ha hs hx
  have pick : ∀ D, F.picked (h :: hs) (r, P ++ D) = (decide ((a, Q ++ [i]) = (r, P ++ D)) || F.picked hs (r, P ++ D)) := by
    intro D
    rw [picked_cons, hx]
    congr 1
    rw [Bool.eq_iff_iff]
    simp
  by_cases hra : r = a
  · subst hra
    by_cases hp : P <+: Q
    · obtain ⟨D0, rfl⟩ := hp
      have hloc : cutLoc r F.fresh (P ++ D0) i r P = (r, P) := by
        rw [cutLoc, if_pos rfl, EProg.afterCut_off]
        rintro ⟨j, R, e⟩
        have := congrArg List.length e
        simp at this
      rw [hloc]
      have hsc := Tree.shift_cut (Q := D0) (i := i) (g := fun E => F.picked (h :: hs) (r, P ++ E))
        (g' := fun E => (F.cutAt r (P ++ D0) i).picked hs (r, P ++ E)) (D := D) (by rw [pick]; simp) fun D D' hD hc => by
          have hl : cutLoc r F.fresh (P ++ D0) i r (P ++ D) = (r, P ++ D') := by
            rw [cutLoc, if_pos rfl, Tree.afterCut_append, hc]
          have := hpk (r, P ++ D) hr
          simp only [hl] at this
          rw [this, pick D]
          have hne : (r, P ++ D0 ++ [i]) ≠ (r, P ++ D) := by
            intro e
            simp only [Prod.mk.injEq, true_and] at e
            have hh := Tree.afterCut_here (P ++ D0) i
            rw [e, Tree.afterCut_append, hc] at hh
            cases hh
          rw [decide_eq_false hne, Bool.false_or]
      cases hc : Tree.afterCut D0 i D with
      | cut R => rw [hc] at hsc; simp only at hsc; rw [hsc] at hd; cases hd
      | stays D2 =>
        rw [hc] at hsc
        simp only at hsc
        exact ⟨D2, by rw [cutLoc, if_pos rfl, Tree.afterCut_append, hc], hsc.trans hd⟩
    · have hl : ∀ D, cutLoc r F.fresh Q i r (P ++ D) = ((cutLoc r F.fresh Q i r P).1, (cutLoc r F.fresh Q i r P).2 ++ D) := by
        intro D
        simp only [cutLoc, if_true]
        rw [Tree.afterCut_with i D hp]
        cases Tree.afterCut Q i P <;> rfl
      refine ⟨D, hl D, ?_⟩
      rw [← hd]
      refine Tree.shift_congr fun D hD => ?_
      have := hpk (r, P ++ D) hr
      simp only [hl] at this
      rw [this, pick]
      have hne : (r, Q ++ [i]) ≠ (r, P ++ D) := by
        intro e
        simp only [Prod.mk.injEq, true_and] at e
        rcases List.eq_nil_or_concat D with rfl | ⟨D, k, rfl⟩
        · exact hD rfl
        · rw [List.concat_eq_append, ← List.append_assoc] at e
          exact hp ⟨D, (List.append_inj' e rfl).1.symm⟩
      rw [decide_eq_false hne, Bool.false_or]
  · have hl : ∀ D, cutLoc a F.fresh Q i r D = (r, D) := by
      intro D; rw [cutLoc, if_neg hra]
    simp only [hl]
    refine ⟨D, rfl, ?_⟩
    rw [← hd]
    refine Tree.shift_congr fun D hD => ?_
    have := hpk (r, P ++ D) hr
    simp only [hl] at this
    rw [this, pick]
    simp [Ne.symm hra]

/-- How elements stand to each other afterwards. -/
theorem cuts_shift (hF : F.Sound) {hs : List Nat} {m m' r : Nat} {P D D' : List Nat} (hm : F.env.get m = some (r, P))
    (hm' : F.env.get m' = some (r, P ++ D)) (hd : Tree.shift (fun E => F.picked hs (r, P ++ E)) D = some D') :
    ∃ z, (F.cuts hs).env.get m = some z ∧ (F.cuts hs).env.get m' = some (z.1, z.2 ++ D') := by
  induction hs generalizing F r P D with
  | nil =>
    rw [Tree.shift_none fun E _ => by simp [picked]] at hd
    cases hd
    exact ⟨_, hm, hm'⟩
  | cons h hs ih =>
    rw [cuts]
    cases hx : F.env.get h with
    | none =>
      refine ih hF hm hm' ?_
      rw [← hd]
      simp only [picked_cons, hx]
      rfl
    | some x =>
      obtain ⟨a, X⟩ := x
      simp only
      rcases List.eq_nil_or_concat X with rfl | ⟨Q, i, rfl⟩
      · refine ih hF hm hm' ?_
        rw [← hd]
        refine Tree.shift_congr fun E hE => ?_
        rw [picked_cons, hx]
        have h2 : (some (a, ([] : List Nat)) == some (r, P ++ E)) = false := by
          rw [beq_eq_false_iff_ne]
          intro e
          have := congrArg Prod.snd (Option.some.inj e)
          simp at this
          exact hE this.2
        rw [h2, Bool.false_or]
        rfl
      · rw [List.concat_eq_append] at hx ⊢
        rw [cut_snoc]
        have hr : r < F.fresh := (hF.get hm).1
        obtain ⟨D2, e1, e2⟩ := cutAt_shift hF hx hr hd
        have hS : (F.cutAt a Q i).Sound := by
          have := hF.cut (hF.get hx).1 (hF.get hx).2
          rwa [cut_snoc] at this
        refine ih hS (r := (cutLoc a F.fresh Q i r P).1) (P := (cutLoc a F.fresh Q i r P).2) (D := D2) ?_ ?_ e2
        · simp [cutAt, Env.get_map, hm]
        · simp [cutAt, Env.get_map, hm', e1]

/-- Different elements stay different. -/
theorem cuts_inj (hF : F.Sound) {hs : List Nat} {m m' : Nat} {x y : Nat × List Nat} (hm : F.env.get m = some x)
    (hm' : F.env.get m' = some y) (h : (F.cuts hs).env.get m = (F.cuts hs).env.get m') : x = y := by
  induction hs generalizing F x y with
  | nil =>
    rw [cuts, hm, hm'] at h
    cases h; rfl
  | cons g hs ih =>
    rw [cuts] at h
    cases hx : F.env.get g with
    | none => rw [hx] at h; exact ih hF hm hm' h
    | some z =>
      rw [hx] at h
      simp only at h
      obtain ⟨a, X⟩ := z
      rcases List.eq_nil_or_concat X with rfl | ⟨Q, i, rfl⟩
      · exact ih hF hm hm' h
      · rw [List.concat_eq_append] at hx h
        rw [cut_snoc] at h
        have hS : (F.cutAt a Q i).Sound := by
          have := hF.cut (hF.get hx).1 (hF.get hx).2
          rwa [cut_snoc] at this
        have h1 := (hF.get hx).1
        have h2 := (hF.get hm).1
        have h3 := (hF.get hm').1
        simp only at h1
        refine cutLoc_inj (r := a) (n := F.fresh) (Q := Q) (i := i) (by omega) (by omega) (by omega)
          (ih (x := cutLoc a F.fresh Q i x.1 x.2) (y := cutLoc a F.fresh Q i y.1 y.2) hS ?_ ?_ h)
        · simp [cutAt, Env.get_map, hm]
        · simp [cutAt, Env.get_map, hm']

end Forest
end Rowan
