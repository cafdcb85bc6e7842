import Verif.CutOrder
/-!
# Forests that differ only in the numbers of the trees, and the order of cuts

The definitions in this file are vocabulary of the proofs and model no code.
-/
namespace Rowan
namespace Forest

/-- As `cutAt`, and the new tree has number `n`. -/
def cutAs (F : Forest) (n r : Nat) (P : List Nat) (i : Nat) : Forest where
  env := F.env.map fun x => cutLoc r n P i x.1 x.2
  tree m :=
    if m = n then ((F.tree r).at? (P ++ [i])).getD (F.tree m)
    else if m = r then (F.tree r).removeAt P i
    else F.tree m
  mutable m := if m = n then F.mutable r else F.mutable m
  fresh := F.fresh + 1
  leaked := F.leaked

theorem cutAt_eq (F : Forest) (r : Nat) (P : List Nat) (i : Nat) : F.cutAt r P i = F.cutAs F.fresh r P i := rfl

/-- The forests differ in the numbers of the trees, for the trees in `D`. -/
structure Alike (D : Nat → Prop) (σ : Nat → Nat) (F G : Forest) : Prop where
  inj : ∀ a b, σ a = σ b → a = b
  env : G.env = F.env.map fun x => (σ x.1, x.2)
  tree : ∀ n, D n → G.tree (σ n) = F.tree n
  mutable : ∀ n, D n → G.mutable (σ n) = F.mutable n
  fresh : G.fresh = F.fresh
  leaked : G.leaked = F.leaked

/-- Every handle denotes an element. -/
def Sound (F : Forest) : Prop := ∀ e ∈ F.env.held, e.2.1 < F.fresh ∧ (F.sub e.2).isSome

variable {D : Nat → Prop} {σ τ : Nat → Nat} {F G K : Forest}

theorem _root_.Rowan.Env.map_map {X Y Z : Type} (v : Env X) (f : X → Y) (g : Y → Z) : (v.map f).map g = v.map (g ∘ f) := by
  simp [Env.map]

theorem _root_.Rowan.Env.map_congr {X Y : Type} {v : Env X} {f g : X → Y} (h : ∀ e ∈ v.held, f e.2 = g e.2) : v.map f = v.map g := by
  simp only [Env.map]
  congr 1
  apply List.map_congr_left
  intro e he
  rw [h e he]

theorem cutLoc_map {σ : Nat → Nat} (hσ : ∀ a b, σ a = σ b → a = b) (r n : Nat) (P : List Nat) (i r0 : Nat) (Q : List Nat) :
    cutLoc (σ r) (σ n) P i (σ r0) Q = (σ (cutLoc r n P i r0 Q).1, (cutLoc r n P i r0 Q).2) := by
  simp only [cutLoc]
  by_cases h : r0 = r
  · subst h
    simp only [if_true]
    cases Tree.afterCut P i Q <;> rfl
  · have : σ r0 ≠ σ r := fun e => h (hσ _ _ e)
    simp [h, this]

theorem Alike.refl (F : Forest) : Alike D id F F :=
  ⟨fun _ _ h => h, by simp [Env.map], fun _ _ => rfl, fun _ _ => rfl, rfl, rfl⟩

theorem Alike.trans (h : Alike D σ F G) (h' : Alike (fun n => ∃ m, D m ∧ σ m = n) τ G K) : Alike D (fun n => τ (σ n)) F K := by
  refine ⟨fun a b e => h.inj _ _ (h'.inj _ _ e), ?_, fun n hn => ?_, fun n hn => ?_, h'.fresh.trans h.fresh, h'.leaked.trans h.leaked⟩
  · rw [h'.env, h.env, Env.map_map]; rfl
  · rw [h'.tree _ ⟨n, hn, rfl⟩, h.tree n hn]
  · rw [h'.mutable _ ⟨n, hn, rfl⟩, h.mutable n hn]

theorem Alike.cutAs (h : Alike D σ F G) {n r : Nat} {P : List Nat} {i : Nat} (hr : D r)
    (hs : ((F.tree r).at? (P ++ [i])).isSome) :
    Alike (fun m => D m ∨ m = n) σ (F.cutAs n r P i) (G.cutAs (σ n) (σ r) P i) := by
  have hne : ∀ {a b}, a ≠ b → σ a ≠ σ b := fun hab e => hab (h.inj _ _ e)
  refine ⟨h.inj, ?_, ?_, ?_, congrArg (· + 1) h.fresh, h.leaked⟩
  · simp only [Forest.cutAs, h.env, Env.map_map]
    apply Env.map_congr
    intro e _
    exact cutLoc_map h.inj ..
  · intro m hm
    simp only [Forest.cutAs]
    obtain ⟨u, hu⟩ := Option.isSome_iff_exists.mp hs
    by_cases e : m = n
    · subst e
      simp only [if_true, h.tree r hr, hu, Option.getD_some]
    · rw [if_neg (hne e), if_neg e]
      by_cases e' : m = r
      · subst e'
        simp only [if_true, h.tree m hr]
      · rw [if_neg (hne e'), if_neg e', h.tree m (hm.resolve_right e)]
  · intro m hm
    simp only [Forest.cutAs]
    by_cases e : m = n
    · subst e; simp only [if_true, h.mutable r hr]
    · rw [if_neg (hne e), if_neg e, h.mutable m (hm.resolve_right e)]

theorem ext {F G : Forest} (h1 : F.env = G.env) (h2 : ∀ n, F.tree n = G.tree n) (h3 : ∀ n, F.mutable n = G.mutable n)
    (h4 : F.fresh = G.fresh) (h5 : F.leaked = G.leaked) : F = G := by
  cases F; cases G
  simp only at h1 h2 h3 h4 h5
  simp only [mk.injEq]
  exact ⟨h1, funext h2, funext h3, h4, h5⟩

/-- Cut an element and then one inside it, or first the one inside. -/
theorem cutAs_below (F : Forest) {n n' a : Nat} {Q D : List Nat} {i j : Nat} (hn : n ≠ n') (ha : a ≠ n) (ha' : a ≠ n')
    (he : ∀ e ∈ F.env.held, e.2.1 ≠ n ∧ e.2.1 ≠ n') (hB : ((F.tree a).at? (Q ++ i :: D ++ [j])).isSome) :
    (F.cutAs n a Q i).cutAs n' n D j = (F.cutAs n' a (Q ++ i :: D) j).cutAs n a Q i := by
  obtain ⟨b, hb⟩ := Option.isSome_iff_exists.mp hB
  have h1 : (F.tree a).at? (Q ++ i :: D ++ [j]) = ((F.tree a).at? (Q ++ [i])).bind (·.at? (D ++ [j])) := by
    rw [← Tree.at?_append]; simp
  rw [h1] at hb
  cases hu : (F.tree a).at? (Q ++ [i]) with
  | none => rw [hu] at hb; cases hb
  | some u =>
    rw [hu, Option.bind_some] at hb
    have h2 : ((F.tree a).removeAt (Q ++ i :: D) j).at? (Q ++ [i]) = some (u.removeAt D j) := by
      have := Tree.at?_editKids_above (F.tree a) (Q ++ [i]) D (·.eraseIdx j)
      rw [hu, show Q ++ [i] ++ D = Q ++ i :: D by simp] at this
      exact this
    refine ext ?_ ?_ ?_ rfl rfl
    · simp only [Forest.cutAs, Env.map_map]
      apply Env.map_congr
      intro e hm
      obtain ⟨h, x, X⟩ := e
      obtain ⟨g1, g2⟩ := he _ hm
      simp only at g1 g2
      simp only [Function.comp, cutLoc]
      by_cases hx : x = a
      · subst hx
        simp only [if_true]
        by_cases hX : ∃ Y, X = Q ++ i :: Y
        · obtain ⟨Y, rfl⟩ := hX
          rw [Tree.afterCut_below]
          simp only [if_true]
          have := Tree.afterCut_append (Q ++ [i]) D Y j
          simp only [List.append_assoc, List.singleton_append] at this
          rw [this]
          cases Tree.afterCut D j Y with
          | stays Z => simp [Tree.afterCut_below]
          | cut Z => simp [Ne.symm ha']
        · rw [EProg.afterCut_off (Q := Q ++ i :: D) fun ⟨k, Z, e⟩ => hX ⟨D ++ k :: Z, by simp [e]⟩]
          simp only [if_true]
          cases hc : Tree.afterCut Q i X with
          | stays Z => simp [ha]
          | cut Z => exact absurd ⟨Z, Tree.afterCut_cut hc⟩ hX
      · simp [hx, g1]
    · intro m
      simp only [Forest.cutAs]
      by_cases e1 : m = n'
      · subst e1
        rw [List.append_assoc, List.cons_append] at h1
        simp [Ne.symm hn, hu, hb, h1, Ne.symm ha']
      · by_cases e2 : m = n
        · subst e2
          simp [hn, hu, ha', h2]
        · by_cases e3 : m = a
          · subst e3
            simp [e1, e2]
            exact (Tree.removeAt_editKids _ _ _ _ _).symm
          · simp [e1, e2, e3]
    · intro m
      simp only [Forest.cutAs]
      by_cases e1 : m = n'
      · subst e1; simp [Ne.symm hn]
      · by_cases e2 : m = n
        · subst e2; simp [hn, ha']
        · simp [e1, e2]

/-- Two cuts, of different elements, in both orders. -/
theorem cutAs_comm (F : Forest) {n n' a b : Nat} {Q R : List Nat} {i j : Nat} (hn : n ≠ n') (ha : a ≠ n) (ha' : a ≠ n')
    (hb : b ≠ n) (hb' : b ≠ n') (he : ∀ e ∈ F.env.held, e.2.1 ≠ n ∧ e.2.1 ≠ n') (hA : ((F.tree a).at? (Q ++ [i])).isSome)
    (hB : ((F.tree b).at? (R ++ [j])).isSome) (hd : (a, Q ++ [i]) ≠ (b, R ++ [j])) :
    ∃ b1 R1 j1 a1 Q1 i1, cutLoc a n Q i b (R ++ [j]) = (b1, R1 ++ [j1]) ∧ cutLoc b n' R j a (Q ++ [i]) = (a1, Q1 ++ [i1]) ∧
      (F.cutAs n a Q i).cutAs n' b1 R1 j1 = (F.cutAs n' b R j).cutAs n a1 Q1 i1 := by
  obtain ⟨u, hu⟩ := Option.isSome_iff_exists.mp hA
  obtain ⟨v, hv⟩ := Option.isSome_iff_exists.mp hB
  by_cases hab : a = b
  · subst hab
    have hd : Q ++ [i] ≠ R ++ [j] := fun e => hd (by rw [e])
    -- one of them inside the other
    have below : ∀ {Q R : List Nat} {i j : Nat}, Q ++ [i] ≠ R ++ [j] → Q ++ [i] <+: R ++ [j] → ∃ D, R = Q ++ i :: D := by
      rintro Q R i j hd ⟨D, hD⟩
      rcases List.eq_nil_or_concat D with rfl | ⟨D, k, rfl⟩
      · exact absurd (by simpa using hD) hd
      · refine ⟨D, ?_⟩
        rw [List.concat_eq_append, ← List.append_assoc] at hD
        simpa using (List.append_inj' hD rfl).1.symm
    have stays : ∀ {Q D : List Nat} {i j m : Nat}, cutLoc a m (Q ++ i :: D) j a (Q ++ [i]) = (a, Q ++ [i]) := by
      intro Q D i j m
      rw [cutLoc, if_pos rfl, EProg.afterCut_off]
      rintro ⟨k, Z, e⟩
      have := congrArg List.length e
      simp at this
    have goes : ∀ {Q D : List Nat} {i j m : Nat}, cutLoc a m Q i a (Q ++ i :: D ++ [j]) = (m, D ++ [j]) := by
      intro Q D i j m
      rw [cutLoc, if_pos rfl, List.append_assoc, List.cons_append, Tree.afterCut_below]
    by_cases h1 : Q ++ [i] <+: R ++ [j]
    · obtain ⟨D, rfl⟩ := below hd h1
      exact ⟨n, D, j, a, Q, i, goes, stays, cutAs_below F hn ha ha' he hB⟩
    · by_cases h2 : R ++ [j] <+: Q ++ [i]
      · obtain ⟨D, rfl⟩ := below (Ne.symm hd) h2
        exact ⟨a, R, j, n', D, i, stays, goes, (cutAs_below F (Ne.symm hn) ha' ha (fun e h => (he e h).symm) hA).symm⟩
      · obtain ⟨R1, j1, Q1, i1, e1, e2, e3, e4⟩ := Tree.cuts_apart (fun X => (a, X)) (fun X => (n, X)) (fun X => (n', X)) h1 h2
        have g1 : ((F.tree a).removeAt Q i).at? (R1 ++ [j1]) = some v := by
          rw [Tree.at?_removeAt (fun h => h2 (h.trans (List.prefix_append ..))) e1, hv]
        have g2 : ((F.tree a).removeAt R j).at? (Q1 ++ [i1]) = some u := by
          rw [Tree.at?_removeAt (fun h => h1 (h.trans (List.prefix_append ..))) e2, hu]
        refine ⟨a, R1, j1, a, Q1, i1, by rw [cutLoc, if_pos rfl, e1], by rw [cutLoc, if_pos rfl, e2], ext ?_ ?_ ?_ rfl rfl⟩
        · simp only [Forest.cutAs, Env.map_map]
          apply Env.map_congr
          intro e hm
          obtain ⟨h, x, X⟩ := e
          simp only [Function.comp, cutLoc]
          by_cases hx : x = a
          · subst hx
            have := e4 X
            simp only [Tree.twoCuts] at this
            simp only [if_true]
            cases hc1 : Tree.afterCut Q i X <;> cases hc2 : Tree.afterCut R j X <;> rw [hc1, hc2] at this <;>
              simp only at this <;> simp only [Ne.symm ha, Ne.symm ha', if_true, if_false]
            next Y Z => cases hc3 : Tree.afterCut R1 j1 Y <;> cases hc4 : Tree.afterCut Q1 i1 Z <;> rw [hc3, hc4] at this <;> exact this
            next Y Z => cases hc3 : Tree.afterCut R1 j1 Y <;> rw [hc3] at this <;> exact this
            next Y Z => cases hc4 : Tree.afterCut Q1 i1 Z <;> rw [hc4] at this <;> exact this
            next Y Z => exact this
          · simp [hx]
        · intro m
          simp only [Forest.cutAs]
          by_cases e1 : m = n'
          · subst e1
            simp [Ne.symm hn, ha, Ne.symm ha', g1, hv]
          · by_cases e2 : m = n
            · subst e2
              simp [hn, Ne.symm ha, ha', g2, hu]
            · by_cases e3' : m = a
              · subst e3'
                simp [e1, e2, e3]
              · simp [e1, e2, e3']
        · intro m
          simp only [Forest.cutAs]
          by_cases e1 : m = n'
          · subst e1; simp [Ne.symm hn, ha]
          · by_cases e2 : m = n
            · subst e2; simp [hn, ha']
            · simp [e1, e2]
  · have hba : b ≠ a := Ne.symm hab
    refine ⟨b, R, j, a, Q, i, by rw [cutLoc, if_neg hba], by rw [cutLoc, if_neg hab], ext ?_ ?_ ?_ rfl rfl⟩
    · simp only [Forest.cutAs, Env.map_map]
      apply Env.map_congr
      intro e hm
      obtain ⟨h, x, X⟩ := e
      simp only [Function.comp, cutLoc]
      by_cases hx : x = a
      · subst hx
        simp only [if_true, hab, if_false]
        cases Tree.afterCut Q i X <;> simp [hab, Ne.symm hb]
      · by_cases hx' : x = b
        · subst hx'
          simp only [if_true, hba, if_false]
          cases Tree.afterCut R j X <;> simp [hba, Ne.symm ha']
        · simp [hx, hx']
    · intro m
      simp only [Forest.cutAs]
      by_cases e1 : m = n'
      · subst e1
        simp [Ne.symm hn, hb, hba, hv, Ne.symm ha']
      · by_cases e2 : m = n
        · subst e2
          simp [hn, ha', hab, hu, Ne.symm hb]
        · by_cases e3 : m = a
          · subst e3; simp [e1, e2, hab]
          · by_cases e4 : m = b
            · subst e4; simp [e1, e2, hba]
            · simp [e1, e2, e3, e4]
    · intro m
      simp only [Forest.cutAs]
      by_cases e1 : m = n'
      · subst e1; simp [Ne.symm hn, hb]
      · by_cases e2 : m = n
        · subst e2; simp [hn, ha']
        · simp [e1, e2]

/-! ### Valid forests -/

theorem cutAt_valid {F : Forest} {r : Nat} {Q : List Nat} {i : Nat} {x : Nat × List Nat} (hr : r < F.fresh)
    (hs : (F.sub (r, Q ++ [i])).isSome) (hx : x.1 < F.fresh) (hX : (F.sub x).isSome) :
    (cutLoc r F.fresh Q i x.1 x.2).1 < F.fresh + 1 ∧ ((F.cutAt r Q i).sub (cutLoc r F.fresh Q i x.1 x.2)).isSome := by
  obtain ⟨n, X⟩ := x
  simp only at hx
  simp only [cutLoc]
  by_cases h : n = r
  · subst h
    simp only [if_true]
    cases hc : Tree.afterCut Q i X with
    | cut Y =>
      refine ⟨Nat.lt_succ_self _, ?_⟩
      have := Tree.afterCut_cut hc
      rw [sub, this, show Q ++ i :: Y = (Q ++ [i]) ++ Y by simp, Tree.at?_append] at hX
      obtain ⟨u, hu⟩ := Option.isSome_iff_exists.mp hs
      rw [sub] at hu
      rw [hu] at hX
      simp only [sub, cutAt, if_true, hu]
      exact hX
    | stays Y =>
      refine ⟨Nat.lt_succ_of_lt hx, ?_⟩
      simp only [sub, cutAt, if_true, Nat.ne_of_lt hx, if_false]
      by_cases hp : X <+: Q
      · obtain ⟨Z, rfl⟩ := hp
        rw [EProg.afterCut_off] at hc
        · cases hc
          rw [Tree.removeAt, Tree.at?_editKids_above]
          simpa [sub] using hX
        · rintro ⟨k, W, e⟩
          have := congrArg List.length e
          simp at this
      · rw [Tree.at?_removeAt hp hc]; exact hX
  · simp only [h, if_false]
    exact ⟨Nat.lt_succ_of_lt hx, by simpa [sub, cutAt, h, Nat.ne_of_lt hx] using hX⟩

theorem Sound.get (h : F.Sound) {n : Nat} {x : Nat × List Nat} (e : F.env.get n = some x) : x.1 < F.fresh ∧ (F.sub x).isSome :=
  h _ (Env.get_mem e)

theorem cut_snoc (F : Forest) (r : Nat) (Q : List Nat) (i : Nat) : F.cut (r, Q ++ [i]) = F.cutAt r Q i := by
  simp [cut]

theorem Sound.cut (h : F.Sound) {x : Nat × List Nat} (h1 : x.1 < F.fresh) (h2 : (F.sub x).isSome) : (F.cut x).Sound := by
  obtain ⟨r, X⟩ := x
  rcases List.eq_nil_or_concat X with rfl | ⟨Q, i, rfl⟩
  · exact h
  · rw [List.concat_eq_append] at h2 ⊢
    rw [cut_snoc]
    intro e he
    simp only [cutAt, Env.map, List.mem_map] at he
    obtain ⟨e, he, rfl⟩ := he
    exact cutAt_valid h1 h2 (h e he).1 (h e he).2

/-! ### Cuts of a list of handles -/

/-- The elements of these handles are cut out, one after the other. -/
def cuts (F : Forest) : List Nat → Forest
  | [] => F
  | h :: hs =>
    match F.env.get h with
    | none => F.cuts hs
    | some x => (F.cut x).cuts hs

/-- The forests differ in the numbers of the trees. -/
def Like (F G : Forest) : Prop := ∃ σ, Alike (· < F.fresh) σ F G ∧ ∀ n, F.fresh ≤ n → σ n = n

theorem Like.refl (F : Forest) : Like F F := ⟨id, .refl F, fun _ _ => rfl⟩

theorem Like.trans (h : Like F G) (h' : Like G K) : Like F K := by
  obtain ⟨σ, h1, h2⟩ := h
  obtain ⟨τ, h3, h4⟩ := h'
  have := h1.fresh
  refine ⟨fun n => τ (σ n), h1.trans ⟨h3.inj, h3.env, ?_, ?_, h3.fresh, h3.leaked⟩, fun n hn => ?_⟩
  all_goals try
    rintro n ⟨m, hm, rfl⟩
    have : σ m < G.fresh := by
      rw [h1.fresh]
      refine Nat.lt_of_not_le fun hle => ?_
      have := h1.inj _ _ (h2 _ hle)
      omega
  · exact h3.tree _ this
  · exact h3.mutable _ this
  · simp only
    rw [h2 n hn, h4 n (by omega)]

theorem Like.cut (h : Like F G) (hF : F.Sound) {m : Nat} {x : Nat × List Nat} (hx : F.env.get m = some x) :
    ∃ y, G.env.get m = some y ∧ Like (F.cut x) (G.cut y) := by
  obtain ⟨σ, h1, h2⟩ := h
  refine ⟨(σ x.1, x.2), by rw [h1.env, Env.get_map, hx]; rfl, ?_⟩
  obtain ⟨v1, v2⟩ := hF.get hx
  obtain ⟨r, X⟩ := x
  rcases List.eq_nil_or_concat X with rfl | ⟨Q, i, rfl⟩
  · exact ⟨σ, h1, h2⟩
  · rw [List.concat_eq_append] at v2 ⊢
    rw [cut_snoc, cut_snoc, cutAt_eq, cutAt_eq, h1.fresh, ← h2 F.fresh (Nat.le_refl _)]
    have := h1.cutAs (n := F.fresh) v1 v2
    rw [h2 F.fresh (Nat.le_refl _)] at this ⊢
    refine ⟨σ, ⟨this.inj, this.env, fun n hn => this.tree n ?_, fun n hn => this.mutable n ?_, this.fresh, this.leaked⟩,
      fun n hn => h2 n ?_⟩
    · have hn : n < F.fresh + 1 := hn; omega
    · have hn : n < F.fresh + 1 := hn; omega
    · have hn : F.fresh + 1 ≤ n := hn; omega

theorem Sound.cuts (h : F.Sound) (hs : List Nat) : (F.cuts hs).Sound := by
  induction hs generalizing F with
  | nil => exact h
  | cons a hs ih =>
    rw [Forest.cuts]
    split
    · exact ih h
    · next x hx => exact ih (h.cut (h.get hx).1 (h.get hx).2)

theorem Like.cuts (h : Like F G) (hF : F.Sound) (hs : List Nat) : Like (F.cuts hs) (G.cuts hs) := by
  induction hs generalizing F G with
  | nil => exact h
  | cons a hs ih =>
    rw [Forest.cuts, Forest.cuts]
    cases hx : F.env.get a with
    | none =>
      have : G.env.get a = none := by
        obtain ⟨σ, h1, h2⟩ := h
        rw [h1.env, Env.get_map, hx]; rfl
      rw [this]
      exact ih h hF
    | some x =>
      obtain ⟨y, hy, h'⟩ := h.cut hF hx
      rw [hy]
      exact ih h' (hF.cut (hF.get hx).1 (hF.get hx).2)

/-- Two cuts, in both orders. -/
theorem cut_cut (hF : F.Sound) {p q : Nat} {x y : Nat × List Nat} (hx : F.env.get p = some x) (hy : F.env.get q = some y) :
    ∃ x' y', (F.cut x).env.get q = some y' ∧ (F.cut y).env.get p = some x' ∧ Like ((F.cut x).cut y') ((F.cut y).cut x') := by
  obtain ⟨a, X⟩ := x
  obtain ⟨b, Y⟩ := y
  obtain ⟨a1, a2⟩ := hF.get hx
  obtain ⟨b1, b2⟩ := hF.get hy
  by_cases hxy : (a, X) = (b, Y)
  · -- the same element: the second cut does nothing
    rw [← hxy] at hy ⊢
    have : ∃ z, (F.cut (a, X)).env.get p = some z ∧ (F.cut (a, X)).env.get q = some z := by
      rcases List.eq_nil_or_concat X with rfl | ⟨Q, i, rfl⟩
      · exact ⟨_, hx, hy⟩
      · rw [List.concat_eq_append] at hx hy ⊢
        rw [cut_snoc]
        simp only [cutAt, Env.get_map, hx, hy]
        exact ⟨_, rfl, rfl⟩
    obtain ⟨z, z1, z2⟩ := this
    exact ⟨z, z, z2, z1, .refl _⟩
  · rcases List.eq_nil_or_concat X with rfl | ⟨Q, i, rfl⟩
    · -- the first one is a top element, and stays one
      refine ⟨(a, []), (b, Y), hy, ?_, .refl _⟩
      rcases List.eq_nil_or_concat Y with rfl | ⟨R, j, rfl⟩
      · exact hx
      · rw [List.concat_eq_append, cut_snoc]
        simp only [cutAt, Env.get_map, hx, Option.map_some, cutLoc]
        split
        · next e => simp [e]
        · rfl
    · rw [List.concat_eq_append] at *
      rcases List.eq_nil_or_concat Y with rfl | ⟨R, j, rfl⟩
      · refine ⟨(a, Q ++ [i]), (b, []), ?_, hx, .refl _⟩
        rw [cut_snoc]
        simp only [cutAt, Env.get_map, hy, Option.map_some, cutLoc]
        split
        · next e => simp [e]
        · rfl
      · rw [List.concat_eq_append] at *
        simp only [cut_snoc]
        simp only at a1 b1
        obtain ⟨b', R1, j1, a', Q1, i1, e1, e2, e3⟩ := F.cutAs_comm (n := F.fresh) (n' := F.fresh + 1) (a := a) (b := b) (Q := Q)
          (R := R) (i := i) (j := j) (by omega) (by omega) (by omega) (by omega) (by omega)
          (fun e he => ⟨Nat.ne_of_lt (hF e he).1, Nat.ne_of_lt (Nat.lt_succ_of_lt (hF e he).1)⟩) a2 b2 hxy
        -- the other order, with the two new numbers exchanged
        let σ : Nat → Nat := fun n => if n = F.fresh then F.fresh + 1 else if n = F.fresh + 1 then F.fresh else n
        have hσ : ∀ a b, σ a = σ b → a = b := by
          intro a b
          simp only [σ]
          intro e
          split at e <;> split at e <;> (try split at e) <;> (try split at e) <;> omega
        have hlow : ∀ {n}, n < F.fresh → σ n = n := by
          intro n hn
          simp only [σ]
          rw [if_neg (by omega), if_neg (by omega)]
        have hf1 : σ F.fresh = F.fresh + 1 := by simp [σ]
        have hf2 : σ (F.fresh + 1) = F.fresh := by simp [σ]
        have h0 : Alike (· < F.fresh) σ F F := by
          refine ⟨hσ, ?_, fun n hn => by rw [hlow hn], fun n hn => by rw [hlow hn], rfl, rfl⟩
          have : F.env.map (fun x => (σ x.1, x.2)) = F.env.map id := by
            apply Env.map_congr
            intro e he
            rw [hlow (hF e he).1]
            rfl
          rw [this]
          simp [Env.map]
        have h1 := h0.cutAs (n := F.fresh + 1) (P := R) (i := j) b1 b2
        have e2' : cutLoc b F.fresh R j a (Q ++ [i]) = (σ a', Q1 ++ [i1]) := by
          have := cutLoc_map hσ b (F.fresh + 1) R j a (Q ++ [i])
          rw [hlow b1, hlow a1, hf2, e2] at this
          exact this
        have hok : a' < F.fresh ∨ a' = F.fresh + 1 := by
          have : a' = a ∨ a' = F.fresh + 1 := by
            simp only [cutLoc] at e2
            split at e2
            · next e =>
              split at e2
              · exact .inl ((congrArg Prod.fst e2).symm.trans e.symm)
              · exact .inr (congrArg Prod.fst e2).symm
            · exact .inl (congrArg Prod.fst e2).symm
          rcases this with rfl | rfl
          · exact .inl a1
          · exact .inr rfl
        have hat : (((F.cutAs (F.fresh + 1) b R j).tree a').at? (Q1 ++ [i1])).isSome := by
          have := (cutAt_valid (Q := R) (i := j) (x := (a, Q ++ [i])) b1 b2 a1 a2).2
          simp only [e2'] at this
          rw [sub, cutAt_eq] at this
          rw [hf2, hlow b1] at h1
          rw [← h1.tree a' hok]
          exact this
        have h2 := h1.cutAs (n := F.fresh) (P := Q1) (i := i1) hok hat
        rw [← e3, hf1, hf2, hlow b1] at h2
        refine ⟨(σ a', Q1 ++ [i1]), (b', R1 ++ [j1]), ?_, ?_, σ, ?_, ?_⟩
        · simp only [cutAt, Env.get_map, hy, Option.map_some, e1]
        · simp only [cutAt, Env.get_map, hx, Option.map_some, e2']
        · rw [cut_snoc, cut_snoc]
          refine ⟨hσ, h2.env, fun n hn => h2.tree n ?_, fun n hn => h2.mutable n ?_, rfl, rfl⟩
          · have hn : n < F.fresh + 1 + 1 := hn
            omega
          · have hn : n < F.fresh + 1 + 1 := hn
            omega
        · intro n hn
          have hn : F.fresh + 1 + 1 ≤ n := by rw [cut_snoc] at hn; exact hn
          simp only [σ]
          rw [if_neg (by omega), if_neg (by omega)]

/-- The order of the cuts does not matter. -/
theorem cuts_perm {hs hs' : List Nat} (hp : hs.Perm hs') : ∀ {F : Forest}, F.Sound → Like (F.cuts hs) (F.cuts hs') := by
  induction hp with
  | nil => intro F _; exact .refl _
  | cons a _ ih =>
    intro F hF
    rw [cuts, cuts]
    split
    · exact ih hF
    · next x hx => exact ih (hF.cut (hF.get hx).1 (hF.get hx).2)
  | trans _ _ ih1 ih2 => intro F hF; exact (ih1 hF).trans (ih2 hF)
  | swap p q l =>
    intro F hF
    rw [cuts, cuts]
    have hnone : ∀ {a b : Nat} {x}, F.env.get b = none → F.env.get a = some x → (F.cut x).env.get b = none := by
      intro a b x hb _
      obtain ⟨r, X⟩ := x
      rcases List.eq_nil_or_concat X with rfl | ⟨Q, i, rfl⟩
      · exact hb
      · rw [List.concat_eq_append, cut_snoc]
        simp [cutAt, Env.get_map, hb]
    cases hp : F.env.get p with
    | none =>
      cases hq : F.env.get q with
      | none => simp only [cuts, hp, hq]; exact .refl _
      | some y => simp only [cuts, hp, hq, hnone hp hq]; exact .refl _
    | some x =>
      cases hq : F.env.get q with
      | none => simp only [cuts, hp, hnone hq hp]; exact .refl _
      | some y =>
        obtain ⟨y', x', e1, e2, h⟩ := cut_cut hF hq hp
        simp only [cuts, e1, e2, hp]
        refine h.cuts ?_ l
        have s1 := hF.cut (hF.get hq).1 (hF.get hq).2
        exact s1.cut (s1.get e1).1 (s1.get e1).2

end Forest
end Rowan
