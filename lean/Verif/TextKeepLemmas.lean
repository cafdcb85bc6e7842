import Verif.Spec.TextKeep
import Verif.TextSpliceLemmas
import Verif.HeapHistory
import Verif.ForestSteps
import Verif.CutOrder
import Verif.Props.PtrStable
/-!
# Lemmas: edits behind an element leave its position, its content and the text in front of it alone

Unless their comments cite lines of `/repo`, the definitions in this file are vocabulary of the proofs and model no code.
-/
namespace Rowan

namespace Tree
variable {Q P Z : List Nat} {i : Nat}

theorem removeAt_ahead (t : Tree) (he : Earlier Q (P ++ [i])) :
    (t.removeAt P i).before Q = t.before Q ∧ (t.removeAt P i).at? Q = t.at? Q := by
  cases hP : t.at? P with
  | none => simp [removeAt, editKids, hP]
  | some d =>
    cases d with
    | token k w => simp [removeAt, editKids, hP]
    | node k cs =>
      have e : t.removeAt P i = t.set P (.node k (cs.eraseIdx i)) := by simp only [removeAt, editKids, hP]
      by_cases hi : i < cs.length
      · refine Spliced.ahead (k := k) (cs := cs) (a := i) (b := i + 1) (xs := []) ⟨hP, by omega, hi, ?_⟩ he
        rw [e, List.eraseIdx_eq_take_drop_succ]
        simp
      · have hsame : cs.eraseIdx i = cs := List.eraseIdx_of_length_le (by omega)
        rw [e, hsame, set_same hP]
        exact ⟨rfl, rfl⟩

theorem insertAt_ahead {t u : Tree} (hw : ∀ k cs, t.at? P = some (.node k cs) → i ≤ cs.length) (he : Earlier Q (P ++ [i])) :
    (t.insertAt P i u).before Q = t.before Q ∧ (t.insertAt P i u).at? Q = t.at? Q := by
  cases hP : t.at? P with
  | none => simp [insertAt, editKids, hP]
  | some d =>
    cases d with
    | token k w => simp [insertAt, editKids, hP]
    | node k cs =>
      refine Spliced.ahead (k := k) (cs := cs) (a := i) (b := i) (xs := [u]) ⟨hP, by omega, hw k cs hP, ?_⟩ he
      simp only [insertAt, editKids, hP, List.append_assoc, List.singleton_append]

/-- Changing the children of a node leaves the kinds above it alone. -/
theorem set_kinds {t : Tree} {A : List Nat} {k : SyntaxKind} {cs ds : List Tree} (hP : t.at? P = some (.node k cs)) (hA : A <+: P)
    {raw : SyntaxKind} {es : List Tree} (h : (t.set P (.node k ds)).at? A = some (.node raw es)) :
    ∃ es', t.at? A = some (.node raw es') := by
  by_cases e : A = P
  · subst e
    have := at?_set_self hP (.node k ds) []
    rw [List.append_nil, h] at this
    simp only [at?, Option.some.injEq, node.injEq] at this
    rw [this.1]
    exact ⟨_, hP⟩
  · exact kind_above (x := .node k ds) ⟨hP, rfl⟩ hA e h

theorem removeAt_kinds {t : Tree} (he : Earlier Q (P ++ [i])) {A : List Nat} (hA : A <+: Q) {raw : SyntaxKind} {es : List Tree}
    (h : (t.removeAt P i).at? A = some (.node raw es)) : ∃ es', t.at? A = some (.node raw es') := by
  rcases he.above hA with hB | hB
  · have hAP : A <+: P := by
      rcases List.prefix_concat_iff.mp hB with e | e
      · exact absurd (e ▸ hA) he.apart.2
      · exact e
    cases hP : t.at? P with
    | none => simp only [removeAt, editKids, hP] at h; exact ⟨_, h⟩
    | some d =>
      cases d with
      | token k w => simp only [removeAt, editKids, hP] at h; exact ⟨_, h⟩
      | node k cs => simp only [removeAt, editKids, hP] at h; exact set_kinds hP hAP h
  · rw [(removeAt_ahead t hB).2] at h
    exact ⟨_, h⟩

theorem insertAt_kinds {t u : Tree} (hw : ∀ k cs, t.at? P = some (.node k cs) → i ≤ cs.length) (he : Earlier Q (P ++ [i]))
    {A : List Nat} (hA : A <+: Q) {raw : SyntaxKind} {es : List Tree}
    (h : (t.insertAt P i u).at? A = some (.node raw es)) : ∃ es', t.at? A = some (.node raw es') := by
  rcases he.above hA with hB | hB
  · have hAP : A <+: P := by
      rcases List.prefix_concat_iff.mp hB with e | e
      · exact absurd (e ▸ hA) he.apart.2
      · exact e
    cases hP : t.at? P with
    | none => simp only [insertAt, editKids, hP] at h; exact ⟨_, h⟩
    | some d =>
      cases d with
      | token k w => simp only [insertAt, editKids, hP] at h; exact ⟨_, h⟩
      | node k cs => simp only [insertAt, editKids, hP] at h; exact set_kinds hP hAP h
  · rw [(insertAt_ahead hw hB).2] at h
    exact ⟨_, h⟩

theorem afterCut_kid' (P R : List Nat) {i j : Nat} (h : j ≠ i) :
    afterCut P i (P ++ j :: R) = .stays (P ++ (if i < j then j - 1 else j) :: R) := by
  have := afterCut_append P [] (j :: R) i
  rw [List.append_nil] at this
  rw [this]
  simp only [afterCut, if_neg h]
  by_cases hij : i < j
  · simp only [if_pos hij]
  · simp only [if_neg hij]

/-- What is in front of the cut stays. -/
theorem afterCut_front (he : Earlier Q (P ++ [i])) : afterCut P i Q = .stays Q := by
  rcases he.split with hE | ⟨j, U, hj, rfl⟩
  · exact EProg.afterCut_off fun ⟨j, R, e⟩ => hE.apart.2 ⟨_, e.symm⟩
  · rw [afterCut_kid' _ _ (by omega), if_neg (by omega)]

theorem afterInsert_front (he : Earlier Q (P ++ [i])) : afterInsert P i Q = Q := by
  rcases he.split with hE | ⟨j, U, hj, rfl⟩
  · exact afterInsert_off fun ⟨j, R, e⟩ => hE.apart.2 ⟨_, e.symm⟩
  · rw [afterInsert_below, if_neg (by omega)]

/-- What is behind `Q` stays behind `Q`. -/
theorem afterCut_later (he : Earlier Q (P ++ [i])) (hz : Earlier Q Z) {Z' : List Nat} (h : afterCut P i Z = .stays Z') : Earlier Q Z' := by
  by_cases hc : ∃ j R, Z = P ++ j :: R
  · obtain ⟨j, R, rfl⟩ := hc
    by_cases hj : j = i
    · subst hj
      rw [afterCut_below] at h
      cases h
    · rw [afterCut_kid' _ _ hj] at h
      cases h
      rcases he.split with hE | ⟨m, U, hm, rfl⟩
      · exact hE.snoc _
      · split
        · exact ⟨P, m, j - 1, U, R, by omega, rfl, rfl⟩
        · exact hz
  · rw [EProg.afterCut_off hc] at h
    cases h
    exact hz

theorem afterInsert_later (he : Earlier Q (P ++ [i])) (hz : Earlier Q Z) : Earlier Q (afterInsert P i Z) := by
  by_cases hc : ∃ j R, Z = P ++ j :: R
  · obtain ⟨j, R, rfl⟩ := hc
    rw [afterInsert_below]
    split
    · rcases he.split with hE | ⟨m, U, hm, rfl⟩
      · exact hE.snoc _
      · exact ⟨P, m, j + 1, U, R, by omega, rfl, rfl⟩
    · exact hz
  · rw [afterInsert_off hc]
    exact hz

end Tree

/-- The place `z` is in another tree than `Q` of `r`, or behind it. -/
def FarFrom (r : Nat) (Q : List Nat) (z : Nat × List Nat) : Prop := z.1 = r → Earlier Q z.2

/-- What is a node above or at `Q` in `t'` is a node of the same kind in `t`. -/
def Tree.SameAbove (t t' : Tree) (Q : List Nat) : Prop :=
  ∀ A raw es, A <+: Q → t'.at? A = some (.node raw es) → ∃ es', t.at? A = some (.node raw es')

theorem Tree.SameAbove.rfl' {t : Tree} {Q : List Nat} : t.SameAbove t Q := fun _ _ es _ h => ⟨es, h⟩

theorem Tree.SameAbove.trans {t t' t'' : Tree} {Q : List Nat} (h : t.SameAbove t' Q) (h' : t'.SameAbove t'' Q) :
    t.SameAbove t'' Q := fun A raw es hA e => by
  obtain ⟨es', e'⟩ := h' A raw es hA e
  exact h A raw es' hA e'

namespace View

/-- The handle `x` is where it was, at `Q` of tree `r`, with the same content, and the text in front of it is the same. -/
structure Steady (x r : Nat) (Q : List Nat) (v w : View) : Prop where
  pos : w.pos x = (r, Q)
  before : (w.tree r).before Q = (v.tree r).before Q
  at_ : (w.tree r).at? Q = (v.tree r).at? Q
  kinds : (v.tree r).SameAbove (w.tree r) Q

variable {x r : Nat} {Q : List Nat} {u v w : View}

theorem Steady.trans (h : Steady x r Q u v) (h' : Steady x r Q v w) : Steady x r Q u w :=
  ⟨h'.pos, h'.before.trans h.before, h'.at_.trans h.at_, h.kinds.trans h'.kinds⟩

theorem Steady.refl (h : v.pos x = (r, Q)) : Steady x r Q v v := ⟨h, rfl, rfl, .rfl'⟩

theorem cutAt_steady {p r' i : Nat} {P : List Nat} (hx : v.pos x = (r, Q)) (hf : FarFrom r Q (r', P ++ [i])) (hp : p ≠ r) :
    Steady x r Q v (v.cutAt p r' P i) ∧ ∀ z Z, FarFrom r Q (z, Z) → FarFrom r Q (cutLoc r' p P i z Z) := by
  refine ⟨⟨?_, ?_, ?_, ?_⟩, fun z Z hz => ?_⟩
  · simp only [cutAt, hx, cutLoc]
    split
    next h => rw [Tree.afterCut_front (hf h.symm), h]
    · rfl
  · simp only [cutAt, if_neg (Ne.symm hp)]
    split
    next h => rw [← h]; exact (Tree.removeAt_ahead _ (hf h.symm)).1
    · rfl
  · simp only [cutAt, if_neg (Ne.symm hp)]
    split
    next h => rw [← h]; exact (Tree.removeAt_ahead _ (hf h.symm)).2
    · rfl
  · simp only [cutAt, if_neg (Ne.symm hp)]
    split
    next h => rw [← h]; exact fun _ _ _ hA e => Tree.removeAt_kinds (hf h.symm) hA e
    · exact .rfl'
  · simp only [cutLoc]
    split
    next h =>
      subst h
      cases hc : Tree.afterCut P i Z with
      | stays Z' => exact fun (e : z = r) => Tree.afterCut_later (hf e) (hz e) hc
      | cut R => exact fun e => absurd e hp
    · exact hz

theorem place_cut {r' p i a : Nat} {P : List Nat} {z : Nat × List Nat} (hf : FarFrom r Q (r', P ++ [i])) (hp : p ≠ r)
    (hz : FarFrom r Q (z.1, z.2 ++ [a])) : FarFrom r Q ((cutLoc r' p P i z.1 z.2).1, (cutLoc r' p P i z.1 z.2).2 ++ [a]) := by
  obtain ⟨z, Z⟩ := z
  simp only [cutLoc] at hz ⊢
  split
  next h =>
    subst h
    cases hc : Tree.afterCut P i Z with
    | cut R => exact fun e => absurd e hp
    | stays Z' =>
      intro e
      have hz := hz e
      have hf := hf e
      rcases hz.split with hE | ⟨j, U, hj, rfl⟩
      · exact (Tree.afterCut_later hf hE hc).snoc _
      · -- `z` is around `x`
        have hZ : Tree.afterCut P i Z = .stays Z := by
          rcases hf.above ⟨_, rfl⟩ with hA | hA
          · refine EProg.afterCut_off fun ⟨m, R, e'⟩ => ?_
            have : P ++ [i] <+: Z := by
              have := hA.length_le
              rw [e'] at this
              simp at this
              subst this
              rw [e'] at hA
              have := hA.eq_of_length (by simp)
              rw [e', this]
              exact List.prefix_refl _
            exact hf.apart.2 (this.trans ⟨_, rfl⟩)
          · exact Tree.afterCut_front hA
        rw [hZ] at hc
        cases hc
        exact hz
  · exact hz

theorem cut_steady {p : Nat} (hx : v.pos x = (r, Q)) (hf : FarFrom r Q (v.pos p)) (hp : p ≠ r) :
    Steady x r Q v (v.cut p) ∧ (∀ y, FarFrom r Q (v.pos y) → FarFrom r Q ((v.cut p).pos y)) ∧
      ∀ q a, FarFrom r Q ((v.pos q).1, (v.pos q).2 ++ [a]) → FarFrom r Q (((v.cut p).pos q).1, ((v.cut p).pos q).2 ++ [a]) := by
  rw [cut]
  cases hl : (v.pos p).2.getLast? with
  | none => exact ⟨.refl hx, fun _ h => h, fun _ _ h => h⟩
  | some i =>
    have hpos : (v.pos p).2.dropLast ++ [i] = (v.pos p).2 := by
      obtain ⟨Y, e⟩ := List.getLast?_eq_some_iff.mp hl
      rw [e, List.dropLast_concat]
    have hf' : FarFrom r Q ((v.pos p).1, (v.pos p).2.dropLast ++ [i]) := by rw [hpos]; exact hf
    obtain ⟨h1, h2⟩ := cutAt_steady hx hf' hp
    exact ⟨h1, fun y hy => h2 _ _ hy, fun q a hq => place_cut hf' hp hq⟩

theorem join_steady {q i p : Nat} (hx : v.pos x = (r, Q)) (hf : FarFrom r Q ((v.pos q).1, (v.pos q).2 ++ [i])) (hp : p ≠ r)
    (hw : i ≤ v.width q) :
    Steady x r Q v (v.join q i p) ∧ (∀ y, FarFrom r Q (v.pos y) → FarFrom r Q ((v.join q i p).pos y)) ∧
      ((v.pos q).1 ≠ p → FarFrom r Q (((v.join q i p).pos q).1, ((v.join q i p).pos q).2 ++ [i + 1])) := by
  have hw' : ∀ k cs, (v.tree (v.pos q).1).at? (v.pos q).2 = some (.node k cs) → i ≤ cs.length := fun k cs h => by
    simpa only [width, sub, h, Tree.children] using hw
  refine ⟨⟨?_, ?_, ?_, ?_⟩, fun y hy => ?_, fun hq => ?_⟩
  · simp only [join, hx, joinLoc, if_neg (Ne.symm hp)]
    split
    next h => rw [Tree.afterInsert_front (hf h.symm), h]
    · rfl
  · simp only [join]
    split
    next h => rw [h]; exact (Tree.insertAt_ahead hw' (hf h.symm)).1
    · rfl
  · simp only [join]
    split
    next h => rw [h]; exact (Tree.insertAt_ahead hw' (hf h.symm)).2
    · rfl
  · simp only [join]
    split
    next h => rw [h]; exact fun _ _ _ hA e => Tree.insertAt_kinds hw' (hf h.symm) hA e
    · exact .rfl'
  · simp only [join, joinLoc]
    split
    · intro e
      have := (hf e).snoc (v.pos y).2
      simpa using this
    · split
      next h => exact fun e => Tree.afterInsert_later (hf e) (hy (h.trans e))
      · exact hy
  · simp only [join, joinLoc, if_neg hq, if_true]
    rw [Tree.afterInsert_off (by rintro ⟨j, R, e⟩; have := congrArg List.length e; simp at this)]
    intro e
    rcases (hf e).split with hE | ⟨m, U, hm, hQ⟩
    · exact hE.snoc _
    · exact ⟨(v.pos q).2, m, i + 1, U, [], by omega, hQ, rfl⟩

theorem insertAll_steady {q : Nat} : ∀ (ps : List Nat) (i : Nat) (v : View), v.pos x = (r, Q) →
    FarFrom r Q ((v.pos q).1, (v.pos q).2 ++ [i]) → (∀ p ∈ ps, FarFrom r Q (v.pos p) ∧ p ≠ r) →
    (v.insertAll q i ps).view? = some w → Steady x r Q v w
  | [], i, v, hx, _, _, h => by cases h; exact .refl hx
  | p :: ps, i, v, hx, hq, hps, h => by
    obtain ⟨hp1, hp2⟩ := hps p (List.mem_cons_self ..)
    obtain ⟨h1, h2, h3⟩ := cut_steady hx hp1 hp2
    rw [insertAll] at h
    split at h
    · cases h; exact .refl hx
    split at h
    · split at h <;> cases h
    next hne =>
    split at h
    next hw =>
      obtain ⟨j1, j2, j3⟩ := join_steady (p := p) h1.pos (h3 q i hq) hp2 hw
      exact (h1.trans j1).trans (insertAll_steady ps (i + 1) _ j1.pos (j3 hne)
        (fun y hy => ⟨j2 y (h2 y (hps y (List.mem_cons_of_mem _ hy)).1), (hps y (List.mem_cons_of_mem _ hy)).2⟩) h)
    · cases h; exact h1

theorem splice_steady {e q a b : Nat} {ps : List Nat} (hx : v.pos x = (r, Q)) (hq : FarFrom r Q ((v.pos q).1, (v.pos q).2 ++ [a]))
    (hps : ∀ p ∈ ps, FarFrom r Q (v.pos p) ∧ p ≠ r) (he : v.mutable q = true → a < b → a < v.width q → e ≠ r)
    (h : (v.splice e q a b ps).view? = some w) : Steady x r Q v w := by
  rw [splice] at h
  split at h
  · cases h; exact .refl hx
  next hm =>
  rw [deleted] at h
  split at h
  next hc =>
    have he := he (by simpa using hm) hc.1 hc.2
    obtain ⟨h1, h2⟩ := cutAt_steady hx hq he
    exact h1.trans (insertAll_steady ps a _ h1.pos (place_cut hq he hq) (fun y hy => ⟨h2 _ _ (hps y hy).1, (hps y hy).2⟩) h)
  · exact insertAll_steady ps a _ hx hq hps h

end View

theorem HSt.Loc.toRoot {s : HSt} {x r : Nat} {P : List Nat} (h : s.Loc x r P) : s.Loc r r [] := by
  induction h with
  | root h1 h2 => exact .root h1 h2
  | child _ _ _ ih => exact ih

namespace Conf
variable {C C' : Conf} {l : Option (Call × List Nat)} {x r : Nat} {Q : List Nat}

/-- A step that edits nothing, or only in other trees or behind `x`, leaves `x` where it is, with the same content and
the same text in front of it. -/
theorem Step.later (h : C.Reach) (hx : x ∈ C.hs) (st : Step C l C')
    (hl : ∀ c rest, l = some (c, rest) → x ∈ rest ∧ c.Later C.s x) (lx : C.s.Loc x r Q) :
    C'.s.Loc x r Q ∧ (C'.s.tree r).before Q = (C.s.tree r).before Q ∧ (C'.s.tree r).at? Q = (C.s.tree r).at? Q ∧
      (C.s.tree r).SameAbove (C'.s.tree r) Q := by
  letI : Greens := ⟨C.gs⟩
  cases l with
  | none =>
    obtain ⟨n, e⟩ := st.none_heap
    rw [e]
    exact ⟨lx.withGtop n, rfl, rfl, .rfl'⟩
  | some cr =>
    obtain ⟨c, rest⟩ := cr
    obtain ⟨hxr, hlat⟩ := hl c rest rfl
    obtain ⟨kids, hi⟩ := HReach.ok' h
    obtain ⟨v, hv⟩ := HSt.Views.exists_view hi
    have hpos : ∀ x ∈ C.hs, 0 < cnt (C.hs ++ C.lk) x := fun x hx => cnt_pos.mpr (List.mem_append_left _ hx)
    have hxc : 0 < cnt (rest ++ C.lk) x := cnt_pos.mpr (List.mem_append_left _ hxr)
    obtain ⟨lx0, tx0, -⟩ := hv x (hpos x hx)
    obtain ⟨hx1, hx2⟩ := lx0.unique lx
    have hxp : v.pos x = (r, Q) := by rw [← hx1, ← hx2]
    rw [hx1] at tx0
    -- from the views
    have fin : ∀ {s' : HSt} {w : View}, View.Steady x r Q v w → s'.Views (cnt (rest ++ C.lk)) w →
        s'.Loc x r Q ∧ (s'.tree r).before Q = (C.s.tree r).before Q ∧ (s'.tree r).at? Q = (C.s.tree r).at? Q ∧
      (C.s.tree r).SameAbove (s'.tree r) Q := by
      intro s' w hs hw
      obtain ⟨l1, t1, -⟩ := hw x hxc
      rw [hs.pos] at l1 t1
      exact ⟨l1, by rw [t1, tx0, hs.before], by rw [t1, tx0, hs.at_], by rw [t1, tx0]; exact hs.kinds⟩
    have mono : ∀ {s : HSt}, s.Views (cnt (C.hs ++ C.lk)) v → c.Ready C.s C.gs C.hs rest → s.Views (cnt (rest ++ C.lk)) v :=
      fun hv hr y hy => hv y <| cnt_pos.mpr <| by
        rcases List.mem_append.mp (cnt_pos.mp hy) with hy | hy
        · exact List.mem_append_left _ (hr.mem_rest hy)
        · exact List.mem_append_right _ hy
    have stable : ∀ {s'}, c.Ready C.s C.gs C.hs rest → Stable (cnt (rest ++ C.lk)) C.s s' →
        s'.Loc x r Q ∧ (s'.tree r).before Q = (C.s.tree r).before Q ∧ (s'.tree r).at? Q = (C.s.tree r).at? Q ∧
      (C.s.tree r).SameAbove (s'.tree r) Q :=
      fun hr hst => fin (.refl hxp) (.of_stable' hi hst (mono hv hr))
    have same : c.Ready C.s C.gs C.hs rest →
        C.s.Loc x r Q ∧ (C.s.tree r).before Q = (C.s.tree r).before Q ∧ (C.s.tree r).at? Q = (C.s.tree r).at? Q ∧
      (C.s.tree r).SameAbove (C.s.tree r) Q :=
      fun _ => ⟨lx, rfl, rfl, .rfl'⟩
    have far : ∀ p ∈ C.hs, C.s.InFront x p → FarFrom r Q (v.pos p) ∧ p ≠ r := by
      intro p hp hf
      obtain ⟨lp, -⟩ := hv p (hpos p hp)
      have hf' : FarFrom r Q (v.pos p) := fun e => hf r Q _ lx (by rw [← e]; exact lp)
      refine ⟨hf', fun e => ?_⟩
      have := lx.toRoot
      subst e
      obtain ⟨C0, i, j, U, V, _, _, e2⟩ := hf p Q [] lx this
      simp at e2
    have splice : ∀ {s' q a b ins new}, c.Splices q a b ins → c.Ready C.s C.gs C.hs rest →
        (c.exec C.s = .ok new s' ∨ c.exec C.s = .panic .assert s' ∨
          c.exec C.s = .panic .range s' ∧ a + ins.length ≤ 2 ^ 32 ∧ ∀ p ∈ ins, ∀ y, ¬ s'.Stray p y) →
        s'.Loc x r Q ∧ (s'.tree r).before Q = (C.s.tree r).before Q ∧ (s'.tree r).at? Q = (C.s.tree r).at? Q ∧
      (C.s.tree r).SameAbove (s'.tree r) Q := by
      rintro s' q a b ins new sp hr e
      obtain ⟨y, w, h1, h2, -, h4⟩ := Call.splice_after ⟨kids, hi⟩ hr sp hv e
      obtain ⟨u1, u2, -⟩ := sp.uses (s := C.s)
      have hn : C.s.InFrontOf x q a ∧ ∀ p ∈ ins, C.s.InFront x p := by
        cases sp with
        | splice => exact hlat
        | attach => simpa [Call.Later] using hlat
      have hq := hr.mem_rest (hr.held q (by rw [u2]; simp))
      obtain ⟨lq, -⟩ := hv q (hpos q hq)
      refine fin (View.splice_steady hxp (fun e => hn.1 r Q _ lx (by rw [← e]; exact lq))
        (fun p hp => far p (hr.mem_takes (by rw [u1]; exact hp)) (hn.2 p hp)) (fun m1 m2 m3 e => ?_) h2) h4
      have := ((h1 m1 m2 m3).2 x (hpos x hx)).2
      rw [hxp] at this
      exact this e.symm
    cases st with
    | @ok _ new s' _ hr e =>
      cases he : c.edits with
      | false => exact stable hr (Call.wp_result (Call.exec_stable ⟨kids, hi⟩ hr he) e).2
      | true =>
        rcases Call.edits_cases he with ⟨p, rfl⟩ | ⟨q, a, b, ins, sp⟩
        · obtain ⟨h1, h2⟩ := Call.exec_detach ⟨kids, hi⟩ hr hv
          cases hm : C.s.mutable p with
          | false => rw [e] at h2; cases h2 hm
          | true =>
            obtain ⟨s1, e1, -, -, e4⟩ := h1 hm
            rw [e] at e1; cases e1
            obtain ⟨f1, f2⟩ := far p (hr.mem_rest (hr.held p (by simp [Call.uses]))) hlat
            exact fin (View.cut_steady hxp f1 f2).1 e4
        · exact splice sp hr (.inl e)
    | caught _ hr e =>
      cases he : c.edits with
      | false =>
        have := Call.exec_stable ⟨kids, hi⟩ hr he
        simp only [H.wp, e] at this
        obtain ⟨_, rfl, _⟩ := this
        exact same hr
      | true =>
        rcases Call.edits_cases he with ⟨p, rfl⟩ | ⟨q, a, b, ins, sp⟩
        · obtain ⟨h1, h2⟩ := Call.exec_detach ⟨kids, hi⟩ hr hv
          cases hm : C.s.mutable p with
          | false => rw [h2 hm] at e; cases e; exact same hr
          | true => obtain ⟨s1, e1, _⟩ := h1 hm; rw [e] at e1; cases e1
        · exact splice (new := []) sp hr (.inr (.inl e))
    | unwound c hr sp e hd => exact splice (new := []) sp hr (.inr (.inr ⟨e, hd⟩))

/-- The same for histories. -/
theorem Run.later (h : C.Reach) (hx : x ∈ C.hs) (run : Run (fun s c => c.Later s x) x C C') (lx : C.s.Loc x r Q) :
    C'.s.Loc x r Q ∧ (C'.s.tree r).before Q = (C.s.tree r).before Q ∧ (C'.s.tree r).at? Q = (C.s.tree r).at? Q ∧
      (C.s.tree r).SameAbove (C'.s.tree r) Q := by
  induction run with
  | refl => exact ⟨lx, rfl, rfl, .rfl'⟩
  | step run st hl ih =>
    obtain ⟨a, b, c, d⟩ := st.later (run.reach h) (run.held hx) hl ih.1
    exact ⟨a, b.trans ih.2.1, c.trans ih.2.2.1, ih.2.2.2.trans d⟩

end Conf
end Rowan
