import Verif.Spec.Api
import Verif.EditLemmas
/-!
# Editing views: when attaching an element cannot make a cycle

Unless their comments cite lines of `/repo`, the definitions in this file are vocabulary of the proofs and model no code.
-/
namespace Rowan

namespace Tree

/-- Where an element that stays goes tells where it was. -/
theorem afterCut_prefix {P : List Nat} {i : Nat} {A B A' B' : List Nat} (ha : afterCut P i A = .stays A')
    (hb : afterCut P i B = .stays B') (h : A' <+: B') : A <+: B := by
  induction P generalizing A B A' B' with
  | nil =>
    cases A with
    | nil => exact List.nil_prefix
    | cons a A =>
      cases B with
      | nil =>
        simp [afterCut] at hb; subst hb
        simp at h; subst h
        simp only [afterCut] at ha
        split at ha
        · cases ha
        · split at ha <;> cases ha
      | cons b B =>
        simp only [afterCut] at ha hb
        split at ha
        · cases ha
        split at hb
        · cases hb
        split at ha <;> split at hb <;> cases ha <;> cases hb <;>
          rw [List.cons_prefix_cons] at h ⊢ <;> refine ⟨?_, h.2⟩ <;> have := h.1 <;> omega
  | cons c P ih =>
    cases A with
    | nil => exact List.nil_prefix
    | cons a A =>
      cases B with
      | nil =>
        simp [afterCut] at hb; subst hb
        simp at h; subst h
        simp only [afterCut] at ha
        split at ha
        · split at ha <;> cases ha
        · cases ha
      | cons b B =>
        simp only [afterCut] at ha hb
        have h1 : ∃ A1, A' = a :: A1 ∧ (c = a → afterCut P i A = .stays A1) ∧ (c ≠ a → A1 = A) := by
          split at ha
          · next e =>
            split at ha
            · next hx => cases ha; exact ⟨_, rfl, fun _ => hx, fun hn => absurd e hn⟩
            · cases ha
          · next e => cases ha; exact ⟨_, rfl, fun hn => absurd hn e, fun _ => rfl⟩
        have h2 : ∃ B1, B' = b :: B1 ∧ (c = b → afterCut P i B = .stays B1) ∧ (c ≠ b → B1 = B) := by
          split at hb
          · next e =>
            split at hb
            · next hx => cases hb; exact ⟨_, rfl, fun _ => hx, fun hn => absurd e hn⟩
            · cases hb
          · next e => cases hb; exact ⟨_, rfl, fun hn => absurd hn e, fun _ => rfl⟩
        obtain ⟨A1, rfl, a1, a2⟩ := h1
        obtain ⟨B1, rfl, b1, b2⟩ := h2
        rw [List.cons_prefix_cons] at h ⊢
        obtain ⟨rfl, h⟩ := h
        refine ⟨rfl, ?_⟩
        by_cases e : c = a
        · exact ih (a1 e) (b1 e) h
        · rw [a2 e, b2 e] at h; exact h

theorem afterInsert_prefix {P : List Nat} {i : Nat} {A B : List Nat}
    (h : afterInsert P i A <+: afterInsert P i B) : A <+: B := by
  induction P generalizing A B with
  | nil =>
    cases A with
    | nil => exact List.nil_prefix
    | cons a A =>
      cases B with
      | nil => simp only [afterInsert] at h; split at h <;> simp at h
      | cons b B =>
        simp only [afterInsert] at h
        split at h <;> split at h <;> rw [List.cons_prefix_cons] at h ⊢ <;> refine ⟨?_, h.2⟩ <;>
          have := h.1 <;> omega
  | cons c P ih =>
    cases A with
    | nil => exact List.nil_prefix
    | cons a A =>
      cases B with
      | nil => simp only [afterInsert] at h; split at h <;> simp at h
      | cons b B =>
        simp only [afterInsert] at h
        split at h <;> split at h <;> rw [List.cons_prefix_cons] at h ⊢
        · exact ⟨h.1, ih h.2⟩
        · next h1 h2 => exact absurd (h1.trans h.1) h2
        · next h1 h2 => exact absurd (h2.trans h.1.symm) h1
        · exact h

/-- The elements that are cut out are those below the child. -/
theorem afterCut_cut {P : List Nat} {i : Nat} {A R : List Nat} (h : afterCut P i A = .cut R) :
    A = P ++ i :: R := by
  induction P generalizing A R with
  | nil =>
    cases A with
    | nil => simp [afterCut] at h
    | cons a A =>
      simp only [afterCut] at h
      split at h
      · next e => cases h; rw [e]; rfl
      · split at h <;> cases h
  | cons c P ih =>
    cases A with
    | nil => simp [afterCut] at h
    | cons a A =>
      simp only [afterCut] at h
      split at h
      · next e =>
        split at h
        · cases h
        · next hx => cases h; rw [ih hx, e]; rfl
      · cases h

theorem afterCut_inj {P : List Nat} {i : Nat} {A B : List Nat} (h : afterCut P i A = afterCut P i B) :
    A = B := by
  cases ha : afterCut P i A with
  | stays Q =>
    have hb := h ▸ ha
    have h1 := afterCut_prefix ha hb (List.prefix_refl _)
    have h2 := afterCut_prefix hb ha (List.prefix_refl _)
    exact h1.eq_of_length_le h2.length_le
  | cut R =>
    have hb : afterCut P i B = .cut R := h ▸ ha
    rw [afterCut_cut ha, afterCut_cut hb]

theorem afterCut_below (P : List Nat) (i : Nat) (R : List Nat) : afterCut P i (P ++ i :: R) = .cut R := by
  induction P with
  | nil => simp [afterCut]
  | cons a P ih => simp [afterCut, ih]

theorem afterInsert_inj {P : List Nat} {i : Nat} {A B : List Nat}
    (h : afterInsert P i A = afterInsert P i B) : A = B := by
  have h1 := afterInsert_prefix (A := A) (B := B) (by rw [h]; exact List.prefix_refl _)
  have h2 := afterInsert_prefix (A := B) (B := A) (by rw [h]; exact List.prefix_refl _)
  exact h1.eq_of_length_le h2.length_le

/-- Nothing goes to the place of the inserted child. -/
theorem afterInsert_ne {P : List Nat} {i : Nat} {A R : List Nat} : afterInsert P i A ≠ P ++ i :: R := by
  induction P generalizing A with
  | nil =>
    cases A with
    | nil => simp [afterInsert]
    | cons a A =>
      simp only [afterInsert, List.nil_append]
      split <;> simp <;> omega
  | cons c P ih =>
    cases A with
    | nil => simp [afterInsert]
    | cons a A =>
      simp only [afterInsert, List.cons_append]
      split
      · intro e; exact ih (List.cons.inj e).2
      · next hne => intro e; exact hne (List.cons.inj e).1.symm

end Tree

namespace View

/-- Trees are named by their top elements, as far as the handles in `A` tell, and an element of a mutable
tree has one name. -/
structure Named (v : View) (A : Nat → Prop) : Prop where
  root : ∀ x, A x → (v.pos x).2 = [] → (v.pos x).1 = x
  top : ∀ x y, A x → A y → (v.pos x).1 = y → (v.pos y).2 = []
  inj : ∀ x y, A x → A y → v.mutable y = true → v.pos x = v.pos y → x = y

variable {v : View} {A : Nat → Prop} {p q i : Nat}

theorem cut_eq (h : (v.pos p).2 ≠ []) : ∃ P j, (v.pos p).2 = P ++ [j] ∧
    v.cut p = v.cutAt p (v.pos p).1 P j := by
  rcases List.eq_nil_or_concat (v.pos p).2 with e | ⟨P, j, e⟩
  · exact absurd e h
  · rw [List.concat_eq_append] at e
    exact ⟨P, j, e, by simp [View.cut, e]⟩

/-- The cases of `cutLoc`. -/
theorem cutLoc_cases (r p : Nat) (P : List Nat) (i r0 : Nat) (Q : List Nat) :
    (r0 = r ∧ ∃ Q', Tree.afterCut P i Q = .stays Q' ∧ cutLoc r p P i r0 Q = (r, Q')) ∨
    (r0 = r ∧ ∃ R, Q = P ++ i :: R ∧ cutLoc r p P i r0 Q = (p, R)) ∨
    (r0 ≠ r ∧ cutLoc r p P i r0 Q = (r0, Q)) := by
  simp only [cutLoc]
  by_cases e : r0 = r
  · rw [if_pos e]
    cases hac : Tree.afterCut P i Q with
    | stays Q' => exact .inl ⟨e, Q', rfl, rfl⟩
    | cut R => exact .inr (.inl ⟨e, R, Tree.afterCut_cut hac, rfl⟩)
  · rw [if_neg e]; exact .inr (.inr ⟨e, rfl⟩)

theorem stays_nil {P Q : List Nat} {i : Nat} (h : Tree.afterCut P i Q = .stays []) : Q = [] := by
  have := Tree.afterCut_prefix (B := []) (B' := []) h (by simp) List.nil_prefix
  simpa using this

theorem cut_named (h : v.Named A) (hp : A p) (hm : v.mutable p = true) :
    (v.cut p).Named A ∧ (v.cut p).pos p = (p, []) := by
  by_cases hn : (v.pos p).2 = []
  · have e : v.cut p = v := by simp [View.cut, hn]
    rw [e]
    exact ⟨h, Prod.ext (h.root p hp hn) hn⟩
  · obtain ⟨P, j, h1, h2⟩ := cut_eq hn
    rw [h2]
    generalize hr : (v.pos p).1 = r at *
    have hpos : v.pos p = (r, P ++ [j]) := Prod.ext hr h1
    have hpp : (v.cutAt p r P j).pos p = (p, []) := by
      show cutLoc r p P j (v.pos p).1 (v.pos p).2 = _
      rw [hpos]
      simp [cutLoc, Tree.afterCut_here]
    have hpr : p ≠ r := by
      intro e
      have := h.top p p hp hp (by rw [hr, e])
      rw [h1] at this; simp at this
    -- nothing else is named `p`
    have hnp : ∀ x, A x → (v.pos x).1 ≠ p := fun x hx e => by
      have := h.top x p hx hp e
      rw [h1] at this; simp at this
    refine ⟨⟨?_, ?_, ?_⟩, hpp⟩
    · intro x hx hx2
      change (cutLoc r p P j (v.pos x).1 (v.pos x).2).2 = [] at hx2
      show (cutLoc r p P j (v.pos x).1 (v.pos x).2).1 = x
      rcases cutLoc_cases r p P j (v.pos x).1 (v.pos x).2 with ⟨e, Q', e1, e2⟩ | ⟨e, R, e1, e2⟩ | ⟨e, e2⟩
      · rw [e2] at hx2 ⊢
        have hx2 : Q' = [] := hx2
        subst hx2
        exact e.symm.trans (h.root x hx (stays_nil e1))
      · rw [e2] at hx2 ⊢
        have hx2 : R = [] := hx2
        subst hx2
        refine (h.inj x p hx hp hm ?_).symm
        rw [hpos]; exact Prod.ext e e1
      · rw [e2] at hx2 ⊢
        exact h.root x hx hx2
    · intro x y hx hy hxy
      change (cutLoc r p P j (v.pos x).1 (v.pos x).2).1 = y at hxy
      by_cases hyp : y = p
      · rw [hyp, hpp]
      have hold : (v.pos x).1 = y := by
        rcases cutLoc_cases r p P j (v.pos x).1 (v.pos x).2 with ⟨e, Q', e1, e2⟩ | ⟨e, R, e1, e2⟩ | ⟨e, e2⟩
        · rw [e2] at hxy; exact e.trans hxy
        · rw [e2] at hxy; exact absurd hxy.symm hyp
        · rw [e2] at hxy; exact hxy
      have := h.top x y hx hy hold
      show (cutLoc r p P j (v.pos y).1 (v.pos y).2).2 = []
      rw [this]
      simp only [cutLoc, Tree.afterCut_nil]
      split <;> rfl
    · intro x y hx hy hmy hxy
      refine h.inj x y hx hy hmy ?_
      change cutLoc r p P j (v.pos x).1 (v.pos x).2 = cutLoc r p P j (v.pos y).1 (v.pos y).2 at hxy
      have hx1 := hnp x hx
      have hy1 := hnp y hy
      rcases cutLoc_cases r p P j (v.pos x).1 (v.pos x).2 with ⟨e, Q', e1, e2⟩ | ⟨e, R, e1, e2⟩ | ⟨e, e2⟩ <;>
      rcases cutLoc_cases r p P j (v.pos y).1 (v.pos y).2 with
        ⟨f, S', f1, f2⟩ | ⟨f, S, f1, f2⟩ | ⟨f, f2⟩ <;> rw [e2, f2] at hxy
      · have : Q' = S' := (Prod.mk.inj hxy).2
        subst this
        exact Prod.ext (e.trans f.symm) (Tree.afterCut_inj (e1.trans f1.symm))
      · exact absurd (Prod.mk.inj hxy).1.symm hpr
      · exact absurd (Prod.mk.inj hxy).1.symm f
      · exact absurd (Prod.mk.inj hxy).1 hpr
      · have : R = S := (Prod.mk.inj hxy).2
        subst this
        exact Prod.ext (e.trans f.symm) (e1.trans f1.symm)
      · exact absurd (Prod.mk.inj hxy).1.symm hy1
      · exact absurd (Prod.mk.inj hxy).1 e
      · exact absurd (Prod.mk.inj hxy).1 hx1
      · exact Prod.ext (Prod.mk.inj hxy).1 (Prod.mk.inj hxy).2

/-- `q` ends up in the tree of `p` exactly if `p` was `q` or above it. -/
theorem cut_above (h : v.Named A) (hp : A p) (hq : A q) : ((v.cut p).pos q).1 = p ↔ v.Above p q := by
  by_cases hn : (v.pos p).2 = []
  · have e : v.cut p = v := by simp [View.cut, hn]
    have hpp : v.pos p = (p, []) := Prod.ext (h.root p hp hn) hn
    rw [e, View.Above, hpp]
    simp [eq_comm]
  · obtain ⟨P, j, h1, h2⟩ := cut_eq hn
    rw [h2]
    have hnq : (v.pos q).1 ≠ p := fun e => hn (h.top q p hq hp e)
    have hpr : p ≠ (v.pos p).1 := fun e => hn (h.top p p hp hp e.symm)
    show (cutLoc (v.pos p).1 p P j (v.pos q).1 (v.pos q).2).1 = p ↔ _
    rcases cutLoc_cases (v.pos p).1 p P j (v.pos q).1 (v.pos q).2 with
      ⟨e, Q', e1, e2⟩ | ⟨e, R, e1, e2⟩ | ⟨e, e2⟩
    · rw [e2]
      refine ⟨fun e' => absurd e'.symm hpr, fun ⟨_, R, hR⟩ => ?_⟩
      rw [h1] at hR
      have hR : P ++ j :: R = (v.pos q).2 := by simpa using hR
      have := Tree.afterCut_below P j R
      rw [hR, e1] at this; cases this
    · rw [e2]
      refine ⟨fun _ => ⟨e.symm, R, ?_⟩, fun _ => rfl⟩
      rw [h1, e1]; simp
    · rw [e2]
      exact ⟨fun e' => absurd e' hnq, fun ⟨e', _⟩ => absurd e'.symm e⟩

/-- The cases of `joinLoc`. -/
theorem joinLoc_cases (r p : Nat) (P : List Nat) (i r0 : Nat) (Q : List Nat) :
    (r0 = p ∧ joinLoc r p P i r0 Q = (r, P ++ i :: Q)) ∨
    (r0 ≠ p ∧ r0 = r ∧ joinLoc r p P i r0 Q = (r, Tree.afterInsert P i Q)) ∨
    (r0 ≠ p ∧ r0 ≠ r ∧ joinLoc r p P i r0 Q = (r0, Q)) := by
  simp only [joinLoc]
  by_cases e : r0 = p
  · rw [if_pos e]; exact .inl ⟨e, rfl⟩
  · rw [if_neg e]
    by_cases e' : r0 = r
    · rw [if_pos e']; exact .inr (.inl ⟨e, e', rfl⟩)
    · rw [if_neg e']; exact .inr (.inr ⟨e, e', rfl⟩)

theorem join_named (h : v.Named A) (hq : A q) (hne : (v.pos q).1 ≠ p) : (v.join q i p).Named A := by
  have hpos : ∀ x, (v.join q i p).pos x = joinLoc (v.pos q).1 p (v.pos q).2 i (v.pos x).1 (v.pos x).2 :=
    fun _ => rfl
  generalize hr : (v.pos q).1 = r at *
  generalize hP : (v.pos q).2 = P at *
  have hroot : ∀ y, y ≠ p → joinLoc r p P i y [] = (y, []) := by
    intro y hy
    simp only [joinLoc, if_neg hy, Tree.afterInsert_nil]
    split
    · next e => rw [e]
    · rfl
  refine ⟨?_, ?_, ?_⟩
  · intro x hx hx2
    rw [hpos] at hx2 ⊢
    rcases joinLoc_cases r p P i (v.pos x).1 (v.pos x).2 with ⟨_, e2⟩ | ⟨_, e1, e2⟩ | ⟨_, _, e2⟩ <;>
      rw [e2] at hx2 ⊢
    · simp at hx2
    · have hx2 : Tree.afterInsert P i (v.pos x).2 = [] := hx2
      have := Tree.afterInsert_prefix (P := P) (i := i) (A := (v.pos x).2) (B := [])
        (by rw [hx2]; exact List.nil_prefix)
      exact e1.symm.trans (h.root x hx (by simpa using this))
    · exact h.root x hx hx2
  · intro x y hx hy hxy
    rw [hpos] at hxy ⊢
    have hold : (v.pos y).2 = [] ∧ y ≠ p := by
      rcases joinLoc_cases r p P i (v.pos x).1 (v.pos x).2 with ⟨_, e2⟩ | ⟨e0, e1, e2⟩ | ⟨e0, _, e2⟩ <;>
        rw [e2] at hxy
      · exact ⟨h.top q y hq hy (hr.trans hxy), fun e => hne (hxy.trans e)⟩
      · exact ⟨h.top q y hq hy (hr.trans hxy), fun e => hne (hxy.trans e)⟩
      · exact ⟨h.top x y hx hy hxy, fun e => e0 (hxy.trans e)⟩
    have := h.root y hy hold.1
    rw [hold.1, this, hroot y hold.2]
  · intro x y hx hy hmy hxy
    refine h.inj x y hx hy hmy ?_
    rw [hpos, hpos] at hxy
    rcases joinLoc_cases r p P i (v.pos x).1 (v.pos x).2 with ⟨e, e2⟩ | ⟨e0, e, e2⟩ | ⟨e0, e, e2⟩ <;>
    rcases joinLoc_cases r p P i (v.pos y).1 (v.pos y).2 with ⟨f, f2⟩ | ⟨f0, f, f2⟩ | ⟨f0, f, f2⟩ <;>
      rw [e2, f2] at hxy
    · exact Prod.ext (e.trans f.symm) (by simpa using (Prod.mk.inj hxy).2)
    · exact absurd (Prod.mk.inj hxy).2.symm Tree.afterInsert_ne
    · exact absurd (Prod.mk.inj hxy).1.symm f
    · exact absurd (Prod.mk.inj hxy).2 Tree.afterInsert_ne
    · exact Prod.ext (e.trans f.symm) (Tree.afterInsert_inj (Prod.mk.inj hxy).2)
    · exact absurd (Prod.mk.inj hxy).1.symm f
    · exact absurd (Prod.mk.inj hxy).1 e
    · exact absurd (Prod.mk.inj hxy).1 e
    · exact Prod.ext (Prod.mk.inj hxy).1 (Prod.mk.inj hxy).2

/-- Cutting out something that is not above `q` puts nothing new above `q`. -/
theorem above_of_cut (h : v.Named A) (hp : A p) (hq : A q) {x : Nat} (hpq : ¬ v.Above p q)
    (hx : (v.cut p).Above x q) : v.Above x q := by
  have hne : ((v.cut p).pos q).1 ≠ p := fun e => hpq ((cut_above h hp hq).mp e)
  by_cases hn : (v.pos p).2 = []
  · have e : v.cut p = v := by simp [View.cut, hn]
    rwa [e] at hx
  · obtain ⟨P, j, h1, h2⟩ := cut_eq hn
    rw [h2] at hx hne
    obtain ⟨x1, x2⟩ := hx
    change (cutLoc (v.pos p).1 p P j (v.pos q).1 (v.pos q).2).1 ≠ p at hne
    change (cutLoc (v.pos p).1 p P j (v.pos x).1 (v.pos x).2).1 =
      (cutLoc (v.pos p).1 p P j (v.pos q).1 (v.pos q).2).1 at x1
    change (cutLoc (v.pos p).1 p P j (v.pos x).1 (v.pos x).2).2 <+:
      (cutLoc (v.pos p).1 p P j (v.pos q).1 (v.pos q).2).2 at x2
    rcases cutLoc_cases (v.pos p).1 p P j (v.pos x).1 (v.pos x).2 with
      ⟨e, Q', e1, e2⟩ | ⟨e, R, e1, e2⟩ | ⟨e, e2⟩ <;>
    rcases cutLoc_cases (v.pos p).1 p P j (v.pos q).1 (v.pos q).2 with
      ⟨f, S', f1, f2⟩ | ⟨f, S, f1, f2⟩ | ⟨f, f2⟩ <;>
    rw [f2] at hne x1 x2 <;> rw [e2] at x1 x2
    · exact ⟨e.trans f.symm, Tree.afterCut_prefix e1 f1 x2⟩
    · exact absurd rfl hne
    · exact absurd x1.symm f
    · exact absurd x1.symm hne
    · exact absurd rfl hne
    · exact absurd x1.symm hne
    · exact absurd x1 e
    · exact absurd rfl hne
    · exact ⟨x1, x2⟩

theorem above_of_join {x : Nat} (hne : (v.pos q).1 ≠ p) (hx : (v.join q i p).Above x q) :
    v.Above x q := by
  obtain ⟨x1, x2⟩ := hx
  change (joinLoc (v.pos q).1 p (v.pos q).2 i (v.pos x).1 (v.pos x).2).1 =
    (joinLoc (v.pos q).1 p (v.pos q).2 i (v.pos q).1 (v.pos q).2).1 at x1
  change (joinLoc (v.pos q).1 p (v.pos q).2 i (v.pos x).1 (v.pos x).2).2 <+:
    (joinLoc (v.pos q).1 p (v.pos q).2 i (v.pos q).1 (v.pos q).2).2 at x2
  have hqq : joinLoc (v.pos q).1 p (v.pos q).2 i (v.pos q).1 (v.pos q).2 = ((v.pos q).1, (v.pos q).2) := by
    simp [joinLoc, hne]
  rw [hqq] at x1 x2
  rcases joinLoc_cases (v.pos q).1 p (v.pos q).2 i (v.pos x).1 (v.pos x).2 with
    ⟨e, e2⟩ | ⟨e0, e, e2⟩ | ⟨e0, e, e2⟩ <;> rw [e2] at x1 x2
  · have := x2.length_le
    simp at this; omega
  · refine ⟨e, Tree.afterInsert_prefix (P := (v.pos q).2) (i := i) ?_⟩
    rw [Tree.afterInsert_self]; exact x2
  · exact ⟨x1, x2⟩

/-- Moving elements that are not above `q` below `q` neither loops nor tangles. -/
theorem insertAll_acyclic (hq : A q) : ∀ (ps : List Nat) (i : Nat) (v : View), v.Named A →
    (∀ p ∈ ps, A p ∧ ¬ v.Above p q) → v.insertAll q i ps ≠ .loops ∧ ∀ y z j, v.insertAll q i ps ≠ .tangled y z j
  | [], i, v, hN, h => by simp [insertAll]
  | p :: ps, i, v, hN, h => by
    obtain ⟨hp, hpq⟩ := h p (by simp)
    simp only [insertAll]
    split
    · simp
    next hm =>
    have hm : v.mutable p = true := by simpa using hm
    have hne : ((v.cut p).pos q).1 ≠ p := fun e => hpq ((cut_above hN hp hq).mp e)
    rw [if_neg hne]
    split
    · refine insertAll_acyclic hq ps (i + 1) _ (join_named (cut_named hN hp hm).1 hq hne) ?_
      intro x hx
      obtain ⟨h1, h2⟩ := h x (by simp [hx])
      exact ⟨h1, fun e => h2 (above_of_cut hN hp hq hpq (above_of_join hne e))⟩
    · simp

theorem insertAll_outOfRange {q : Nat} {w : View} {p j : Nat} : ∀ (ins : List Nat) (i : Nat) (v : View),
    v.insertAll q i ins = .outOfRange w p j → p ∈ ins ∧ j < i + ins.length
  | [], _, _, h => by simp [insertAll] at h
  | x :: ins, i, v, h => by
    rw [insertAll] at h
    split at h
    · cases h
    · split at h
      · split at h <;> cases h
      · split at h
        · obtain ⟨h1, h2⟩ := insertAll_outOfRange ins _ _ h
          exact ⟨List.mem_cons_of_mem _ h1, by rw [List.length_cons]; omega⟩
        · cases h; exact ⟨List.mem_cons_self, by rw [List.length_cons]; omega⟩

theorem insertAll_tangled {q y p j : Nat} : ∀ (ins : List Nat) (i : Nat) (v : View),
    v.insertAll q i ins = .tangled y p j → y = q ∧ p ∈ ins ∧ j < i + ins.length
  | [], _, _, h => by simp [insertAll] at h
  | x :: ins, i, v, h => by
    rw [insertAll] at h
    split at h
    · cases h
    · split at h
      · split at h
        · cases h
        · cases h; exact ⟨rfl, List.mem_cons_self, by rw [List.length_cons]; omega⟩
      · split at h
        · obtain ⟨h1, h2, h3⟩ := insertAll_tangled ins _ _ h
          exact ⟨h1, List.mem_cons_of_mem _ h2, by rw [List.length_cons]; omega⟩
        · cases h

theorem splice_tangled {v : View} {e q a b y p j : Nat} {ins : List Nat}
    (h : v.splice e q a b ins = .tangled y p j) : y = q ∧ p ∈ ins ∧ j < a + ins.length := by
  rw [splice] at h
  split at h
  · cases h
  · exact insertAll_tangled _ _ _ h

theorem splice_outOfRange {v w : View} {e q a b p j : Nat} {ins : List Nat}
    (h : v.splice e q a b ins = .outOfRange w p j) : p ∈ ins ∧ j < a + ins.length := by
  rw [splice] at h
  split at h
  · cases h
  · exact insertAll_outOfRange _ _ _ h

end View
end Rowan
