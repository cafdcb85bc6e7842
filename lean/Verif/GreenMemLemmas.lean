import Verif.GreenMem
/-!
# Invariants of the memory of green trees

Unless their comments cite lines of `/repo`, the definitions in this file are vocabulary of the proofs and model no code.
-/
namespace Rowan

/-- Sum over a list. -/
def sumBy {α : Type} (f : α → Nat) : List α → Nat
  | [] => 0
  | x :: xs => f x + sumBy f xs

section
variable {α : Type} {f g : α → Nat}

theorem sumBy_append (l m : List α) : sumBy f (l ++ m) = sumBy f l + sumBy f m := by
  induction l with
  | nil => simp [sumBy]
  | cons x l ih => simp only [List.cons_append, sumBy, ih]; omega

theorem sumBy_perm {l m : List α} (h : l.Perm m) : sumBy f l = sumBy f m := by
  induction h with
  | nil => rfl
  | cons x _ ih => simp only [sumBy, ih]
  | swap x y l => simp only [sumBy]; omega
  | trans _ _ h1 h2 => exact h1.trans h2

theorem sumBy_pos {l : List α} (h : 0 < sumBy f l) : ∃ x ∈ l, 0 < f x := by
  induction l with
  | nil => simp [sumBy] at h
  | cons x l ih =>
    by_cases hx : 0 < f x
    · exact ⟨x, List.mem_cons_self .., hx⟩
    · simp only [sumBy] at h
      obtain ⟨y, hy, h'⟩ := ih (by omega)
      exact ⟨y, List.mem_cons_of_mem _ hy, h'⟩

theorem le_sumBy {l : List α} {x : α} (h : x ∈ l) : f x ≤ sumBy f l := by
  induction l with
  | nil => cases h
  | cons y l ih =>
    simp only [sumBy]
    rcases List.mem_cons.mp h with rfl | h
    · omega
    · have := ih h; omega

theorem sumBy_modify {u : α → α} : ∀ {l : List α} {i : Nat} {x : α}, l[i]? = some x →
    sumBy f (l.modify i u) + f x = sumBy f l + f (u x)
  | [], i, x, h => by simp at h
  | y :: l, 0, x, h => by
    simp at h; subst h
    simp only [List.modify_zero_cons, sumBy]; omega
  | y :: l, i + 1, x, h => by
    simp at h
    have := sumBy_modify (u := u) h
    simp only [List.modify_succ_cons, sumBy]; omega

theorem sumBy_zero {l : List α} (h : ∀ x ∈ l, f x = 0) : sumBy f l = 0 := by
  induction l with
  | nil => rfl
  | cons x l ih =>
    simp only [sumBy, h x (List.mem_cons_self ..), ih fun y hy => h y (List.mem_cons_of_mem _ hy)]

end

namespace GMem

/-- References to `o` in nodes whose destructor has not begun. -/
def GObj.refsTo (o : Nat) (x : GObj) : Nat := if x.count = 0 then 0 else x.kids.count o

/-- How many references to `o` there are. -/
def owns (s : GMem) (o : Nat) : Nat :=
  sumBy (fun x : GRef => if x.obj = o then 1 else 0) s.refs + sumBy (GObj.refsTo o) s.objs +
    sumBy (fun f : GFrame => f.rest.count o) s.stack

/-- The invariant; `E` are references that are in the hands of a function that has not returned. -/
structure Inv (s : GMem) (E : List Nat) : Prop where
  count : ∀ (o : Nat) (x : GObj), s.objs[o]? = some x → x.count = s.owns o + E.count o
  dom : ∀ o, 0 < s.owns o + E.count o → o < s.objs.length
  below : ∀ (o : Nat) (x : GObj), s.objs[o]? = some x → ∀ k ∈ x.kids, k < o
  few : ∀ (o : Nat) (x : GObj), s.objs[o]? = some x → x.count ≤ 2 ^ 63
  frames : ∀ f ∈ s.stack, ∃ x, s.objs[f.obj]? = some x ∧ x.count = 0 ∧ x.freed = false
  nodup : (s.stack.map GFrame.obj).Nodup
  zero : ∀ (o : Nat) (x : GObj), s.objs[o]? = some x → x.count = 0 → x.freed = true ∨ ∃ f ∈ s.stack, f.obj = o
  freed : ∀ (o : Nat) (x : GObj), s.objs[o]? = some x → x.freed = true → x.count = 0
  ub : s.ub = false

theorem getElem?_modify' {α : Type} (l : List α) (i j : Nat) (u : α → α) :
    (l.modify i u)[j]? = if i = j then l[j]?.map u else l[j]? := by
  rw [List.getElem?_modify]
  split <;> cases l[j]? <;> rfl

variable {s : GMem} {E : List Nat}

theorem Inv.owned (h : Inv s E) {o : Nat} (ho : 0 < s.owns o + E.count o) :
    ∃ x, s.objs[o]? = some x ∧ 0 < x.count ∧ x.freed = false ∧ s.alive o = true := by
  have hl := h.dom o ho
  obtain ⟨x, hx⟩ : ∃ x, s.objs[o]? = some x := ⟨_, List.getElem?_eq_getElem hl⟩
  have hc := h.count o x hx
  refine ⟨x, hx, by omega, ?_, ?_⟩ <;>
  · cases hf : x.freed
    · simp [alive, hx, hf]
    · have := h.freed o x hx hf; omega

theorem owns_kid {o k : Nat} {x : GObj} (hx : s.objs[o]? = some x) (hc : 0 < x.count) (hk : k ∈ x.kids) :
    0 < s.owns k := by
  have : GObj.refsTo k x ≤ sumBy (GObj.refsTo k) s.objs := le_sumBy (List.mem_of_getElem? hx)
  have h1 : 0 < GObj.refsTo k x := by
    rw [GObj.refsTo, if_neg (by omega)]
    exact List.count_pos_iff.mpr hk
  simp only [owns]; omega

theorem Inv.hit (h : Inv s E) {os : List Nat} (ho : ∀ o ∈ os, s.alive o = true) : s.hit os = s := by
  have : os.all s.alive = true := List.all_eq_true.mpr ho
  obtain ⟨⟩ := s
  simp only [GMem.hit, this]
  simp

theorem Inv.trail (h : Inv s E) : ∀ (p : List Nat) {o : Nat}, 0 < s.owns o + E.count o → ∀ x ∈ s.trail o p, s.alive x = true
  | [], o, ho, x, hx => by
    simp only [GMem.trail, List.mem_singleton] at hx
    subst hx
    exact (h.owned ho).choose_spec.2.2.2
  | i :: p, o, ho, x, hx => by
    obtain ⟨y, h1, h2, -, h4⟩ := h.owned ho
    simp only [GMem.trail, h1] at hx
    split at hx
    · rw [List.mem_singleton.mp hx]; exact h4
    · rename_i c hc
      rcases List.mem_cons.mp hx with rfl | hx
      · exact h4
      · exact h.trail p (Nat.lt_of_lt_of_le (owns_kid h1 h2 (List.mem_of_getElem? hc)) (Nat.le_add_right ..)) x hx

theorem Inv.at (h : Inv s E) : ∀ (p : List Nat) {o c : Nat}, 0 < s.owns o + E.count o → s.at? o p = some c →
    0 < s.owns c + E.count c
  | [], o, c, ho, hc => by simp only [at?, Option.some.injEq] at hc; subst hc; exact ho
  | i :: p, o, c, ho, hc => by
    obtain ⟨y, h1, h2, -, -⟩ := h.owned ho
    simp only [at?, h1, Option.bind_eq_bind, Option.bind_some, Option.bind_eq_some_iff] at hc
    obtain ⟨d, hd, hc⟩ := hc
    exact h.at p (Nat.lt_of_lt_of_le (owns_kid h1 h2 (List.mem_of_getElem? hd)) (Nat.le_add_right ..)) hc

theorem owns_ref {x : GRef} (h : x ∈ s.refs) : 0 < s.owns x.obj := by
  have : (fun y : GRef => if y.obj = x.obj then 1 else 0) x ≤ sumBy (fun y : GRef => if y.obj = x.obj then 1 else 0) s.refs :=
    le_sumBy (f := fun y : GRef => if y.obj = x.obj then 1 else 0) h
  simp only [if_true] at this
  simp only [owns]; omega

theorem ref?_mem {r : Nat} {x : GRef} (h : s.ref? r = some x) : x ∈ s.refs ∧ x.id = r :=
  ⟨List.mem_of_find?_eq_some h, by simpa using List.find?_some h⟩

theorem popFrame_perm {t : Nat} : ∀ {l l' : List GFrame} {f : GFrame}, popFrame t l = some (f, l') →
    l.Perm (f :: l') ∧ f.thread = t
  | [], l', f, h => by simp [popFrame] at h
  | g :: l, l', f, h => by
    simp only [popFrame] at h
    split at h
    · cases h; exact ⟨.refl _, by assumption⟩
    · simp only [Option.bind_eq_bind, Option.bind_eq_some_iff] at h
      obtain ⟨⟨x, m⟩, h1, h2⟩ := h
      cases h2
      obtain ⟨h3, h4⟩ := popFrame_perm h1
      exact ⟨(h3.cons g).trans (.swap ..), h4⟩

theorem popRef_perm {t r : Nat} : ∀ {l l' : List GRef} {x : GRef}, popRef t r l = some (x, l') →
    l.Perm (x :: l') ∧ x.id = r ∧ x.holders = [t]
  | [], l', x, h => by simp [popRef] at h
  | y :: l, l', x, h => by
    simp only [popRef] at h
    split at h
    · split at h
      · cases h; exact ⟨.refl _, by assumption, by assumption⟩
      · cases h
    · simp only [Option.bind_eq_bind, Option.bind_eq_some_iff] at h
      obtain ⟨⟨z, m⟩, h1, h2⟩ := h
      cases h2
      obtain ⟨h3, h4⟩ := popRef_perm h1
      exact ⟨(h3.cons y).trans (.swap ..), h4⟩

/-- A reference is taken out of the program's hands. -/
theorem Inv.take (h : Inv s E) {x : GRef} {l : List GRef} (hp : s.refs.Perm (x :: l)) :
    Inv { s with refs := l } (x.obj :: E) := by
  have e : ∀ o, s.owns o + E.count o = ({ s with refs := l } : GMem).owns o + (x.obj :: E).count o := by
    intro o
    simp only [owns, sumBy_perm hp, sumBy, List.count_cons, beq_iff_eq]
    omega
  exact ⟨fun o y hy => (e o) ▸ h.count o y hy, fun o ho => h.dom o ((e o) ▸ ho), h.below, h.few, h.frames, h.nodup, h.zero, h.freed, h.ub⟩

/-- `Arc::drop`. -/
theorem Inv.drop {o : Nat} (h : Inv s (o :: E)) (t : Nat) : Inv (s.dropRef t o) E := by
  obtain ⟨y, h1, h2, h3, h4⟩ := h.owned (o := o) (by rw [List.count_cons_self]; omega)
  have hhit : s.hit [o] = s := h.hit (by simpa using h4)
  have hw : (y.count + word - 1) % word = y.count - 1 := by
    have := h.few o y h1
    have hword : word = 2 ^ 64 := rfl
    rw [show y.count + word - 1 = (y.count - 1) + word by omega, Nat.add_mod_right]
    exact Nat.mod_eq_of_lt (by omega)
  have hobj : ∀ j, (s.objs.modify o fun x => { x with count := y.count - 1 })[j]? =
      if o = j then some { y with count := y.count - 1 } else s.objs[j]? := by
    intro j
    rw [getElem?_modify']
    split
    · rename_i e; subst e; rw [h1]; rfl
    · rfl
  have hyo : y.kids.count o = 0 := List.count_eq_zero.mpr fun hm => absurd (h.below o y h1 o hm) (Nat.lt_irrefl _)
  have hco := h.count o y h1
  rw [List.count_cons_self] at hco
  have hnf : ∀ f ∈ s.stack, f.obj ≠ o := by
    intro f hf e
    obtain ⟨z, z1, z2, -⟩ := h.frames f hf
    rw [e, h1] at z1
    cases z1; omega
  simp only [dropRef, h1, hhit, hw]
  have hsum : ∀ j, sumBy (GObj.refsTo j) (s.objs.modify o fun x => { x with count := y.count - 1 }) +
      (if y.count = 1 then y.kids.count j else 0) = sumBy (GObj.refsTo j) s.objs := by
    intro j
    have := sumBy_modify (f := GObj.refsTo j) (u := fun x : GObj => { x with count := y.count - 1 }) h1
    simp only [GObj.refsTo] at this ⊢
    rw [if_neg (by omega : ¬ y.count = 0)] at this
    split
    · rw [if_pos (by omega : y.count - 1 = 0)] at this; omega
    · rw [if_neg (by omega : ¬ y.count - 1 = 0)] at this; omega
  split
  · -- not the last reference
    rename_i hne
    have e : ∀ j, (s.setCount o (y.count - 1)).owns j = s.owns j := by
      intro j
      have := hsum j
      rw [if_neg hne] at this
      simp only [setCount, owns]; omega
    refine ⟨?_, ?_, ?_, ?_, ?_, h.nodup, ?_, ?_, h.ub⟩
    · intro j x hx
      rw [e j]
      simp only [setCount, hobj] at hx
      split at hx
      · rename_i e'; subst e'; cases hx; simp only; omega
      · rename_i e'
        have := h.count j x hx
        rwa [List.count_cons_of_ne e'] at this
    · intro j hj
      rw [e j] at hj
      have := h.dom j (by rw [List.count_cons]; omega)
      simpa [setCount] using this
    · intro j x hx
      simp only [setCount, hobj] at hx
      split at hx
      · rename_i e'; subst e'; cases hx; exact h.below o y h1
      · exact h.below j x hx
    · intro j x hx
      simp only [setCount, hobj] at hx
      split at hx
      · cases hx; have := h.few o y h1; simp only; omega
      · exact h.few j x hx
    · intro f hf
      obtain ⟨x, x1, x2⟩ := h.frames f hf
      exact ⟨x, by simp only [setCount, hobj]; rw [if_neg (Ne.symm (hnf f hf))]; exact x1, x2⟩
    · intro j x hx h0
      simp only [setCount, hobj] at hx
      split at hx
      · cases hx; simp only at h0; omega
      · exact h.zero j x hx h0
    · intro j x hx hf
      simp only [setCount, hobj] at hx
      split at hx
      · cases hx; simp only at hf; rw [h3] at hf; cases hf
      · exact h.freed j x hx hf
  · rename_i heq
    simp only [ne_eq, Decidable.not_not] at heq
    have e : ∀ j, (⟨s.objs.modify o fun x => { x with count := y.count - 1 }, s.refs, s.nextRef,
        ⟨t, o, y.kids⟩ :: s.stack, s.ub, s.dead⟩ : GMem).owns j = s.owns j := by
      intro j
      have := hsum j
      rw [if_pos heq] at this
      simp only [owns, sumBy]; omega
    simp only [setCount]
    refine ⟨?_, ?_, ?_, ?_, ?_, ?_, ?_, ?_, h.ub⟩
    · intro j x hx
      rw [e j]
      simp only [hobj] at hx
      split at hx
      · rename_i e'; subst e'; cases hx; simp only; omega
      · rename_i e'
        have := h.count j x hx
        rwa [List.count_cons_of_ne e'] at this
    · intro j hj
      rw [e j] at hj
      have := h.dom j (by rw [List.count_cons]; omega)
      simpa using this
    · intro j x hx
      simp only [hobj] at hx
      split at hx
      · rename_i e'; subst e'; cases hx; exact h.below o y h1
      · exact h.below j x hx
    · intro j x hx
      simp only [hobj] at hx
      split at hx
      · cases hx; have := h.few o y h1; simp only; omega
      · exact h.few j x hx
    · intro f hf
      rcases List.mem_cons.mp hf with rfl | hf
      · exact ⟨{ y with count := y.count - 1 }, by simp only [hobj, if_true], by simp only; omega, h3⟩
      · obtain ⟨x, x1, x2⟩ := h.frames f hf
        exact ⟨x, by simp only [hobj]; rw [if_neg (Ne.symm (hnf f hf))]; exact x1, x2⟩
    · simp only [List.map_cons, List.nodup_cons]
      refine ⟨?_, h.nodup⟩
      intro hm
      obtain ⟨f, hf, e'⟩ := List.mem_map.mp hm
      exact hnf f hf e'
    · intro j x hx h0
      simp only [hobj] at hx
      split at hx
      · rename_i e'; exact .inr ⟨_, List.mem_cons_self .., e'⟩
      · rcases h.zero j x hx h0 with hz | ⟨f, hf, e'⟩
        · exact .inl hz
        · exact .inr ⟨f, List.mem_cons_of_mem _ hf, e'⟩
    · intro j x hx hf
      simp only [hobj] at hx
      split at hx
      · cases hx; simp only at hf; rw [h3] at hf; cases hf
      · exact h.freed j x hx hf

/-- References in the hands of `GreenNode::new` move into the new node. -/
theorem Inv.alloc {os : List Nat} (h : Inv s os) (t : Nat) (k : SyntaxKind) (text : Option (List Char)) :
    Inv (s.alloc t k text os) [] := by
  have hlt : ∀ c ∈ os, c < s.objs.length := fun c hc =>
    h.dom c (Nat.lt_of_lt_of_le (List.count_pos_iff.mpr hc) (Nat.le_add_left ..))
  have e : ∀ j, (s.alloc t k text os).owns j = s.owns j + os.count j + if s.objs.length = j then 1 else 0 := by
    intro j
    simp only [GMem.alloc, owns, sumBy_append, sumBy, GObj.refsTo]
    rw [if_neg (by decide : ¬ (1 : Nat) = 0)]
    omega
  have hobj : ∀ (j : Nat) (x : GObj), (s.alloc t k text os).objs[j]? = some x →
      s.objs[j]? = some x ∨ (j = s.objs.length ∧ x = ⟨1, k, text, os, false⟩) := by
    intro j x hx
    simp only [GMem.alloc] at hx
    rcases Nat.lt_or_ge j s.objs.length with hj | hj
    · rw [List.getElem?_append_left hj] at hx; exact .inl hx
    · rw [List.getElem?_append_right hj] at hx
      have := List.getElem?_eq_some_iff.mp hx
      obtain ⟨h1, h2⟩ := this
      simp only [List.length_singleton] at h1
      have : j = s.objs.length := by omega
      subst this
      simp at h2
      exact .inr ⟨rfl, h2.symm⟩
  have hget : ∀ {j : Nat} {x : GObj}, s.objs[j]? = some x → (s.alloc t k text os).objs[j]? = some x := by
    intro j x hx
    simp only [GMem.alloc]
    rw [List.getElem?_append_left (List.getElem?_eq_some_iff.mp hx).1]; exact hx
  have hfresh : s.owns s.objs.length + os.count s.objs.length = 0 := by
    rcases Nat.eq_zero_or_pos (s.owns s.objs.length + os.count s.objs.length) with h0 | h0
    · exact h0
    · exact absurd (h.dom _ h0) (Nat.lt_irrefl _)
  refine ⟨?_, ?_, ?_, ?_, ?_, h.nodup, ?_, ?_, h.ub⟩
  · intro j x hx
    rw [e j]
    rcases hobj j x hx with hx | ⟨rfl, rfl⟩
    · have := h.count j x hx
      rw [if_neg (Nat.ne_of_gt (List.getElem?_eq_some_iff.mp hx).1)]
      simp only [List.count_nil]; omega
    · simp; omega
  · intro j hj
    rw [e j] at hj
    simp only [GMem.alloc, List.length_append, List.length_singleton]
    split at hj
    · omega
    · have := h.dom j (by simpa using hj); omega
  · intro j x hx
    rcases hobj j x hx with hx | ⟨rfl, rfl⟩
    · exact h.below j x hx
    · exact hlt
  · intro j x hx
    rcases hobj j x hx with hx | ⟨rfl, rfl⟩
    · exact h.few j x hx
    · simp
  · intro f hf
    obtain ⟨x, x1, x2⟩ := h.frames f hf
    exact ⟨x, hget x1, x2⟩
  · intro j x hx h0
    rcases hobj j x hx with hx | ⟨rfl, rfl⟩
    · exact h.zero j x hx h0
    · simp at h0
  · intro j x hx hf
    rcases hobj j x hx with hx | ⟨rfl, rfl⟩
    · exact h.freed j x hx hf
    · simp at hf

theorem Inv.takes {t : Nat} : ∀ {rs : List Nat} {s : GMem} {E : List Nat} {os : List Nat} {l : List GRef}, Inv s E →
    popRefs t rs s.refs = some (os, l) → Inv { s with refs := l } (os ++ E)
  | [], s, E, os, l, h, hp => by simp only [popRefs, Option.some.injEq, Prod.mk.injEq] at hp; obtain ⟨rfl, rfl⟩ := hp; exact h
  | r :: rs, s, E, os, l, h, hp => by
    simp only [popRefs, Option.bind_eq_bind, Option.bind_eq_some_iff] at hp
    obtain ⟨⟨x, m⟩, h1, ⟨os', m'⟩, h2, h3⟩ := hp
    cases h3
    have := Inv.takes (s := { s with refs := m }) (h.take (popRef_perm h1).1) h2
    refine ⟨fun o y hy => ?_, fun o ho => ?_, this.below, this.few, this.frames, this.nodup, this.zero, this.freed, this.ub⟩
    · have := this.count o y hy
      simp only [List.count_append, List.cons_append, List.count_cons] at this ⊢; omega
    · refine this.dom o ?_
      simp only [List.count_append, List.cons_append, List.count_cons] at ho ⊢; omega

theorem Inv.congr (h : Inv s E) {refs : List GRef} (hr : refs.map GRef.obj = s.refs.map GRef.obj) (n : Nat) (d : Bool) :
    Inv { s with refs := refs, nextRef := n, dead := d } E := by
  have e0 : ∀ o, ∀ {l m : List GRef}, l.map GRef.obj = m.map GRef.obj →
      sumBy (fun x : GRef => if x.obj = o then 1 else 0) l = sumBy (fun x : GRef => if x.obj = o then 1 else 0) m := by
    intro o l
    induction l with
    | nil => intro m hm; cases m with
      | nil => rfl
      | cons a b => simp at hm
    | cons x l ih => intro m hm; cases m with
      | nil => simp at hm
      | cons y m => simp only [List.map_cons, List.cons.injEq] at hm; simp only [sumBy, hm.1, ih hm.2]
  have e : ∀ o, ({ s with refs := refs, nextRef := n, dead := d } : GMem).owns o = s.owns o := by
    intro o; simp only [owns, e0 o hr]
  exact ⟨fun o x hx => (e o) ▸ h.count o x hx, fun o ho => h.dom o ((e o) ▸ ho), h.below, h.few, h.frames, h.nodup, h.zero, h.freed, h.ub⟩

theorem setHolders_obj (r : Nat) (f : List Nat → List Nat) : (s.setHolders r f).refs.map GRef.obj = s.refs.map GRef.obj := by
  simp only [setHolders, List.map_map]
  apply List.map_congr_left
  intro x _
  simp only [Function.comp]
  split <;> rfl

/-- `Arc::clone`. -/
theorem Inv.clone (h : Inv s []) {o : Nat} {y : GObj} (hy : s.objs[o]? = some y) (h0 : 0 < y.count)
    (hm : ¬ y.count > maxRefcount) (t : Nat) :
    Inv { s.setCount o ((y.count + 1) % word) with refs := ⟨s.nextRef, o, [t]⟩ :: s.refs, nextRef := s.nextRef + 1 } [] := by
  have hmax : maxRefcount = 2 ^ 63 - 1 := rfl
  have hw : (y.count + 1) % word = y.count + 1 := by
    have hword : word = 2 ^ 64 := rfl
    exact Nat.mod_eq_of_lt (by omega)
  rw [hw]
  have hobj : ∀ j, (s.objs.modify o fun x => { x with count := y.count + 1 })[j]? =
      if o = j then some { y with count := y.count + 1 } else s.objs[j]? := by
    intro j
    rw [getElem?_modify']
    split
    · rename_i e; subst e; rw [hy]; rfl
    · rfl
  have hsum : ∀ j, sumBy (GObj.refsTo j) (s.objs.modify o fun x => { x with count := y.count + 1 }) =
      sumBy (GObj.refsTo j) s.objs := by
    intro j
    have := sumBy_modify (f := GObj.refsTo j) (u := fun x : GObj => { x with count := y.count + 1 }) hy
    simp only [GObj.refsTo] at this ⊢
    rw [if_neg (by omega : ¬ y.count = 0), if_neg (by omega : ¬ y.count + 1 = 0)] at this
    omega
  have e : ∀ j, ({ s.setCount o (y.count + 1) with refs := ⟨s.nextRef, o, [t]⟩ :: s.refs, nextRef := s.nextRef + 1 } : GMem).owns j =
      s.owns j + if o = j then 1 else 0 := by
    intro j
    simp only [setCount, owns, sumBy, hsum]; omega
  have hnf : ∀ f ∈ s.stack, f.obj ≠ o := by
    intro f hf e
    obtain ⟨z, z1, z2, -⟩ := h.frames f hf
    rw [e, hy] at z1
    cases z1; omega
  refine ⟨?_, ?_, ?_, ?_, ?_, h.nodup, ?_, ?_, h.ub⟩
  · intro j x hx
    rw [e j]
    simp only [setCount, hobj] at hx
    split at hx
    · rename_i e'; subst e'; cases hx
      have := h.count o y hy
      simp only [if_true, List.count_nil] at this ⊢; omega
    · rename_i e'
      rw [if_neg e']
      exact h.count j x hx
  · intro j hj
    rw [e j] at hj
    simp only [setCount, List.length_modify]
    split at hj
    · rename_i e'; subst e'; exact (List.getElem?_eq_some_iff.mp hy).1
    · exact h.dom j hj
  · intro j x hx
    simp only [setCount, hobj] at hx
    split at hx
    · rename_i e'; subst e'; cases hx; exact h.below o y hy
    · exact h.below j x hx
  · intro j x hx
    simp only [setCount, hobj] at hx
    split at hx
    · cases hx; simp only; omega
    · exact h.few j x hx
  · intro f hf
    obtain ⟨x, x1, x2⟩ := h.frames f hf
    exact ⟨x, by simp only [setCount, hobj]; rw [if_neg (Ne.symm (hnf f hf))]; exact x1, x2⟩
  · intro j x hx hz
    simp only [setCount, hobj] at hx
    split at hx
    · cases hx; simp at hz
    · exact h.zero j x hx hz
  · intro j x hx hf
    simp only [setCount, hobj] at hx
    split at hx
    · cases hx
      have := h.freed o y hy hf
      omega
    · exact h.freed j x hx hf

/-- The next child in a destructor. -/
theorem Inv.frame (h : Inv s []) {f : GFrame} {fs : List GFrame} {k : Nat} {ks : List Nat} (hp : s.stack.Perm (f :: fs))
    (hr : f.rest = k :: ks) (t : Nat) : Inv { s with stack := ⟨t, f.obj, ks⟩ :: fs } [k] := by
  have e : ∀ o, s.owns o = ({ s with stack := ⟨t, f.obj, ks⟩ :: fs } : GMem).owns o + [k].count o := by
    intro o
    simp only [owns, sumBy_perm hp, sumBy, hr, List.count_cons, List.count_nil]
    omega
  have hmem : ∀ g ∈ (⟨t, f.obj, ks⟩ :: fs : List GFrame), ∃ g' ∈ s.stack, g'.obj = g.obj := by
    intro g hg
    rcases List.mem_cons.mp hg with rfl | hg
    · exact ⟨f, hp.mem_iff.mpr (List.mem_cons_self ..), rfl⟩
    · exact ⟨g, hp.mem_iff.mpr (List.mem_cons_of_mem _ hg), rfl⟩
  have hmem' : ∀ g ∈ s.stack, ∃ g' ∈ (⟨t, f.obj, ks⟩ :: fs : List GFrame), g'.obj = g.obj := by
    intro g hg
    rcases List.mem_cons.mp (hp.mem_iff.mp hg) with rfl | hg
    · exact ⟨_, List.mem_cons_self .., rfl⟩
    · exact ⟨g, List.mem_cons_of_mem _ hg, rfl⟩
  refine ⟨fun o y hy => ?_, fun o ho => ?_, h.below, h.few, fun g hg => ?_, ?_, fun o x hx h0 => ?_, h.freed, h.ub⟩
  · have := h.count o y hy
    rw [e o] at this; simpa using this
  · exact h.dom o (by rw [e o]; simpa using ho)
  · obtain ⟨g', h1, h2⟩ := hmem g hg
    rw [← h2]
    exact h.frames g' h1
  · have := (hp.map GFrame.obj).nodup_iff.mp h.nodup
    exact this
  · rcases h.zero o x hx h0 with hz | ⟨g, hg, e'⟩
    · exact .inl hz
    · obtain ⟨g', h1, h2⟩ := hmem' g hg
      exact .inr ⟨g', h1, h2.trans e'⟩

/-- The end of a destructor. -/
theorem Inv.free (h : Inv s []) {f : GFrame} {fs : List GFrame} (hp : s.stack.Perm (f :: fs)) (hr : f.rest = []) :
    Inv { s with objs := s.objs.modify f.obj fun x => { x with freed := true }, stack := fs } [] := by
  obtain ⟨y, y1, y2, y3⟩ := h.frames f (hp.mem_iff.mpr (List.mem_cons_self ..))
  have hnd := (hp.map GFrame.obj).nodup_iff.mp h.nodup
  simp only [List.map_cons, List.nodup_cons] at hnd
  have hobj : ∀ j, (s.objs.modify f.obj fun x => { x with freed := true })[j]? =
      if f.obj = j then some { y with freed := true } else s.objs[j]? := by
    intro j
    rw [getElem?_modify']
    split
    · rename_i e; rw [← e, y1]; rfl
    · rfl
  have hsum : ∀ j, sumBy (GObj.refsTo j) (s.objs.modify f.obj fun x => { x with freed := true }) =
      sumBy (GObj.refsTo j) s.objs := by
    intro j
    have := sumBy_modify (f := GObj.refsTo j) (u := fun x : GObj => { x with freed := true }) y1
    simp only [GObj.refsTo] at this ⊢
    omega
  have e : ∀ j, ({ s with objs := s.objs.modify f.obj fun x => { x with freed := true }, stack := fs } : GMem).owns j = s.owns j := by
    intro j
    simp only [owns, sumBy_perm hp, sumBy, hr, List.count_nil, hsum]
    omega
  refine ⟨?_, ?_, ?_, ?_, ?_, hnd.2, ?_, ?_, h.ub⟩
  · intro j x hx
    rw [e j]
    simp only [hobj] at hx
    split at hx
    · rename_i e'; cases hx; exact h.count j y (e' ▸ y1)
    · exact h.count j x hx
  · intro j hj
    rw [e j] at hj
    simpa using h.dom j hj
  · intro j x hx
    simp only [hobj] at hx
    split at hx
    · rename_i e'; cases hx; exact h.below j y (e' ▸ y1)
    · exact h.below j x hx
  · intro j x hx
    simp only [hobj] at hx
    split at hx
    · rename_i e'; cases hx; exact h.few j y (e' ▸ y1)
    · exact h.few j x hx
  · intro g hg
    have hne : g.obj ≠ f.obj := fun e' => hnd.1 (e' ▸ List.mem_map_of_mem hg)
    obtain ⟨x, x1, x2⟩ := h.frames g (hp.mem_iff.mpr (List.mem_cons_of_mem _ hg))
    exact ⟨x, by simp only [hobj]; rw [if_neg (Ne.symm hne)]; exact x1, x2⟩
  · intro j x hx h0
    simp only [hobj] at hx
    split at hx
    · cases hx; exact .inl rfl
    · rename_i e'
      rcases h.zero j x hx h0 with hz | ⟨g, hg, e''⟩
      · exact .inl hz
      · rcases List.mem_cons.mp (hp.mem_iff.mp hg) with rfl | hg
        · exact absurd e'' e'
        · exact .inr ⟨g, hg, e''⟩
  · intro j x hx hf
    simp only [hobj] at hx
    split at hx
    · cases hx; exact y2
    · exact h.freed j x hx hf

theorem Inv.init : Inv {} [] := by
  constructor <;> simp [owns, sumBy]

/-- Every step keeps the invariant. -/
theorem Inv.step {s s' : GMem} (h : Inv s []) {op : GOp} (hs : s.step op = some s') : Inv s' [] := by
  simp only [GMem.step] at hs
  split at hs
  · cases hs
  cases op with
  | newToken t k text =>
    simp only [Option.bind_eq_bind, Option.bind_eq_some_iff] at hs
    obtain ⟨_, -, hs⟩ := hs
    cases hs
    exact h.alloc ..
  | newNode t k rs =>
    simp only [Option.bind_eq_bind, Option.bind_eq_some_iff] at hs
    obtain ⟨_, -, ⟨os, l⟩, h1, hs⟩ := hs
    cases hs
    have h2 := h.takes h1
    rw [List.append_nil] at h2
    have : s.hit os = s := h.hit fun o ho => (h2.owned (o := o)
      (Nat.lt_of_lt_of_le (List.count_pos_iff.mpr ho) (Nat.le_add_left ..))).choose_spec.2.2.2
    rw [this]
    exact h2.alloc ..
  | read t r path =>
    simp only [Option.bind_eq_bind, Option.bind_eq_some_iff] at hs
    obtain ⟨x, hx, _, -, o, ho, hs⟩ := hs
    cases hs
    rw [h.hit (h.trail path (Nat.lt_of_lt_of_le (owns_ref (ref?_mem hx).1) (Nat.le_add_right ..)))]
    exact h
  | clone t r path =>
    simp only [Option.bind_eq_bind, Option.bind_eq_some_iff] at hs
    obtain ⟨x, hx, _, -, o, ho, y, hy, hs⟩ := hs
    have hpos := Nat.lt_of_lt_of_le (owns_ref (ref?_mem hx).1) (Nat.le_add_right _ ([].count x.obj))
    rw [h.hit (h.trail path hpos)] at hs
    obtain ⟨y', y1, y2, -⟩ := h.owned (h.at path hpos ho)
    rw [hy] at y1; cases y1
    split at hs <;> cases hs
    · exact h.congr (refs := s.refs) rfl s.nextRef true
    · exact h.clone hy y2 (by assumption) t
  | drop t r =>
    simp only [Option.bind_eq_bind, Option.bind_eq_some_iff] at hs
    obtain ⟨_, -, ⟨x, l⟩, h1, hs⟩ := hs
    cases hs
    exact (h.take (popRef_perm h1).1).drop t
  | glue t =>
    simp only [Option.bind_eq_bind, Option.bind_eq_some_iff] at hs
    obtain ⟨⟨f, fs⟩, h1, hs⟩ := hs
    have hp := (popFrame_perm h1).1
    split at hs <;> cases hs
    · rename_i k ks hr
      exact (h.frame hp hr t).drop t
    · rename_i hr
      obtain ⟨y, y1, -, y3⟩ := h.frames f (hp.mem_iff.mpr (List.mem_cons_self ..))
      rw [h.hit (by simp [alive, y1, y3])]
      exact h.free hp hr
  | lend a t r =>
    simp only [Option.bind_eq_bind, Option.bind_eq_some_iff] at hs
    obtain ⟨x, hx, _, -, hs⟩ := hs
    cases hs
    exact h.congr (setHolders_obj ..) s.nextRef s.dead
  | giveBack t a r =>
    simp only [Option.bind_eq_bind, Option.bind_eq_some_iff] at hs
    obtain ⟨x, hx, _, -, hs⟩ := hs
    cases hs
    exact h.congr (setHolders_obj ..) s.nextRef s.dead

theorem Reach.inv {s : GMem} (h : s.Reach) : Inv s [] := by
  induction h with
  | init => exact .init
  | step op _ hs ih => exact ih.step hs

end GMem
end Rowan
