import Verif.Spec.Nest
import Verif.Props.GreenMem
/-!
# Nested destructors: lemmas

The definitions in this file are vocabulary of the proofs and model no code.
-/
namespace Rowan
namespace GMem

theorem popFrame_filter {t : Nat} : ∀ {l l' : List GFrame} {f : GFrame}, popFrame t l = some (f, l') →
    (l.filter fun f => f.thread == t) = f :: (l'.filter fun f => f.thread == t) ∧
    ∀ t', t' ≠ t → (l.filter fun f => f.thread == t') = l'.filter fun f => f.thread == t'
  | [], l', f, h => by simp [popFrame] at h
  | g :: l, l', f, h => by
    simp only [popFrame] at h
    split at h
    · rename_i hg
      cases h
      refine ⟨by rw [List.filter_cons_of_pos (by simp [hg])], fun t' ht' => ?_⟩
      rw [List.filter_cons_of_neg (by simp [hg]; exact fun e => ht' e.symm)]
    · rename_i hg
      simp only [Option.bind_eq_bind, Option.bind_eq_some_iff] at h
      obtain ⟨⟨g', l1⟩, h1, h2⟩ := h
      cases h2
      obtain ⟨a, b⟩ := popFrame_filter h1
      refine ⟨?_, fun t' ht' => ?_⟩
      · rw [List.filter_cons_of_neg (by simpa using hg), List.filter_cons_of_neg (by simpa using hg), a]
      · rw [List.filter_cons, List.filter_cons, b t' ht']

variable {s s' : GMem}

theorem idle_nest {t : Nat} : s.idle t = true ↔ s.nest t = [] := by
  simp [idle, nest, List.filter_eq_nil_iff]

/-- `dropRef` enters the destructor of the object, or none. -/
theorem dropRef_stack (s : GMem) (t o : Nat) : (s.dropRef t o).stack = s.stack ∨
    ∃ y, s.objs[o]? = some y ∧ y.count = 1 ∧ (s.dropRef t o).stack = ⟨t, o, y.kids⟩ :: s.stack := by
  simp only [dropRef]
  split
  · exact .inl rfl
  · rename_i y hy
    split
    · exact .inl rfl
    · rename_i hc
      exact .inr ⟨y, hy, by simpa using hc, rfl⟩

theorem dropRef_only {t o : Nat} {y : GObj} (hy : s.objs[o]? = some y) (hc : y.count = 1) :
    (s.dropRef t o).stack = ⟨t, o, y.kids⟩ :: s.stack := by
  simp only [dropRef, hy, hc, ne_eq, not_true, if_false]
  rfl

/-- What is left to a destructor are children of its node. -/
def Rests (s : GMem) : Prop := ∀ f ∈ s.stack, ∃ x, s.objs[f.obj]? = some x ∧ ∀ k ∈ f.rest, k ∈ x.kids

/-- The destructors of a thread are nested along children. -/
def Linked (s : GMem) : List Nat → Prop
  | [] => True
  | [_] => True
  | a :: b :: l => s.Kid b a ∧ Linked s (b :: l)

theorem Kid.ext {a b : Nat} (he : Ext s s') (h : s.Kid b a) : s'.Kid b a := by
  obtain ⟨x, h1, h2⟩ := h
  obtain ⟨x', e1, -, -, e4⟩ := he b x h1
  exact ⟨x', e1, e4 ▸ h2⟩

theorem Linked.ext (he : Ext s s') : ∀ {l : List Nat}, Linked s l → Linked s' l
  | [], _ => trivial
  | [_], _ => trivial
  | _ :: _ :: _, h => ⟨h.1.ext he, Linked.ext he h.2⟩

theorem Linked.tail : ∀ {a : Nat} {l : List Nat}, Linked s (a :: l) → Linked s l
  | _, [], _ => trivial
  | _, _ :: _, h => h.2

theorem Rests.same (h : Rests s) (he : Ext s s') (hst : s'.stack = s.stack) : Rests s' := by
  intro f hf
  rw [hst] at hf
  obtain ⟨x, x1, x2⟩ := h f hf
  obtain ⟨x', e1, -, -, e4⟩ := he _ x x1
  exact ⟨x', e1, e4 ▸ x2⟩

/-- How a step changes the destructors that are running. -/
inductive Moves (t : Nat) (s s' : GMem) : Prop
  | same : s'.stack = s.stack → Moves t s s'
  /-- a drop outside of destructors -/
  | enter (o y) : s.idle t = true → s.objs[o]? = some y → y.count = 1 → s'.stack = ⟨t, o, y.kids⟩ :: s.stack → Moves t s s'
  /-- a child is dropped -/
  | next (f fs k ks) : popFrame t s.stack = some (f, fs) → f.rest = k :: ks → s'.stack = ⟨t, f.obj, ks⟩ :: fs → Moves t s s'
  /-- a child is dropped and its destructor begins -/
  | deeper (f fs k ks y) : popFrame t s.stack = some (f, fs) → f.rest = k :: ks → s.objs[k]? = some y →
      s'.stack = ⟨t, k, y.kids⟩ :: ⟨t, f.obj, ks⟩ :: fs → Moves t s s'
  /-- a destructor ends -/
  | leave (f fs) : popFrame t s.stack = some (f, fs) → f.rest = [] → s'.stack = fs → Moves t s s'

theorem step_moves {op : GOp} (hs : s.step op = some s') : ∃ t, Moves t s s' := by
  cases op with
  | glue t =>
    refine ⟨t, ?_⟩
    simp only [GMem.step] at hs
    split at hs
    · cases hs
    simp only [Option.bind_eq_bind, Option.bind_eq_some_iff] at hs
    obtain ⟨⟨f, fs⟩, h1, hs⟩ := hs
    split at hs <;> cases hs
    · rename_i k ks hr
      rcases dropRef_stack { s with stack := ⟨t, f.obj, ks⟩ :: fs } t k with h | ⟨y, h2, h3, h⟩
      · exact .next f fs k ks h1 hr h
      · exact .deeper f fs k ks y h1 hr h2 h
    · rename_i hr
      exact .leave f fs h1 hr rfl
  | drop t r =>
    refine ⟨t, ?_⟩
    simp only [GMem.step] at hs
    split at hs
    · cases hs
    simp only [Option.bind_eq_bind, Option.bind_eq_some_iff] at hs
    obtain ⟨_, hg, ⟨x, l⟩, h1, hs⟩ := hs
    cases hs
    have hi : s.idle t = true := by
      cases h : s.idle t <;> simp [h, guard, failure] at hg ⊢
    rcases dropRef_stack { s with refs := l } t x.obj with h | ⟨y, h2, h3, h⟩
    · exact .same h
    · exact .enter x.obj y hi h2 h3 h
  | _ =>
    refine ⟨0, .same ?_⟩
    simp only [GMem.step] at hs
    split at hs
    · cases hs
    simp only [Option.bind_eq_bind, Option.bind_eq_some_iff] at hs
    first
    | obtain ⟨x, hx, _, -, o, ho, y, hy, hs⟩ := hs
      split at hs <;> cases hs <;> rfl
    | obtain ⟨x, hx, _, -, o, ho, hs⟩ := hs; cases hs; rfl
    | obtain ⟨_, -, ⟨x, l⟩, h1, hs⟩ := hs; cases hs; rfl
    | obtain ⟨x, hx, _, -, hs⟩ := hs; cases hs; rfl
    | obtain ⟨_, -, hs⟩ := hs; cases hs; rfl

/-- The invariant about nesting. -/
structure Nested (s : GMem) : Prop where
  rests : Rests s
  linked : ∀ t, Linked s (s.nest t)

theorem nest_cons_self {t : Nat} {f : GFrame} {fs : List GFrame} (hst : s.stack = f :: fs) (hf : f.thread = t) :
    s.nest t = f.obj :: (fs.filter fun f => f.thread == t).map GFrame.obj := by
  rw [nest, hst, List.filter_cons_of_pos (by simp [hf])]; rfl

theorem nest_cons_other {t : Nat} {f : GFrame} {fs : List GFrame} (hst : s.stack = f :: fs) (hf : f.thread ≠ t) :
    s.nest t = (fs.filter fun f => f.thread == t).map GFrame.obj := by
  rw [nest, hst, List.filter_cons_of_neg (by simpa using hf)]

theorem Nested.step (h : Nested s) {op : GOp} (hs : s.step op = some s') : Nested s' := by
  have he := (Ext.step hs).1
  obtain ⟨t, hm⟩ := step_moves hs
  have kids : ∀ {o : Nat} {y : GObj}, s.objs[o]? = some y → ∃ x, s'.objs[o]? = some x ∧ ∀ k ∈ y.kids, k ∈ x.kids := by
    intro o y hy
    obtain ⟨x', e1, -, -, e4⟩ := he o y hy
    exact ⟨x', e1, fun k hk => e4 ▸ hk⟩
  have old : ∀ f ∈ s.stack, ∃ x, s'.objs[f.obj]? = some x ∧ ∀ k ∈ f.rest, k ∈ x.kids := by
    intro f hf
    obtain ⟨x, x1, x2⟩ := h.rests f hf
    obtain ⟨x', e1, e2⟩ := kids x1
    exact ⟨x', e1, fun k hk => e2 k (x2 k hk)⟩
  cases hm with
  | same hst => exact ⟨h.rests.same he hst, fun t => by rw [nest, hst]; exact (h.linked t).ext he⟩
  | enter o y hi hy hc hst =>
    refine ⟨?_, fun t' => ?_⟩
    · intro f hf
      rw [hst] at hf
      rcases List.mem_cons.mp hf with rfl | hf
      · exact kids hy
      · exact old f hf
    · by_cases e : t = t'
      · subst e
        have hn := idle_nest.mp hi
        rw [nest_cons_self hst rfl]
        rw [nest] at hn
        rw [hn]; trivial
      · rw [nest_cons_other hst e]
        exact (h.linked t').ext he
  | next f fs k ks hp hr hst =>
    obtain ⟨p1, p2⟩ := popFrame_filter hp
    have hperm := (popFrame_perm hp).1
    have hmem : f ∈ s.stack := hperm.mem_iff.mpr (List.mem_cons_self ..)
    refine ⟨?_, fun t' => ?_⟩
    · intro g hg
      rw [hst] at hg
      rcases List.mem_cons.mp hg with rfl | hg
      · obtain ⟨x, x1, x2⟩ := old f hmem
        exact ⟨x, x1, fun c hc => x2 c (by rw [hr]; exact List.mem_cons_of_mem _ hc)⟩
      · exact old g (hperm.mem_iff.mpr (List.mem_cons_of_mem _ hg))
    · have : s'.nest t' = s.nest t' := by
        by_cases e : t = t'
        · subst e
          rw [nest_cons_self hst rfl, nest, p1]; rfl
        · rw [nest_cons_other hst e, nest, p2 t' (Ne.symm e)]
      rw [this]; exact (h.linked t').ext he
  | deeper f fs k ks y hp hr hy hst =>
    obtain ⟨p1, p2⟩ := popFrame_filter hp
    have hperm := (popFrame_perm hp).1
    have hmem : f ∈ s.stack := hperm.mem_iff.mpr (List.mem_cons_self ..)
    obtain ⟨x, x1, x2⟩ := old f hmem
    refine ⟨?_, fun t' => ?_⟩
    · intro g hg
      rw [hst] at hg
      rcases List.mem_cons.mp hg with rfl | hg
      · exact kids hy
      rcases List.mem_cons.mp hg with rfl | hg
      · exact ⟨x, x1, fun c hc => x2 c (by rw [hr]; exact List.mem_cons_of_mem _ hc)⟩
      · exact old g (hperm.mem_iff.mpr (List.mem_cons_of_mem _ hg))
    · by_cases e : t = t'
      · subst e
        rw [nest_cons_self hst rfl, List.filter_cons_of_pos (by simp), List.map_cons]
        refine ⟨⟨x, x1, x2 k (by rw [hr]; exact List.mem_cons_self ..)⟩, ?_⟩
        have := (h.linked t).ext he
        rw [nest, p1] at this
        exact this
      · rw [nest_cons_other hst e, List.filter_cons_of_neg (by simpa using e), ← p2 t' (Ne.symm e)]
        exact (h.linked t').ext he
  | leave f fs hp hr hst =>
    obtain ⟨p1, p2⟩ := popFrame_filter hp
    have hperm := (popFrame_perm hp).1
    refine ⟨?_, fun t' => ?_⟩
    · intro g hg
      rw [hst] at hg
      exact old g (hperm.mem_iff.mpr (List.mem_cons_of_mem _ hg))
    · have hl := (h.linked t').ext he
      rw [nest, hst]
      by_cases e : t = t'
      · subst e
        rw [nest, p1, List.map_cons] at hl
        exact hl.tail
      · rw [nest, p2 t' (Ne.symm e)] at hl
        exact hl

theorem Reach.nested (h : s.Reach) : Nested s := by
  induction h with
  | init => exact ⟨fun f hf => (nomatch hf), fun t => trivial⟩
  | step op _ hs ih => exact ih.step hs

/-- Nested destructors are a path of the tree at the outermost one. -/
theorem Linked.path : ∀ {l : List Nat} {a o : Nat}, Linked s (a :: l) → (a :: l).getLast? = some o →
    ∃ p, s.at? o p = some a ∧ p.length = l.length
  | [], a, o, _, h => by simp at h; subst h; exact ⟨[], rfl, rfl⟩
  | b :: l, a, o, hl, h => by
    rw [List.getLast?_cons_cons] at h
    obtain ⟨p, h1, h2⟩ := Linked.path hl.2 h
    obtain ⟨x, x1, x2⟩ := hl.1
    obtain ⟨i, hi, e⟩ := List.mem_iff_getElem.mp x2
    refine ⟨p ++ [i], ?_, by simp [h2]⟩
    have app : ∀ (p : List Nat) (o : Nat), s.at? o (p ++ [i]) = (s.at? o p).bind fun c => s.at? c [i] := by
      intro p
      induction p with
      | nil => intro o; rfl
      | cons j p ih =>
        intro o
        simp only [List.cons_append, GMem.at?, Option.bind_eq_bind]
        cases s.objs[o]? with
        | none => rfl
        | some x =>
          simp only [Option.bind_some]
          cases x.kids[j]? with
          | none => rfl
          | some c => simpa [GMem.at?] using ih c
    rw [app, h1, Option.bind_some]
    simp [GMem.at?, x1, List.getElem?_eq_getElem hi, e]

/-- As long as the thread stays in destructors, the outermost one is the same. -/
theorem Within.outer {t : Nat} (h : Within t s s') : ∀ {o : Nat}, (s.nest t).getLast? = some o → (s'.nest t).getLast? = some o := by
  induction h with
  | refl => exact id
  | step op _ hs hi ih =>
    rename_i s' s'' _
    intro o ho
    have ho := ih ho
    obtain ⟨t1, hm⟩ := step_moves hs
    have hne : s'.nest t ≠ [] := by intro e; rw [e] at ho; cases ho
    have hne' : s''.nest t ≠ [] := by intro e; rw [idle_nest.mpr e] at hi; cases hi
    have last : ∀ {a : Nat} {l : List Nat}, l ≠ [] → (a :: l).getLast? = l.getLast? := by
      intro a l hl
      cases l with
      | nil => exact absurd rfl hl
      | cons b l => rw [List.getLast?_cons_cons]
    cases hm with
    | same hst => rw [nest, hst]; exact ho
    | enter o' y hi' hy hc hst =>
      by_cases e : t1 = t
      · subst e; exact absurd (idle_nest.mp hi') hne
      · rw [nest_cons_other hst e]; exact ho
    | next f fs k ks hp hr hst =>
      obtain ⟨p1, p2⟩ := popFrame_filter hp
      by_cases e : t1 = t
      · subst e; rw [nest_cons_self hst rfl]; rw [nest, p1] at ho; exact ho
      · rw [nest_cons_other hst e, ← p2 t (Ne.symm e)]; exact ho
    | deeper f fs k ks y hp hr hy hst =>
      obtain ⟨p1, p2⟩ := popFrame_filter hp
      by_cases e : t1 = t
      · subst e
        rw [nest_cons_self hst rfl, List.filter_cons_of_pos (by simp), List.map_cons, List.getLast?_cons_cons]
        rw [nest, p1] at ho; exact ho
      · rw [nest_cons_other hst e, List.filter_cons_of_neg (by simpa using e), ← p2 t (Ne.symm e)]; exact ho
    | leave f fs hp hr hst =>
      obtain ⟨p1, p2⟩ := popFrame_filter hp
      by_cases e : t1 = t
      · subst e
        rw [nest, p1, List.map_cons] at ho
        rw [nest, hst] at hne' ⊢
        rwa [last hne'] at ho
      · rw [nest, hst, ← p2 t (Ne.symm e)]; exact ho

theorem Within.reach {t : Nat} (h : Within t s s') (hr : s.Reach) : s'.Reach := by
  induction h with
  | refl => exact hr
  | step op _ hs _ ih => exact ih.step op hs

theorem Within.steps {t : Nat} (h : Within t s s') : s.Steps s' := by
  induction h with
  | refl => exact .refl _
  | step op _ hs _ ih => exact ih.step op hs

end GMem
end Rowan
