import Verif.GreenMemLemmas
import Verif.Spec.GreenMem
/-!
# Properties of the memory of green trees: C51
-/
namespace Rowan
namespace GMem

variable {s s' : GMem}

theorem Below.trans {a b c : Nat} (h1 : s.Below a b) (h2 : s.Below b c) : s.Below a c := by
  induction h2 with
  | refl => exact h1
  | step _ hx hd ih => exact .step ih hx hd

theorem Inv.below_owned (h : Inv s []) {o c : Nat} (ho : 0 < s.owns o) (hb : s.Below o c) : 0 < s.owns c := by
  induction hb with
  | refl => exact ho
  | step _ hx hd ih =>
    obtain ⟨y, y1, y2, -⟩ := h.owned (Nat.lt_of_lt_of_le ih (Nat.le_add_right ..))
    rw [hx] at y1; cases y1
    exact owns_kid hx y2 hd

theorem owns_rest {f : GFrame} {k : Nat} (h : f ∈ s.stack) (hk : k ∈ f.rest) : 0 < s.owns k := by
  have : f.rest.count k ≤ sumBy (fun f : GFrame => f.rest.count k) s.stack :=
    le_sumBy (f := fun f : GFrame => f.rest.count k) h
  have := List.count_pos_iff.mpr hk
  simp only [owns]; omega

/-- What is still referenced can be traced to a reference of the program or of a running destructor. -/
theorem Inv.traced (h : Inv s []) : ∀ (n o : Nat), s.objs.length ≤ o + n → 0 < s.owns o → s.Held o ∨ s.Pending o
  | 0, o, hn, ho => absurd (h.dom o (by simpa using ho)) (by omega)
  | n + 1, o, hn, ho => by
    have : 0 < sumBy (fun x : GRef => if x.obj = o then 1 else 0) s.refs ∨ 0 < sumBy (GObj.refsTo o) s.objs ∨
        0 < sumBy (fun f : GFrame => f.rest.count o) s.stack := by
      simp only [owns] at ho; omega
    rcases this with h1 | h1 | h1
    · obtain ⟨x, hx, h2⟩ := sumBy_pos h1
      split at h2
      · rename_i e; exact .inl ⟨x, hx, e ▸ .refl _⟩
      · omega
    · obtain ⟨x, hx, h2⟩ := sumBy_pos h1
      simp only [GObj.refsTo] at h2
      split at h2
      · omega
      · rename_i h0
        obtain ⟨j, hj, e⟩ := List.mem_iff_getElem.mp hx
        have hjx : s.objs[j]? = some x := by rw [List.getElem?_eq_getElem hj, e]
        have hk := List.count_pos_iff.mp h2
        have hlt := h.below j x hjx o hk
        have hc := h.count j x hjx
        simp only [List.count_nil] at hc
        rcases h.traced n j (by omega) (by omega) with ⟨y, hy, hb⟩ | ⟨f, hf, k, hk', hb⟩
        · exact .inl ⟨y, hy, .step hb hjx hk⟩
        · exact .inr ⟨f, hf, k, hk', .step hb hjx hk⟩
    · obtain ⟨f, hf, h2⟩ := sumBy_pos h1
      exact .inr ⟨f, hf, o, List.count_pos_iff.mp h2, .refl _⟩

/-- **C51, memory safety.**  Whatever the threads do with green trees, in any order: no freed allocation is accessed or
freed again, and what a thread can get at through its references is there. -/
theorem C51_safe (h : s.Reach) : s.ub = false ∧ ∀ o, s.Held o → o < s.objs.length ∧ ¬ s.Freed o ∧ ¬ s.Dying o := by
  have hi := h.inv
  refine ⟨hi.ub, fun o ⟨x, hx, hb⟩ => ?_⟩
  obtain ⟨y, y1, y2, y3, -⟩ := hi.owned (Nat.lt_of_lt_of_le (hi.below_owned (owns_ref hx) hb) (Nat.le_add_right ..))
  refine ⟨(List.getElem?_eq_some_iff.mp y1).1, ?_, ?_⟩
  · rintro ⟨z, z1, z2⟩
    rw [y1] at z1; cases z1
    rw [y3] at z2; cases z2
  · rintro ⟨f, hf, rfl⟩
    obtain ⟨z, z1, z2, -⟩ := hi.frames f hf
    rw [y1] at z1; cases z1; omega

/-- What counts as undefined behaviour: a step that accesses an address where there is no allocation, or whose memory has been freed. -/
theorem C51_ub_iff (s : GMem) (hu : s.ub = false) (os : List Nat) :
    (s.hit os).ub = true ↔ ∃ o ∈ os, s.objs.length ≤ o ∨ s.Freed o := by
  have ha : ∀ o, s.alive o = false ↔ s.objs.length ≤ o ∨ s.Freed o := by
    intro o
    rw [alive, Freed]
    cases h : s.objs[o]? with
    | none => simp [List.getElem?_eq_none_iff.mp h]
    | some x =>
      have := (List.getElem?_eq_some_iff.mp h).1
      simp; omega
  simp only [hit, hu, Bool.false_or, Bool.not_eq_true', List.all_eq_false, Bool.not_eq_true, ha]

/-- **C51, nothing leaks.**  Every allocation that the program cannot get at any more has been freed, is being freed, or
will be dropped by a destructor that is running; and these exclude each other. -/
theorem C51_exact (h : s.Reach) {o : Nat} (ho : o < s.objs.length) :
    (s.Freed o ∨ s.Dying o ∨ s.Pending o ∨ s.Held o) ∧
    (s.Freed o → ¬ s.Dying o ∧ ¬ s.Pending o ∧ ¬ s.Held o) ∧ (s.Dying o → ¬ s.Pending o ∧ ¬ s.Held o) := by
  have hi := h.inv
  obtain ⟨x, hx⟩ : ∃ x, s.objs[o]? = some x := ⟨_, List.getElem?_eq_getElem ho⟩
  have hpos : ∀ {c}, (s.Pending c ∨ s.Held c) → 0 < s.owns c := by
    rintro c (⟨f, hf, k, hk, hb⟩ | ⟨y, hy, hb⟩)
    · exact hi.below_owned (owns_rest hf hk) hb
    · exact hi.below_owned (owns_ref hy) hb
  have hc := hi.count o x hx
  simp only [List.count_nil] at hc
  have hzero : x.count = 0 → ¬ s.Pending o ∧ ¬ s.Held o := fun h0 =>
    ⟨fun hp => by have := hpos (.inl hp); omega, fun hp => by have := hpos (.inr hp); omega⟩
  refine ⟨?_, ?_, ?_⟩
  · rcases Nat.eq_zero_or_pos x.count with h0 | h0
    · rcases hi.zero o x hx h0 with h1 | h1
      · exact .inl ⟨x, hx, h1⟩
      · exact .inr (.inl h1)
    · rcases hi.traced s.objs.length o (by omega) (by omega) with h1 | h1
      · exact .inr (.inr (.inr h1))
      · exact .inr (.inr (.inl h1))
  · rintro ⟨y, y1, y2⟩
    rw [hx] at y1; cases y1
    refine ⟨?_, hzero (hi.freed o x hx y2)⟩
    rintro ⟨f, hf, rfl⟩
    obtain ⟨z, z1, -, z3⟩ := hi.frames f hf
    rw [hx] at z1; cases z1
    rw [y2] at z3; cases z3
  · rintro ⟨f, hf, rfl⟩
    obtain ⟨z, z1, z2, -⟩ := hi.frames f hf
    rw [hx] at z1; cases z1
    exact hzero z2

/-- **C51**, between destructors: freed is exactly what is not part of a tree that somebody holds. -/
theorem C51_freed_iff (h : s.Reach) (hs : s.stack = []) {o : Nat} (ho : o < s.objs.length) : s.Freed o ↔ ¬ s.Held o := by
  obtain ⟨h1, h2, -⟩ := C51_exact h ho
  refine ⟨fun hf => (h2 hf).2.2, fun hn => ?_⟩
  rcases h1 with h1 | ⟨f, hf, -⟩ | ⟨f, hf, -⟩ | h1
  · exact h1
  · rw [hs] at hf; cases hf
  · rw [hs] at hf; cases hf
  · exact absurd h1 hn

/-- **C51**: when the last reference is gone and the destructors are done, all memory has been freed. -/
theorem C51_all_freed (h : s.Reach) (hr : s.refs = []) (hs : s.stack = []) {o : Nat} (ho : o < s.objs.length) : s.Freed o := by
  rw [C51_freed_iff h hs ho]
  rintro ⟨x, hx, -⟩
  rw [hr] at hx; cases hx

/-! ### Destructors -/

/-- The steps that destructors can still make. -/
def work (s : GMem) : Nat :=
  sumBy (fun x : GObj => if x.count = 0 then 0 else x.kids.length + 1) s.objs + sumBy (fun f : GFrame => f.rest.length + 1) s.stack

theorem Inv.work_drop {E : List Nat} {o : Nat} (h : Inv s (o :: E)) (t : Nat) :
    (s.dropRef t o).work = s.work ∧ (s.dropRef t o).refs = s.refs ∧ (s.dropRef t o).dead = s.dead := by
  obtain ⟨y, h1, h2, h3, h4⟩ := h.owned (o := o) (by rw [List.count_cons_self]; omega)
  have hhit : s.hit [o] = s := h.hit (by simpa using h4)
  have hw : (y.count + word - 1) % word = y.count - 1 := by
    have := h.few o y h1
    have hword : word = 2 ^ 64 := rfl
    rw [show y.count + word - 1 = (y.count - 1) + word by omega, Nat.add_mod_right]
    exact Nat.mod_eq_of_lt (by omega)
  have := sumBy_modify (f := fun x : GObj => if x.count = 0 then 0 else x.kids.length + 1)
    (u := fun x : GObj => { x with count := y.count - 1 }) h1
  simp only [dropRef, h1, hhit, hw]
  simp only [if_neg (by omega : ¬ y.count = 0)] at this
  split
  · rename_i hne
    rw [if_neg (by omega)] at this
    refine ⟨?_, rfl, rfl⟩
    simp only [work, setCount]; omega
  · rename_i heq
    simp only [ne_eq, Decidable.not_not] at heq
    rw [if_pos (by omega)] at this
    refine ⟨?_, rfl, rfl⟩
    simp only [work, setCount, sumBy]; omega

theorem Inv.work_glue (h : Inv s []) {t : Nat} (hs : s.step (.glue t) = some s') :
    s'.work + 1 = s.work ∧ s'.refs = s.refs ∧ s'.dead = s.dead := by
  simp only [GMem.step] at hs
  split at hs
  · cases hs
  simp only [Option.bind_eq_bind, Option.bind_eq_some_iff] at hs
  obtain ⟨⟨f, fs⟩, h1, hs⟩ := hs
  have hp := (popFrame_perm h1).1
  split at hs <;> cases hs
  · rename_i k ks hr
    obtain ⟨a, b, c⟩ := (h.frame hp hr t).work_drop t
    refine ⟨?_, b, c⟩
    rw [a]
    simp only [work, sumBy_perm hp, sumBy]
    have : f.rest.length = ks.length + 1 := congrArg List.length hr
    omega
  · rename_i hr
    obtain ⟨y, y1, y2, y3⟩ := h.frames f (hp.mem_iff.mpr (List.mem_cons_self ..))
    rw [h.hit (by simp [alive, y1, y3])]
    refine ⟨?_, rfl, rfl⟩
    have := sumBy_modify (f := fun x : GObj => if x.count = 0 then 0 else x.kids.length + 1)
      (u := fun x : GObj => { x with freed := true }) y1
    simp only at this
    have hl : f.rest.length = 0 := congrArg List.length hr
    simp only [work, sumBy_perm hp, sumBy]
    omega

theorem glue_enabled (hd : s.dead = false) (hs : s.stack ≠ []) : ∃ t s', s.step (.glue t) = some s' := by
  cases hl : s.stack with
  | nil => exact absurd hl hs
  | cons f fs =>
    refine ⟨f.thread, ?_⟩
    simp only [GMem.step, hd, hl, popFrame, if_true]
    cases hr : f.rest <;> simp [hr]

theorem Glue.append {m n : Nat} {s'' : GMem} (h : Glue m s s') (h' : Glue n s' s'') : Glue (m + n) s s'' := by
  induction h with
  | refl => rw [Nat.zero_add]; exact h'
  | step t hs _ ih => rw [Nat.add_right_comm]; exact .step t hs (ih h')

theorem Glue.reach {n : Nat} (h : Glue n s s') (hr : s.Reach) : s'.Reach := by
  induction h with
  | refl => exact hr
  | step t hs _ ih => exact ih (hr.step (.glue t) hs)

/-! ### What is stored never changes -/

/-- All that is stored in `s` is stored in `s'`. -/
def Ext (s s' : GMem) : Prop :=
  ∀ (o : Nat) (x : GObj), s.objs[o]? = some x →
    ∃ x', s'.objs[o]? = some x' ∧ x'.kind = x.kind ∧ x'.text = x.text ∧ x'.kids = x.kids

theorem Ext.rfl' : Ext s s := fun _ x hx => ⟨x, hx, rfl, rfl, rfl⟩

theorem Ext.trans {s'' : GMem} (h : Ext s s') (h' : Ext s' s'') : Ext s s'' := by
  intro o x hx
  obtain ⟨y, y1, y2, y3, y4⟩ := h o x hx
  obtain ⟨z, z1, z2, z3, z4⟩ := h' o y y1
  exact ⟨z, z1, z2.trans y2, z3.trans y3, z4.trans y4⟩

theorem Ext.modify {i : Nat} {u : GObj → GObj} (he : s'.objs = s.objs.modify i u)
    (hu : ∀ x, (u x).kind = x.kind ∧ (u x).text = x.text ∧ (u x).kids = x.kids) :
    Ext s s' ∧ s'.objs.length = s.objs.length := by
  refine ⟨?_, by rw [he, List.length_modify]⟩
  intro o x hx
  rw [he, getElem?_modify', hx]
  split
  · exact ⟨u x, rfl, hu x⟩
  · exact ⟨x, rfl, rfl, rfl, rfl⟩

theorem Ext.dropRef (t o : Nat) : Ext s (s.dropRef t o) ∧ (s.dropRef t o).objs.length = s.objs.length := by
  simp only [GMem.dropRef]
  split
  · exact ⟨.rfl', rfl⟩
  · split
    · exact Ext.modify (i := o) rfl fun _ => ⟨rfl, rfl, rfl⟩
    · exact Ext.modify (i := o) rfl fun _ => ⟨rfl, rfl, rfl⟩

theorem Ext.alloc {t : Nat} {k : SyntaxKind} {text : Option (List Char)} {os : List Nat} : Ext s (s.alloc t k text os) := by
  intro o x hx
  refine ⟨x, ?_, rfl, rfl, rfl⟩
  simp only [GMem.alloc]
  rw [List.getElem?_append_left (List.getElem?_eq_some_iff.mp hx).1]; exact hx

theorem Ext.glue {t : Nat} (hs : s.step (.glue t) = some s') : Ext s s' ∧ s'.objs.length = s.objs.length := by
  simp only [GMem.step] at hs
  split at hs
  · cases hs
  simp only [Option.bind_eq_bind, Option.bind_eq_some_iff] at hs
  obtain ⟨⟨f, fs⟩, h1, hs⟩ := hs
  split at hs <;> cases hs
  · rename_i k ks hr
    exact Ext.dropRef (s := { s with stack := ⟨t, f.obj, ks⟩ :: fs }) t k
  · exact Ext.modify (s := s) (i := f.obj) rfl fun _ => ⟨rfl, rfl, rfl⟩

theorem Ext.step {op : GOp} (hs : s.step op = some s') : Ext s s' ∧ (s'.objs.length = s.objs.length ∨
    ∃ s0 : GMem, ∃ t k text os, s0.objs = s.objs ∧ s' = s0.alloc t k text os ∧ (text.isSome = true → os = [])) := by
  cases op with
  | glue t => exact ⟨(Ext.glue hs).1, .inl (Ext.glue hs).2⟩
  | newToken t k text =>
    simp only [GMem.step] at hs
    split at hs
    · cases hs
    simp only [Option.bind_eq_bind, Option.bind_eq_some_iff] at hs
    obtain ⟨_, -, hs⟩ := hs
    cases hs
    exact ⟨.alloc, .inr ⟨s, t, k, some text, [], rfl, rfl, fun _ => rfl⟩⟩
  | newNode t k rs =>
    simp only [GMem.step] at hs
    split at hs
    · cases hs
    simp only [Option.bind_eq_bind, Option.bind_eq_some_iff] at hs
    obtain ⟨_, -, ⟨os, l⟩, h1, hs⟩ := hs
    cases hs
    exact ⟨Ext.alloc (s := { s.hit os with refs := l }), .inr ⟨{ s.hit os with refs := l }, t, k, none, os, rfl, rfl, fun h => by cases h⟩⟩
  | _ =>
    simp only [GMem.step] at hs
    split at hs
    · cases hs
    simp only [Option.bind_eq_bind, Option.bind_eq_some_iff] at hs
    first
    | obtain ⟨_, -, ⟨x, l⟩, h1, hs⟩ := hs
      cases hs
      have := Ext.dropRef (s := { s with refs := l })
      exact ⟨(this _ _).1, .inl (this _ _).2⟩
    | obtain ⟨x, hx, _, -, o, ho, hs⟩ := hs; cases hs; exact ⟨.rfl', .inl rfl⟩
    | obtain ⟨x, hx, _, -, hs⟩ := hs; cases hs; exact ⟨.rfl', .inl rfl⟩
    | obtain ⟨x, hx, _, -, o, ho, y, hy, hs⟩ := hs
      split at hs <;> cases hs
      · exact ⟨.rfl', .inl rfl⟩
      · refine And.imp_right Or.inl ?_
        exact Ext.modify (i := o) rfl fun _ => ⟨rfl, rfl, rfl⟩

/-- Tokens have no children. -/
theorem Reach.leaf (h : s.Reach) : ∀ (o : Nat) (x : GObj), s.objs[o]? = some x → x.text.isSome = true → x.kids = [] := by
  induction h with
  | init => intro o x hx; simp at hx
  | @step s s' op _ hs ih =>
    intro o x hx ht
    obtain ⟨he, hl⟩ := Ext.step hs
    have old : o < s.objs.length → x.kids = [] := by
      intro ho
      obtain ⟨y, hy⟩ : ∃ y, s.objs[o]? = some y := ⟨_, List.getElem?_eq_getElem ho⟩
      obtain ⟨z, z1, -, z3, z4⟩ := he o y hy
      rw [hx] at z1; cases z1
      rw [z4]; exact ih o y hy (by rw [← z3]; exact ht)
    rcases hl with hl | ⟨s0, t, k, text, os, h1, rfl, h3⟩
    · exact old (by rw [← hl]; exact (List.getElem?_eq_some_iff.mp hx).1)
    · rcases Nat.lt_or_ge o s.objs.length with ho | ho
      · exact old ho
      · simp only [GMem.alloc, h1] at hx
        rw [List.getElem?_append_right ho] at hx
        obtain ⟨h4, h5⟩ := List.getElem?_eq_some_iff.mp hx
        simp at h5
        subst h5
        exact h3 ht

mutual
theorem Shows.ext {o : Nat} {T : Tree} (h : Ext s s') : s.Shows o T → s'.Shows o T
  | .token hx ht hk => by
    obtain ⟨x', h1, h2, h3, h4⟩ := h _ _ hx
    rw [← h2]
    exact .token h1 (h3.trans ht) (h4.trans hk)
  | .node hx ht ha => by
    obtain ⟨x', h1, h2, h3, h4⟩ := h _ _ hx
    rw [← h2]
    exact .node h1 (h3.trans ht) (by rw [h4]; exact ShowsAll.ext h ha)
theorem ShowsAll.ext {os : List Nat} {Ts : List Tree} (h : Ext s s') : s.ShowsAll os Ts → s'.ShowsAll os Ts
  | .nil => .nil
  | .cons a b => .cons (Shows.ext h a) (ShowsAll.ext h b)
end

theorem ShowsAll.get {c : Nat} : ∀ {os : List Nat} {Ts : List Tree} {i : Nat}, s.ShowsAll os Ts → os[i]? = some c →
    ∃ T, Ts[i]? = some T ∧ s.Shows c T
  | _, _, 0, .cons a _, hc => by simp at hc; subst hc; exact ⟨_, rfl, a⟩
  | _, _, i + 1, .cons _ b, hc => by
    simp only [List.getElem?_cons_succ] at hc ⊢
    exact ShowsAll.get (i := i) b hc
  | _, _, _, .nil, hc => by simp at hc

theorem ShowsAll.length : ∀ {os : List Nat} {Ts : List Tree}, s.ShowsAll os Ts → os.length = Ts.length
  | _, _, .nil => rfl
  | _, _, .cons _ b => congrArg (· + 1) b.length

theorem popRefs_perm {t : Nat} : ∀ {rs os : List Nat} {l l' : List GRef}, popRefs t rs l = some (os, l') →
    l.Perm (rs.zipWith (fun r o => ⟨r, o, [t]⟩) os ++ l') ∧ os.length = rs.length
  | [], os, l, l', h => by simp only [popRefs, Option.some.injEq, Prod.mk.injEq] at h; obtain ⟨rfl, rfl⟩ := h; exact ⟨.refl _, rfl⟩
  | r :: rs, os, l, l', h => by
    simp only [popRefs, Option.bind_eq_bind, Option.bind_eq_some_iff] at h
    obtain ⟨⟨x, m⟩, h1, ⟨os', m'⟩, h2, h3⟩ := h
    cases h3
    obtain ⟨p1, p2, p3⟩ := popRef_perm h1
    obtain ⟨p4, p5⟩ := popRefs_perm h2
    obtain ⟨id, obj, hol⟩ := x
    simp only at p2 p3
    subst p2 p3
    exact ⟨p1.trans (p4.cons _), by simp [p5]⟩

theorem Shows.unique {T T' : Tree} {o : Nat} (h0 : s.Shows o T) (h1 : s.Shows o T') : T = T' := by
  have key : ∀ {o : Nat} {T : Tree}, s.Shows o T → ∀ T', s.Shows o T' → T = T' := by
    intro o T h
    refine Shows.rec (motive_1 := fun o T _ => ∀ T', s.Shows o T' → T = T')
      (motive_2 := fun os Ts _ => ∀ Ts', s.ShowsAll os Ts' → Ts = Ts') ?_ ?_ ?_ ?_ h
    · intro o x text hx ht _ T' h'
      cases h' with
      | token h1 h2 =>
        rw [hx] at h1
        have h3 := Option.some.inj h1
        subst h3
        rw [ht] at h2; cases h2; rfl
      | node h1 h2 =>
        rw [hx] at h1
        have h3 := Option.some.inj h1
        subst h3
        rw [ht] at h2; cases h2
    · intro o x ts hx ht _ ih T' h'
      cases h' with
      | token h1 h2 =>
        rw [hx] at h1
        have h3 := Option.some.inj h1
        subst h3
        rw [ht] at h2; cases h2
      | node h1 h2 h4 =>
        rw [hx] at h1
        have h3 := Option.some.inj h1
        subst h3
        rw [ih _ h4]
    · intro Ts' h'; cases h'; rfl
    · intro o os t ts _ _ ih1 ih2 Ts' h'
      cases h' with
      | cons a b => rw [ih1 _ a, ih2 _ b]
  exact key h0 _ h1

/-- **C51, contents.**  What is stored never changes: an allocation holds the same tree forever. -/
theorem C51_immutable (h : s.Steps s') {o : Nat} {T : Tree} (ht : s.Shows o T) : s'.Shows o T := by
  have : Ext s s' := by
    induction h with
    | refl => exact .rfl'
    | step op _ hs ih => exact ih.trans (Ext.step hs).1
  exact ht.ext this

/-- Every allocation made by the program holds a tree. -/
theorem Inv.shows (h : Inv s []) (hw : ∀ (o : Nat) (x : GObj), s.objs[o]? = some x → x.text.isSome = true → x.kids = []) :
    ∀ (n o : Nat), o < n → o < s.objs.length → ∃ T, s.Shows o T
  | 0, o, hn, _ => by omega
  | n + 1, o, hn, ho => by
    obtain ⟨x, hx⟩ : ∃ x, s.objs[o]? = some x := ⟨_, List.getElem?_eq_getElem ho⟩
    cases ht : x.text with
    | some text => exact ⟨_, .token hx ht (hw o x hx (by rw [ht]; rfl))⟩
    | none =>
      have hk := h.below o x hx
      have : ∀ ks : List Nat, (∀ k ∈ ks, k < o) → ∃ Ts, s.ShowsAll ks Ts := by
        intro ks
        induction ks with
        | nil => exact fun _ => ⟨[], .nil⟩
        | cons k ks ih =>
          intro hk
          obtain ⟨Ts, hT⟩ := ih fun c hc => hk c (List.mem_cons_of_mem _ hc)
          have hko := hk k (List.mem_cons_self ..)
          obtain ⟨T, hT'⟩ := h.shows hw n k (by omega) (by omega)
          exact ⟨T :: Ts, .cons hT' hT⟩
      obtain ⟨Ts, hT⟩ := this x.kids hk
      exact ⟨_, .node hx ht hT⟩

/-- **C51, navigation.**  Following child indices in memory is following them in the tree; for a reference, every position
of the tree is there. -/
theorem C51_at : ∀ (p : List Nat) {o : Nat} {T : Tree}, s.Shows o T →
    (∀ c, s.at? o p = some c → ∃ T', T.at? p = some T' ∧ s.Shows c T') ∧
    (∀ T', T.at? p = some T' → ∃ c, s.at? o p = some c ∧ s.Shows c T')
  | [], o, T, ht => by
    simp only [GMem.at?, Tree.at?_nil, Option.some.injEq]
    exact ⟨fun c hc => ⟨T, rfl, hc ▸ ht⟩, fun T' hT => ⟨o, rfl, hT ▸ ht⟩⟩
  | i :: p, o, T, ht => by
    cases ht with
    | token hx htx hk =>
      simp [GMem.at?, Tree.at?_cons, hx, hk, Tree.children]
    | @node _ x ts hx htx ha =>
      simp only [GMem.at?, Tree.at?_cons, hx, Option.bind_eq_bind, Option.bind_some, Tree.children, Option.bind_eq_some_iff]
      constructor
      · rintro c ⟨d, hd, hc⟩
        obtain ⟨T1, h1, h2⟩ := ha.get hd
        obtain ⟨T2, h3, h4⟩ := (C51_at p h2).1 c hc
        exact ⟨T2, ⟨T1, h1, h3⟩, h4⟩
      · rintro T' ⟨T1, h1, h2⟩
        have hl := ha.length
        obtain ⟨d, hd⟩ : ∃ d, x.kids[i]? = some d :=
          ⟨_, List.getElem?_eq_getElem (by rw [hl]; exact (List.getElem?_eq_some_iff.mp h1).1)⟩
        obtain ⟨T1', h1', h2'⟩ := ha.get hd
        rw [h1] at h1'; cases h1'
        obtain ⟨c, h3, h4⟩ := (C51_at p h2').2 T' h2
        exact ⟨c, ⟨d, hd, h3⟩, h4⟩

/-- **C51.**  Every allocation holds exactly one tree. -/
theorem C51_holds_tree (h : s.Reach) {o : Nat} (ho : o < s.objs.length) :
    ∃ T, s.Shows o T ∧ ∀ T', s.Shows o T' → T' = T := by
  obtain ⟨T, hT⟩ := h.inv.shows h.leaf (o + 1) o (Nat.lt_succ_self _) ho
  exact ⟨T, hT, fun T' h' => h'.unique hT⟩

/-- **C51, construction.**  A new token is a reference to a token of this kind with this text. -/
theorem C51_new_token {t : Nat} {k : SyntaxKind} {text : List Char} (hs : s.step (.newToken t k text) = some s') :
    ∃ x, s'.refs = x :: s.refs ∧ s'.Shows x.obj (.token k text) ∧ x.holders = [t] := by
  simp only [GMem.step] at hs
  split at hs
  · cases hs
  simp only [Option.bind_eq_bind, Option.bind_eq_some_iff] at hs
  obtain ⟨_, -, hs⟩ := hs
  cases hs
  refine ⟨_, rfl, ?_, rfl⟩
  exact Shows.token (x := ⟨1, k, some text, [], false⟩) (by simp [GMem.alloc]) rfl rfl

/-- **C51, construction.**  A new node is a reference to a node of this kind with the children handed over, in order. -/
theorem C51_new_node (h : s.Reach) {t : Nat} {k : SyntaxKind} {rs : List Nat} (hs : s.step (.newNode t k rs) = some s') :
    ∃ x refs os Ts, s'.refs = x :: refs ∧ s.refs.Perm (rs.zipWith (fun r o => ⟨r, o, [t]⟩) os ++ refs) ∧
      os.length = rs.length ∧ s.ShowsAll os Ts ∧ s'.Shows x.obj (.node k Ts) ∧ x.holders = [t] := by
  have hsafe := (h.step _ hs)
  simp only [GMem.step] at hs
  split at hs
  · cases hs
  simp only [Option.bind_eq_bind, Option.bind_eq_some_iff] at hs
  obtain ⟨_, -, ⟨os, l⟩, h1, hs⟩ := hs
  cases hs
  obtain ⟨h2, h3⟩ := popRefs_perm h1
  have hlt : ∀ o ∈ os, o < s.objs.length := by
    have hi := h.inv.takes h1
    intro o ho
    exact hi.dom o (Nat.lt_of_lt_of_le (List.count_pos_iff.mpr (List.mem_append.mpr (.inl ho))) (Nat.le_add_left ..))
  obtain ⟨Ts, hT⟩ : ∃ Ts, s.ShowsAll os Ts := by
    clear h1 h2 h3 hsafe
    induction os with
    | nil => exact ⟨[], .nil⟩
    | cons o os ih =>
      obtain ⟨Ts, hT⟩ := ih fun c hc => hlt c (List.mem_cons_of_mem _ hc)
      obtain ⟨T, hT', -⟩ := C51_holds_tree h (hlt o (List.mem_cons_self ..))
      exact ⟨T :: Ts, .cons hT' hT⟩
  refine ⟨_, l, os, Ts, rfl, h2, h3, hT, ?_, rfl⟩
  refine Shows.node (x := ⟨1, k, none, os, false⟩) ?_ rfl (ShowsAll.ext (s := s) (fun o x hx =>
    Ext.alloc (s := { s.hit os with refs := l }) o x hx) hT)
  simp [GMem.alloc, hit]

/-- **C51, cloning.**  `clone` and `to_owned` return a reference to the same allocation, hence the same tree, unless the
process is aborted because there are more than `isize::MAX` references. -/
theorem C51_clone {t r : Nat} {p : List Nat} (hs : s.step (.clone t r p) = some s') :
    ∃ x ∈ s.refs, x.id = r ∧ t ∈ x.holders ∧ ∃ o, s.at? x.obj p = some o ∧
      ((∃ id, s'.refs = ⟨id, o, [t]⟩ :: s.refs ∧ s'.dead = s.dead) ∨
        (s'.dead = true ∧ ∃ y, s.objs[o]? = some y ∧ 2 ^ 63 ≤ y.count)) := by
  simp only [GMem.step] at hs
  split at hs
  · cases hs
  simp only [Option.bind_eq_bind, Option.bind_eq_some_iff] at hs
  obtain ⟨x, hx, _, hg, o, ho, y, hy, hs⟩ := hs
  obtain ⟨h1, h2⟩ := ref?_mem hx
  simp only [guard] at hg
  split at hg
  · rename_i hg'
    refine ⟨x, h1, h2, hg'.1, o, ho, ?_⟩
    split at hs <;> cases hs
    · rename_i hc
      have hmax : maxRefcount = 2 ^ 63 - 1 := rfl
      exact .inr ⟨rfl, y, hy, by omega⟩
    · exact .inl ⟨s.nextRef, rfl, rfl⟩
  · cases hg

/-! ### Destructors end -/

theorem Glue.ext {n : Nat} (h : Glue n s s') : Ext s s' ∧ s'.objs.length = s.objs.length := by
  induction h with
  | refl => exact ⟨.rfl', rfl⟩
  | step t hs _ ih => exact ⟨(Ext.glue hs).1.trans ih.1, ih.2.trans (Ext.glue hs).2⟩

theorem Below.ext {o c : Nat} (h : Ext s s') (hb : s.Below o c) : s'.Below o c := by
  induction hb with
  | refl => exact .refl _
  | step _ hx hd ih =>
    obtain ⟨x', h1, -, -, h4⟩ := h _ _ hx
    exact .step ih h1 (h4 ▸ hd)

/-- When nothing is being destroyed, the counters are positive for what is held. -/
theorem Inv.count_held (h : Inv s []) (hs : s.stack = []) {o : Nat} {x : GObj} (hx : s.objs[o]? = some x) :
    x.count = 0 ↔ ¬ s.Held o := by
  have hc := h.count o x hx
  simp only [List.count_nil] at hc
  constructor
  · rintro h0 ⟨y, hy, hb⟩
    have := h.below_owned (owns_ref hy) hb
    omega
  · intro hn
    rcases Nat.eq_zero_or_pos x.count with h0 | h0
    · exact h0
    · rcases h.traced s.objs.length o (by omega) (by omega) with h1 | ⟨f, hf, -⟩
      · exact absurd h1 hn
      · rw [hs] at hf; cases hf

theorem sumBy_congr {α : Type} {f g : α → Nat} : ∀ {l m : List α}, l.length = m.length →
    (∀ (i : Nat) (x y : α), l[i]? = some x → m[i]? = some y → f x = g y) → sumBy f l = sumBy g m
  | [], [], _, _ => rfl
  | x :: l, y :: m, hl, h => by
    simp only [sumBy]
    rw [h 0 x y rfl rfl, sumBy_congr (l := l) (m := m) (by simpa using hl) fun i a b ha hb => h (i + 1) a b (by simpa using ha) (by simpa using hb)]
  | [], _ :: _, hl, _ => by simp at hl
  | _ :: _, [], hl, _ => by simp at hl

/-- Two end states have the same work left. -/
theorem work_end {s1 s2 : GMem} {m n : Nat} (h : s.Reach) (g1 : Glue m s s1) (g2 : Glue n s s2) (e1 : s1.stack = [])
    (e2 : s2.stack = []) (r : s1.refs = s2.refs) : s1.work = s2.work := by
  have back : ∀ {s' : GMem} {n : Nat}, Glue n s s' → Ext s' s := by
    intro s' n g o x hx
    obtain ⟨he, hl⟩ := g.ext
    obtain ⟨y, hy⟩ : ∃ y, s.objs[o]? = some y :=
      ⟨_, List.getElem?_eq_getElem (by rw [← hl]; exact (List.getElem?_eq_some_iff.mp hx).1)⟩
    obtain ⟨z, z1, z2, z3, z4⟩ := he o y hy
    rw [hx] at z1; cases z1
    exact ⟨y, hy, z2.symm, z3.symm, z4.symm⟩
  have e12 : Ext s1 s2 := (back g1).trans g2.ext.1
  have e21 : Ext s2 s1 := (back g2).trans g1.ext.1
  simp only [work, e1, e2]
  congr 1
  refine sumBy_congr (g1.ext.2.trans g2.ext.2.symm) fun o x y hx hy => ?_
  obtain ⟨z, z1, -, -, z4⟩ := e12 o x hx
  rw [hy] at z1; cases z1
  have c1 := (g1.reach h).inv.count_held e1 hx
  have c2 := (g2.reach h).inv.count_held e2 hy
  have hh : s1.Held o ↔ s2.Held o := by
    constructor
    · rintro ⟨w, hw, hb⟩; exact ⟨w, r ▸ hw, hb.ext e12⟩
    · rintro ⟨w, hw, hb⟩; exact ⟨w, r.symm ▸ hw, hb.ext e21⟩
  rw [z4]
  by_cases hc : x.count = 0
  · rw [if_pos hc, if_pos (c2.mpr fun hn => c1.mp hc (hh.mpr hn))]
  · rw [if_neg hc, if_neg fun hn => hc (c1.mpr fun hm => c2.mp hn (hh.mp hm))]

/-- **C51, destructors end.**  Left alone, the running destructors end, after a number of steps that does not depend on how
they are interleaved, and touch no references of the program. -/
theorem C51_destructors_end (h : s.Reach) (hd : s.dead = false) :
    ∃ n, (∃ s', Glue n s s' ∧ s'.stack = []) ∧
      ∀ m s', Glue m s s' → s'.refs = s.refs ∧ m ≤ n ∧ (s'.stack = [] ↔ m = n) := by
  have key : ∀ w (s : GMem), s.Reach → s.dead = false → s.work ≤ w → ∃ n, (∃ s', Glue n s s' ∧ s'.stack = [] ∧ s'.work + n = s.work) := by
    intro w
    induction w with
    | zero =>
      intro s h hd hw
      refine ⟨0, s, .refl s, ?_, rfl⟩
      cases hl : s.stack with
      | nil => rfl
      | cons f fs => simp only [work, hl, sumBy] at hw; omega
    | succ w ih =>
      intro s h hd hw
      by_cases hs : s.stack = []
      · exact ⟨0, s, .refl s, hs, rfl⟩
      · obtain ⟨t, s1, e1⟩ := glue_enabled hd hs
        obtain ⟨a, b, c⟩ := h.inv.work_glue e1
        obtain ⟨n, s', g, e2, e3⟩ := ih s1 (h.step _ e1) (by rw [c]; exact hd) (by omega)
        exact ⟨n + 1, s', .step t e1 g, e2, by omega⟩
  have meas : ∀ {m : Nat} {s s' : GMem}, Glue m s s' → s.Reach → s'.refs = s.refs ∧ s'.work + m = s.work ∧ s'.dead = s.dead := by
    intro m s s' hg
    induction hg with
    | refl => exact fun _ => ⟨rfl, rfl, rfl⟩
    | step t hs _ ih =>
      intro hr
      obtain ⟨a, b, c⟩ := hr.inv.work_glue hs
      obtain ⟨d, e, f⟩ := ih (hr.step _ hs)
      exact ⟨d.trans b, by omega, f.trans c⟩
  obtain ⟨n, s1, g1, e1, w1⟩ := key s.work s h hd (Nat.le_refl _)
  refine ⟨n, ⟨s1, g1, e1⟩, fun m s' g => ?_⟩
  obtain ⟨a, b, c⟩ := meas g h
  obtain ⟨a1, b1, c1⟩ := meas g1 h
  obtain ⟨n', s2, g2, e2, w2⟩ := key s'.work s' (g.reach h) (by rw [c]; exact hd) (Nat.le_refl _)
  have := work_end h g1 (g.append g2) e1 e2 (a1.trans ((meas g2 (g.reach h)).1.trans a).symm)
  refine ⟨a, by omega, fun hs => ?_, fun hm => ?_⟩
  · have := work_end h g1 g e1 hs (a1.trans a.symm)
    omega
  · have hn : n' = 0 := by omega
    subst hn
    cases g2; exact e2

/-! ### A run with two threads

Thread 0 makes a token, shares it twice in a node and lends the node to thread 1, which clones the token out of it.  Thread 0
drops the node; while its destructor runs, thread 1 drops the clone. -/

/-- Run a list of steps. -/
def run : List GOp → GMem → Option GMem
  | [], s => some s
  | op :: ops, s => (s.step op).bind (run ops)

theorem Reach.run : ∀ {ops : List GOp} {s : GMem}, s.Reach → GMem.run ops s = some s' → s'.Reach
  | [], s, h, e => by cases e; exact h
  | op :: ops, s, h, e => by
    simp only [GMem.run, Option.bind_eq_some_iff] at e
    obtain ⟨s1, h1, h2⟩ := e
    exact Reach.run (h.step op h1) h2

def demoOps : List GOp :=
  [.newToken 0 ⟨5⟩ ['a'], .clone 0 0 [], .newNode 0 ⟨9⟩ [0, 1], .lend 0 1 2, .read 1 2 [1], .clone 1 2 [0], .giveBack 1 0 2]

/-- The node is held by thread 0, the token also by thread 1. -/
def demoShared : GMem :=
  { objs := [⟨3, ⟨5⟩, some ['a'], [], false⟩, ⟨1, ⟨9⟩, none, [0, 0], false⟩]
    refs := [⟨3, 0, [1]⟩, ⟨2, 1, [0]⟩], nextRef := 4 }

theorem demoShared_reach : demoShared.Reach := .run (ops := demoOps) .init (by decide +kernel)

/-- The node is being destroyed: one of its two references to the token has been dropped, and so has the clone. -/
def demoDying : GMem :=
  { objs := [⟨1, ⟨5⟩, some ['a'], [], false⟩, ⟨0, ⟨9⟩, none, [0, 0], false⟩]
    refs := [], nextRef := 4, stack := [⟨0, 1, [0]⟩] }

theorem demoDying_reach : demoDying.Reach :=
  .run (ops := demoOps ++ [.drop 0 2, .glue 0, .drop 1 3]) .init (by decide +kernel)

/-- The end of the run: everything is freed. -/
def demoEnd : GMem :=
  { objs := [⟨0, ⟨5⟩, some ['a'], [], true⟩, ⟨0, ⟨9⟩, none, [0, 0], true⟩], refs := [], nextRef := 4 }

theorem demoEnd_reach : demoEnd.Reach :=
  .run (ops := [.glue 0, .glue 0, .glue 0]) demoDying_reach (by decide +kernel)

-- C51_safe: the token is held through the node and through the clone
example : ¬ demoShared.Freed 0 ∧ ¬ demoShared.Dying 0 :=
  (C51_safe demoShared_reach).2 0 ⟨⟨2, 1, [0]⟩, by decide +kernel, .step (.refl _) (x := ⟨1, ⟨9⟩, none, [0, 0], false⟩) (by decide +kernel)
    (by decide +kernel)⟩ |>.2

-- C51_exact: the node is dying, the token is only pending
example : (demoDying.Freed 0 ∨ demoDying.Dying 0 ∨ demoDying.Pending 0 ∨ demoDying.Held 0) ∧ (demoDying.Dying 1 → ¬ demoDying.Pending 1 ∧ ¬ demoDying.Held 1) :=
  ⟨(C51_exact demoDying_reach (by decide +kernel)).1, (C51_exact demoDying_reach (by decide +kernel)).2.2⟩

-- C51_freed_iff, C51_all_freed
example : demoShared.stack = [] ∧ (demoShared.Freed 0 ↔ ¬ demoShared.Held 0) := ⟨rfl, C51_freed_iff demoShared_reach rfl (by decide +kernel)⟩
example : demoEnd.Freed 0 ∧ demoEnd.Freed 1 :=
  ⟨C51_all_freed demoEnd_reach rfl rfl (by decide +kernel), C51_all_freed demoEnd_reach rfl rfl (by decide +kernel)⟩

-- C51_destructors_end: three steps from `demoDying`
example : Glue 3 demoDying demoEnd :=
  .step (s' := ((demoDying.step (.glue 0)).getD {})) 0 (by decide +kernel)
    (.step (s' := ((((demoDying.step (.glue 0)).getD {}).step (.glue 0)).getD {})) 0 (by decide +kernel)
      (.step (s' := demoEnd) 0 (by decide +kernel) (.refl _)))
example : ∃ n, (∃ s', Glue n demoDying s' ∧ s'.stack = []) ∧
    ∀ m s', Glue m demoDying s' → s'.refs = demoDying.refs ∧ m ≤ n ∧ (s'.stack = [] ↔ m = n) :=
  C51_destructors_end demoDying_reach rfl

/-- The tree of the shared node. -/
theorem demo_shows : demoShared.Shows 1 (.node ⟨9⟩ [.token ⟨5⟩ ['a'], .token ⟨5⟩ ['a']]) :=
  .node (x := ⟨1, ⟨9⟩, none, [0, 0], false⟩) (by decide +kernel) rfl
    (.cons (.token (x := ⟨3, ⟨5⟩, some ['a'], [], false⟩) (by decide +kernel) rfl rfl)
      (.cons (.token (x := ⟨3, ⟨5⟩, some ['a'], [], false⟩) (by decide +kernel) rfl rfl) .nil))

-- C51_immutable, C51_at, C51_holds_tree
example : ((demoShared.step (.drop 1 3)).getD {}).Shows 1 (.node ⟨9⟩ [.token ⟨5⟩ ['a'], .token ⟨5⟩ ['a']]) :=
  C51_immutable (.step (.drop 1 3) (.refl _) (by decide +kernel)) demo_shows
example : ∃ T', (Tree.node ⟨9⟩ [.token ⟨5⟩ ['a'], .token ⟨5⟩ ['a']]).at? [1] = some T' ∧ demoShared.Shows 0 T' :=
  (C51_at [1] demo_shows).1 0 (by decide +kernel)
example : ∃ T, demoShared.Shows 1 T ∧ ∀ T', demoShared.Shows 1 T' → T' = T := C51_holds_tree demoShared_reach (by decide +kernel)

-- C51_new_token, C51_new_node, C51_clone
example : (demoShared.step (.newToken 1 ⟨7⟩ ['b'])).isSome ∧ (demoShared.step (.newNode 0 ⟨7⟩ [2])).isSome ∧ (demoShared.step (.clone 0 2 [1])).isSome := by decide +kernel

end GMem
end Rowan
