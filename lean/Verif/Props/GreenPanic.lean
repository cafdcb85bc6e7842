import Verif.GreenPanicLemmas
/-!
# Properties of constructions that panic: C80
-/
namespace Rowan
namespace PMem
open GMem

variable {s s' : PMem}

/-- Whoever holds it. -/
theorem PInv.held_iff (h : PInv s) (o : Nat) : s.mem.Held o ↔ s.InUse o ∨ s.Building o ∨ s.Leaked o := by
  constructor
  · rintro ⟨x, hx, hb⟩
    by_cases hh : x.holders = []
    · have := (h.owned x.id).mpr ⟨x, hx, rfl, hh⟩
      rcases List.mem_append.mp this with h1 | h1
      · obtain ⟨b, b1, b2⟩ := List.mem_flatMap.mp h1
        exact .inr (.inl ⟨b, b1, x, hx, b2, hb⟩)
      · exact .inr (.inr ⟨x, hx, h1, hb⟩)
    · exact .inl ⟨x, hx, hh, hb⟩
  · rintro (⟨x, hx, -, hb⟩ | ⟨-, -, x, hx, -, hb⟩ | ⟨x, hx, -, hb⟩) <;> exact ⟨x, hx, hb⟩

theorem PInv.held_alive (h : PInv s) {o : Nat} (ho : s.mem.Held o) : o < s.mem.objs.length ∧ ¬ s.mem.Freed o ∧ ¬ s.mem.Dying o := by
  obtain ⟨x, hx, hb⟩ := ho
  have hi := h.inv
  obtain ⟨y, y1, y2, y3, -⟩ := hi.owned (Nat.lt_of_lt_of_le (hi.below_owned (owns_ref hx) hb) (Nat.le_add_right ..))
  refine ⟨(List.getElem?_eq_some_iff.mp y1).1, ?_, ?_⟩
  · rintro ⟨z, z1, z2⟩
    rw [y1] at z1; cases z1
    rw [y3] at z2; cases z2
  · rintro ⟨f, hf, rfl⟩
    obtain ⟨z, z1, z2, -⟩ := hi.frames f hf
    rw [y1] at z1; cases z1; omega

/-- **C80, memory safety.**  Whatever iterators do while nodes are built from them, and however the constructions end: no freed
allocation is accessed or freed again, and all that a thread or a construction has is there. -/
theorem C80_safe (h : s.Reach) : s.mem.ub = false ∧
    ∀ o, s.InUse o ∨ s.Building o ∨ s.Leaked o → o < s.mem.objs.length ∧ ¬ s.mem.Freed o ∧ ¬ s.mem.Dying o :=
  ⟨h.pinv.inv.ub, fun o ho => h.pinv.held_alive ((h.pinv.held_iff o).mpr ho)⟩

/-- **C80, nothing else leaks.**  Between destructors, freed is exactly what no thread has a reference to, no construction has
taken over, and no panic has left behind. -/
theorem C80_exact (h : s.Reach) (hs : s.mem.stack = []) {o : Nat} (ho : o < s.mem.objs.length) :
    s.mem.Freed o ↔ ¬ s.InUse o ∧ ¬ s.Building o ∧ ¬ s.Leaked o := by
  have hp := h.pinv
  have hi := hp.inv
  obtain ⟨x, hx⟩ : ∃ x, s.mem.objs[o]? = some x := ⟨_, List.getElem?_eq_getElem ho⟩
  have e : s.mem.Freed o ↔ ¬ s.mem.Held o := by
    rw [← hi.count_held hs hx]
    constructor
    · rintro ⟨y, y1, y2⟩
      rw [hx] at y1; cases y1
      exact hi.freed o x hx y2
    · intro h0
      rcases hi.zero o x hx h0 with h1 | ⟨f, hf, -⟩
      · exact ⟨x, hx, h1⟩
      · rw [hs] at hf; cases hf
  rw [e, hp.held_iff, not_or, not_or]

/-- **C80.**  Without a panic, all is given back when the threads have dropped their references. -/
theorem C80_no_panic (h : s.Reach) (hs : s.mem.stack = []) (hb : s.builds = []) (hl : s.lost = [])
    (hr : ∀ x ∈ s.mem.refs, x.holders = []) {o : Nat} (ho : o < s.mem.objs.length) : s.mem.Freed o := by
  rw [C80_exact h hs ho]
  refine ⟨?_, ?_, ?_⟩
  · rintro ⟨x, hx, hh, -⟩; exact hh (hr x hx)
  · rintro ⟨b, h1, -⟩; rw [hb] at h1; cases h1
  · rintro ⟨x, -, h1, -⟩; rw [hl] at h1; cases h1

theorem PInv.lost_step {op : POp} {out : POut} (h : PInv s) (hs : s.step op = some (s', out)) {x : GRef} (hx : x ∈ s.mem.refs)
    (hl : x.id ∈ s.lost) : x ∈ s'.mem.refs ∧ x.id ∈ s'.lost := by
  have hh : x.holders = [] := by
    obtain ⟨y, y1, y2, y3⟩ := (h.owned x.id).mp (List.mem_append.mpr (.inr hl))
    rw [← h.ids.eq y1 hx y2]; exact y3
  have apart : ∀ {b : GBuild} {bs : List GBuild}, s.builds.Perm (b :: bs) → x.id ∉ b.taken := by
    intro b bs hp hb
    have := (h.popped hp).1
    rw [List.nodup_append] at this
    exact this.2.2 _ hb _ (List.mem_append.mpr (.inr hl)) rfl
  have gone : ∀ {b : GBuild} {bs : List GBuild}, s.builds.Perm (b :: bs) → s.abandon b bs = some s' → x ∈ s'.mem.refs ∧ x.id ∈ s'.lost := by
    intro b bs hp ha
    obtain ⟨-, -, -, i4, -, os, -, -, j3⟩ := h.abandon hp ha
    exact ⟨(j3 x).mpr (.inr ⟨hx, apart hp⟩), by rw [i4]; exact List.mem_cons_of_mem _ hl⟩
  cases op with
  | other op =>
    simp only [PMem.step, Option.bind_eq_bind, Option.bind_eq_some_iff] at hs
    obtain ⟨m, hm, hs⟩ := hs
    cases hs
    exact ⟨((h.ids.step hm).2.2 x hh).mpr hx, hl⟩
  | start t kind len =>
    simp only [PMem.step, Option.bind_eq_bind, Option.bind_eq_some_iff] at hs
    obtain ⟨_, -, hs⟩ := hs
    cases hs
    exact ⟨hx, hl⟩
  | yield t r =>
    simp only [PMem.step, Option.bind_eq_bind, Option.bind_eq_some_iff, guard] at hs
    obtain ⟨_, -, ⟨b, bs⟩, hb, y, hy, _, hg, hs⟩ := hs
    split at hg
    · rename_i hh'
      split at hs
      · cases hs
        refine ⟨mem_setHolders.mpr ⟨x, hx, ?_⟩, hl⟩
        rw [if_neg]
        intro e
        obtain ⟨y1, y2⟩ := ref?_mem hy
        rw [h.ids.eq hx y1 (e.trans y2.symm), hh'] at hh
        cases hh
      · simp only [Option.bind_eq_some_iff] at hs
        obtain ⟨s1, h1, hs⟩ := hs
        cases hs
        exact gone (popBuild_perm hb).1 h1
    · cases hg
  | stop t =>
    simp only [PMem.step, Option.bind_eq_bind, Option.bind_eq_some_iff] at hs
    obtain ⟨⟨b, bs⟩, hb, hs⟩ := hs
    split at hs
    · simp only [Option.bind_eq_some_iff] at hs
      obtain ⟨s1, h1, hs⟩ := hs
      cases hs
      exact gone (popBuild_perm hb).1 h1
    split at hs
    · cases hs; exact ⟨hx, hl⟩
    · simp only [Option.bind_eq_some_iff] at hs
      obtain ⟨m, h1, hs⟩ := hs
      cases hs
      have hp := (popBuild_perm hb).1
      obtain ⟨-, -, -, -, os, refs, -, j2, -, j4⟩ := (h.close hp).2 _ h1
      exact ⟨by rw [j2]; exact List.mem_cons_of_mem _ ((j4 x).mpr ⟨hx, apart hp⟩), hl⟩
  | fail t =>
    simp only [PMem.step, Option.bind_eq_bind, Option.bind_eq_some_iff] at hs
    obtain ⟨⟨b, bs⟩, hb, s1, h1, hs⟩ := hs
    cases hs
    exact gone (popBuild_perm hb).1 h1

/-- **C80, leaks are for good.**  What a panic has left behind is never freed. -/
theorem C80_leak (h : s.Reach) (hs : s.Steps s') {o : Nat} (hl : s.Leaked o) : s'.Leaked o ∧ ¬ s'.mem.Freed o := by
  have key : s'.Reach ∧ s'.Leaked o := by
    induction hs with
    | refl => exact ⟨h, hl⟩
    | step op _ hs ih =>
      obtain ⟨hr, x, hx, h1, hb⟩ := ih
      obtain ⟨h2, h3⟩ := hr.pinv.lost_step hs hx h1
      exact ⟨hr.step op hs, x, h2, h3, hb.ext (hr.pinv.step hs).2⟩
  exact ⟨key.2, ((C80_safe key.1).2 o (.inr (.inr key.2))).2.1⟩

/-- **C80, contents.**  What is stored never changes. -/
theorem C80_contents (h : s.Reach) (hs : s.Steps s') {o : Nat} {T : Tree} (ht : s.mem.Shows o T) : s'.mem.Shows o T := by
  have key : s'.Reach ∧ GMem.Ext s.mem s'.mem := by
    induction hs with
    | refl => exact ⟨h, .rfl'⟩
    | step op _ hs ih => exact ⟨ih.1.step op hs, ih.2.trans (ih.1.pinv.step hs).2⟩
  exact ht.ext key.2

/-! ### How a construction ends -/

/-- **C80, nesting.**  A step of a thread concerns its innermost construction: the last one that it started and that has not ended. -/
theorem C80_innermost (t : Nat) (b : GBuild) : ∀ (l l' : List GBuild), popBuild t l = some (b, l') ↔
    ∃ l1 l2, l = l1 ++ b :: l2 ∧ l' = l1 ++ l2 ∧ b.thread = t ∧ ∀ c ∈ l1, c.thread ≠ t
  | [], l' => by simp [popBuild]
  | c :: l, l' => by
    by_cases hc : c.thread = t
    · simp only [popBuild, if_pos hc, Option.some.injEq, Prod.mk.injEq]
      constructor
      · rintro ⟨rfl, rfl⟩; exact ⟨[], l, rfl, rfl, hc, by simp⟩
      · rintro ⟨l1, l2, h1, h2, h3, h4⟩
        cases l1 with
        | nil => cases h1; exact ⟨rfl, h2.symm⟩
        | cons d l1 => cases h1; exact absurd hc (h4 c (List.mem_cons_self ..))
    · simp only [popBuild, if_neg hc, Option.bind_eq_bind, Option.bind_eq_some_iff]
      constructor
      · rintro ⟨⟨d, m⟩, h1, h2⟩
        cases h2
        obtain ⟨l1, l2, rfl, rfl, h3, h4⟩ := (C80_innermost t _ l m).mp h1
        refine ⟨c :: l1, l2, rfl, rfl, h3, fun e he => ?_⟩
        rcases List.mem_cons.mp he with rfl | he
        · exact hc
        · exact h4 e he
      · rintro ⟨l1, l2, h1, h2, h3, h4⟩
        cases l1 with
        | nil => cases h1; exact absurd h3 hc
        | cons d l1 =>
          simp only [List.cons_append, List.cons.injEq] at h1
          obtain ⟨rfl, rfl⟩ := h1
          exact ⟨(b, l1 ++ l2), (C80_innermost t b _ _).mpr ⟨l1, l2, rfl, rfl, h3, fun e he => h4 e (List.mem_cons_of_mem _ he)⟩, by rw [h2]; rfl⟩

/-- **C80, a construction begins**, with nothing, as the innermost of its thread; nothing else changes. -/
theorem C80_start {t len : Nat} {kind : SyntaxKind} {out : POut} (hs : s.step (.start t kind len) = some (s', out)) :
    out = .goesOn ∧ s'.mem = s.mem ∧ s'.lost = s.lost ∧ popBuild t s'.builds = some (⟨t, kind, len, [], false⟩, s.builds) := by
  simp only [PMem.step, Option.bind_eq_bind, Option.bind_eq_some_iff] at hs
  obtain ⟨_, -, hs⟩ := hs
  cases hs
  exact ⟨rfl, rfl, rfl, by simp [popBuild]⟩

/-- **C80, the iterator ends.**  If the iterator has yielded as many elements as it said, the construction returns when this is the
second time that it ends or when there are no elements, and asks once more otherwise; if it has not, it panics. -/
theorem C80_stop (h : s.Reach) {t : Nat} {b : GBuild} {bs : List GBuild} (hb : popBuild t s.builds = some (b, bs))
    (hd : s.mem.dead = false) (hi : s.mem.idle t = true) :
    ∃ s' out, s.step (.stop t) = some (s', out) ∧ (out = .panicked ↔ b.taken.length ≠ b.len) ∧
      ((∃ r, out = .returned r) ↔ b.taken.length = b.len ∧ (b.len = 0 ∨ b.checked = true)) ∧
      (out = .goesOn → s' = ⟨s.mem, { b with checked := true } :: bs, s.lost⟩) := by
  obtain ⟨hp, rfl⟩ := popBuild_perm hb
  have hlen := h.pinv.len b (hp.mem_iff.mpr (List.mem_cons_self ..))
  obtain ⟨m, hm⟩ : ∃ m, finish s.mem b = some m := by
    cases hf : finish s.mem b with
    | some m => exact ⟨m, rfl⟩
    | none =>
      have := (h.pinv.close hp).1.mp hf
      rw [hd, hi] at this
      simp at this
  by_cases hl : b.taken.length < b.len
  · refine ⟨_, .panicked, by simp only [PMem.step, PMem.abandon, hb, hm, Option.bind_eq_bind, Option.bind_some, if_pos hl]; rfl, ?_, ?_, ?_⟩
    · simp; omega
    · simp; omega
    · simp
  · by_cases hc : b.len ≠ 0 ∧ b.checked = false
    · refine ⟨_, .goesOn, by simp only [PMem.step, hb, Option.bind_eq_bind, Option.bind_some, if_neg hl, if_pos hc], ?_, ?_, fun _ => rfl⟩
      · simp; omega
      · simp [hc]
    · refine ⟨_, .returned s.mem.nextRef, by simp only [PMem.step, hb, hm, Option.bind_eq_bind, Option.bind_some, if_neg hl, if_neg hc]; rfl, ?_, ?_, ?_⟩
      · simp; omega
      · have : b.len = 0 ∨ b.checked = true := by
          cases he : b.checked
          · exact .inl (Decidable.byContradiction fun h0 => hc ⟨h0, he⟩)
          · exact .inr rfl
        simp only [POut.returned.injEq, exists_eq', true_iff]
        exact ⟨by omega, this⟩
      · simp

/-- **C80, an element arrives.**  It is taken over as long as there is room for it; one too many is a panic, and this one
stays with the thread. -/
theorem C80_yield (h : s.Reach) {t r : Nat} {out : POut} (hs : s.step (.yield t r) = some (s', out)) :
    ∃ b bs, popBuild t s.builds = some (b, bs) ∧ (out = .goesOn ↔ b.taken.length < b.len) ∧ (out = .panicked ↔ b.taken.length = b.len) ∧
      (out = .goesOn → s'.builds = { b with taken := b.taken ++ [r] } :: bs ∧ s'.lost = s.lost ∧ s'.mem.objs = s.mem.objs ∧
        ∀ x, x.holders ≠ [] → (x ∈ s'.mem.refs ↔ x ∈ s.mem.refs ∧ x.id ≠ r)) ∧
      (out = .panicked → ∃ x ∈ s'.mem.refs, x.id = r ∧ x.holders = [t]) := by
  simp only [PMem.step, Option.bind_eq_bind, Option.bind_eq_some_iff, guard] at hs
  obtain ⟨_, -, ⟨b, bs⟩, hb, y, hy, _, hg, hs⟩ := hs
  have hp := (popBuild_perm hb).1
  have hlen := h.pinv.len b (hp.mem_iff.mpr (List.mem_cons_self ..))
  obtain ⟨y1, y2⟩ := ref?_mem hy
  split at hg
  · rename_i hh
    refine ⟨b, bs, hb, ?_⟩
    split at hs
    · rename_i hl
      simp only at hl
      cases hs
      refine ⟨by simp [hl], by simp; omega, fun _ => ⟨rfl, rfl, rfl, fun x hx => ?_⟩, by simp⟩
      rw [mem_setHolders]
      constructor
      · rintro ⟨z, hz, e⟩
        split at e
        · rw [e] at hx; exact absurd rfl hx
        · rw [e]; exact ⟨hz, by assumption⟩
      · rintro ⟨h1, h2⟩
        exact ⟨x, h1, by rw [if_neg h2]⟩
    · rename_i hl
      simp only at hl
      simp only [Option.bind_eq_some_iff] at hs
      obtain ⟨s1, h1, hs⟩ := hs
      cases hs
      refine ⟨by simp; omega, by simp; omega, by simp, fun _ => ?_⟩
      obtain ⟨-, -, -, -, -, os, -, -, j3⟩ := h.pinv.abandon hp h1
      refine ⟨y, (j3 y).mpr (.inr ⟨y1, fun hm => ?_⟩), y2, hh⟩
      obtain ⟨z, z1, z2, z3⟩ := ((h.pinv.popped hp).2 _).mp (.inl hm)
      rw [h.pinv.ids.eq z1 y1 z2, hh] at z3
      cases z3
  · cases hg

theorem PInv.elems_shows (h : PInv s) {rs os : List Nat} (he : Elems s.mem rs os) : ∃ Ts, s.mem.ShowsAll os Ts := by
  induction he with
  | nil => exact ⟨[], .nil⟩
  | cons hx _ ih =>
    obtain ⟨Ts, hT⟩ := ih
    obtain ⟨x, h1, -, rfl⟩ := hx
    have ho := h.inv.dom x.obj (Nat.lt_of_lt_of_le (owns_ref h1) (Nat.le_add_right ..))
    obtain ⟨T, hT'⟩ := h.inv.shows h.leaf (x.obj + 1) x.obj (Nat.lt_succ_self _) ho
    exact ⟨T :: Ts, .cons hT' hT⟩

/-- **C80, a construction returns.**  It returns a reference to a new node of the kind asked for, whose children are the trees of the
elements in the order in which they arrived; other references are what they were. -/
theorem C80_returned (h : s.Reach) {op : POp} {r : Nat} (hs : s.step op = some (s', .returned r)) :
    ∃ b bs os Ts, op = .stop b.thread ∧ popBuild b.thread s.builds = some (b, bs) ∧ s'.builds = bs ∧ s'.lost = s.lost ∧
      b.taken.length = b.len ∧ Elems s.mem b.taken os ∧ s.mem.ShowsAll os Ts ∧
      s'.mem.Shows s.mem.objs.length (.node b.kind Ts) ∧
      ∀ x, x.holders ≠ [] → (x ∈ s'.mem.refs ↔ x = ⟨r, s.mem.objs.length, [b.thread]⟩ ∨ x ∈ s.mem.refs) := by
  cases op with
  | other op =>
    simp only [PMem.step, Option.bind_eq_bind, Option.bind_eq_some_iff] at hs
    obtain ⟨m, hm, hs⟩ := hs
    cases hs
  | start t kind len =>
    simp only [PMem.step, Option.bind_eq_bind, Option.bind_eq_some_iff] at hs
    obtain ⟨_, -, hs⟩ := hs
    cases hs
  | yield t r =>
    simp only [PMem.step, Option.bind_eq_bind, Option.bind_eq_some_iff] at hs
    obtain ⟨_, -, ⟨b, bs⟩, hb, y, hy, _, hg, hs⟩ := hs
    split at hs
    · cases hs
    · simp only [Option.bind_eq_some_iff] at hs
      obtain ⟨s1, h1, hs⟩ := hs
      cases hs
  | fail t =>
    simp only [PMem.step, Option.bind_eq_bind, Option.bind_eq_some_iff] at hs
    obtain ⟨⟨b, bs⟩, hb, s1, h1, hs⟩ := hs
    cases hs
  | stop t =>
    simp only [PMem.step, Option.bind_eq_bind, Option.bind_eq_some_iff] at hs
    obtain ⟨⟨b, bs⟩, hb, hs⟩ := hs
    obtain ⟨hp, rfl⟩ := popBuild_perm hb
    have hlen := h.pinv.len b (hp.mem_iff.mpr (List.mem_cons_self ..))
    split at hs
    · simp only [Option.bind_eq_some_iff] at hs
      obtain ⟨s1, h1, hs⟩ := hs
      cases hs
    rename_i hl
    simp only at hl
    split at hs
    · cases hs
    · simp only [Option.bind_eq_some_iff] at hs
      obtain ⟨m, h1, hs⟩ := hs
      cases hs
      obtain ⟨-, he, -, -, os, refs, j1, j2, j3, j4⟩ := (h.pinv.close hp).2 _ h1
      obtain ⟨Ts, hT⟩ := h.pinv.elems_shows j1
      refine ⟨b, bs, os, Ts, rfl, hb, rfl, rfl, by omega, j1, hT, ?_, fun x hx => ?_⟩
      · exact Shows.node (x := ⟨1, b.kind, none, os, false⟩) (by rw [j3]; simp) rfl (ShowsAll.ext he hT)
      · simp only [j2, List.mem_cons, j4]
        constructor
        · rintro (h1 | h1)
          · exact .inl h1
          · exact .inr h1.1
        · rintro (h1 | h1)
          · exact .inl h1
          · refine .inr ⟨h1, fun hm => ?_⟩
            obtain ⟨z, z1, z2, z3⟩ := ((h.pinv.popped hp).2 _).mp (.inl hm)
            rw [h.pinv.ids.eq z1 h1 z2] at z3
            exact hx z3

theorem Elems.mem {m : GMem} {rs os : List Nat} (h : Elems m rs os) {x : GRef} (hd : Ids m) (hx : x ∈ m.refs) (hr : x.id ∈ rs) : x.obj ∈ os := by
  induction h with
  | nil => cases hr
  | cons hy _ ih =>
    rcases List.mem_cons.mp hr with e | hr
    · obtain ⟨y, y1, y2, rfl⟩ := hy
      rw [hd.eq hx y1 (e.trans y2.symm)]
      exact List.mem_cons_self ..
    · exact List.mem_cons_of_mem _ (ih hr)

theorem Elems.of_mem {m : GMem} {rs os : List Nat} (h : Elems m rs os) {o : Nat} (ho : o ∈ os) : ∃ x ∈ m.refs, x.id ∈ rs ∧ x.obj = o := by
  induction h with
  | nil => cases ho
  | cons hy _ ih =>
    rcases List.mem_cons.mp ho with rfl | ho
    · obtain ⟨y, y1, y2, y3⟩ := hy
      exact ⟨y, y1, y2 ▸ List.mem_cons_self .., y3⟩
    · obtain ⟨x, x1, x2, x3⟩ := ih ho
      exact ⟨x, x1, List.mem_cons_of_mem _ x2, x3⟩

theorem Below.head {m : GMem} {a c : Nat} (h : m.Below a c) : a = c ∨ ∃ x b, m.objs[a]? = some x ∧ b ∈ x.kids ∧ m.Below b c := by
  induction h with
  | refl => exact .inl rfl
  | step _ hx hd ih =>
    rcases ih with rfl | ⟨y, b, h1, h2, h3⟩
    · exact .inr ⟨_, _, hx, hd, .refl _⟩
    · exact .inr ⟨y, b, h1, h2, .step h3 hx hd⟩

theorem Below.back {m m' : GMem} (hi : Inv m []) {l : List GObj} (he : m'.objs = m.objs ++ l) {a c : Nat} (ha : a < m.objs.length)
    (h : m'.Below a c) : m.Below a c ∧ c < m.objs.length := by
  induction h with
  | refl => exact ⟨.refl _, ha⟩
  | step _ hx hd ih =>
    obtain ⟨h1, h2⟩ := ih
    rw [he, List.getElem?_append_left h2] at hx
    exact ⟨.step h1 hx hd, Nat.lt_trans (hi.below _ _ hx _ hd) h2⟩

/-- **C80, a construction panics.**  Nobody but the construction loses a reference.  What leaks is the buffer, and what the
construction had taken over, with all that is below. -/
theorem C80_panicked (h : s.Reach) {op : POp} (hs : s.step op = some (s', .panicked)) :
    ∃ t b bs, popBuild t s.builds = some (b, bs) ∧ s'.builds = bs ∧
      (∀ x, x.holders ≠ [] → (x ∈ s'.mem.refs ↔ x ∈ s.mem.refs)) ∧
      ∀ o, s'.Leaked o ↔ s.Leaked o ∨ o = s.mem.objs.length ∨ ∃ x ∈ s.mem.refs, x.id ∈ b.taken ∧ s.mem.Below x.obj o := by
  have key : ∀ {t : Nat} {b : GBuild} {bs : List GBuild}, popBuild t s.builds = some (b, bs) → s.abandon b bs = some s' →
      ∃ t b bs, popBuild t s.builds = some (b, bs) ∧ s'.builds = bs ∧
      (∀ x, x.holders ≠ [] → (x ∈ s'.mem.refs ↔ x ∈ s.mem.refs)) ∧
      ∀ o, s'.Leaked o ↔ s.Leaked o ∨ o = s.mem.objs.length ∨ ∃ x ∈ s.mem.refs, x.id ∈ b.taken ∧ s.mem.Below x.obj o := by
    intro t b bs hb ha
    have hp := (popBuild_perm hb).1
    have hpi := h.pinv
    obtain ⟨-, i2, i3, i4, -, os, j1, j2, j3⟩ := hpi.abandon hp ha
    have hdom : ∀ x ∈ s.mem.refs, x.obj < s.mem.objs.length := fun x hx =>
      hpi.inv.dom x.obj (Nat.lt_of_lt_of_le (owns_ref hx) (Nat.le_add_right ..))
    have hnew : s'.mem.objs[s.mem.objs.length]? = some ⟨1, b.kind, none, os, false⟩ := by rw [j2]; simp
    refine ⟨t, b, bs, hb, i3, fun x hx => ?_, fun o => ?_⟩
    · rw [j3]
      constructor
      · rintro (rfl | h1)
        · exact absurd rfl hx
        · exact h1.1
      · intro h1
        refine .inr ⟨h1, fun hm => ?_⟩
        obtain ⟨z, z1, z2, z3⟩ := ((hpi.popped hp).2 _).mp (.inl hm)
        rw [hpi.ids.eq z1 h1 z2] at z3
        exact hx z3
    · constructor
      · rintro ⟨x, hx, hl, hbel⟩
        rcases (j3 x).mp hx with rfl | ⟨h1, h2⟩
        · rcases Below.head hbel with e | ⟨y, c, y1, y2, y3⟩
          · exact .inr (.inl e.symm)
          · rw [hnew] at y1
            cases y1
            obtain ⟨z, z1, z2, rfl⟩ := j1.of_mem y2
            exact .inr (.inr ⟨z, z1, z2, (Below.back hpi.inv j2 (hdom z z1) y3).1⟩)
        · rw [i4] at hl
          refine .inl ⟨x, h1, ?_, (Below.back hpi.inv j2 (hdom x h1) hbel).1⟩
          exact (List.mem_cons.mp hl).resolve_left (Nat.ne_of_lt (hpi.ids.lt x h1))
      · have hbuf : (⟨s.mem.nextRef, s.mem.objs.length, []⟩ : GRef) ∈ s'.mem.refs := (j3 _).mpr (.inl rfl)
        have hbl : s.mem.nextRef ∈ s'.lost := by rw [i4]; exact List.mem_cons_self ..
        rintro (⟨x, hx, hl, hbel⟩ | rfl | ⟨x, hx, hl, hbel⟩)
        · obtain ⟨-, -⟩ := hpi.lost_step (op := op) hs hx hl
          exact ⟨x, (hpi.lost_step hs hx hl).1, (hpi.lost_step hs hx hl).2, hbel.ext i2⟩
        · exact ⟨_, hbuf, hbl, .refl _⟩
        · refine ⟨_, hbuf, hbl, ?_⟩
          exact GMem.Below.trans (.step (.refl _) hnew (j1.mem hpi.ids hx hl)) (hbel.ext i2)
  cases op with
  | other op =>
    simp only [PMem.step, Option.bind_eq_bind, Option.bind_eq_some_iff] at hs
    obtain ⟨m, hm, hs⟩ := hs
    cases hs
  | start t kind len =>
    simp only [PMem.step, Option.bind_eq_bind, Option.bind_eq_some_iff] at hs
    obtain ⟨_, -, hs⟩ := hs
    cases hs
  | yield t r =>
    have hs' := hs
    simp only [PMem.step, Option.bind_eq_bind, Option.bind_eq_some_iff] at hs
    obtain ⟨_, -, ⟨b, bs⟩, hb, y, hy, _, hg, hs⟩ := hs
    split at hs
    · cases hs
    · simp only [Option.bind_eq_some_iff] at hs
      obtain ⟨s1, h1, hs⟩ := hs
      cases hs
      exact key hb h1
  | fail t =>
    have hs' := hs
    simp only [PMem.step, Option.bind_eq_bind, Option.bind_eq_some_iff] at hs
    obtain ⟨⟨b, bs⟩, hb, s1, h1, hs⟩ := hs
    cases hs
    exact key hb h1
  | stop t =>
    have hs' := hs
    simp only [PMem.step, Option.bind_eq_bind, Option.bind_eq_some_iff] at hs
    obtain ⟨⟨b, bs⟩, hb, hs⟩ := hs
    split at hs
    · simp only [Option.bind_eq_some_iff] at hs
      obtain ⟨s1, h1, hs⟩ := hs
      cases hs
      exact key hb h1
    split at hs
    · cases hs
    · simp only [Option.bind_eq_some_iff] at hs
      obtain ⟨m, h1, hs⟩ := hs
      cases hs

/-! ### Concrete cases -/

/-- Several steps, with the outcome of the last one. -/
def run : List POp → PMem → Option (PMem × POut)
  | [], s => some (s, .goesOn)
  | [op], s => s.step op
  | op :: ops, s => do
    let (s, _) ← s.step op
    run ops s

theorem Reach.run {out : POut} : ∀ {ops : List POp} {s s' : PMem}, s.Reach → PMem.run ops s = some (s', out) → s'.Reach
  | [], s, s', h, e => by cases e; exact h
  | [op], s, s', h, e => h.step op e
  | op :: op' :: ops, s, s', h, e => by
    simp only [PMem.run, Option.bind_eq_bind, Option.bind_eq_some_iff] at e
    obtain ⟨⟨s1, o1⟩, h1, e⟩ := e
    exact (h.step op h1).run e

/-- Two tokens are handed to a construction that was promised three; meanwhile another thread works. -/
def demoBuild : List POp :=
  [.other (.newToken 0 1 ['a']), .other (.newToken 0 2 ['b']), .start 0 7 3, .yield 0 0, .other (.newToken 1 3 ['c']),
   .other (.newNode 1 4 [2]), .yield 0 1]

/-- What one looks at below. -/
def demoView (ops : List POp) : Option (POut × List GBuild × List Nat × List GRef) :=
  (run ops {}).map fun (s, out) => (out, s.builds, s.lost, s.mem.refs)

/-- The state after these steps: two elements in the buffer, one node with another thread. -/
example : demoView demoBuild = some (.goesOn, [⟨0, 7, 3, [0, 1], false⟩], [], [⟨3, 3, [1]⟩, ⟨1, 1, []⟩, ⟨0, 0, []⟩]) := by decide +kernel

/-- The iterator ends too early: a panic; the two tokens are left behind. -/
example : demoView (demoBuild ++ [.stop 0]) = some (.panicked, [], [4], [⟨4, 4, []⟩, ⟨3, 3, [1]⟩]) := by decide +kernel

/-- It keeps its promise, with a part of the other thread's node: a node with three children. -/
example : demoView (demoBuild ++ [.other (.clone 1 3 [0]), .other (.lend 1 0 4), .other (.giveBack 1 0 4), .yield 0 4, .stop 0, .stop 0]) =
    some (.returned 5, [], [], [⟨5, 4, [0]⟩, ⟨3, 3, [1]⟩]) := by decide +kernel

/-- It yields one too many: a panic, and the fourth is still there. -/
example : demoView (demoBuild ++ [.other (.newToken 0 5 ['d']), .yield 0 4, .other (.newToken 0 6 ['e']), .yield 0 5]) =
    some (.panicked, [], [6], [⟨6, 6, []⟩, ⟨5, 5, [0]⟩, ⟨3, 3, [1]⟩]) := by decide +kernel

/-- It yields one more after it has ended: a panic. -/
example : demoView [.other (.newToken 0 1 ['a']), .other (.newToken 0 2 ['b']), .start 0 7 1, .yield 0 0, .stop 0, .yield 0 1] =
    some (.panicked, [], [2], [⟨2, 2, []⟩, ⟨1, 1, [0]⟩]) := by decide +kernel

/-- The iterator panics in a construction within a construction: the outer one can go on. -/
example : demoView (demoBuild ++ [.start 0 8 1, .other (.newToken 0 5 ['d']), .yield 0 4, .fail 0]) =
    some (.panicked, [⟨0, 7, 3, [0, 1], false⟩], [5], [⟨5, 5, []⟩, ⟨3, 3, [1]⟩, ⟨1, 1, []⟩, ⟨0, 0, []⟩]) := by decide +kernel

/-- **C80.**  That a panic leaks is not an artefact: there is a program that has dropped all it ever had, where nothing runs any
more, and where a token has not been freed and never will be. -/
theorem C80_panic_leaks : ∃ s : PMem, s.Reach ∧ s.builds = [] ∧ s.mem.stack = [] ∧ (∀ x ∈ s.mem.refs, x.holders = []) ∧
    s.mem.Shows 0 (.token 1 ['a']) ∧ ∀ s', s.Steps s' → ¬ s'.mem.Freed 0 := by
  have e : run [.other (.newToken 0 1 ['a']), .start 0 7 2, .yield 0 0, .fail 0] {} =
      some (⟨⟨[⟨1, 1, some ['a'], [], false⟩, ⟨1, 7, none, [0], false⟩], [⟨1, 1, []⟩], 2, [], false, false⟩, [], [1]⟩, .panicked) := by
    decide +kernel
  have hr : PMem.Reach _ := Reach.run .init e
  refine ⟨_, hr, rfl, rfl, by simp, ?_, fun s' hs => (C80_leak hr hs ?_).2⟩
  · exact Shows.token (x := ⟨1, 1, some ['a'], [], false⟩) rfl rfl rfl
  · exact ⟨⟨1, 1, []⟩, List.mem_cons_self .., List.mem_cons_self .., .step (.refl _) rfl (List.mem_cons_self ..)⟩

end PMem
end Rowan
