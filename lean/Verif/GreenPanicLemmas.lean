import Verif.Spec.GreenPanic
import Verif.Props.GreenMem
/-!
# Lemmas: constructions that are taken apart keep the counters right
-/
namespace Rowan
namespace GMem

variable {s s' : GMem}

/-- Names of references are unique. -/
structure Ids (s : GMem) : Prop where
  nodup : (s.refs.map GRef.id).Nodup
  lt : ∀ x ∈ s.refs, x.id < s.nextRef

theorem Ids.eq (h : Ids s) {x y : GRef} (hx : x ∈ s.refs) (hy : y ∈ s.refs) (e : x.id = y.id) : x = y := by
  have := h.nodup
  generalize s.refs = l at *
  induction l with
  | nil => cases hx
  | cons z l ih =>
    simp only [List.map_cons, List.nodup_cons, List.mem_map, not_exists, not_and] at this
    rcases List.mem_cons.mp hx with rfl | hx' <;> rcases List.mem_cons.mp hy with rfl | hy'
    · rfl
    · exact absurd e.symm (this.1 y hy')
    · exact absurd e (this.1 x hx')
    · exact ih hx' hy' this.2

theorem dropRef_refs (t o : Nat) : (s.dropRef t o).refs = s.refs ∧ (s.dropRef t o).nextRef = s.nextRef := by
  simp only [dropRef]
  cases s.objs[o]? with
  | none => exact ⟨rfl, rfl⟩
  | some y =>
    simp only
    split <;> exact ⟨rfl, rfl⟩

theorem Ids.rest {l m : List GRef} (h : Ids s) (hp : s.refs.Perm (m ++ l)) :
    (l.map GRef.id).Nodup ∧ ∀ x ∈ l, x.id < s.nextRef := by
  have := (hp.map GRef.id).nodup_iff.mp h.nodup
  rw [List.map_append, List.nodup_append] at this
  exact ⟨this.2.1, fun x hx => h.lt x (hp.mem_iff.mpr (List.mem_append.mpr (.inr hx)))⟩

theorem mem_setHolders {r : Nat} {f : List Nat → List Nat} {y : GRef} : y ∈ (s.setHolders r f).refs ↔
    ∃ x ∈ s.refs, y = if x.id = r then { x with holders := f x.holders } else x := by
  simp only [setHolders, List.mem_map]
  exact ⟨fun ⟨x, h1, h2⟩ => ⟨x, h1, h2.symm⟩, fun ⟨x, h1, h2⟩ => ⟨x, h1, h2.symm⟩⟩

theorem setHolders_ids (r : Nat) (f : List Nat → List Nat) : (s.setHolders r f).refs.map GRef.id = s.refs.map GRef.id := by
  simp only [setHolders, List.map_map]
  apply List.map_congr_left
  intro x _
  simp only [Function.comp]
  split <;> rfl

theorem Ids.setHolders (h : Ids s) (r : Nat) (f : List Nat → List Nat) : Ids (s.setHolders r f) := by
  refine ⟨by rw [setHolders_ids]; exact h.nodup, fun x hx => ?_⟩
  obtain ⟨y, hy, rfl⟩ := mem_setHolders.mp hx
  have := h.lt y hy
  split <;> exact this

/-- Borrowing does not touch the references that belong to nobody. -/
theorem Ids.borrow (h : Ids s) {r : Nat} {f : List Nat → List Nat} {x : GRef} (hx : x ∈ s.refs) (hr : x.id = r)
    (h1 : x.holders ≠ []) (h2 : f x.holders ≠ []) (y : GRef) (hy : y.holders = []) :
    y ∈ (s.setHolders r f).refs ↔ y ∈ s.refs := by
  rw [mem_setHolders]
  constructor
  · rintro ⟨z, hz, e⟩
    split at e
    · rename_i hzr
      have := h.eq hz hx (hzr.trans hr.symm)
      subst this
      rw [e] at hy
      exact absurd hy h2
    · rw [e]; exact hz
  · intro hm
    refine ⟨y, hm, ?_⟩
    rw [if_neg]
    intro e
    have := h.eq hm hx (e.trans hr.symm)
    subst this
    exact h1 hy

/-- The steps of threads keep the references that belong to nobody. -/
theorem Ids.step {op : GOp} (h : Ids s) (hs : s.step op = some s') :
    Ids s' ∧ s.nextRef ≤ s'.nextRef ∧ ∀ x : GRef, x.holders = [] → (x ∈ s'.refs ↔ x ∈ s.refs) := by
  simp only [GMem.step] at hs
  split at hs
  · cases hs
  have fresh : ∀ {l : List GRef} {o t : Nat}, (l.map GRef.id).Nodup → (∀ x ∈ l, x.id < s.nextRef) →
      ∀ m : GMem, m.refs = ⟨s.nextRef, o, [t]⟩ :: l → m.nextRef = s.nextRef + 1 → Ids m := by
    intro l o t h1 h2 m e1 e2
    refine ⟨?_, ?_⟩
    · rw [e1, List.map_cons, List.nodup_cons]
      refine ⟨?_, h1⟩
      intro hm
      obtain ⟨x, hx, hx'⟩ := List.mem_map.mp hm
      have := h2 x hx
      simp only at hx'
      omega
    · intro x hx
      rw [e1] at hx
      rw [e2]
      rcases List.mem_cons.mp hx with rfl | hx
      · exact Nat.lt_succ_self _
      · have := h2 x hx; omega
  cases op with
  | newToken t k text =>
    simp only [Option.bind_eq_bind, Option.bind_eq_some_iff] at hs
    obtain ⟨_, -, hs⟩ := hs
    cases hs
    refine ⟨fresh h.nodup h.lt _ rfl rfl, Nat.le_succ _, fun x hx => ?_⟩
    simp only [alloc, List.mem_cons]
    exact ⟨fun hm => hm.resolve_left (by rintro rfl; cases hx), .inr⟩
  | newNode t k rs =>
    simp only [Option.bind_eq_bind, Option.bind_eq_some_iff] at hs
    obtain ⟨_, -, ⟨os, l⟩, h1, hs⟩ := hs
    cases hs
    obtain ⟨hp, -⟩ := popRefs_perm h1
    obtain ⟨a, b⟩ := h.rest hp
    refine ⟨fresh a b _ rfl rfl, Nat.le_succ _, fun x hx => ?_⟩
    simp only [alloc, List.mem_cons]
    rw [hp.mem_iff, List.mem_append]
    refine ⟨fun hm => .inr (hm.resolve_left (by rintro rfl; cases hx)), fun hm => .inr (hm.resolve_left ?_)⟩
    intro hz
    obtain ⟨i, hi, e⟩ := List.mem_iff_getElem.mp hz
    rw [List.getElem_zipWith] at e
    rw [← e] at hx
    cases hx
  | read t r path =>
    simp only [Option.bind_eq_bind, Option.bind_eq_some_iff] at hs
    obtain ⟨x, hx, _, -, o, ho, hs⟩ := hs
    cases hs
    exact ⟨⟨h.nodup, h.lt⟩, Nat.le_refl _, fun _ _ => Iff.rfl⟩
  | clone t r path =>
    simp only [Option.bind_eq_bind, Option.bind_eq_some_iff] at hs
    obtain ⟨x, hx, _, -, o, ho, y, hy, hs⟩ := hs
    split at hs <;> cases hs
    · exact ⟨⟨h.nodup, h.lt⟩, Nat.le_refl _, fun _ _ => Iff.rfl⟩
    · refine ⟨fresh h.nodup h.lt _ rfl rfl, Nat.le_succ _, fun x hx => ?_⟩
      simp only [List.mem_cons]
      exact ⟨fun hm => hm.resolve_left (by rintro rfl; cases hx), .inr⟩
  | drop t r =>
    simp only [Option.bind_eq_bind, Option.bind_eq_some_iff] at hs
    obtain ⟨_, -, ⟨x, l⟩, h1, hs⟩ := hs
    cases hs
    obtain ⟨p1, p2, p3⟩ := popRef_perm h1
    obtain ⟨e1, e2⟩ := dropRef_refs (s := { s with refs := l }) t x.obj
    obtain ⟨a, b⟩ := h.rest (m := [x]) p1
    refine ⟨⟨by rw [e1]; exact a, by rw [e1, e2]; exact b⟩, by rw [e2]; exact Nat.le_refl _, fun y hy => ?_⟩
    rw [e1, p1.mem_iff, List.mem_cons]
    refine ⟨.inr, fun hm => hm.resolve_left ?_⟩
    rintro rfl
    simp [hy] at p2 p3
  | glue t =>
    simp only [Option.bind_eq_bind, Option.bind_eq_some_iff] at hs
    obtain ⟨⟨f, fs⟩, h1, hs⟩ := hs
    split at hs <;> cases hs
    · rename_i k ks hr
      obtain ⟨e1, e2⟩ := dropRef_refs (s := { s with stack := ⟨t, f.obj, ks⟩ :: fs }) t k
      exact ⟨⟨by rw [e1]; exact h.nodup, by rw [e1, e2]; exact h.lt⟩, by rw [e2]; exact Nat.le_refl _, fun y _ => by rw [e1]⟩
    · exact ⟨⟨h.nodup, h.lt⟩, Nat.le_refl _, fun _ _ => Iff.rfl⟩
  | lend a t r =>
    simp only [Option.bind_eq_bind, Option.bind_eq_some_iff, guard] at hs
    obtain ⟨x, hx, _, hg, hs⟩ := hs
    split at hg
    · rename_i hg'
      cases hs
      obtain ⟨h1, h2⟩ := ref?_mem hx
      refine ⟨h.setHolders _ _, Nat.le_refl _, h.borrow h1 h2 (List.ne_nil_of_mem hg'.1) (by simp)⟩
    · cases hg
  | giveBack t a r =>
    simp only [Option.bind_eq_bind, Option.bind_eq_some_iff, guard] at hs
    obtain ⟨x, hx, _, hg, hs⟩ := hs
    split at hg
    · rename_i hg'
      cases hs
      obtain ⟨h1, h2⟩ := ref?_mem hx
      refine ⟨h.setHolders _ _, Nat.le_refl _, h.borrow h1 h2 (List.ne_nil_of_mem hg'.1) ?_⟩
      exact List.ne_nil_of_mem (List.mem_filter.mpr ⟨hg'.2.1, by simpa using fun e : a = t => hg'.2.2.1 e.symm⟩)
    · cases hg

/-- Tokens have no children. -/
def Leaf (s : GMem) : Prop := ∀ (o : Nat) (x : GObj), s.objs[o]? = some x → x.text.isSome = true → x.kids = []

theorem Leaf.step {op : GOp} (ih : Leaf s) (hs : s.step op = some s') : Leaf s' := by
  intro o x hx ht
  obtain ⟨he, hl⟩ := Ext.step hs
  have old : o < s.objs.length → x.kids = [] := by
    intro ho
    obtain ⟨y, hy⟩ : ∃ y, s.objs[o]? = some y := ⟨_, List.getElem?_eq_getElem ho⟩
    obtain ⟨z, z1, -, z3, z4⟩ := he o y hy
    rw [hx] at z1; cases z1
    rw [z4]; exact ih o y hy (by rw [← z3]; exact ht)
  rcases hl with hl | ⟨s0, t, k, text, os, h1, rfl, h3⟩
  · exact old (by rw [← hl]; exact (List.getElem?_eq_some_iff.mp hx).1)
  · rcases Nat.lt_or_ge o s.objs.length with ho | ho
    · exact old ho
    · simp only [GMem.alloc, h1] at hx
      rw [List.getElem?_append_right ho] at hx
      obtain ⟨h4, h5⟩ := List.getElem?_eq_some_iff.mp hx
      simp at h5
      subst h5
      exact h3 ht

theorem mem_zipRefs {t : Nat} {x : GRef} : ∀ {rs os : List Nat}, x ∈ rs.zipWith (fun r o => (⟨r, o, [t]⟩ : GRef)) os ↔
    ∃ r o, (r, o) ∈ rs.zip os ∧ x = ⟨r, o, [t]⟩
  | [], _ => by simp
  | _ :: _, [] => by simp
  | r :: rs, o :: os => by
    simp only [List.zipWith_cons_cons, List.zip_cons_cons, List.mem_cons, mem_zipRefs (rs := rs), Prod.mk.injEq]
    constructor
    · rintro (rfl | ⟨r', o', h, rfl⟩)
      · exact ⟨r, o, .inl ⟨rfl, rfl⟩, rfl⟩
      · exact ⟨r', o', .inr h, rfl⟩
    · rintro ⟨r', o', ⟨rfl, rfl⟩ | h, rfl⟩
      · exact .inl rfl
      · exact .inr ⟨r', o', h, rfl⟩

theorem popRef_ok {t r : Nat} : ∀ {l : List GRef}, (l.map GRef.id).Nodup → ∀ {o : Nat}, ⟨r, o, [t]⟩ ∈ l →
    ∃ l', popRef t r l = some (⟨r, o, [t]⟩, l')
  | x :: l, hn, o, hm => by
    simp only [List.map_cons, List.nodup_cons] at hn
    rcases List.mem_cons.mp hm with rfl | hm'
    · exact ⟨l, by simp [popRef]⟩
    · have hne : x.id ≠ r := fun e => hn.1 (e ▸ List.mem_map.mpr ⟨_, hm', rfl⟩)
      obtain ⟨l', e⟩ := popRef_ok hn.2 hm'
      exact ⟨x :: l', by simp [popRef, hne, e]⟩

theorem popRefs_ok {t : Nat} : ∀ {rs os : List Nat} {l : List GRef}, (l.map GRef.id).Nodup → rs.Nodup → rs.length = os.length →
    (∀ x ∈ rs.zipWith (fun r o => (⟨r, o, [t]⟩ : GRef)) os, x ∈ l) → ∃ l', popRefs t rs l = some (os, l')
  | [], [], l, _, _, _, _ => ⟨l, rfl⟩
  | r :: rs, o :: os, l, hn, hr, hl, hm => by
    obtain ⟨l1, e1⟩ := popRef_ok hn (hm ⟨r, o, [t]⟩ (by simp))
    obtain ⟨p1, -⟩ := popRef_perm e1
    have hn1 := (p1.map GRef.id).nodup_iff.mp hn
    simp only [List.map_cons, List.nodup_cons] at hn1 hr
    obtain ⟨l2, e2⟩ := popRefs_ok (rs := rs) (os := os) hn1.2 hr.2 (by simpa using hl) (by
      intro x hx
      have := p1.mem_iff.mp (hm x (by simp only [List.zipWith_cons_cons]; exact List.mem_cons_of_mem _ hx))
      rcases List.mem_cons.mp this with rfl | h
      · obtain ⟨i, hi, e⟩ := List.mem_iff_getElem.mp hx
        rw [List.getElem_zipWith] at e
        exact absurd (by have := congrArg GRef.id e; simp only at this; exact this ▸ List.getElem_mem _) hr.1
      · exact h)
    exact ⟨l2, by simp [popRefs, e1, e2]⟩

end GMem

namespace PMem
open GMem

variable {m m' : GMem} {s s' : PMem}

theorem Elems.length {rs os : List Nat} (h : Elems m rs os) : rs.length = os.length := by
  induction h with
  | nil => rfl
  | cons _ _ ih => simp [ih]

theorem Elems.zip {rs os : List Nat} (h : Elems m rs os) {r o : Nat} (hz : (r, o) ∈ rs.zip os) : ∃ x ∈ m.refs, x.id = r ∧ x.obj = o := by
  induction h with
  | nil => cases hz
  | cons hx _ ih =>
    rcases List.mem_cons.mp hz with e | hz'
    · cases e; exact hx
    · exact ih hz'

theorem Elems.exists {rs : List Nat} : (∀ r ∈ rs, ∃ x ∈ m.refs, x.id = r ∧ x.holders = []) → ∃ os, Elems m rs os := by
  induction rs with
  | nil => exact fun _ => ⟨[], .nil⟩
  | cons r rs ih =>
    intro h
    obtain ⟨os, ho⟩ := ih fun r hr => h r (List.mem_cons_of_mem _ hr)
    obtain ⟨x, hx, e, -⟩ := h r (List.mem_cons_self ..)
    exact ⟨x.obj :: os, .cons ⟨x, hx, e, rfl⟩ ho⟩

theorem popBuild_perm {t : Nat} : ∀ {l l' : List GBuild} {b : GBuild}, popBuild t l = some (b, l') → l.Perm (b :: l') ∧ b.thread = t
  | c :: l, l', b, h => by
    simp only [popBuild] at h
    split at h
    · cases h; rename_i e; exact ⟨.refl _, e⟩
    · simp only [Option.bind_eq_bind, Option.bind_eq_some_iff] at h
      obtain ⟨⟨d, m⟩, h1, h2⟩ := h
      cases h2
      obtain ⟨p, e⟩ := popBuild_perm h1
      exact ⟨(p.cons c).trans (.swap ..), e⟩

/-- The elements are handed back to the thread that builds. -/
def unpark (m : GMem) (t : Nat) (rs : List Nat) : GMem := rs.foldl (fun m r => m.setHolders r fun _ => [t]) m

theorem unpark_refs (t : Nat) : ∀ (rs : List Nat) (m : GMem), (unpark m t rs).refs =
    m.refs.map (fun x => if x.id ∈ rs then { x with holders := [t] } else x) ∧ (unpark m t rs).nextRef = m.nextRef ∧
    (unpark m t rs).objs = m.objs ∧ (unpark m t rs).stack = m.stack ∧ (unpark m t rs).dead = m.dead ∧ (unpark m t rs).ub = m.ub
  | [], m => by simp [unpark]
  | r :: rs, m => by
    obtain ⟨h1, h2, h3, h4, h5, h6⟩ := unpark_refs t rs (m.setHolders r fun _ => [t])
    refine ⟨?_, h2, h3, h4, h5, h6⟩
    rw [show unpark m t (r :: rs) = unpark (m.setHolders r fun _ => [t]) t rs from rfl, h1]
    simp only [GMem.setHolders, List.map_map]
    apply List.map_congr_left
    intro x _
    simp only [Function.comp, List.mem_cons]
    by_cases e : x.id = r <;> by_cases e' : x.id ∈ rs <;> simp [e, e']

theorem unpark_inv {t : Nat} {rs : List Nat} {E : List Nat} (h : Inv m E) : Inv (unpark m t rs) E := by
  induction rs generalizing m with
  | nil => exact h
  | cons r rs ih => exact ih (m := m.setHolders r fun _ => [t]) (h.congr (setHolders_obj r fun _ => [t]) m.nextRef m.dead)

theorem unpark_ids {t : Nat} {rs : List Nat} (h : Ids m) : Ids (unpark m t rs) := by
  induction rs generalizing m with
  | nil => exact h
  | cons r rs ih => exact ih (h.setHolders ..)

/-- What `finish` does, when it can be done. -/
theorem finish_spec (hi : Inv m []) (hd : Ids m) {b : GBuild} (hn : b.taken.Nodup)
    (hp : ∀ r ∈ b.taken, ∃ x ∈ m.refs, x.id = r ∧ x.holders = []) :
    (finish m b = none ↔ m.dead = true ∨ m.idle b.thread = false) ∧
    ∀ m', finish m b = some m' → Inv m' [] ∧ Ids m' ∧ (Leaf m → Leaf m') ∧ GMem.Ext m m' ∧ m'.nextRef = m.nextRef + 1 ∧ m'.stack = m.stack ∧
      ∃ os refs, Elems m b.taken os ∧ m'.refs = ⟨m.nextRef, m.objs.length, [b.thread]⟩ :: refs ∧
        m'.objs = m.objs ++ [⟨1, b.kind, none, os, false⟩] ∧
        ∀ y : GRef, y ∈ refs ↔ y ∈ m.refs ∧ y.id ∉ b.taken := by
  obtain ⟨os, hos⟩ := Elems.exists hp
  obtain ⟨u1, u2, u3, u4, u5, u6⟩ := unpark_refs b.thread b.taken m
  have hu : Ids (unpark m b.thread b.taken) := unpark_ids hd
  have hui : Inv (unpark m b.thread b.taken) [] := unpark_inv hi
  have hmem : ∀ {r o}, (r, o) ∈ b.taken.zip os → (⟨r, o, [b.thread]⟩ : GRef) ∈ (unpark m b.thread b.taken).refs := by
    intro r o hz
    obtain ⟨x, hx, rfl, rfl⟩ := hos.zip hz
    rw [u1, List.mem_map]
    exact ⟨x, hx, by rw [if_pos (List.of_mem_zip hz).1]⟩
  obtain ⟨l', hl⟩ := popRefs_ok hu.nodup hn hos.length (by
    intro x hx
    obtain ⟨r, o, h1, rfl⟩ := mem_zipRefs.mp hx
    exact hmem h1)
  have hidle : (unpark m b.thread b.taken).idle b.thread = m.idle b.thread := by simp only [idle, u4]
  have hst : finish m b = (unpark m b.thread b.taken).step (.newNode b.thread b.kind b.taken) := rfl
  constructor
  · rw [hst]
    simp only [GMem.step, u5, hl, hidle, Option.bind_eq_bind, guard]
    cases m.dead <;> cases m.idle b.thread <;> simp
  · intro m' hm
    rw [hst] at hm
    have hm' := hm
    have i1 := hui.step hm
    have i2 := (hu.step hm).1
    have i3 : Leaf m → Leaf m' := fun h0 => Leaf.step (s := unpark m b.thread b.taken) (by simpa only [Leaf, u3] using h0) hm
    have i4 : GMem.Ext m m' := by
      have := (Ext.step hm).1
      intro o x hx
      exact this o x (by rw [u3]; exact hx)
    simp only [GMem.step] at hm
    split at hm
    · cases hm
    simp only [hl, Option.bind_eq_bind, Option.bind_eq_some_iff, Option.some.injEq] at hm
    obtain ⟨_, -, ⟨os', l''⟩, e, hm⟩ := hm
    cases e
    subst hm
    refine ⟨i1, i2, i3, i4, by simp [alloc, hit, u2], by simp [alloc, hit, u4], os, l', hos, by simp [alloc, hit, u2, u3], by simp [alloc, hit, u3], ?_⟩
    obtain ⟨hp, hlen⟩ := popRefs_perm hl
    have hnd := (hp.map GRef.id).nodup_iff.mp hu.nodup
    rw [List.map_append, List.nodup_append] at hnd
    have hz : ∀ r ∈ b.taken, ∃ o, (r, o) ∈ b.taken.zip os := by
      intro r hr
      obtain ⟨i, h1, e⟩ := List.mem_iff_getElem.mp hr
      exact ⟨os[i]'(by omega), by rw [← e]; exact List.mem_iff_getElem.mpr ⟨i, by simp; omega, by simp⟩⟩
    intro y
    constructor
    · intro hy
      have hno : y.id ∉ b.taken := by
        intro hr
        obtain ⟨o, ho⟩ := hz _ hr
        refine hnd.2.2 y.id (List.mem_map.mpr ⟨⟨y.id, o, [b.thread]⟩, ?_, rfl⟩) y.id (List.mem_map.mpr ⟨y, hy, rfl⟩) rfl
        exact mem_zipRefs.mpr ⟨_, _, ho, rfl⟩
      have := hp.mem_iff.mpr (List.mem_append.mpr (.inr hy))
      rw [u1, List.mem_map] at this
      obtain ⟨x, hx, e⟩ := this
      have hid : x.id = y.id := by rw [← e]; split <;> rfl
      rw [if_neg (hid ▸ hno)] at e
      exact ⟨e ▸ hx, hno⟩
    · rintro ⟨hy, hno⟩
      have : y ∈ (unpark m b.thread b.taken).refs := by
        rw [u1, List.mem_map]
        exact ⟨y, hy, by rw [if_neg hno]⟩
      rcases List.mem_append.mp (hp.mem_iff.mp this) with h1 | h1
      · obtain ⟨r, o, h2, rfl⟩ := mem_zipRefs.mp h1
        exact absurd (List.of_mem_zip h2).1 hno
      · exact h1

/-- What the running constructions have taken over. -/
def parked (bs : List GBuild) : List Nat := bs.flatMap GBuild.taken

theorem parked_perm {l l' : List GBuild} (h : l.Perm l') : (parked l).Perm (parked l') := h.flatMap_right _

structure PInv (s : PMem) : Prop where
  inv : Inv s.mem []
  ids : Ids s.mem
  leaf : Leaf s.mem
  nodup : (parked s.builds ++ s.lost).Nodup
  owned : ∀ r, r ∈ parked s.builds ++ s.lost ↔ ∃ x ∈ s.mem.refs, x.id = r ∧ x.holders = []
  len : ∀ b ∈ s.builds, b.taken.length ≤ b.len

theorem PInv.popped (h : PInv s) {b : GBuild} {bs : List GBuild} (hp : s.builds.Perm (b :: bs)) :
    (b.taken ++ (parked bs ++ s.lost)).Nodup ∧
    ∀ r, r ∈ b.taken ∨ r ∈ parked bs ++ s.lost ↔ ∃ x ∈ s.mem.refs, x.id = r ∧ x.holders = [] := by
  have e : (parked s.builds ++ s.lost).Perm (b.taken ++ (parked bs ++ s.lost)) := by
    have := (parked_perm hp).append_right s.lost
    rwa [show parked (b :: bs) = b.taken ++ parked bs from rfl, List.append_assoc] at this
  refine ⟨e.nodup_iff.mp h.nodup, fun r => ?_⟩
  rw [← h.owned r, e.mem_iff, List.mem_append (s := b.taken)]

/-- The end of a construction, either way. -/
theorem PInv.close (h : PInv s) {b : GBuild} {bs : List GBuild} (hp : s.builds.Perm (b :: bs)) :
    (finish s.mem b = none ↔ s.mem.dead = true ∨ s.mem.idle b.thread = false) ∧
    ∀ m', finish s.mem b = some m' → PInv ⟨m', bs, s.lost⟩ ∧ GMem.Ext s.mem m' ∧ m'.nextRef = s.mem.nextRef + 1 ∧
      m'.stack = s.mem.stack ∧
      ∃ os refs, Elems s.mem b.taken os ∧ m'.refs = ⟨s.mem.nextRef, s.mem.objs.length, [b.thread]⟩ :: refs ∧
        m'.objs = s.mem.objs ++ [⟨1, b.kind, none, os, false⟩] ∧
        ∀ y : GRef, y ∈ refs ↔ y ∈ s.mem.refs ∧ y.id ∉ b.taken := by
  obtain ⟨hn, ho⟩ := h.popped hp
  rw [List.nodup_append] at hn
  obtain ⟨f1, f2⟩ := finish_spec h.inv h.ids (b := b) hn.1 (fun r hr => (ho r).mp (.inl hr))
  refine ⟨f1, fun m' hm => ?_⟩
  obtain ⟨i1, i2, i3, i4, i5, i6, os, refs, j1, j2, j3, j4⟩ := f2 m' hm
  refine ⟨⟨i1, i2, i3 h.leaf, hn.2.1, fun r => ?_, fun c hc => h.len c (hp.mem_iff.mpr (List.mem_cons_of_mem _ hc))⟩,
    i4, i5, i6, os, refs, j1, j2, j3, j4⟩
  simp only [j2, List.mem_cons]
  constructor
  · intro hr
    obtain ⟨x, hx, e1, e2⟩ := (ho r).mp (.inr hr)
    exact ⟨x, .inr ((j4 x).mpr ⟨hx, fun hb => hn.2.2 _ hb _ hr e1⟩), e1, e2⟩
  · rintro ⟨x, rfl | hx, e1, e2⟩
    · cases e2
    · obtain ⟨h1, h2⟩ := (j4 x).mp hx
      exact ((ho r).mpr ⟨x, h1, e1, e2⟩).resolve_left (e1 ▸ h2)

/-- A panic. -/
theorem PInv.abandon (h : PInv s) {b : GBuild} {bs : List GBuild} (hp : s.builds.Perm (b :: bs)) (hs : s.abandon b bs = some s') :
    PInv s' ∧ GMem.Ext s.mem s'.mem ∧ s'.builds = bs ∧ s'.lost = s.mem.nextRef :: s.lost ∧ s'.mem.stack = s.mem.stack ∧
      ∃ os, Elems s.mem b.taken os ∧ s'.mem.objs = s.mem.objs ++ [⟨1, b.kind, none, os, false⟩] ∧
        ∀ y : GRef, y ∈ s'.mem.refs ↔ y = ⟨s.mem.nextRef, s.mem.objs.length, []⟩ ∨ y ∈ s.mem.refs ∧ y.id ∉ b.taken := by
  simp only [PMem.abandon, Option.bind_eq_bind, Option.bind_eq_some_iff] at hs
  obtain ⟨m, hm, hs⟩ := hs
  cases hs
  obtain ⟨hi, i4, i5, i6, os, refs, j1, j2, j3, j4⟩ := (h.close hp).2 m hm
  have hlt : ∀ y ∈ refs, y.id ≠ s.mem.nextRef := fun y hy => Nat.ne_of_lt (h.ids.lt y ((j4 y).mp hy).1)
  have hrefs : ∀ y : GRef, y ∈ (m.setHolders s.mem.nextRef fun _ => []).refs ↔
      y = ⟨s.mem.nextRef, s.mem.objs.length, []⟩ ∨ y ∈ refs := by
    intro y
    rw [mem_setHolders, j2]
    constructor
    · rintro ⟨x, hx, e⟩
      rcases List.mem_cons.mp hx with rfl | hx
      · exact .inl (by simpa using e)
      · rw [if_neg (hlt x hx)] at e
        exact .inr (e ▸ hx)
    · rintro (rfl | hy)
      · exact ⟨_, List.mem_cons_self .., by simp⟩
      · exact ⟨y, List.mem_cons_of_mem _ hy, by rw [if_neg (hlt y hy)]⟩
  have hno : s.mem.nextRef ∉ parked bs ++ s.lost := by
    intro hr
    obtain ⟨x, hx, e, -⟩ := ((h.popped hp).2 _).mp (.inr hr)
    exact absurd e (Nat.ne_of_lt (h.ids.lt x hx))
  refine ⟨⟨hi.inv.congr (setHolders_obj s.mem.nextRef fun _ => []) m.nextRef m.dead, hi.ids.setHolders s.mem.nextRef fun _ => [], hi.leaf, ?_, fun r => ?_, hi.len⟩, i4, rfl, rfl, i6, os, j1, j3,
    fun y => by rw [hrefs, j4]⟩
  · exact (List.perm_middle.nodup_iff).mpr (List.nodup_cons.mpr ⟨hno, hi.nodup⟩)
  · simp only [hrefs, List.perm_middle.mem_iff, List.mem_cons]
    rw [show (r ∈ parked bs ++ s.lost) = (r ∈ parked (PMem.mk m bs s.lost).builds ++ (PMem.mk m bs s.lost).lost) from rfl, hi.owned r]
    simp only [j2, List.mem_cons]
    constructor
    · rintro (rfl | ⟨x, rfl | hx, e1, e2⟩)
      · exact ⟨_, .inl rfl, rfl, rfl⟩
      · cases e2
      · exact ⟨x, .inr hx, e1, e2⟩
    · rintro ⟨x, rfl | hx, e1, e2⟩
      · exact .inl e1.symm
      · exact .inr ⟨x, .inr hx, e1, e2⟩

/-- The iterator says that it is at its end. -/
theorem PInv.check (h : PInv s) {b : GBuild} {bs : List GBuild} (hp : s.builds.Perm (b :: bs)) :
    PInv ⟨s.mem, { b with checked := true } :: bs, s.lost⟩ := by
  have e : (parked s.builds).Perm (parked ({ b with checked := true } :: bs)) := (parked_perm hp : (parked s.builds).Perm (parked (b :: bs)))
  refine ⟨h.inv, h.ids, h.leaf, ((e.append_right s.lost).nodup_iff).mp h.nodup, fun r => ?_, fun c hc => ?_⟩
  · rw [← h.owned r]
    exact ((e.append_right s.lost).mem_iff).symm
  · rcases List.mem_cons.mp hc with rfl | hc
    · exact h.len b (hp.mem_iff.mpr (List.mem_cons_self ..))
    · exact h.len c (hp.mem_iff.mpr (List.mem_cons_of_mem _ hc))

/-- The iterator yields an element. -/
theorem PInv.park (h : PInv s) {b : GBuild} {bs : List GBuild} {t r : Nat} {x : GRef} (hp : s.builds.Perm (b :: bs))
    (hx : s.mem.ref? r = some x) (hh : x.holders = [t]) (hl : b.taken.length < b.len) :
    PInv ⟨s.mem.setHolders r fun _ => [], { b with taken := b.taken ++ [r] } :: bs, s.lost⟩ := by
  obtain ⟨x1, x2⟩ := ref?_mem hx
  obtain ⟨hn, ho⟩ := h.popped hp
  have hno : r ∉ b.taken ++ (parked bs ++ s.lost) := by
    intro hr
    obtain ⟨y, y1, y2, y3⟩ := (ho r).mp (List.mem_append.mp hr)
    have := h.ids.eq y1 x1 (y2.trans x2.symm)
    subst this
    rw [y3] at hh; cases hh
  have e : (parked ({ b with taken := b.taken ++ [r] } :: bs) ++ s.lost).Perm (r :: (b.taken ++ (parked bs ++ s.lost))) := by
    rw [show parked ({ b with taken := b.taken ++ [r] } :: bs) = b.taken ++ [r] ++ parked bs from rfl]
    simp only [List.append_assoc, List.singleton_append]
    exact List.perm_middle
  refine ⟨h.inv.congr (setHolders_obj r fun _ => []) s.mem.nextRef s.mem.dead, h.ids.setHolders r fun _ => [], h.leaf,
    e.nodup_iff.mpr (List.nodup_cons.mpr ⟨hno, hn⟩), fun q => ?_, ?_⟩
  · rw [e.mem_iff, List.mem_cons, List.mem_append, ho q]
    simp only [mem_setHolders]
    constructor
    · rintro (rfl | ⟨y, y1, y2, y3⟩)
      · exact ⟨_, ⟨x, x1, rfl⟩, by rw [if_pos x2]; exact x2, by rw [if_pos x2]⟩
      · refine ⟨_, ⟨y, y1, rfl⟩, ?_, ?_⟩ <;> split <;> first | exact y2 | exact y3 | rfl
    · rintro ⟨z, ⟨y, y1, rfl⟩, y2, y3⟩
      by_cases hy : y.id = r
      · rw [if_pos hy] at y2; exact .inl (y2.symm.trans hy)
      · rw [if_neg hy] at y2 y3; exact .inr ⟨y, y1, y2, y3⟩
  · intro c hc
    rcases List.mem_cons.mp hc with rfl | hc
    · simp; omega
    · exact h.len c (hp.mem_iff.mpr (List.mem_cons_of_mem _ hc))

theorem PInv.init : PInv {} :=
  ⟨.init, ⟨by simp, by simp⟩, fun o x hx => by simp at hx, by simp [parked], by simp [parked], by simp⟩

theorem PInv.step {op : POp} {out : POut} (h : PInv s) (hs : s.step op = some (s', out)) : PInv s' ∧ GMem.Ext s.mem s'.mem := by
  cases op with
  | other op =>
    simp only [PMem.step, Option.bind_eq_bind, Option.bind_eq_some_iff] at hs
    obtain ⟨m, hm, hs⟩ := hs
    cases hs
    obtain ⟨a, -, c⟩ := h.ids.step hm
    refine ⟨⟨h.inv.step hm, a, h.leaf.step hm, h.nodup, fun r => ?_, h.len⟩, (Ext.step hm).1⟩
    rw [show (r ∈ parked (PMem.mk m s.builds s.lost).builds ++ (PMem.mk m s.builds s.lost).lost) = (r ∈ parked s.builds ++ s.lost) from rfl, h.owned r]
    constructor
    · rintro ⟨x, hx, e1, e2⟩; exact ⟨x, (c x e2).mpr hx, e1, e2⟩
    · rintro ⟨x, hx, e1, e2⟩; exact ⟨x, (c x e2).mp hx, e1, e2⟩
  | start t kind len =>
    simp only [PMem.step, Option.bind_eq_bind, Option.bind_eq_some_iff] at hs
    obtain ⟨_, -, hs⟩ := hs
    cases hs
    exact ⟨⟨h.inv, h.ids, h.leaf, h.nodup, h.owned, fun c hc => by
      rcases List.mem_cons.mp hc with rfl | hc
      · exact Nat.zero_le _
      · exact h.len c hc⟩, .rfl'⟩
  | yield t r =>
    simp only [PMem.step, Option.bind_eq_bind, Option.bind_eq_some_iff, guard] at hs
    obtain ⟨_, -, ⟨b, bs⟩, hb, x, hx, _, hg, hs⟩ := hs
    split at hg
    · rename_i hh
      split at hs
      · cases hs
        exact ⟨h.park (popBuild_perm hb).1 hx hh (by assumption), .rfl'⟩
      · simp only [Option.bind_eq_some_iff] at hs
        obtain ⟨s1, h1, hs⟩ := hs
        cases hs
        have := h.abandon (popBuild_perm hb).1 h1
        exact ⟨this.1, this.2.1⟩
    · cases hg
  | stop t =>
    simp only [PMem.step, Option.bind_eq_bind, Option.bind_eq_some_iff] at hs
    obtain ⟨⟨b, bs⟩, hb, hs⟩ := hs
    split at hs
    · simp only [Option.bind_eq_some_iff] at hs
      obtain ⟨s1, h1, hs⟩ := hs
      cases hs
      have := h.abandon (popBuild_perm hb).1 h1
      exact ⟨this.1, this.2.1⟩
    split at hs
    · cases hs
      exact ⟨h.check (popBuild_perm hb).1, .rfl'⟩
    · simp only [Option.bind_eq_some_iff] at hs
      obtain ⟨m, h1, hs⟩ := hs
      cases hs
      have := (h.close (popBuild_perm hb).1).2 _ h1
      exact ⟨this.1, this.2.1⟩
  | fail t =>
    simp only [PMem.step, Option.bind_eq_bind, Option.bind_eq_some_iff] at hs
    obtain ⟨⟨b, bs⟩, hb, s1, h1, hs⟩ := hs
    cases hs
    have := h.abandon (popBuild_perm hb).1 h1
    exact ⟨this.1, this.2.1⟩

theorem Reach.pinv (h : s.Reach) : PInv s := by
  induction h with
  | init => exact .init
  | step op _ hs ih => exact (ih.step hs).1

end PMem
end Rowan
