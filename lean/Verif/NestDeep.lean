import Verif.Nest
/-!
# Nested destructors: how deep they get

The definitions in this file are vocabulary of the proofs and model no code.
-/
namespace Rowan

theorem le_sumBy_two {α : Type} {f : α → Nat} : ∀ {l : List α} {i j : Nat} {x y : α}, l[i]? = some x → l[j]? = some y → i ≠ j →
    f x + f y ≤ sumBy f l
  | [], i, j, x, y, h, _, _ => by simp at h
  | a :: l, 0, 0, x, y, _, _, h => absurd rfl h
  | a :: l, 0, j + 1, x, y, h1, h2, _ => by
    simp only [List.getElem?_cons_zero, Option.some.injEq] at h1
    subst h1
    have := le_sumBy (f := f) (List.mem_of_getElem? (List.getElem?_cons_succ ▸ h2))
    simp only [sumBy]; omega
  | a :: l, i + 1, 0, x, y, h1, h2, _ => by
    simp only [List.getElem?_cons_zero, Option.some.injEq] at h2
    subst h2
    have := le_sumBy (f := f) (List.mem_of_getElem? (List.getElem?_cons_succ ▸ h1))
    simp only [sumBy]; omega
  | a :: l, i + 1, j + 1, x, y, h1, h2, h => by
    rw [List.getElem?_cons_succ] at h1 h2
    have := le_sumBy_two (f := f) h1 h2 (by omega)
    simp only [sumBy]; omega

namespace GMem
variable {s s' : GMem}

/-- The destructors that thread `t` is in. -/
def frames (s : GMem) (t : Nat) : List GFrame := s.stack.filter fun f => f.thread == t

theorem popFrame_of_filter {t : Nat} : ∀ {l fs : List GFrame} {f : GFrame}, (l.filter fun f => f.thread == t) = f :: fs →
    ∃ l', popFrame t l = some (f, l') ∧ (l'.filter fun f => f.thread == t) = fs
  | [], fs, f, h => by simp at h
  | g :: l, fs, f, h => by
    by_cases hg : g.thread = t
    · rw [List.filter_cons_of_pos (by simp [hg])] at h
      cases h
      exact ⟨l, by rw [popFrame, if_pos hg], rfl⟩
    · rw [List.filter_cons_of_neg (by simpa using hg)] at h
      obtain ⟨l', h1, h2⟩ := popFrame_of_filter h
      refine ⟨g :: l', by rw [popFrame, if_neg hg, h1]; rfl, ?_⟩
      rw [List.filter_cons_of_neg (by simpa using hg), h2]

/-- A child of the innermost node is dropped. -/
theorem glue_next {t f k : Nat} {ks : List Nat} {fs : List GFrame} (hd : s.dead = false)
    (hf : s.frames t = ⟨t, f, k :: ks⟩ :: fs) : ∃ s', s.step (.glue t) = some s' ∧
      (∀ j, j ≠ k → s'.objs[j]? = s.objs[j]?) ∧
      (s'.frames t = ⟨t, f, ks⟩ :: fs ∨ ∃ y, s.objs[k]? = some y ∧ s'.frames t = ⟨t, k, y.kids⟩ :: ⟨t, f, ks⟩ :: fs) ∧
      (∀ y, s.objs[k]? = some y → y.count = 1 → s'.frames t = ⟨t, k, y.kids⟩ :: ⟨t, f, ks⟩ :: fs) := by
  obtain ⟨l', h1, h2⟩ := popFrame_of_filter hf
  refine ⟨({ s with stack := ⟨t, f, ks⟩ :: l' } : GMem).dropRef t k, by simp [GMem.step, hd, h1], ?_, ?_, ?_⟩
  · intro j hj
    simp only [dropRef]
    split
    · rfl
    · split <;> simp [setCount, GMem.hit, Ne.symm hj]
  · rcases dropRef_stack { s with stack := ⟨t, f, ks⟩ :: l' } t k with h | ⟨y, y1, y2, h⟩
    · left
      rw [frames, h, List.filter_cons_of_pos (by simp), h2]
    · right
      refine ⟨y, y1, ?_⟩
      rw [frames, h, List.filter_cons_of_pos (by simp), List.filter_cons_of_pos (by simp), h2]
  · intro y hy hc
    rw [frames, dropRef_only (s := { s with stack := ⟨t, f, ks⟩ :: l' }) hy hc, List.filter_cons_of_pos (by simp),
      List.filter_cons_of_pos (by simp), h2]

/-- The innermost destructor ends. -/
theorem glue_leave {t f : Nat} {fs : List GFrame} (hd : s.dead = false) (hf : s.frames t = ⟨t, f, []⟩ :: fs) :
    ∃ s', s.step (.glue t) = some s' ∧ (∀ j, j ≠ f → s'.objs[j]? = s.objs[j]?) ∧ s'.frames t = fs := by
  obtain ⟨l', h1, h2⟩ := popFrame_of_filter hf
  refine ⟨{ s.hit [f] with objs := s.objs.modify f fun x => { x with freed := true }, stack := l' },
    by simp [GMem.step, hd, h1, GMem.hit], ?_, h2⟩
  intro j hj
  simp [Ne.symm hj]

theorem Below.back {o c : Nat} (he : Ext s s' ∧ s'.objs.length = s.objs.length) (h : s'.Below o c) : s.Below o c := by
  induction h with
  | refl => exact .refl _
  | step _ hx hd ih =>
    rename_i c d x' _
    have hl := (List.getElem?_eq_some_iff.mp hx).1
    rw [he.2] at hl
    obtain ⟨x, e⟩ : ∃ x, s.objs[c]? = some x := ⟨_, List.getElem?_eq_getElem hl⟩
    obtain ⟨x'', e1, -, -, e4⟩ := he.1 c x e
    rw [hx] at e1
    cases e1
    exact ih.step e (e4 ▸ hd)

theorem Unwind.append {t m n : Nat} {s'' : GMem} (h : Unwind t m s s') (h' : Unwind t n s' s'') : Unwind t (m + n) s s'' := by
  induction h' with
  | refl => exact h
  | step _ hs ih => exact .step (ih h) hs

theorem Unwind.one {t : Nat} (h : s.step (.glue t) = some s') : Unwind t 1 s s' := .step (.refl _) h

theorem Unwind.facts {t n : Nat} (h : Unwind t n s s') (hr : s.Reach) :
    s'.Reach ∧ s'.dead = s.dead ∧ Ext s s' ∧ s'.objs.length = s.objs.length := by
  induction h with
  | refl => exact ⟨hr, rfl, .rfl', rfl⟩
  | step _ hs ih =>
    obtain ⟨a, b, c, d⟩ := ih hr
    obtain ⟨e1, e2⟩ := Ext.glue hs
    exact ⟨a.step _ hs, (a.inv.work_glue hs).2.2.trans b, c.trans e1, e2.trans d⟩

/-- A destructor comes to its end; it changes its node and what is below the children that were left. -/
theorem finish {t : Nat} : ∀ (w : Nat) {s : GMem} {f : Nat} {ks : List Nat} {fs : List GFrame}, s.Reach → s.dead = false → s.work ≤ w →
    s.frames t = ⟨t, f, ks⟩ :: fs → ∃ n s', Unwind t n s s' ∧ s'.frames t = fs ∧ s'.work < s.work ∧
      ∀ j, j ≠ f → (∀ k ∈ ks, ¬ s.Below k j) → s'.objs[j]? = s.objs[j]?
  | w, s, f, [], fs, hr, hd, hw, hf => by
    obtain ⟨s1, h1, h2, h3⟩ := glue_leave hd hf
    have := (hr.inv.work_glue h1).1
    exact ⟨1, s1, .one h1, h3, by omega, fun j hj _ => h2 j hj⟩
  | 0, s, f, k :: ks, fs, hr, hd, hw, hf => by
    obtain ⟨s1, h1, -⟩ := glue_next hd hf
    have := (hr.inv.work_glue h1).1
    omega
  | w + 1, s, f, k :: ks, fs, hr, hd, hw, hf => by
    obtain ⟨s1, h1, h2, h3, -⟩ := glue_next hd hf
    have hw1 := (hr.inv.work_glue h1).1
    obtain ⟨r1, d1, e1⟩ := (Unwind.one h1).facts hr
    rw [hd] at d1
    rcases h3 with h3 | ⟨y, y1, h3⟩
    · obtain ⟨n, s2, g1, g2, g3, g4⟩ := finish w r1 d1 (by omega) h3
      refine ⟨1 + n, s2, (Unwind.one h1).append g1, g2, by omega, fun j hj hb => ?_⟩
      have hjk : j ≠ k := fun e => hb k (List.mem_cons_self ..) (e ▸ .refl _)
      rw [g4 j hj fun k' hk' hb' => hb k' (List.mem_cons_of_mem _ hk') (hb'.back e1), h2 j hjk]
    · obtain ⟨n, s2, g1, g2, g3, g4⟩ := finish w r1 d1 (by omega) h3
      obtain ⟨r2, d2, e2⟩ := g1.facts r1
      rw [d1] at d2
      obtain ⟨n', s3, i1, i2, i3, i4⟩ := finish w r2 d2 (by omega) g2
      refine ⟨1 + n + n', s3, ((Unwind.one h1).append g1).append i1, i2, by omega, fun j hj hb => ?_⟩
      have hjk : j ≠ k := fun e => hb k (List.mem_cons_self ..) (e ▸ .refl _)
      rw [i4 j hj fun k' hk' hb' => hb k' (List.mem_cons_of_mem _ hk') ((hb'.back e2).back e1),
        g4 j hjk fun k' hk' hb' => hb k (List.mem_cons_self ..) ?_, h2 j hjk]
      exact Below.trans (.step (.refl _) y1 hk') (hb'.back e1)

/-- A destructor deals with its first children. -/
theorem clear {t : Nat} : ∀ (ks : List Nat) {s : GMem} {f : Nat} {ks' : List Nat} {fs : List GFrame}, s.Reach → s.dead = false →
    s.frames t = ⟨t, f, ks ++ ks'⟩ :: fs → ∃ n s', Unwind t n s s' ∧ s'.frames t = ⟨t, f, ks'⟩ :: fs ∧
      ∀ j, (∀ k ∈ ks, ¬ s.Below k j) → s'.objs[j]? = s.objs[j]?
  | [], s, f, ks', fs, hr, hd, hf => ⟨0, s, .refl _, hf, fun _ _ => rfl⟩
  | k :: ks, s, f, ks', fs, hr, hd, hf => by
    obtain ⟨s1, h1, h2, h3, -⟩ := glue_next hd hf
    obtain ⟨r1, d1, e1⟩ := (Unwind.one h1).facts hr
    rw [hd] at d1
    rcases h3 with h3 | ⟨y, y1, h3⟩
    · obtain ⟨n, s2, g1, g2, g4⟩ := clear ks r1 d1 h3
      refine ⟨1 + n, s2, (Unwind.one h1).append g1, g2, fun j hb => ?_⟩
      have hjk : j ≠ k := fun e => hb k (List.mem_cons_self ..) (e ▸ .refl _)
      rw [g4 j fun k' hk' hb' => hb k' (List.mem_cons_of_mem _ hk') (hb'.back e1), h2 j hjk]
    · obtain ⟨n, s2, g1, g2, -, g4⟩ := finish _ r1 d1 (Nat.le_refl _) h3
      obtain ⟨r2, d2, e2⟩ := g1.facts r1
      rw [d1] at d2
      obtain ⟨n', s3, i1, i2, i4⟩ := clear ks r2 d2 g2
      refine ⟨1 + n + n', s3, ((Unwind.one h1).append g1).append i1, i2, fun j hb => ?_⟩
      have hjk : j ≠ k := fun e => hb k (List.mem_cons_self ..) (e ▸ .refl _)
      rw [i4 j fun k' hk' hb' => hb k' (List.mem_cons_of_mem _ hk') ((hb'.back e2).back e1),
        g4 j hjk fun k' hk' hb' => hb k (List.mem_cons_self ..) ?_, h2 j hjk]
      exact Below.trans (.step (.refl _) y1 hk') (hb'.back e1)

/-- What is below `k` and not `k` is a child of something below `k`. -/
theorem Below.cases_last {k c : Nat} (h : s.Below k c) : c = k ∨ ∃ d x, s.Below k d ∧ s.objs[d]? = some x ∧ c ∈ x.kids := by
  cases h with
  | refl => exact .inl rfl
  | step h1 h2 h3 => exact .inr ⟨_, _, h1, h2, h3⟩

theorem Inv.alive_kid (h : Inv s []) {k d c : Nat} {x : GObj} (hk : 0 < s.owns k) (hb : s.Below k d) (hx : s.objs[d]? = some x)
    (hc : c ∈ x.kids) : 0 < GObj.refsTo c x := by
  obtain ⟨y, y1, y2, -⟩ := h.owned (Nat.lt_of_lt_of_le (h.below_owned hk hb) (Nat.le_add_right ..))
  rw [hx] at y1; cases y1
  rw [GObj.refsTo, if_neg (by omega)]
  exact List.count_pos_iff.mpr hc

/-- A child without other references is not below the children before it. -/
theorem Inv.apart_first (h : Inv s []) {g : GFrame} {c k : Nat} {ks ks' : List Nat} {x : GObj} (hg : g ∈ s.stack)
    (hr : g.rest = ks ++ c :: ks') (hx : s.objs[c]? = some x) (hc : x.count = 1) (hk : k ∈ ks) : ¬ s.Below k c := by
  intro hb
  have h1 := h.count c x hx
  have h2 : g.rest.count c ≤ sumBy (fun f : GFrame => f.rest.count c) s.stack := le_sumBy (f := fun f : GFrame => f.rest.count c) hg
  have h3 : g.rest.count c = ks.count c + (1 + ks'.count c) := by
    rw [hr, List.count_append, List.count_cons_self]; omega
  have hok : 0 < s.owns k := owns_rest hg (by rw [hr]; simp [hk])
  simp only [owns, List.count_nil] at h1
  rcases hb.cases_last with e | ⟨d, y, d1, d2, d3⟩
  · have := List.count_pos_iff.mpr (e ▸ hk)
    omega
  · have h4 := h.alive_kid hok d1 d2 d3
    have h5 : GObj.refsTo c y ≤ sumBy (GObj.refsTo c) s.objs := le_sumBy (List.mem_of_getElem? d2)
    omega

/-- … and so on along the path. -/
theorem Inv.apart_next (h : Inv s []) {g : GFrame} {a c k i : Nat} {y x : GObj} (hg : g ∈ s.stack) (hk : k ∈ g.rest)
    (hy : s.objs[a]? = some y) (hyc : y.count = 1) (hi : y.kids[i]? = some c) (hx : s.objs[c]? = some x) (hc : x.count = 1)
    (hna : ¬ s.Below k a) : ¬ s.Below k c := by
  intro hb
  have h1 := h.count c x hx
  have h2 : g.rest.count c ≤ sumBy (fun f : GFrame => f.rest.count c) s.stack := le_sumBy (f := fun f : GFrame => f.rest.count c) hg
  have h3 : 0 < GObj.refsTo c y := by
    rw [GObj.refsTo, if_neg (by omega)]
    exact List.count_pos_iff.mpr (List.mem_of_getElem? hi)
  simp only [owns, List.count_nil] at h1
  rcases hb.cases_last with e | ⟨d, z, d1, d2, d3⟩
  · have := List.count_pos_iff.mpr (e ▸ hk)
    have h5 : GObj.refsTo c y ≤ sumBy (GObj.refsTo c) s.objs := le_sumBy (List.mem_of_getElem? hy)
    omega
  · have h4 := h.alive_kid (owns_rest hg hk) d1 d2 d3
    have h5 := le_sumBy_two (f := GObj.refsTo c) d2 hy fun e => hna (e ▸ d1)
    omega

theorem Sole.head {o : Nat} {p : List Nat} (h : s.Sole o p) : ∃ x, s.objs[o]? = some x ∧ x.count = 1 := by
  cases p with
  | nil => exact h
  | cons i p => obtain ⟨x, c, h1, h2, -⟩ := h; exact ⟨x, h1, h2⟩

/-- The path is untouched by dropping the children before it. -/
theorem Sole.keep (h : Inv s []) {g : GFrame} {ks : List Nat} (hg : g ∈ s.stack) (hk : ∀ k ∈ ks, k ∈ g.rest)
    (hs : ∀ j, (∀ k ∈ ks, ¬ s.Below k j) → s'.objs[j]? = s.objs[j]?) : ∀ {p : List Nat} {o : Nat}, s.Sole o p →
    (∀ k ∈ ks, ¬ s.Below k o) → s'.Sole o p
  | [], o, ⟨x, h1, h2⟩, hn => ⟨x, by rw [hs o hn]; exact h1, h2⟩
  | i :: p, o, ⟨x, c, h1, h2, h3, h4⟩, hn => by
    obtain ⟨y, y1, y2⟩ := h4.head
    exact ⟨x, c, by rw [hs o hn]; exact h1, h2, h3, Sole.keep h hg hk hs h4 fun k hk' =>
      h.apart_next hg (hk k hk') h1 h2 h3 y1 y2 (hn k hk')⟩

/-- The path is untouched by what happens to its first node. -/
theorem Sole.under (h : Inv s []) {b : Nat} (hs : ∀ j, j ≠ b → s'.objs[j]? = s.objs[j]?) : ∀ {p : List Nat} {o : Nat}, s.Sole o p →
    o < b → s'.Sole o p
  | [], o, ⟨x, h1, h2⟩, hn => ⟨x, by rw [hs o (by omega)]; exact h1, h2⟩
  | i :: p, o, ⟨x, c, h1, h2, h3, h4⟩, hn => by
    have := h.below o x h1 c (List.mem_of_getElem? h3)
    exact ⟨x, c, by rw [hs o (by omega)]; exact h1, h2, h3, Sole.under h hs h4 (by omega)⟩

/-- Down to the end of the path. -/
theorem descend {t : Nat} : ∀ (p : List Nat) {s : GMem} {i f c : Nat} {ks : List Nat} {fs : List GFrame}, s.Reach → s.dead = false →
    s.frames t = ⟨t, f, ks⟩ :: fs → ks[i]? = some c → s.Sole c p →
    ∃ n s', Unwind t n s s' ∧ (s'.frames t).length = fs.length + 2 + p.length
  | p, s, i, f, c, ks, fs, hr, hd, hf, hc, hp => by
    obtain ⟨hi, e⟩ := List.getElem?_eq_some_iff.mp hc
    have hks : ks = ks.take i ++ c :: ks.drop (i + 1) := by
      conv => lhs; rw [← List.take_append_drop i ks, List.drop_eq_getElem_cons hi, e]
    have hmem : (⟨t, f, ks⟩ : GFrame) ∈ s.stack := by
      have : (⟨t, f, ks⟩ : GFrame) ∈ s.frames t := by rw [hf]; exact List.mem_cons_self ..
      exact (List.mem_filter.mp this).1
    obtain ⟨n1, s1, g1, g2, g3⟩ := clear (ks.take i) hr hd (hks ▸ hf)
    obtain ⟨r1, d1, -⟩ := g1.facts hr
    rw [hd] at d1
    obtain ⟨x, x1, x2⟩ := hp.head
    have hp1 : s1.Sole c p := hp.keep hr.inv hmem (fun k hk => List.mem_of_mem_take hk) g3 fun k hk =>
      hr.inv.apart_first hmem hks x1 x2 hk
    obtain ⟨y, y1, y2⟩ := hp1.head
    obtain ⟨s2, i1, i2, -, i3⟩ := glue_next d1 g2
    have i3 := i3 y y1 y2
    cases p with
    | nil => exact ⟨n1 + 1, s2, g1.append (.one i1), by rw [i3]; simp⟩
    | cons j p =>
      obtain ⟨z, d, z1, z2, z3, z4⟩ := hp1
      rw [y1] at z1; cases z1
      have hlt := r1.inv.below c y y1 d (List.mem_of_getElem? z3)
      obtain ⟨r2, d2, -⟩ := (Unwind.one i1).facts r1
      rw [d1] at d2
      obtain ⟨n3, s3, k1, k2⟩ := descend p r2 d2 i3 z3 (z4.under r1.inv i2 hlt)
      exact ⟨n1 + 1 + n3, s3, (g1.append (.one i1)).append k1, by rw [k2]; simp; omega⟩

end GMem
end Rowan
